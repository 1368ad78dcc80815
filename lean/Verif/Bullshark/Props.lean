import Verif.Bullshark.Node
/-
C10-C14, C18, C31, C32: what users of consensus rely on.
-/
namespace Verif
namespace Bull

variable {U : Header → Prop} {p : Params}

/-! ### C10 agreement -/

/-- C10. Any two nodes of an epoch, whatever certificates reached them in whatever order and wherever
they crashed, were restarted or synchronised, have emitted sequences of sub-dags one of which is a
prefix of the other. (With both nodes the same node at two times: what a node emits again after a
crash is what it had emitted before.) -/
theorem agreement (hS : Setup p U) (hseed : p.seedActive = true) {n1 n2 : Node}
    (h1 : Reachable p U n1) (h2 : Reachable p U n2) : n1.log <+: n2.log ∨ n2.log <+: n1.log :=
  (h1.inv hS).1.prefix hS.committee hS.gcPos hS.certs hseed (h2.inv hS).1

/-- C10, by position: whenever two nodes have both emitted an `i`-th sub-dag it is the same one. -/
theorem agreement_at (hS : Setup p U) (hseed : p.seedActive = true) {n1 n2 : Node}
    (h1 : Reachable p U n1) (h2 : Reachable p U n2) {i : Nat} {a b : SubDag}
    (ha : n1.log[i]? = some a) (hb : n2.log[i]? = some b) : a = b := by
  have key : ∀ {x y : List SubDag}, x <+: y → ∀ {a b}, x[i]? = some a → y[i]? = some b → a = b := by
    rintro x _ ⟨t, rfl⟩ a b ha hb
    obtain ⟨hi, -⟩ := List.getElem?_eq_some_iff.mp ha
    rw [List.getElem?_append_left hi, ha] at hb
    exact Option.some.inj hb
  rcases agreement hS hseed h1 h2 with h | h
  · exact key h ha hb
  · exact (key h hb ha).symm

/-- C10, second part: nodes that emitted equally many sub-dags are in the same position: same
committed round, same swap table, hence the same leader for every round to come, same randomness. -/
theorem agreement_state (hS : Setup p U) (hseed : p.seedActive = true) {n1 n2 : Node}
    (h1 : Reachable p U n1) (h2 : Reachable p U n2) (hlen : n1.log.length = n2.log.length) :
    n1.st.committedRound = n2.st.committedRound ∧ n1.st.table = n2.st.table ∧
      n1.st.seed = n2.st.seed ∧ ∀ r, scheduleLeader p.committee p.rng n1.st.table r =
        scheduleLeader p.committee p.rng n2.st.table r := by
  have he : n1.log = n2.log := by
    rcases agreement hS hseed h1 h2 with h | h
    · exact h.eq_of_length hlen
    · exact (h.eq_of_length hlen.symm).symm
  have i1 := (h1.inv hS).2
  have i2 := (h2.inv hS).2
  have ht : n1.st.table = n2.st.table := by rw [i1.table, i2.table, he]
  exact ⟨by rw [i1.committed, i2.committed, he], ht, by rw [i1.seed, i2.seed, he], by rw [ht]; simp⟩

/-! ### C11 integrity -/

/-- Shape of a reachable node's log around one of its sub-dags. -/
theorem Reachable.facts (hS : Setup p U) {n : Node} (h : Reachable p U n) {pre post : List SubDag}
    {s : SubDag} (he : n.log = pre ++ s :: post) : Legal p U pre ∧ NextCommit p U pre s := by
  have := (h.inv hS).1
  rw [he] at this
  exact this.split

theorem newer_author (hS : Setup p U) {pre : List SubDag} {s : SubDag} (hL : Legal p U pre)
    (hn : NextCommit p U pre s) {x y : Header} (hy : y ∈ s.headers) (hx : x ∈ committedOf pre)
    (ha : x.author = y.author) : x.round < y.round := by
  have hw := hL.wf hS.committee hS.gcPos hS.certs
  obtain ⟨l, agg, -, hlU, hr, -, hm, -⟩ := hn.facts hS hL
  rw [hm] at hy
  have hxr := hw.le_roundOf hx
  cases hy with
  | leader => omega
  | parent _ _ _ _ _ hlast =>
    have := le_maxRound hx
    rw [ha] at this
    omega

/-- C11. No certificate is emitted twice. -/
theorem committed_once (hS : Setup p U) {n : Node} (h : Reachable p U n) :
    (n.log.flatMap (·.headers)).Nodup := by
  have hL := (h.inv hS).1
  change (committedOf n.log).Nodup
  generalize n.log = log at hL
  clear h
  induction hL with
  | nil => simp [committedOf]
  | snoc hl hn ih =>
    rename_i log sub
    rw [committedOf_append, List.nodup_append]
    obtain ⟨l, agg, -, -, -, -, -, hnd, -⟩ := hn.facts hS hl
    refine ⟨ih, by simpa [committedOf] using hnd, ?_⟩
    rintro a ha b hb rfl
    have hb' : a ∈ sub.headers := by simpa [committedOf] using hb
    exact Nat.lt_irrefl _ (newer_author hS hl hn hb' ha rfl)

/-- C11. From one sub-dag to a later one the rounds of each author strictly increase: the
certificates of an author committed later are newer than all committed before. -/
theorem author_rounds_increase (hS : Setup p U) {n : Node} (h : Reachable p U n)
    {pre post : List SubDag} {s : SubDag} (he : n.log = pre ++ s :: post) {t : SubDag} (ht : t ∈ pre)
    {x y : Header} (hx : x ∈ t.headers) (hy : y ∈ s.headers) (ha : x.author = y.author) :
    x.round < y.round := by
  obtain ⟨hl, hn⟩ := h.facts hS he
  exact newer_author hS hl hn hy (List.mem_flatMap.mpr ⟨t, ht, hx⟩) ha

/-- C11. Two emitted certificates of the same author and round are the same certificate. -/
theorem one_per_author_round (hS : Setup p U) {n : Node} (h : Reachable p U n) {x y : Header}
    (hx : x ∈ n.log.flatMap (·.headers)) (hy : y ∈ n.log.flatMap (·.headers))
    (ha : x.author = y.author) (hr : x.round = y.round) : x = y := by
  have hw := (h.inv hS).1.wf hS.committee hS.gcPos hS.certs
  have key : ∀ z ∈ n.log.flatMap (·.headers), U z := by
    intro z hz
    obtain ⟨s, hs, hzs⟩ := List.mem_flatMap.mp hz
    obtain ⟨l, -, -, -, -, hall⟩ := hw.shape s hs
    exact (hall z hzs).1
  exact hS.certs.unique (key x hx) (key y hy) ha hr

/-! ### C12 causal order -/

/-- C12. A sub-dag is exactly the leader together with what can be reached from it by parent links
through certificates that are newer than what their author had committed before and lie above the
horizon `leader round - gc_depth`; ordered by round, leader last. -/
theorem subdag_exact (hS : Setup p U) {n : Node} (h : Reachable p U n)
    {pre post : List SubDag} {s : SubDag} (he : n.log = pre ++ s :: post) :
    ∃ l, s.headers.getLast? = some l ∧
      (∀ y, y ∈ s.headers ↔
        History U (maxRound (pre.flatMap (·.headers))) (l.round - p.gcDepth) l y) ∧
      s.headers.Pairwise (fun a b => a.round ≤ b.round) := by
  obtain ⟨hl, hn⟩ := h.facts hS he
  obtain ⟨l, agg, h1, -, -, -, hm, -, hs, -⟩ := hn.facts hS hl
  exact ⟨l, h1, hm, hs⟩

/-- C12. In a sub-dag every certificate comes after all its parents that are in the same
sub-dag. -/
theorem parents_first (hS : Setup p U) {n : Node} (h : Reachable p U n)
    {s : SubDag} (hs : s ∈ n.log) {i j : Nat} {x y : Header} (hx : s.headers[i]? = some x)
    (hy : s.headers[j]? = some y) (hr : y.round + 1 = x.round) : j < i := by
  obtain ⟨pre, post, he'⟩ := List.append_of_mem hs
  obtain ⟨hl, hn⟩ := h.facts hS he'
  obtain ⟨l, agg, -, -, -, -, -, -, hp, -⟩ := hn.facts hS hl
  by_contra hij
  rw [List.getElem?_eq_some_iff] at hx hy
  obtain ⟨h1, rfl⟩ := hx
  obtain ⟨h2, rfl⟩ := hy
  rcases Nat.lt_or_ge i j with hlt | hge
  · have := List.pairwise_iff_getElem.mp hp i j h1 h2 hlt
    omega
  · have : i = j := by omega
    subst this
    omega

/-- C12. No parent is skipped: if a certificate of a sub-dag lies above the horizon, each of its
parents is in the same sub-dag, or its author had already committed that or a newer one. -/
theorem parents_committed (hS : Setup p U) {n : Node} (h : Reachable p U n)
    {pre post : List SubDag} {s : SubDag} (he : n.log = pre ++ s :: post) {l x y : Header}
    (hl : s.headers.getLast? = some l) (hx : x ∈ s.headers) (hg : l.round - p.gcDepth + 1 < x.round)
    (hy : U y) (hd : y.digest ∈ x.parents) (hr : y.round + 1 = x.round) :
    y ∈ s.headers ∨ ∃ z ∈ pre.flatMap (·.headers), z.author = y.author ∧ y.round ≤ z.round := by
  obtain ⟨l', hl', hm, -⟩ := subdag_exact hS h he
  rw [hl] at hl'
  cases hl'
  by_cases hc : maxRound (pre.flatMap (·.headers)) y.author < y.round
  · left
    rw [hm] at hx ⊢
    exact .parent hx hg hy hd hr hc
  · right
    by_contra hno
    apply hc
    have hpos := hS.certs.roundPos hy
    have : maxRound (pre.flatMap (·.headers)) y.author ≤ y.round - 1 := by
      apply maxRound_le
      intro z hz hza
      by_contra hlt
      exact hno ⟨z, hz, hza, by omega⟩
    omega

/-! ### C13 leader rounds -/

/-- C13. Leader rounds are even, at least 2 and strictly increase. -/
theorem leader_rounds (hS : Setup p U) {n : Node} (h : Reachable p U n) :
    (∀ s ∈ n.log, s.leaderRound % 2 = 0 ∧ 2 ≤ s.leaderRound) ∧
      n.log.Pairwise (fun a b => a.leaderRound < b.leaderRound) := by
  have hw := (h.inv hS).1.wf hS.committee hS.gcPos hS.certs
  refine ⟨fun s hs => ?_, hw.mono.imp (by intro a b; omega)⟩
  obtain ⟨l, hl, -, h2, h0, -⟩ := hw.shape s hs
  simp [SubDag.leaderRound, hl, h2, h0]

/-- C13. The committed round is the round of the last leader (0 before the first). -/
theorem committed_round (hS : Setup p U) {n : Node} (h : Reachable p U n) :
    n.st.committedRound = (n.log.getLast?.map SubDag.leaderRound).getD 0 :=
  (h.inv hS).2.committed

/-- C13. Processing a certificate never lowers the committed round, and a certificate at or below the
round after the committed leader never triggers a commit. -/
theorem committed_round_mono (hS : Setup p U) {n : Node} (h : Reachable p U n) {agg : Header → Sig}
    {x : Header} (hx : U x) {o : Outcome} {st' : State} {subs : List SubDag}
    (he : processCertificate p agg n.st x = .ok (o, st', subs)) :
    n.st.committedRound ≤ st'.committedRound ∧
      (x.round ≤ n.st.committedRound + 1 → subs = []) := by
  have i1 := (h.inv hS).2
  have h2 := Reachable.deliver h hx he
  have i2 := (h2.inv hS)
  constructor
  · rw [i1.committed, i2.2.committed]
    have hw := i2.1.wf hS.committee hS.gcPos hS.certs
    have hmono := hw.mono
    rcases List.eq_nil_or_concat subs with rfl | ⟨t, z, rfl⟩
    · simp
    · rcases List.eq_nil_or_concat n.log with hnil | ⟨t', z', hcat⟩
      · rw [hnil]; simp [roundOf]
      · rw [List.concat_eq_append] at *
        simp only [hcat] at hmono ⊢
        rw [← List.append_assoc, roundOf_append, roundOf_append]
        rw [List.pairwise_append] at hmono
        have := hmono.2.2 z' (by simp) z (by simp)
        omega
  · intro hle
    unfold processCertificate at he
    split at he
    · cases he
    · cases he; rfl
    · simp only at he
      split at he
      · cases he; rfl
      · split at he
        · cases he; rfl
        · rename_i h3
          exact absurd (show x.round - 1 ≤ n.st.committedRound by omega) h3

/-! ### C14 timestamps -/

theorem commitTimestamp_eq (hS : Setup p U) {pre : List SubDag} {s : SubDag} (hL : Legal p U pre)
    (hn : NextCommit p U pre s) : ∃ l, s.leader? = some l ∧ s.commitTimestamp = s.timestamp ∧
      s.timestamp = max ((pre.getLast?.map (·.timestamp)).getD 0) l.createdAt := by
  obtain ⟨l, agg, h1, -, -, -, -, -, -, ht, -⟩ := hn.facts hS hL
  refine ⟨l, h1, ?_, ht⟩
  unfold SubDag.commitTimestamp
  split
  · rename_i h0
    rw [h1]; simp; omega
  · rfl

/-- C14. Each commit timestamp is at least the creation time its leader states. -/
theorem timestamp_ge_leader (hS : Setup p U) {n : Node} (h : Reachable p U n) {s : SubDag}
    (hs : s ∈ n.log) {l : Header} (hl : s.headers.getLast? = some l) :
    l.createdAt ≤ s.commitTimestamp := by
  obtain ⟨pre, post, he⟩ := List.append_of_mem hs
  obtain ⟨hL, hn⟩ := h.facts hS he
  obtain ⟨l', h1, h2, h3⟩ := commitTimestamp_eq hS hL hn
  unfold SubDag.leader? at h1
  rw [hl] at h1
  cases h1
  omega

/-- C14. Commit timestamps never decrease, whatever creation times the authors chose. -/
theorem timestamps_mono (hS : Setup p U) {n : Node} (h : Reachable p U n) :
    n.log.Pairwise (fun a b => a.commitTimestamp ≤ b.commitTimestamp) := by
  have hL := (h.inv hS).1
  have key : ∀ {log : List SubDag}, Legal p U log →
      (∀ s ∈ log, s.commitTimestamp = s.timestamp) ∧
      (∀ s ∈ log, s.timestamp ≤ (log.getLast?.map (·.timestamp)).getD 0) ∧
      log.Pairwise (fun a b => a.commitTimestamp ≤ b.commitTimestamp) := by
    intro log hlog
    induction hlog with
    | nil => simp
    | snoc hl hn ih =>
      rename_i log sub
      obtain ⟨l, -, h2, h3⟩ := commitTimestamp_eq hS hl hn
      refine ⟨?_, ?_, ?_⟩
      · intro s hs
        rcases List.mem_append.mp hs with hs | hs
        · exact ih.1 s hs
        · simp at hs; subst hs; exact h2
      · intro s hs
        simp only [List.getLast?_concat, Option.map_some, Option.getD_some]
        rcases List.mem_append.mp hs with hs | hs
        · have := ih.2.1 s hs
          omega
        · simp at hs; subst hs; exact Nat.le_refl _
      · rw [List.pairwise_append]
        refine ⟨ih.2.2, by simp, ?_⟩
        intro a ha b hb
        simp at hb; subst hb
        rw [ih.1 a ha, h2]
        have := ih.2.1 a ha
        omega
  exact (key hL).2.2

/-- C14. No timestamp is invented: a commit timestamp is the creation time of this or an earlier
leader. -/
theorem timestamp_is_some_leaders (hS : Setup p U) {n : Node} (h : Reachable p U n)
    {s : SubDag} (hs : s ∈ n.log) :
    s.commitTimestamp = 0 ∨
      ∃ t ∈ n.log, t.leaderRound ≤ s.leaderRound ∧ ∃ l, t.headers.getLast? = some l ∧
        s.commitTimestamp = l.createdAt := by
  have key : ∀ {log : List SubDag}, Legal p U log → ∀ s ∈ log,
      s.commitTimestamp = s.timestamp ∧ (s.timestamp = 0 ∨ ∃ t ∈ log, t.leaderRound ≤ s.leaderRound ∧
        ∃ l, t.headers.getLast? = some l ∧ s.timestamp = l.createdAt) := by
    intro log hlog
    induction hlog with
    | nil => simp
    | snoc hl hn ih =>
      rename_i log sub
      obtain ⟨l, h1, h2, h3⟩ := commitTimestamp_eq hS hl hn
      intro s hs
      rcases List.mem_append.mp hs with hs | hs
      · obtain ⟨i1, i2⟩ := ih s hs
        refine ⟨i1, ?_⟩
        rcases i2 with i2 | ⟨t, ht, i2⟩
        · exact Or.inl i2
        · exact Or.inr ⟨t, List.mem_append_left _ ht, i2⟩
      · simp at hs
        subst hs
        refine ⟨h2, ?_⟩
        rcases Nat.le_total ((log.getLast?.map (·.timestamp)).getD 0) l.createdAt with hle | hle
        · exact Or.inr ⟨s, by simp, Nat.le_refl _, l, h1, by omega⟩
        · rcases List.eq_nil_or_concat log with rfl | ⟨t', z, rfl⟩
          · simp at h3 hle
            exact Or.inr ⟨s, by simp, Nat.le_refl _, l, h1, by omega⟩
          · rw [List.concat_eq_append] at *
            simp only [List.getLast?_concat, Option.map_some, Option.getD_some] at h3 hle
            obtain ⟨j1, j2⟩ := ih z (by simp)
            rcases j2 with j2 | ⟨t, ht, j2, l2, j3, j4⟩
            · exact Or.inl (by omega)
            · right
              have hw := (Legal.snoc hl hn).wf hS.committee hS.gcPos hS.certs
              have := hw.mono
              rw [List.pairwise_append] at this
              have := this.2.2 t ht s (by simp)
              exact ⟨t, List.mem_append_left _ ht, by omega, l2, j3, by omega⟩
  obtain ⟨k1, k2⟩ := key (h.inv hS).1 s hs
  rw [k1]
  exact k2

/-! ### C18 the randomness chain -/

/-- C18. The chain: the randomness of each sub-dag is the fold of the previous one (the epoch's root
for the first) with its leader's round and seed signature, and the node's anchor is the randomness of
the last sub-dag. This includes nodes that were restarted any number of times. -/
theorem seed_chain (hS : Setup p U) (hseed : p.seedActive = true) {n : Node} (h : Reachable p U n) :
    n.st.seed = (n.log.getLast?.map (·.randomness)).getD (p.root p.committee.epoch) ∧
    ∀ {pre post : List SubDag} {s : SubDag}, n.log = pre ++ s :: post →
      ∃ l, s.headers.getLast? = some l ∧ s.randomness =
        p.fold ((pre.getLast?.map (·.randomness)).getD (p.root p.committee.epoch)) l.round l.seedSig := by
  refine ⟨(h.inv hS).2.seed, ?_⟩
  intro pre post s he
  obtain ⟨hL, hn⟩ := h.facts hS he
  obtain ⟨l, agg, h1, -, -, -, -, -, -, -, hr, -⟩ := hn.facts hS hL
  rw [hseed, if_pos rfl] at hr
  exact ⟨l, h1, hr⟩

/-- C18. Fail closed, for any stored data, also damaged: start-up succeeds only with the root when
nothing is stored and nothing is committed, or with the randomness of the last stored sub-dag when
its leader round is the committed round. -/
theorem recover_fails_closed {log : List SubDag} {store : List Header} {st : State}
    (h : recover p log store = .ok st) :
    (log = [] ∧ st.committedRound = 0 ∧ st.seed = p.root p.committee.epoch) ∨
      ∃ s, log.getLast? = some s ∧ 0 < st.committedRound ∧ s.leaderRound = st.committedRound ∧
        st.seed = s.randomness := by
  unfold recover at h
  simp only at h
  split at h
  · cases h
  · rename_i seed hseed
    split at h
    · cases h
    · cases h
      unfold resolveAnchor at hseed
      split at hseed
      · rename_i s hs
        split at hseed
        · split at hseed
          · cases hseed
            rename_i h1 h2
            exact Or.inr ⟨s, hs, h1, h2, rfl⟩
          · cases hseed
        · cases hseed
      · rename_i hn
        split at hseed
        · cases hseed
        · cases hseed
          refine Or.inl ⟨by simpa using hn, by simp only; omega, rfl⟩

/-! ### C31 consensus does not halt -/

/-- C31. Processing a certificate of the epoch whose parents the node has (or which lie at or below
the horizon) always succeeds; in particular the loop over schedule changes ends. -/
theorem never_fails (hS : Setup p U) {n : Node} (h : Reachable p U n) (agg : Header → Sig)
    {x : Header} (hx : U x)
    (hp : n.st.gcRound + 1 < x.round → ∀ d ∈ x.parents, ∃ q ∈ n.st.dag, q.round + 1 = x.round ∧
      q.digest = d) :
    ∃ o st' subs, processCertificate p agg n.st x = .ok (o, st', subs) ∧ o ≠ .scheduleChanged := by
  obtain ⟨hL, hs⟩ := h.inv hS
  obtain ⟨o, st', subs, h1, -, -, h2⟩ := processCertificate_ok hS.committee hS.gcPos hS.certs agg hL
    hs hx hp
  exact ⟨o, st', subs, h1, h2⟩

/-- C31. Start-up from a stored prefix of what any node emitted and a causally complete certificate
store always succeeds. -/
theorem restart_succeeds (hS : Setup p U) {n : Node} (h : Reachable p U n) {log : List SubDag}
    (hp : log <+: n.log) {store : List Header} (hst : StoreOk U (gcOf p (roundOf log)) store)
    (hf : FinalInWindow p log) : ∃ st, recover p log store = .ok st ∧
      st.committedRound = roundOf log ∧ st.table = tableOf p log ∧ st.seed = seedOf p log := by
  obtain ⟨st, e, hs⟩ := recover_ok hS.certs
    (((h.inv hS).1.of_prefix hp).wf hS.committee hS.gcPos hS.certs) hS.window hS.gcWindow hf hst
  exact ⟨st, e, hs.committed, hs.table, hs.seed⟩

/-- C31. A certificate that consensus accepted stays in the DAG until it falls below the horizon, and
nothing at or below the horizon is kept. -/
theorem dag_bounded (hS : Setup p U) {n : Node} (h : Reachable p U n) :
    ∀ x ∈ n.st.dag, n.st.committedRound - p.gcDepth < x.round := by
  have hs := (h.inv hS).2
  have := hs.good.above
  rw [hs.gc] at this
  exact this

end Bull
end Verif
