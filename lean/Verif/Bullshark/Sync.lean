import Verif.Bullshark.OrderDag
import Verif.Bullshark.Leaders
/-
The state of a node as a function of what it committed, and the effect of one commit.
-/
namespace Verif

/-! ### reputation scores cover the committee -/

/-- The scores list exactly the members of the committee. -/
def Scores.Covers (c : Committee) (s : Scores) : Prop :=
  SMap.Sorted s.scores ∧ ∀ a, a ∈ s.scores.map (·.1) ↔ a ∈ c.Members

theorem SMap.sorted_nodup {β : Type} {m : List (Nat × β)} (h : SMap.Sorted m) :
    (m.map (·.1)).Nodup :=
  List.Pairwise.imp (fun hab => by omega) h

theorem mem_authoritiesById {c : Committee} {a : Authority} :
    a ∈ c.authoritiesById ↔ a ∈ c.authorities := by
  unfold Committee.authoritiesById
  exact (stableSort_perm _).mem_iff

theorem Scores.covers_new (c : Committee) : (Scores.new c).Covers c := by
  refine ⟨SMap.sorted_ofList _, fun a => ?_⟩
  unfold Scores.new
  simp only
  rw [SMap.mem_keys_ofList, Committee.mem_members]
  simp [mem_authoritiesById]

theorem Scores.covers_addScore {c : Committee} {s : Scores} (h : s.Covers c) {a : AuthorityId}
    (ha : a ∈ c.Members) (n : Nat) : (s.addScore a n).Covers c := by
  unfold Scores.addScore
  split
  · refine ⟨SMap.sorted_insert h.1, fun x => ?_⟩
    rw [SMap.mem_keys_insert, h.2]
    constructor
    · rintro (rfl | hx)
      · exact ha
      · exact hx
    · exact Or.inr
  · refine ⟨SMap.sorted_insert h.1, fun x => ?_⟩
    rw [SMap.mem_keys_insert, h.2]
    constructor
    · rintro (rfl | hx)
      · exact ha
      · exact hx
    · exact Or.inr

theorem Scores.covers_total {c : Committee} (hc : c.WF) {s : Scores} (h : s.Covers c) :
    s.totalAuthorities = c.size := by
  unfold Scores.totalAuthorities
  rw [← Committee.card_members hc, ← List.length_map (f := (·.1)),
    ← List.toFinset_card_of_nodup (SMap.sorted_nodup h.1)]
  congr 1
  ext a
  simp only [List.mem_toFinset]
  exact h.2 a

namespace Bull

variable {U : Header → Prop} {p : Params}

/-! ### last committed rounds -/

/-- Specification: the highest round of a header of author `a` in a list (0 if there is none). -/
def maxRound (hs : List Header) (a : AuthorityId) : Round :=
  hs.foldr (fun h m => if h.author = a then max h.round m else m) 0

theorem maxRound_append (xs ys : List Header) (a : AuthorityId) :
    maxRound (xs ++ ys) a = max (maxRound xs a) (maxRound ys a) := by
  induction xs with
  | nil => simp [maxRound]
  | cons x xs ih =>
    simp only [maxRound, List.cons_append, List.foldr_cons] at ih ⊢
    rw [ih]
    split
    · omega
    · rfl

theorem maxRound_le {hs : List Header} {a : AuthorityId} {b : Round}
    (h : ∀ x ∈ hs, x.author = a → x.round ≤ b) : maxRound hs a ≤ b := by
  induction hs with
  | nil => simp [maxRound]
  | cons x xs ih =>
    have ih := ih (fun y hy => h y (by simp [hy]))
    simp only [maxRound, List.foldr_cons] at ih ⊢
    split
    · rename_i hx
      have := h x (by simp) hx
      omega
    · exact ih

theorem le_maxRound {hs : List Header} {x : Header} (h : x ∈ hs) :
    x.round ≤ maxRound hs x.author := by
  induction hs with
  | nil => simp at h
  | cons y ys ih =>
    simp only [maxRound, List.foldr_cons] at ih ⊢
    rcases List.mem_cons.mp h with rfl | h
    · simp
    · have := ih h
      split <;> omega

theorem lcGet_lcUpdate (lc : List (Nat × Nat)) (h : Header) (a : AuthorityId) :
    lcGet (lcUpdate lc h) a = if h.author = a then max (lcGet lc a) h.round else lcGet lc a := by
  unfold lcUpdate lcGet
  split
  · rename_i r hr
    rw [SMap.get?_insert]
    by_cases ha : a = h.author
    · subst ha; simp [hr]
    · rw [if_neg ha, if_neg (fun e => ha e.symm)]
  · rename_i hr
    rw [SMap.get?_insert]
    by_cases ha : a = h.author
    · subst ha; simp [hr]
    · rw [if_neg ha, if_neg (fun e => ha e.symm)]

theorem lcGet_foldl (hs : List Header) (lc : List (Nat × Nat)) (a : AuthorityId) :
    lcGet (hs.foldl lcUpdate lc) a = max (lcGet lc a) (maxRound hs a) := by
  induction hs generalizing lc with
  | nil => simp [maxRound]
  | cons x xs ih =>
    rw [List.foldl_cons, ih, lcGet_lcUpdate]
    simp only [maxRound, List.foldr_cons]
    split <;> omega

/-! ### the fold of `update` -/

/-- Highest round of a list, at least `m`. -/
def topRound (m : Round) (hs : List Header) : Round := hs.foldl (fun m h => max m h.round) m

theorem le_topRound (hs : List Header) (m : Round) : m ≤ topRound m hs := by
  induction hs generalizing m with
  | nil => exact Nat.le_refl _
  | cons x xs ih => have := ih (max m x.round); unfold topRound at *; simp only [List.foldl_cons]; omega

theorem topRound_eq (hs : List Header) (m b : Round) (hm : m ≤ b) (hle : ∀ x ∈ hs, x.round ≤ b)
    (hex : m = b ∨ ∃ x ∈ hs, x.round = b) : topRound m hs = b := by
  induction hs generalizing m with
  | nil =>
    rcases hex with rfl | ⟨x, hx, _⟩
    · rfl
    · simp at hx
  | cons x xs ih =>
    have hx := hle x (by simp)
    simp only [topRound, List.foldl_cons]
    apply ih (max m x.round) (by omega) (fun y hy => hle y (by simp [hy]))
    rcases hex with rfl | ⟨y, hy, rfl⟩
    · left; omega
    · rcases List.mem_cons.mp hy with rfl | hy
      · left; omega
      · exact Or.inr ⟨y, hy, rfl⟩

theorem gcDag_self {g : Round} {dag : Dag} (h : ∀ x ∈ dag, g < x.round) : gcDag g dag = dag := by
  unfold gcDag
  rw [List.filter_eq_self]
  intro x hx
  simpa using h x hx

theorem gcDag_gcDag {g g' : Round} (dag : Dag) (h : g ≤ g') :
    gcDag g' (gcDag g dag) = gcDag g' dag := by
  unfold gcDag
  rw [List.filter_filter]
  apply List.filter_congr
  intro y _
  rw [← Bool.decide_and, decide_eq_decide]
  constructor
  · exact fun h => h.1
  · intro h; exact ⟨h, by omega⟩

theorem mem_gcDag {g : Round} {dag : Dag} {x : Header} : x ∈ gcDag g dag ↔ x ∈ dag ∧ g < x.round := by
  simp [gcDag]

/-- State after updating with headers of highest round `m`. -/
def afterUpdates (p : Params) (s : State) (hs : List Header) (m : Round) : State :=
  { s with
    lastCommitted := hs.foldl lcUpdate s.lastCommitted
    committedRound := m
    gcRound := gcOf p m
    dag := gcDag (gcOf p m) s.dag }

/-- All updates of a sub-dag at once. -/
theorem foldl_update (hs : List Header) (s : State) (hg : s.gcRound = gcOf p s.committedRound)
    (hd : ∀ x ∈ s.dag, s.gcRound < x.round) :
    hs.foldl (update p) s = afterUpdates p s hs (topRound s.committedRound hs) := by
  induction hs generalizing s with
  | nil =>
    have he : topRound s.committedRound [] = s.committedRound := rfl
    simp only [List.foldl_nil, he, afterUpdates]
    rw [gcDag_self (by rw [← hg]; exact hd), ← hg]
  | cons x xs ih =>
    rw [List.foldl_cons, ih]
    · have he : topRound s.committedRound (x :: xs) = topRound (max s.committedRound x.round) xs :=
        rfl
      have hle := le_topRound xs (max s.committedRound x.round)
      simp only [he, afterUpdates, update, List.foldl_cons]
      rw [gcDag_gcDag]
      unfold gcOf; omega
    · rfl
    · intro y hy
      simp only [update] at hy ⊢
      exact (mem_gcDag.mp hy).2

/-! ### the state as a function of the committed sub-dags -/

/-- Leader round of the last committed sub-dag. -/
def roundOf (log : List SubDag) : Round := (log.getLast?.map SubDag.leaderRound).getD 0

/-- The randomness chain value after a sequence of commits. -/
def seedOf (p : Params) (log : List SubDag) : Nat :=
  (log.getLast?.map (·.randomness)).getD (p.root p.committee.epoch)

/-- The swap table in force after a sequence of commits: that of the last final scores. -/
def tableOf (p : Params) (log : List SubDag) : SwapTable :=
  match log.reverse.find? (fun s => s.scores.final) with
  | none => {}
  | some s => SwapTable.new p.committee s.scores p.badPct

/-- All committed headers, in order. -/
def committedOf (log : List SubDag) : List Header := log.flatMap (·.headers)

/-- The state `st` is what a node has after committing `log`. Last committed rounds matter only
above the garbage collection round. -/
structure Sync (p : Params) (U : Header → Prop) (log : List SubDag) (st : State) : Prop where
  committed : st.committedRound = roundOf log
  gc : st.gcRound = gcOf p st.committedRound
  lc : ∀ a, max (lcGet st.lastCommitted a) st.gcRound = max (maxRound (committedOf log) a) st.gcRound
  last : st.lastSub = log.getLast?
  seed : st.seed = seedOf p log
  table : st.table = tableOf p log
  good : Good U st.dag st.gcRound

/-- Shape of the committed sub-dags: each ends with its leader, a certificate of an even round at
least 2, above which it has nothing; leader rounds grow by at least 2; scores cover the committee. -/
structure WfLog (p : Params) (U : Header → Prop) (log : List SubDag) : Prop where
  shape : ∀ s ∈ log, ∃ l, s.leader? = some l ∧ U l ∧ 2 ≤ l.round ∧ l.round % 2 = 0 ∧
    ∀ h ∈ s.headers, U h ∧ h.round ≤ l.round
  mono : log.Pairwise (fun a b => a.leaderRound + 2 ≤ b.leaderRound)
  scores : ∀ s ∈ log, s.scores.Covers p.committee

theorem roundOf_append (log : List SubDag) (s : SubDag) : roundOf (log ++ [s]) = s.leaderRound := by
  simp [roundOf]

theorem WfLog.even {log : List SubDag} (h : WfLog p U log) : roundOf log % 2 = 0 := by
  rcases List.eq_nil_or_concat log with rfl | ⟨t, s, rfl⟩
  · rfl
  · rw [List.concat_eq_append, roundOf_append]
    obtain ⟨l, hl, -, -, h2, -⟩ := h.shape s (by simp)
    simp [SubDag.leaderRound, hl, h2]

theorem pastCommitted_congr {log : List SubDag} {s1 s2 : State} (hU : Universe p.committee U)
    (h1 : Sync p U log s1) (h2 : Sync p U log s2) {y : Header} (hy : U y) (hg : s1.gcRound < y.round) :
    pastCommitted s1.lastCommitted y = pastCommitted s2.lastCommitted y := by
  have hpos := hU.roundPos hy
  rw [Bool.eq_iff_iff, pastCommitted_iff hpos, pastCommitted_iff hpos]
  have e1 := h1.lc y.author
  have e2 := h2.lc y.author
  have g1 := h1.gc
  have g2 := h2.gc
  rw [h1.committed] at g1
  rw [h2.committed] at g2
  omega

theorem covers_addSupport {c : Committee} {last : Option SubDag} {seq : List Header} {s : Scores}
    (hs : s.Covers c) (hseq : ∀ h ∈ seq, h.author ∈ c.Members) :
    (addSupport last seq s).Covers c := by
  unfold addSupport
  split
  · exact hs
  · rename_i l _
    have : ∀ h ∈ seq.filter (supports l), h.author ∈ c.Members :=
      fun h hh => hseq h (List.mem_of_mem_filter hh)
    generalize seq.filter (supports l) = zs at this
    induction zs generalizing s with
    | nil => exact hs
    | cons z zs ih =>
      rw [List.foldl_cons]
      exact ih (Scores.covers_addScore hs (this z (by simp)) 1) (fun h hh => this h (by simp [hh]))

theorem covers_nextScores {last : Option SubDag} {seq : List Header} (n : Nat)
    (hl : ∀ s, last = some s → s.scores.Covers p.committee)
    (hseq : ∀ h ∈ seq, h.author ∈ p.committee.Members) :
    (nextScores p last seq n).Covers p.committee := by
  have : (addSupport last seq (baseScores p last n)).Covers p.committee := by
    apply covers_addSupport _ hseq
    unfold baseScores
    split
    · exact Scores.covers_new _
    · split
      · rename_i s
        exact hl s rfl
      · exact Scores.covers_new _
  exact ⟨this.1, this.2⟩

theorem tableOf_append (log : List SubDag) (s : SubDag) :
    tableOf p (log ++ [s]) =
      if s.scores.final then SwapTable.new p.committee s.scores p.badPct else tableOf p log := by
  unfold tableOf
  rw [List.reverse_append]
  simp only [List.reverse_cons, List.reverse_nil, List.nil_append, List.cons_append,
    List.find?_cons]
  cases s.scores.final <;> simp

/-- Effect of committing one leader: it succeeds, the sub-dag is the ordered history, and the node
is in the state that belongs to the extended sequence. -/
theorem commitOne_ok (hc : p.committee.WF) (hgd : 1 ≤ p.gcDepth) (hU : Universe p.committee U)
    {log : List SubDag} {st : State} (hw : WfLog p U log) (h : Sync p U log st) (agg : Header → Sig)
    {l : Header} (hl : l ∈ st.dag) (hr : roundOf log + 2 ≤ l.round) (he : l.round % 2 = 0) :
    ∃ s1 sub, commitOne p agg st l = .ok (s1, sub) ∧
      sub.headers = orderDag p st.dag st.lastCommitted l ∧
      sub.leader? = some l ∧
      Sync p U (log ++ [sub]) (updateSchedule p s1 sub.scores) ∧
      WfLog p U (log ++ [sub]) ∧
      s1.table = st.table ∧
      (updateSchedule p s1 sub.scores).dag =
        gcDag (gcOf p l.round) st.dag ∧
      sub.timestamp = max ((st.lastSub.map (·.timestamp)).getD 0) l.createdAt ∧
      sub.randomness = (if p.seedActive then p.fold st.seed l.round l.seedSig
        else p.hashSig (agg l)) ∧
      sub.scores = nextScores p st.lastSub sub.headers (nonce l) := by
  have hlU := h.good.sub _ hl
  have hcr := h.committed
  have hg := h.gc
  have hgl : gcOf p l.round < l.round := by
    have := hU.roundPos hlU
    unfold gcOf; omega
  have hgg : st.gcRound ≤ gcOf p l.round := by rw [hg]; unfold gcOf; omega
  have hmem := mem_orderDag (p := p) hU h.good st.lastCommitted hl hgg hgl
  have hlast := orderDag_getLast (p := p) hU h.good st.lastCommitted hl hgg hgl
  set seq := orderDag p st.dag st.lastCommitted l with hseq
  have hseqU : ∀ x ∈ seq, U x := fun x hx => ((hmem x).mp hx).mem_U hlU
  have hseqle : ∀ x ∈ seq, x.round ≤ l.round := by
    intro x hx
    rcases ((hmem x).mp hx).round_lt with rfl | hlt
    · exact Nat.le_refl _
    · omega
  have hlm : l ∈ seq := (hmem l).mpr .leader
  have htop : topRound st.committedRound seq = l.round :=
    topRound_eq seq _ _ (by omega) hseqle (Or.inr ⟨l, hlm, rfl⟩)
  have hfold := foldl_update (p := p) seq st hg (fun x hx => h.good.above x hx)
  rw [htop] at hfold
  -- scores
  have hcov : (nextScores p st.lastSub seq (nonce l)).Covers p.committee := by
    apply covers_nextScores
    · intro s hs
      rw [h.last] at hs
      exact hw.scores s (List.mem_of_getLast? hs)
    · intro x hx
      exact Committee.isAuthority_iff.mp (hU.member (hseqU x hx))
  have hres : resolveScores p st.lastSub seq (nonce l) =
      .ok (nextScores p st.lastSub seq (nonce l)) := by
    unfold resolveScores
    rw [if_pos (Scores.covers_total hc hcov)]
  set sub : SubDag :=
    { headers := seq
      scores := nextScores p st.lastSub seq (nonce l)
      timestamp := max ((st.lastSub.map (·.timestamp)).getD 0) l.createdAt
      randomness := if p.seedActive then p.fold st.seed l.round l.seedSig
        else p.hashSig (agg l) } with hsub
  have hnew : newSubDag p agg seq l (nextScores p st.lastSub seq (nonce l)) st.lastSub st.seed = .ok sub := by
    unfold newSubDag
    rw [if_pos (by rw [hlast]; rfl)]
  have hlead : sub.leader? = some l := hlast
  have hsr : sub.leaderRound = l.round := by simp [SubDag.leaderRound, hlead]
  refine ⟨{ afterUpdates p st seq l.round with lastSub := some sub, seed := sub.randomness }, sub,
    ?_, rfl, hlead, ?_, ?_, ?_, ?_, rfl, rfl, rfl⟩
  · unfold commitOne
    simp only
    rw [← hseq, hfold]
    have e1 : (afterUpdates p st seq l.round).lastSub = st.lastSub := rfl
    have e2 : (afterUpdates p st seq l.round).seed = st.seed := rfl
    simp only [e1, e2, hres, hnew]
  · have hU' : ∀ a, max (lcGet (seq.foldl lcUpdate st.lastCommitted) a) (gcOf p l.round) =
        max (maxRound (committedOf (log ++ [sub])) a) (gcOf p l.round) := by
      intro a
      have := h.lc a
      have e : committedOf (log ++ [sub]) = committedOf log ++ seq := by
        simp [committedOf, hsub]
      rw [lcGet_foldl, e, maxRound_append]
      omega
    have htab : tableOf p (log ++ [sub]) = if sub.scores.final then
        SwapTable.new p.committee sub.scores p.badPct else tableOf p log := tableOf_append log sub
    have hd := h.good.gc hgg
    unfold updateSchedule
    split
    · rename_i hfin
      exact ⟨by rw [roundOf_append, hsr]; rfl, rfl, hU', by simp, by simp [seedOf],
        by rw [htab, if_pos hfin], hd⟩
    · rename_i hfin
      exact ⟨by rw [roundOf_append, hsr]; rfl, rfl, hU', by simp, by simp [seedOf],
        by rw [htab, if_neg hfin]; exact h.table, hd⟩
  · refine ⟨?_, ?_, ?_⟩
    · intro s hs
      rcases List.mem_append.mp hs with hs | hs
      · exact hw.shape s hs
      · simp at hs; subst hs
        exact ⟨l, hlead, hlU, by omega, he, fun x hx => ⟨hseqU x hx, hseqle x hx⟩⟩
    · rw [List.pairwise_append]
      refine ⟨hw.mono, by simp, ?_⟩
      intro a ha b hb
      simp at hb; subst hb
      rw [hsr]
      -- `a` is at or below the last one
      rcases List.eq_nil_or_concat log with rfl | ⟨t, s, rfl⟩
      · simp at ha
      · rw [List.concat_eq_append] at ha hr hw
        rw [roundOf_append] at hr
        rcases List.mem_append.mp ha with ha | ha
        · have := hw.mono
          rw [List.pairwise_append] at this
          have := this.2.2 a ha s (by simp)
          omega
        · simp at ha; subst ha; omega
    · intro s hs
      rcases List.mem_append.mp hs with hs | hs
      · exact hw.scores s hs
      · simp at hs; subst hs; exact hcov
  · rfl
  · unfold updateSchedule; split <;> rfl

/-- The sub-dag committed for a leader after a given sequence of commits is the same at every
node (in epochs with the seed signature). -/
theorem commitOne_agree (hc : p.committee.WF) (hgd : 1 ≤ p.gcDepth) (hU : Universe p.committee U)
    (hseed : p.seedActive = true)
    {log : List SubDag} {s1 s2 : State} (hw : WfLog p U log) (h1 : Sync p U log s1)
    (h2 : Sync p U log s2) (agg1 agg2 : Header → Sig)
    {l : Header} (hl1 : l ∈ s1.dag) (hl2 : l ∈ s2.dag) (hr : roundOf log + 2 ≤ l.round)
    (he : l.round % 2 = 0) {t1 t2 : State} {sub1 sub2 : SubDag}
    (e1 : commitOne p agg1 s1 l = .ok (t1, sub1)) (e2 : commitOne p agg2 s2 l = .ok (t2, sub2)) :
    sub1 = sub2 := by
  obtain ⟨_, _, f1, a1, -, -, -, -, -, a4, a5, a6⟩ := commitOne_ok hc hgd hU hw h1 agg1 hl1 hr he
  obtain ⟨_, _, f2, b1, -, -, -, -, -, b4, b5, b6⟩ := commitOne_ok hc hgd hU hw h2 agg2 hl2 hr he
  rw [e1] at f1
  rw [e2] at f2
  cases f1
  cases f2
  have g1 := h1.gc
  have g2 := h2.gc
  rw [h1.committed] at g1
  rw [h2.committed] at g2
  have hlU := h1.good.sub _ hl1
  have hgl : gcOf p l.round < l.round := by
    have := hU.roundPos hlU
    unfold gcOf; omega
  have hgg : gcOf p (roundOf log) ≤ gcOf p l.round := by unfold gcOf; omega
  have hseq : orderDag p s1.dag s1.lastCommitted l = orderDag p s2.dag s2.lastCommitted l := by
    apply orderDag_agree hU h1.good h2.good _ _ hl1 hl2 (by omega) (by omega) hgl
    intro y hy hyr
    exact pastCommitted_congr hU h1 h2 hy (by omega)
  have hls : s1.lastSub = s2.lastSub := by rw [h1.last, h2.last]
  have hsd : s1.seed = s2.seed := by rw [h1.seed, h2.seed]
  have hh : sub1.headers = sub2.headers := by rw [a1, b1, hseq]
  have ht : sub1.timestamp = sub2.timestamp := by rw [a4, b4, hls]
  have hrand : sub1.randomness = sub2.randomness := by rw [a5, b5, hseed, hsd]; rfl
  have hsc : sub1.scores = sub2.scores := by rw [a6, b6, hls, hh]
  cases sub1; cases sub2
  simp_all

end Bull
end Verif
