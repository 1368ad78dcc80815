import Verif.Bullshark.Sync
/-
Processing a certificate extends the committed sequence by legal steps only.
-/
namespace Verif
namespace Bull

variable {U : Header → Prop} {p : Params}

/-- `sub` is what a node that committed `log` may commit next: the node has a directly supported
leader of the schedule above the last commit, and `sub` is committed for the oldest leader linked to
it. -/
def NextCommit (p : Params) (U : Header → Prop) (log : List SubDag) (sub : SubDag) : Prop :=
  ∃ (st : State) (agg : Header → Sig) (L : Header) (k : Nat) (s1 : State), Sync p U log st ∧
    IsLeader U p st.table L.round L ∧ L ∈ st.dag ∧ Supported p.committee U L ∧
    L.round = roundOf log + 2 + 2 * k ∧
    commitOne p agg st (oldest p st.table st.dag k (L.round - 2) L) = .ok (s1, sub)

/-- Sequences of sub-dags that consist of such steps. -/
inductive Legal (p : Params) (U : Header → Prop) : List SubDag → Prop
  | nil : Legal p U []
  | snoc {log sub} : Legal p U log → NextCommit p U log sub → Legal p U (log ++ [sub])

/-- The oldest leader of a walk is in the DAG, of even round, and above the last commit. -/
theorem oldest_mem (hU : Universe p.committee U) {dag : Dag} {g : Round} (h : Good U dag g)
    {t : SwapTable} {b : Round} (hg : g ≤ b) {L : Header} (hL : L ∈ dag) {k : Nat}
    (hk : L.round = b + 2 + 2 * k) :
    oldest p t dag k (L.round - 2) L ∈ dag ∧ b + 2 ≤ (oldest p t dag k (L.round - 2) L).round ∧
      (oldest p t dag k (L.round - 2) L).round % 2 = b % 2 ∧
      (oldest p t dag k (L.round - 2) L).round ≤ L.round := by
  have hm : oldest p t dag k (L.round - 2) L ∈ L :: walk p t dag k (L.round - 2) L :=
    List.getLast_mem _
  rcases List.mem_cons.mp hm with he | hm
  · rw [he]; exact ⟨hL, by omega, by omega, Nat.le_refl _⟩
  · have := walk_mem hU h k (L.round - 2) b L hL (by omega) (by omega) hg _ hm
    exact ⟨this.1, by omega, by omega, by omega⟩

theorem WfLog.nil : WfLog p U [] := ⟨by simp, by simp, by simp⟩

theorem Legal.wf (hc : p.committee.WF) (hgd : 1 ≤ p.gcDepth) (hU : Universe p.committee U)
    {log : List SubDag} (h : Legal p U log) : WfLog p U log := by
  induction h with
  | nil => exact WfLog.nil
  | snoc _ hn ih =>
    obtain ⟨st, agg, L, k, s1, hs, hl, hLd, hsup, hk, hco⟩ := hn
    have hev := ih.even
    have hgc := hs.gc
    rw [hs.committed] at hgc
    have ho := oldest_mem (p := p) (t := st.table) hU hs.good
      (by rw [hgc]; unfold gcOf; omega) hLd hk
    obtain ⟨_, _, e, -, -, -, hw, -⟩ := commitOne_ok hc hgd hU ih hs agg ho.1 ho.2.1 (by omega)
    rw [hco] at e
    cases e
    exact hw

/-- Two legal next commits after the same sequence are equal. -/
theorem NextCommit.unique (hc : p.committee.WF) (hgd : 1 ≤ p.gcDepth) (hU : Universe p.committee U)
    (hseed : p.seedActive = true) {log : List SubDag} {a b : SubDag} (hw : WfLog p U log)
    (ha : NextCommit p U log a) (hb : NextCommit p U log b) : a = b := by
  obtain ⟨st1, agg1, L1, k1, t1, h1, l1, d1, u1, e1, c1⟩ := ha
  obtain ⟨st2, agg2, L2, k2, t2, h2, l2, d2, u2, e2, c2⟩ := hb
  have ht : st1.table = st2.table := by rw [h1.table, h2.table]
  have g1 := h1.gc
  rw [h1.committed] at g1
  have g2 := h2.gc
  rw [h2.committed] at g2
  have hle : gcOf p (roundOf log) ≤ roundOf log := by unfold gcOf; omega
  have he : oldest p st1.table st1.dag k1 (L1.round - 2) L1 =
      oldest p st2.table st2.dag k2 (L2.round - 2) L2 := by
    rw [ht] at l1 ⊢
    exact oldest_unique hc hU h1.good h2.good (b := roundOf log) (by omega) (by omega) l1 d1 u1 l2 d2
      u2 e1 e2
  have m1 := oldest_mem (p := p) (t := st1.table) hU h1.good (b := roundOf log) (by omega) d1 e1
  have m2 := oldest_mem (p := p) (t := st2.table) hU h2.good (b := roundOf log) (by omega) d2 e2
  rw [he] at c1 m1
  have := hw.even
  exact commitOne_agree hc hgd hU hseed hw h1 h2 agg1 agg2 m1.1 m2.1 m1.2.1 (by omega) c1 c2

/-- Legal sequences are prefixes of each other. -/
theorem Legal.prefix (hc : p.committee.WF) (hgd : 1 ≤ p.gcDepth) (hU : Universe p.committee U)
    (hseed : p.seedActive = true) {a b : List SubDag} (ha : Legal p U a) (hb : Legal p U b) :
    a <+: b ∨ b <+: a := by
  induction ha generalizing b with
  | nil => exact Or.inl (List.nil_prefix)
  | snoc hlog hn ih =>
    rename_i log sub
    rcases ih hb with h1 | h1
    · -- log is a prefix of b
      obtain ⟨t, rfl⟩ := h1
      cases t with
      | nil => right; simp
      | cons s t =>
        left
        -- the first element after `log` is legal
        have : NextCommit p U log s := by
          clear hn ih
          generalize hx : log ++ s :: t = x at hb
          induction hb generalizing t with
          | nil => simp at hx
          | snoc hl hn2 ih2 =>
            rename_i log2 sub2
            rcases List.eq_nil_or_concat t with rfl | ⟨t', z, rfl⟩
            · have : log = log2 ∧ [s] = [sub2] := List.append_inj' hx rfl
              obtain ⟨rfl, h2⟩ := this
              cases h2
              exact hn2
            · rw [List.concat_eq_append] at hx
              have hx' : (log ++ s :: t') ++ [z] = log2 ++ [sub2] := by simpa using hx
              exact ih2 t' (List.append_inj' hx' rfl).1
        have := NextCommit.unique hc hgd hU hseed (hlog.wf hc hgd hU) hn this
        subst this
        exact ⟨t, by simp⟩
    · exact Or.inr (h1.trans (List.prefix_append _ _))

/-! ### committing a list of leaders -/

/-- The list of leaders `order_leaders` returns. -/
theorem orderLeaders_eq {st : State} {L : Header} (he : L.round % 2 = 0) {k : Nat}
    (hk : L.round = st.committedRound + 2 + 2 * k) :
    orderLeaders p st L = .ok ((walk p st.table st.dag k (L.round - 2) L).reverse ++ [L]) := by
  unfold orderLeaders
  rw [if_pos he, leadersLoop_eq]
  have : (L.round - 2 - st.committedRound) / 2 = k := by omega
  rw [this]

theorem commitLeaders_ok (hc : p.committee.WF) (hgd : 1 ≤ p.gcDepth) (hU : Universe p.committee U)
    (agg : Header → Sig) (ls : List Header) {log : List SubDag} {st : State} (acc : List SubDag)
    (hL : Legal p U log) (h : Sync p U log st) {L : Header} {k : Nat}
    (hl : IsLeader U p st.table L.round L) (hd : L ∈ st.dag) (hs : Supported p.committee U L)
    (hk : L.round = roundOf log + 2 + 2 * k)
    (hls : ls = (walk p st.table st.dag k (L.round - 2) L).reverse ++ [L]) :
    ∃ o st' subs, commitLeaders p agg ls st acc = .ok (o, st', acc ++ subs) ∧
      Sync p U (log ++ subs) st' ∧ Legal p U (log ++ subs) ∧ subs ≠ [] ∧
      roundOf log < roundOf (log ++ subs) ∧ roundOf (log ++ subs) ≤ L.round ∧
      (o = .commit ∨ (o = .scheduleChanged ∧ roundOf (log ++ subs) < L.round)) ∧
      st'.dag = gcDag (gcOf p (roundOf (log ++ subs))) st.dag := by
  induction ls generalizing log st acc k with
  | nil => simp at hls
  | cons l rest ih =>
    have hw := hL.wf hc hgd hU
    have hev := hw.even
    have hgc := h.gc
    rw [h.committed] at hgc
    have hgle : st.gcRound ≤ roundOf log := by rw [hgc]; unfold gcOf; omega
    -- l is the oldest leader
    have hold : oldest p st.table st.dag k (L.round - 2) L = l := by
      have := leadersLoop_head (p := p) st.table st.dag k (L.round - 2) L
      rw [leadersLoop_eq, ← hls] at this
      simpa using this.symm
    have hm := oldest_mem (p := p) (t := st.table) hU h.good hgle hd hk
    rw [hold] at hm
    obtain ⟨s1, sub, e1, -, elead, esync, ewf, etab, edag, -⟩ :=
      commitOne_ok hc hgd hU hw h agg hm.1 hm.2.1 (by omega)
    have hnext : NextCommit p U log sub :=
      ⟨st, agg, L, k, s1, h, hl, hd, hs, hk, by rw [hold]; exact e1⟩
    have hleg := Legal.snoc hL hnext
    have hsr : sub.leaderRound = l.round := by simp [SubDag.leaderRound, elead]
    have hro : roundOf (log ++ [sub]) = l.round := by rw [roundOf_append, hsr]
    -- shape of the rest
    have hrest : (rest = [] ∧ l = L) ∨ (∃ w', rest = w'.reverse ++ [L] ∧
        walk p st.table st.dag k (L.round - 2) L = w' ++ [l]) := by
      rcases List.eq_nil_or_concat (walk p st.table st.dag k (L.round - 2) L) with hwn | ⟨w', z, hwc⟩
      · rw [hwn] at hls
        simp at hls
        exact Or.inl ⟨hls.2, hls.1⟩
      · rw [List.concat_eq_append] at hwc
        rw [hwc] at hls
        simp at hls
        right
        exact ⟨w', by simp [hls.2], by rw [hwc, hls.1]⟩
    simp only [commitLeaders, e1]
    by_cases hfin : (sub.scores.final && !rest.isEmpty) = true
    · rw [if_pos hfin]
      refine ⟨_, _, [sub], rfl, esync, hleg, by simp, by omega, by omega, ?_, by rw [hro]; exact edag⟩
      right
      refine ⟨rfl, ?_⟩
      rcases hrest with ⟨hr, _⟩ | ⟨w', hr, hwalk⟩
      · simp [hr] at hfin
      · have := walk_mem hU h.good k (L.round - 2) (roundOf log) L hd (by omega) (by omega) hgle l
          (by rw [hwalk]; simp)
        omega
    · rw [if_neg hfin]
      rcases hrest with ⟨hr, hlL⟩ | ⟨w', hr, hwalk⟩
      · subst hr
        simp only [commitLeaders]
        refine ⟨_, _, [sub], rfl, esync, hleg, by simp, by omega, by omega, Or.inl rfl,
          by rw [hro]; exact edag⟩
      · have hnf : sub.scores.final = false := by
          cases hf : sub.scores.final
          · rfl
          · rw [hf, hr] at hfin; simp at hfin
        have hus : updateSchedule p s1 sub.scores = s1 := by
          unfold updateSchedule; rw [hnf]; rfl
        rw [hus] at esync edag ⊢
        have hlw := walk_mem hU h.good k (L.round - 2) (roundOf log) L hd (by omega) (by omega) hgle l
          (by rw [hwalk]; simp)
        obtain ⟨k', hk'⟩ : ∃ k', L.round = l.round + 2 + 2 * k' :=
          ⟨(L.round - 2 - l.round) / 2, by omega⟩
        have hd1 : L ∈ s1.dag := by
          rw [edag, mem_gcDag]
          refine ⟨hd, ?_⟩
          unfold gcOf; omega
        have hgc1 := esync.gc
        rw [esync.committed, hro] at hgc1
        have hgcle1 : s1.gcRound ≤ l.round := by rw [hgc1]; unfold gcOf; omega
        have hw' : walk p s1.table s1.dag k' (L.round - 2) L = w' := by
          rw [etab, walk_agree hU esync.good h.good k' (L.round - 2) L hd1 hd (by omega) (by omega)
            (by omega), walk_truncate hU h.good k k' (by omega) (L.round - 2) L hd (by omega)
            (by omega), hwalk, List.filter_append]
          have hso := walk_sorted (p := p) (t := st.table) hU h.good k (L.round - 2) L hd (by omega)
            (by omega)
          rw [hwalk, List.pairwise_append] at hso
          have h1 : w'.filter (fun x => decide (L.round - 2 - 2 * k' < x.round)) = w' := by
            rw [List.filter_eq_self]
            intro x hx
            have := hso.2.2 x hx l (by simp)
            simp; omega
          have h2 : [l].filter (fun x => decide (L.round - 2 - 2 * k' < x.round)) = [] := by
            simp; omega
          rw [h1, h2]; simp
        obtain ⟨o, st', subs, i1, i2, i3, i4, i5, i6, i7, i8⟩ := ih (log := log ++ [sub]) (st := s1)
          (acc ++ [sub]) hleg esync (k := k') (by rw [etab]; exact hl) hd1
          (by rw [hro]; exact hk') (by rw [hw']; exact hr)
        rw [List.append_assoc] at i2 i3 i5 i6 i7 i8
        refine ⟨o, st', [sub] ++ subs, ?_, i2, i3, by simp, by omega, i6, i7, ?_⟩
        · rw [i1, List.append_assoc]
        · rw [i8, edag, gcDag_gcDag]
          rw [hro] at i5
          unfold gcOf; omega

/-! ### one leader round -/

theorem supported_of_dag (hU : Universe p.committee U) {dag : Dag} {g : Round} (h : Good U dag g)
    {L : Header} (hs : ¬ support p dag L < p.committee.validityThreshold) :
    Supported p.committee U L := by
  refine ⟨(atRound dag (L.round + 1)).filter (fun x => x.parents.contains L.digest), ?_, ?_, ?_⟩
  · intro v hv
    rw [List.mem_filter, mem_atRound] at hv
    exact ⟨h.sub _ hv.1.1, hv.1.2, by simpa using hv.2⟩
  · apply List.Nodup.map_on
    · intro x hx y hy hxy
      rw [List.mem_filter, mem_atRound] at hx hy
      exact hU.unique (h.sub _ hx.1.1) (h.sub _ hy.1.1) hxy (by rw [hx.1.2, hy.1.2])
    · exact (h.nodup.filter _).filter _
  · simp only [Committee.reachedValidity, decide_eq_true_eq]
    unfold support at hs
    omega

theorem commitLeader_ok (hc : p.committee.WF) (hgd : 1 ≤ p.gcDepth) (hU : Universe p.committee U)
    (agg : Header → Sig) {log : List SubDag} {st : State} (hL : Legal p U log)
    (h : Sync p U log st) {r : Round} (hr : r % 2 = 0) (hgt : roundOf log < r)
    (hchild : ∃ x ∈ st.dag, x.round = r + 1) :
    ∃ o st' subs, commitLeader p agg r st = .ok (o, st', subs) ∧
      Sync p U (log ++ subs) st' ∧ Legal p U (log ++ subs) ∧
      (o = .scheduleChanged → roundOf log < roundOf (log ++ subs) ∧ roundOf (log ++ subs) < r) ∧
      (∃ x ∈ st'.dag, x.round = r + 1) ∧ roundOf (log ++ subs) ≤ r := by
  have hev := (hL.wf hc hgd hU).even
  obtain ⟨x, hx, hxr⟩ := hchild
  unfold commitLeader
  cases hlc : leaderCert p st.table st.dag r with
  | none =>
    exact ⟨_, st, [], rfl, by simpa using h, by simpa using hL, by simp, ⟨x, hx, hxr⟩,
      by simp; omega⟩
  | some L =>
    rw [leaderCert_iff hU h.good] at hlc
    have hLr := hlc.1.2.1
    simp only
    rw [if_neg (by
      intro hem
      rw [List.isEmpty_iff] at hem
      have : x ∈ atRound st.dag (r + 1) := mem_atRound.mpr ⟨hx, hxr⟩
      rw [hem] at this; simp at this)]
    split
    · exact ⟨_, st, [], rfl, by simpa using h, by simpa using hL, by simp, ⟨x, hx, hxr⟩,
        by simp; omega⟩
    · rename_i hsup
      have hsup := supported_of_dag hU h.good hsup
      obtain ⟨k, hk⟩ : ∃ k, L.round = roundOf log + 2 + 2 * k :=
        ⟨(L.round - 2 - roundOf log) / 2, by omega⟩
      rw [orderLeaders_eq (by omega) (by rw [h.committed]; exact hk)]
      obtain ⟨o, st', subs, i1, i2, i3, i4, i5, i6, i7, i8⟩ := commitLeaders_ok hc hgd hU agg _ [] hL h
        (by rw [hLr]; exact hlc.1) hlc.2 hsup hk rfl
      simp only [List.nil_append] at i1
      refine ⟨o, st', subs, i1, i2, i3, ?_, ⟨x, ?_, hxr⟩, by omega⟩
      · intro ho
        rcases i7 with h7 | ⟨_, h7⟩
        · rw [h7] at ho; cases ho
        · exact ⟨i5, by omega⟩
      · rw [i8, mem_gcDag]
        refine ⟨hx, ?_⟩
        unfold gcOf; omega

theorem commitLoop_ok (hc : p.committee.WF) (hgd : 1 ≤ p.gcDepth) (hU : Universe p.committee U)
    (agg : Header → Sig) {r : Round} (hr : r % 2 = 0) (fuel : Nat) {log : List SubDag} {st : State}
    (acc : List SubDag) (hL : Legal p U log) (h : Sync p U log st) (hgt : roundOf log < r)
    (hchild : ∃ x ∈ st.dag, x.round = r + 1) (hf : r - roundOf log ≤ fuel) :
    ∃ o st' subs, commitLoop p agg r fuel st acc = .ok (o, st', acc ++ subs) ∧
      Sync p U (log ++ subs) st' ∧ Legal p U (log ++ subs) ∧ o ≠ .scheduleChanged := by
  induction fuel generalizing log st acc with
  | zero => omega
  | succ fuel ih =>
    obtain ⟨o, st', subs, i1, i2, i3, i4, i5, i6⟩ := commitLeader_ok hc hgd hU agg hL h hr hgt hchild
    simp only [commitLoop, i1]
    by_cases ho : o = .scheduleChanged
    · rw [if_pos ho]
      have := i4 ho
      obtain ⟨o2, st2, subs2, j1, j2, j3, j4⟩ := ih (acc ++ subs) i3 i2 (by omega) i5 (by omega)
      refine ⟨o2, st2, subs ++ subs2, ?_, ?_, ?_, j4⟩
      · rw [j1, List.append_assoc]
      · rw [← List.append_assoc]; exact j2
      · rw [← List.append_assoc]; exact j3
    · rw [if_neg ho]
      exact ⟨o, st', subs, rfl, i2, i3, ho⟩

/-! ### a new certificate -/

theorem mem_dagInsert {dag : Dag} {h x : Header} :
    x ∈ dagInsert dag h ↔ x = h ∨ (x ∈ dag ∧ ¬ (x.round = h.round ∧ x.author = h.author)) := by
  simp only [dagInsert, List.mem_append, List.mem_filter, List.mem_singleton]
  simp only [Bool.not_eq_true', Bool.and_eq_false_iff, beq_eq_false_iff_ne, ne_eq]
  constructor
  · rintro (⟨h1, h2⟩ | h1)
    · refine Or.inr ⟨h1, ?_⟩
      rintro ⟨h3, h4⟩; rcases h2 with h2 | h2
      · exact h2 h3
      · exact h2 h4
    · exact Or.inl h1
  · rintro (h1 | ⟨h1, h2⟩)
    · exact Or.inr h1
    · refine Or.inl ⟨h1, ?_⟩
      by_cases h3 : x.round = h.round
      · exact Or.inr (fun h4 => h2 ⟨h3, h4⟩)
      · exact Or.inl h3

/-- In a good DAG inserting keeps all certificates. -/
theorem mem_dagInsert_good (hU : Universe p.committee U) {dag : Dag} (hd : ∀ x ∈ dag, U x)
    {h x : Header} (hh : U h) : x ∈ dagInsert dag h ↔ x = h ∨ x ∈ dag := by
  rw [mem_dagInsert]
  constructor
  · rintro (h1 | h1)
    · exact Or.inl h1
    · exact Or.inr h1.1
  · rintro (h1 | h1)
    · exact Or.inl h1
    · by_cases he : x.round = h.round ∧ x.author = h.author
      · exact Or.inl (hU.unique (hd x h1) hh he.2 he.1)
      · exact Or.inr ⟨h1, he⟩

theorem dagInsert_nodup {dag : Dag} (hd : dag.Nodup) (h : Header) : (dagInsert dag h).Nodup := by
  unfold dagInsert
  rw [List.nodup_append]
  refine ⟨hd.filter _, by simp, ?_⟩
  intro a ha b hb
  simp at hb
  subst hb
  rintro rfl
  simp at ha

theorem hasOther_false (hU : Universe p.committee U) {dag : Dag} (hd : ∀ x ∈ dag, U x) {h : Header}
    (hh : U h) : hasOther dag h = false := by
  unfold hasOther
  rw [List.any_eq_false]
  intro x hx
  simp only [Bool.and_eq_true, beq_iff_eq, Bool.not_eq_true', beq_eq_false_iff_ne, ne_eq, not_and,
    not_not]
  intro h1
  rw [hU.unique (hd x hx) hh h1.2 h1.1]

theorem Good.insert (hU : Universe p.committee U) {dag : Dag} {g : Round} (hd : Good U dag g)
    {h : Header} (hh : U h) (hg : g < h.round)
    (hp : g + 1 < h.round → ∀ d ∈ h.parents, ∃ q ∈ dag, q.round + 1 = h.round ∧ q.digest = d) :
    Good U (dagInsert dag h) g where
  sub x hx := by
    rcases (mem_dagInsert_good hU hd.sub hh).mp hx with rfl | hx
    · exact hh
    · exact hd.sub x hx
  above x hx := by
    rcases (mem_dagInsert_good hU hd.sub hh).mp hx with rfl | hx
    · exact hg
    · exact hd.above x hx
  closed x hx hr d hdm := by
    rcases (mem_dagInsert_good hU hd.sub hh).mp hx with rfl | hx
    · obtain ⟨q, hq, h1⟩ := hp hr d hdm
      exact ⟨q, (mem_dagInsert_good hU hd.sub hh).mpr (Or.inr hq), h1⟩
    · obtain ⟨q, hq, h1⟩ := hd.closed x hx hr d hdm
      exact ⟨q, (mem_dagInsert_good hU hd.sub hh).mpr (Or.inr hq), h1⟩
  nodup := dagInsert_nodup hd.nodup h

theorem checkParents_ok_iff (hU : Universe p.committee U) {dag : Dag} {g : Round} {h : Header}
    (hh : U h) (hd : ∀ x ∈ dag, U x) : checkParents dag g h = .ok () ↔
      (g + 1 < h.round → ∀ d ∈ h.parents, ∃ q ∈ dag, q.round + 1 = h.round ∧ q.digest = d) := by
  unfold checkParents
  have hpos := hU.roundPos hh
  by_cases hle : h.round ≤ g + 1
  · rw [if_pos hle]; simp; omega
  · rw [if_neg hle]
    have key : (h.parents.all fun d => (atRound dag (h.round - 1)).any fun x => x.digest == d) = true ↔
        ∀ d ∈ h.parents, ∃ q ∈ dag, q.round + 1 = h.round ∧ q.digest = d := by
      simp only [List.all_eq_true, List.any_eq_true, beq_iff_eq, mem_atRound]
      constructor
      · intro hx d hdm
        obtain ⟨q, ⟨h1, h2⟩, h3⟩ := hx d hdm
        exact ⟨q, h1, by omega, h3⟩
      · intro hx d hdm
        obtain ⟨q, h1, h2, h3⟩ := hx d hdm
        exact ⟨q, ⟨h1, by omega⟩, h3⟩
    constructor
    · intro he _
      split at he
      · cases he
      · split at he
        · rename_i h2; exact key.mp h2
        · cases he
    · intro hx
      have hx := hx (by omega)
      rw [if_neg, if_pos (key.mpr hx)]
      intro hem
      -- the parents are not empty
      obtain ⟨ps, hps, -, hq⟩ := hU.quorum hh (by omega)
      cases ps with
      | nil => simp [Committee.reachedQuorum, Committee.power, Committee.quorumThreshold] at hq
      | cons q qs =>
        obtain ⟨q', hq', h2, -⟩ := hx q.digest (hps q (by simp)).2.2
        rw [List.isEmpty_iff] at hem
        have : q' ∈ atRound dag (h.round - 1) := mem_atRound.mpr ⟨hq', by omega⟩
        rw [hem] at this; simp at this

theorem Sync.withDag {log : List SubDag} {st : State} (h : Sync p U log st) {dag : Dag}
    (hd : Good U dag st.gcRound) : Sync p U log { st with dag := dag } :=
  ⟨h.committed, h.gc, h.lc, h.last, h.seed, h.table, hd⟩

/-- Processing a certificate whose parents the node has (or no longer needs) never fails, ends, and
extends the committed sequence by legal steps. -/
theorem processCertificate_ok (hc : p.committee.WF) (hgd : 1 ≤ p.gcDepth)
    (hU : Universe p.committee U) (agg : Header → Sig) {log : List SubDag} {st : State}
    (hL : Legal p U log) (h : Sync p U log st) {x : Header} (hx : U x)
    (hp : st.gcRound + 1 < x.round → ∀ d ∈ x.parents, ∃ q ∈ st.dag, q.round + 1 = x.round ∧
      q.digest = d) :
    ∃ o st' subs, processCertificate p agg st x = .ok (o, st', subs) ∧
      Sync p U (log ++ subs) st' ∧ Legal p U (log ++ subs) ∧ o ≠ .scheduleChanged := by
  unfold processCertificate
  by_cases hgc : x.round ≤ st.gcRound
  · have : tryInsert st.dag st.lastCommitted st.gcRound x true = .ok (st.dag, false) := by
      unfold tryInsert; rw [if_pos hgc]
    rw [this]
    exact ⟨_, _, [], rfl, by simpa using h.withDag h.good, by simpa using hL, by simp⟩
  · have hins : tryInsert st.dag st.lastCommitted st.gcRound x true =
        .ok (dagInsert st.dag x, decide (lcGet st.lastCommitted x.author < x.round)) := by
      unfold tryInsert
      rw [if_neg hgc]
      have := (checkParents_ok_iff hU hx h.good.sub).mpr hp
      simp only [if_true, this]
      rw [hasOther_false hU h.good.sub hx]
      rfl
    rw [hins]
    have hgood := Good.insert hU h.good hx (by omega) hp
    have hs := h.withDag hgood
    cases hb : decide (lcGet st.lastCommitted x.author < x.round) with
    | false =>
      exact ⟨_, _, [], rfl, by simpa using hs, by simpa using hL, by simp⟩
    | true =>
      simp only
      split
      · exact ⟨_, _, [], rfl, by simpa using hs, by simpa using hL, by simp⟩
      · rename_i hr
        simp only [not_or] at hr
        split
        · exact ⟨_, _, [], rfl, by simpa using hs, by simpa using hL, by simp⟩
        · rename_i hcr
          have hcr' : ¬ x.round - 1 ≤ st.committedRound := hcr
          rw [h.committed] at hcr'
          obtain ⟨o, st', subs, i1, i2, i3, i4⟩ := commitLoop_ok hc hgd hU agg (r := x.round - 1)
            (by omega) (x.round - 1 + 1) [] hL hs (by omega)
            ⟨x, (mem_dagInsert_good hU h.good.sub hx).mpr (Or.inl rfl), by omega⟩ (by omega)
          rw [i1]
          simp only [List.nil_append]
          refine ⟨_, st', subs, rfl, i2, i3, ?_⟩
          split
          · exact i4
          · simp

/-- Whatever certificate of the epoch is processed: if processing succeeds, the committed sequence
was extended by legal steps. -/
theorem processCertificate_sync (hc : p.committee.WF) (hgd : 1 ≤ p.gcDepth)
    (hU : Universe p.committee U) (agg : Header → Sig) {log : List SubDag} {st : State}
    (hL : Legal p U log) (h : Sync p U log st) {x : Header} (hx : U x) {o : Outcome} {st' : State}
    {subs : List SubDag} (he : processCertificate p agg st x = .ok (o, st', subs)) :
    Sync p U (log ++ subs) st' ∧ Legal p U (log ++ subs) := by
  by_cases hp : st.gcRound + 1 < x.round → ∀ d ∈ x.parents, ∃ q ∈ st.dag, q.round + 1 = x.round ∧
      q.digest = d
  · obtain ⟨o2, st2, subs2, i1, i2, i3, -⟩ := processCertificate_ok hc hgd hU agg hL h hx hp
    rw [he] at i1
    cases i1
    exact ⟨i2, i3⟩
  · exfalso
    have hgc : ¬ x.round ≤ st.gcRound := by
      intro hle
      apply hp
      intro; omega
    have hnc := (checkParents_ok_iff (g := st.gcRound) hU hx h.good.sub).not.mpr hp
    unfold processCertificate tryInsert at he
    rw [if_neg hgc] at he
    simp only [if_true] at he
    cases hcp : checkParents st.dag st.gcRound x with
    | error e => rw [hcp] at he; simp at he
    | ok u => exact hnc hcp

end Bull
end Verif
