import Verif.Bullshark.Universe
/-
`order_leaders`: which earlier leaders a commit brings along, and why two nodes agree on the oldest.
-/
namespace Verif
namespace Bull

variable {c : Committee} {U : Header → Prop} {p : Params}

/-- Specification: `x` is the certificate of the leader that the schedule names for round `r`. -/
def IsLeader (U : Header → Prop) (p : Params) (t : SwapTable) (r : Round) (x : Header) : Prop :=
  U x ∧ x.round = r ∧ ∃ a, scheduleLeader p.committee p.rng t r = some a ∧ x.author = a.id

theorem IsLeader.eq (hU : Universe c U) {t : SwapTable} {r : Round} {x y : Header}
    (hx : IsLeader U p t r x) (hy : IsLeader U p t r y) : x = y := by
  obtain ⟨h1, h2, a, h3, h4⟩ := hx
  obtain ⟨k1, k2, b, k3, k4⟩ := hy
  rw [h3] at k3; cases k3
  exact hU.unique h1 k1 (by rw [h4, k4]) (by rw [h2, k2])

theorem leaderCert_iff (hU : Universe c U) {dag : Dag} {g : Round} (h : Good U dag g)
    {t : SwapTable} {r : Round} {x : Header} :
    leaderCert p t dag r = some x ↔ IsLeader U p t r x ∧ x ∈ dag := by
  unfold leaderCert
  constructor
  · intro hx
    split at hx
    · cases hx
    · rename_i a ha
      have h1 := List.mem_of_find?_eq_some hx
      have h2 := List.find?_some hx
      simp at h2
      rw [mem_atRound] at h1
      exact ⟨⟨h.sub _ h1.1, h1.2, a, ha, h2⟩, h1.1⟩
  · rintro ⟨⟨h1, h2, a, h3, h4⟩, h5⟩
    rw [h3]
    simp only
    cases hf : (atRound dag r).find? (fun h => h.author == a.id) with
    | none =>
      rw [List.find?_eq_none] at hf
      exact absurd (by simp [h4]) (hf x (mem_atRound.mpr ⟨h5, h2⟩))
    | some z =>
      have k1 := List.mem_of_find?_eq_some hf
      have k2 := List.find?_some hf
      simp at k2
      rw [mem_atRound] at k1
      rw [hU.unique (h.sub _ k1.1) h1 (by rw [k2, h4]) (by rw [k1.2, h2])]

/-- One step back: the leader of round `r` is taken iff it is in the causal history. -/
theorem hop_iff (hU : Universe c U) {dag : Dag} {g : Round} (h : Good U dag g) {t : SwapTable}
    {cur x : Header} {r : Round} (hcur : cur ∈ dag) (hg : g < r) (hr : r < cur.round) :
    hop p t dag cur r = some x ↔ IsLeader U p t r x ∧ Reach U cur x := by
  unfold hop
  constructor
  · intro hx
    split at hx
    · cases hx
    · rename_i prev hp
      rw [leaderCert_iff hU h] at hp
      split at hx
      · rename_i hl
        cases hx
        have := hp.1.2.1
        rw [linked_iff hU h hcur hp.1.1 (by omega) (by omega)] at hl
        exact ⟨hp.1, hl⟩
      · cases hx
  · rintro ⟨h1, h2⟩
    have hxr := h1.2.1
    have hm := h.reach_mem hU h2 hcur (by omega)
    rw [(leaderCert_iff hU h).mpr ⟨h1, hm⟩]
    simp only
    rw [if_pos]
    exact (linked_iff hU h hcur h1.1 (by omega) (by omega)).mpr h2

theorem hop_agree (hU : Universe c U) {d1 d2 : Dag} {g1 g2 : Round} (h1 : Good U d1 g1)
    (h2 : Good U d2 g2) {t : SwapTable} {cur : Header} {r : Round} (c1 : cur ∈ d1) (c2 : cur ∈ d2)
    (k1 : g1 < r) (k2 : g2 < r) (hr : r < cur.round) :
    hop p t d1 cur r = hop p t d2 cur r := by
  apply Option.ext
  intro x
  rw [hop_iff hU h1 c1 k1 hr, hop_iff hU h2 c2 k2 hr]

/-- The leaders met on the way back, newest first, without the starting one. -/
def walk (p : Params) (t : SwapTable) (dag : Dag) : Nat → Round → Header → List Header
  | 0, _, _ => []
  | k + 1, r, cur =>
    match hop p t dag cur r with
    | none => walk p t dag k (r - 2) cur
    | some prev => prev :: walk p t dag k (r - 2) prev

theorem leadersLoop_eq (t : SwapTable) (dag : Dag) (k : Nat) (r : Round) (cur : Header)
    (acc : List Header) :
    leadersLoop p t dag k r cur acc = (walk p t dag k r cur).reverse ++ acc := by
  induction k generalizing r cur acc with
  | zero => simp [leadersLoop, walk]
  | succ k ih =>
    simp only [leadersLoop, walk]
    cases hop p t dag cur r with
    | none => exact ih ..
    | some prev => simp only []; rw [ih]; simp

/-- Facts about every leader met. `b` is the round everything stays above. -/
theorem walk_mem (hU : Universe c U) {dag : Dag} {g : Round} (h : Good U dag g) {t : SwapTable}
    (k : Nat) (r b : Round) (cur : Header) (hcur : cur ∈ dag) (hr : r < cur.round)
    (hb : b + 2 * k ≤ r) (hg : g ≤ b) (x : Header) (hx : x ∈ walk p t dag k r cur) :
    x ∈ dag ∧ x.round ≤ r ∧ b < x.round ∧ x.round % 2 = r % 2 ∧ Reach U cur x ∧
      IsLeader U p t x.round x := by
  induction k generalizing r cur with
  | zero => simp [walk] at hx
  | succ k ih =>
    simp only [walk] at hx
    split at hx
    · have := ih (r - 2) cur hcur (by omega) (by omega) hx
      refine ⟨this.1, by omega, this.2.2.1, by omega, this.2.2.2.2⟩
    · rename_i prev hp
      rw [hop_iff hU h hcur (by omega) hr] at hp
      have hpr := hp.1.2.1
      have hpm := h.reach_mem hU hp.2 hcur (by omega)
      rcases List.mem_cons.mp hx with rfl | hx
      · exact ⟨hpm, by omega, by omega, by omega, hp.2, by rw [hpr]; exact hp.1⟩
      · have := ih (r - 2) prev hpm (by omega) (by omega) hx
        refine ⟨this.1, by omega, this.2.2.1, by omega, hp.2.trans this.2.2.2.2.1, this.2.2.2.2.2⟩

/-- Rounds strictly decrease along the walk. -/
theorem walk_sorted (hU : Universe c U) {dag : Dag} {g : Round} (h : Good U dag g) {t : SwapTable}
    (k : Nat) (r : Round) (cur : Header) (hcur : cur ∈ dag) (hr : r < cur.round)
    (hb : g + 2 * k ≤ r) :
    (walk p t dag k r cur).Pairwise (fun a b => b.round < a.round) := by
  induction k generalizing r cur with
  | zero => simp [walk]
  | succ k ih =>
    simp only [walk]
    split
    · exact ih _ _ hcur (by omega) (by omega)
    · rename_i prev hp
      rw [hop_iff hU h hcur (by omega) hr] at hp
      have hpr := hp.1.2.1
      have hpm := h.reach_mem hU hp.2 hcur (by omega)
      rw [List.pairwise_cons]
      refine ⟨fun x hx => ?_, ih _ _ hpm (by omega) (by omega)⟩
      have := walk_mem hU h k (r - 2) g prev hpm (by omega) (by omega) (Nat.le_refl _) x hx
      omega

theorem walk_agree (hU : Universe c U) {d1 d2 : Dag} {g1 g2 : Round} (h1 : Good U d1 g1)
    (h2 : Good U d2 g2) {t : SwapTable} (k : Nat) (r : Round) (cur : Header) (c1 : cur ∈ d1)
    (c2 : cur ∈ d2) (hr : r < cur.round) (k1 : g1 + 2 * k ≤ r) (k2 : g2 + 2 * k ≤ r) :
    walk p t d1 k r cur = walk p t d2 k r cur := by
  induction k generalizing r cur with
  | zero => simp [walk]
  | succ k ih =>
    simp only [walk]
    rw [hop_agree hU h1 h2 c1 c2 (by omega) (by omega) hr]
    split
    · exact ih _ _ c1 c2 (by omega) (by omega) (by omega)
    · rename_i prev hp
      rw [hop_iff hU h2 c2 (by omega) hr] at hp
      have hpr := hp.1.2.1
      rw [ih _ _ (h1.reach_mem hU hp.2 c1 (by omega)) (h2.reach_mem hU hp.2 c2 (by omega))
        (by omega) (by omega) (by omega)]

/-- Stopping earlier gives the leaders above the new stopping point. -/
theorem walk_truncate (hU : Universe c U) {dag : Dag} {g : Round} (h : Good U dag g)
    {t : SwapTable} (k k' : Nat) (hk : k' ≤ k) (r : Round) (cur : Header) (hcur : cur ∈ dag)
    (hr : r < cur.round) (hb : g + 2 * k ≤ r) :
    walk p t dag k' r cur =
      (walk p t dag k r cur).filter (fun x => decide (r - 2 * k' < x.round)) := by
  induction k' generalizing k r cur with
  | zero =>
    simp only [walk]
    symm
    rw [List.filter_eq_nil_iff]
    intro x hx
    have := walk_mem hU h k r g cur hcur hr hb (Nat.le_refl _) x hx
    simp; omega
  | succ k' ih =>
    obtain ⟨k, rfl⟩ : ∃ j, k = j + 1 := ⟨k - 1, by omega⟩
    simp only [walk]
    have he : r - 2 - 2 * k' = r - 2 * (k' + 1) := by omega
    split
    · rw [ih k (by omega) (r - 2) cur hcur (by omega) (by omega), he]
    · rename_i prev hp
      rw [hop_iff hU h hcur (by omega) hr] at hp
      have hpr := hp.1.2.1
      have hpm := h.reach_mem hU hp.2 hcur (by omega)
      rw [ih k (by omega) (r - 2) prev hpm (by omega) (by omega), he, List.filter_cons]
      rw [if_pos]; simp; omega

/-- The oldest leader of a walk. -/
def oldest (p : Params) (t : SwapTable) (dag : Dag) (k : Nat) (r : Round) (cur : Header) : Header :=
  (cur :: walk p t dag k r cur).getLast (by simp)

theorem leadersLoop_head (t : SwapTable) (dag : Dag) (k : Nat) (r : Round) (cur : Header) :
    (leadersLoop p t dag k r cur [cur]).head? = some (oldest p t dag k r cur) := by
  rw [leadersLoop_eq]
  unfold oldest
  rw [← List.getLast?_eq_some_getLast]
  rw [show (walk p t dag k r cur).reverse ++ [cur] = (cur :: walk p t dag k r cur).reverse by simp]
  rw [List.head?_reverse]

theorem oldest_cons (t : SwapTable) (dag : Dag) (k : Nat) (r : Round) (cur prev : Header)
    (h : hop p t dag cur r = some prev) :
    oldest p t dag (k + 1) r cur = oldest p t dag k (r - 2) prev := by
  unfold oldest
  simp only [walk, h]
  rw [List.getLast_cons (by simp)]

theorem oldest_skip (t : SwapTable) (dag : Dag) (k : Nat) (r : Round) (cur : Header)
    (h : hop p t dag cur r = none) :
    oldest p t dag (k + 1) r cur = oldest p t dag k (r - 2) cur := by
  unfold oldest
  simp only [walk, h]

/-- A walk that starts above a directly supported leader passes through it, so it ends where the
walk from that leader ends. `b` is the last committed round. -/
theorem oldest_through (hc : c.WF) (hU : Universe c U) {d1 d2 : Dag} {g1 g2 : Round}
    (h1 : Good U d1 g1) (h2 : Good U d2 g2) {t : SwapTable} {b : Round} (hg1 : g1 ≤ b) (hg2 : g2 ≤ b)
    {l : Header} (hl : IsLeader U p t l.round l) (hl1 : l ∈ d1) (hs : Supported c U l)
    (m : Nat) (hm : l.round = b + 2 + 2 * m)
    (k : Nat) (r : Round) (cur : Header) (hr : r = b + 2 * k) (hlr : l.round ≤ r)
    (hcur : cur ∈ d2) (hcr : r + 2 ≤ cur.round) :
    oldest p t d2 k r cur = oldest p t d1 m (l.round - 2) l := by
  induction k generalizing r cur with
  | zero => omega
  | succ k ih =>
    by_cases hcase : r = l.round
    · have hop : hop p t d2 cur r = some l := by
        rw [hop_iff hU h2 hcur (by omega) (by omega)]
        refine ⟨by rw [hcase]; exact hl, reach_supported hc hU hl.1 hs (h2.sub _ hcur) (by omega)⟩
      rw [oldest_cons _ _ _ _ _ _ hop]
      have : k = m := by omega
      subst this
      have hl2 : l ∈ d2 := by
        apply h2.reach_mem hU (reach_supported hc hU hl.1 hs (h2.sub _ hcur) (by omega)) hcur
        omega
      unfold oldest
      congr 2
      rw [hcase]
      exact walk_agree hU h2 h1 k _ l hl2 hl1 (by omega) (by omega) (by omega)
    · cases hh : hop p t d2 cur r with
      | none =>
        rw [oldest_skip _ _ _ _ _ hh]
        exact ih (r - 2) cur (by omega) (by omega) hcur (by omega)
      | some prev =>
        rw [oldest_cons _ _ _ _ _ _ hh]
        rw [hop_iff hU h2 hcur (by omega) (by omega)] at hh
        have := hh.1.2.1
        exact ih (r - 2) prev (by omega) (by omega) (h2.reach_mem hU hh.2 hcur (by omega))
          (by omega)

/-- Two nodes with the same committed round and swap table, each with a directly supported leader
of its own, agree on the oldest leader to commit. -/
theorem oldest_unique (hc : c.WF) (hU : Universe c U) {d1 d2 : Dag} {g1 g2 : Round}
    (h1 : Good U d1 g1) (h2 : Good U d2 g2) {t : SwapTable} {b : Round} (hg1 : g1 ≤ b) (hg2 : g2 ≤ b)
    {l1 l2 : Header} (hl1 : IsLeader U p t l1.round l1) (hm1 : l1 ∈ d1) (hs1 : Supported c U l1)
    (hl2 : IsLeader U p t l2.round l2) (hm2 : l2 ∈ d2) (hs2 : Supported c U l2)
    {k1 k2 : Nat} (e1 : l1.round = b + 2 + 2 * k1) (e2 : l2.round = b + 2 + 2 * k2) :
    oldest p t d1 k1 (l1.round - 2) l1 = oldest p t d2 k2 (l2.round - 2) l2 := by
  rcases Nat.lt_trichotomy l1.round l2.round with hlt | heq | hgt
  · symm
    exact oldest_through hc hU h1 h2 hg1 hg2 hl1 hm1 hs1 k1 e1 k2 (l2.round - 2) l2 (by omega)
      (by omega) hm2 (by omega)
  · rw [heq] at hl1
    have := IsLeader.eq hU hl1 hl2
    subst this
    have : k1 = k2 := by omega
    subst this
    unfold oldest
    congr 2
    exact walk_agree hU h1 h2 k1 _ l1 hm1 hm2 (by omega) (by omega) (by omega)
  · exact oldest_through hc hU h2 h1 hg2 hg1 hl2 hm2 hs2 k2 e2 k1 (l1.round - 2) l1 (by omega)
      (by omega) hm1 (by omega)

end Bull
end Verif
