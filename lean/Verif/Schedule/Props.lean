import Verif.Bullshark.Example
/-
C15-C17: leader schedule, swap table, reputation scores.
-/
namespace Verif

open Bull (Setup Reachable Node SubDag Params nextScores addSupport baseScores supports)

namespace SwapTable

variable {c : Committee}

/-! ### arithmetic -/

theorem isqrtAux_zero (k : Nat) : isqrtAux k 0 = 0 := by
  induction k with
  | zero => rfl
  | succ k ih => unfold isqrtAux; rw [if_neg (by simp)]; exact ih

theorem isqrtAux_le (k n : Nat) : isqrtAux k n ≤ k := by
  induction k with
  | zero => exact Nat.le_refl _
  | succ k ih => unfold isqrtAux; split <;> omega

/-- `isqrt` is the integer square root. -/
theorem isqrt_spec (n : Nat) : isqrt n * isqrt n ≤ n ∧ n < (isqrt n + 1) * (isqrt n + 1) := by
  have key : ∀ k, n < (k + 1) * (k + 1) →
      isqrtAux k n * isqrtAux k n ≤ n ∧ n < (isqrtAux k n + 1) * (isqrtAux k n + 1) := by
    intro k
    induction k with
    | zero => intro h; simp [isqrtAux] at *; omega
    | succ k ih =>
      intro h
      unfold isqrtAux
      split
      · exact ⟨by assumption, h⟩
      · exact ih (by omega)
  exact key n (by
    have : n + 1 ≤ (n + 1) * (n + 1) := Nat.le_mul_of_pos_left _ (by omega)
    omega)

theorem descLe_trans (a b d : Nat × Nat) (h1 : Scores.descLe a b = true)
    (h2 : Scores.descLe b d = true) : Scores.descLe a d = true := by
  simp [Scores.descLe] at *; omega

theorem descLe_total (a b : Nat × Nat) : Scores.descLe a b = true ∨ Scores.descLe b a = true := by
  simp [Scores.descLe]; omega

theorem byScoreDesc_sorted (s : Scores) :
    s.byScoreDesc.Pairwise (fun a b => b.2 ≤ a.2) := by
  have := stableSort_pairwise descLe_trans descLe_total s.scores
  unfold Scores.byScoreDesc
  refine this.imp ?_
  intro a b h
  simp [Scores.descLe] at h; omega

theorem mem_byScoreDesc {s : Scores} {x : Nat × Nat} : x ∈ s.byScoreDesc ↔ x ∈ s.scores :=
  (stableSort_perm _).mem_iff

theorem le_highest {s : Scores} {x : Nat × Nat} (h : x ∈ s.byScoreDesc) :
    x.2 ≤ highest s.byScoreDesc := by
  have hs := byScoreDesc_sorted s
  generalize s.byScoreDesc = l at *
  cases l with
  | nil => simp at h
  | cons y ys =>
    simp [highest]
    rcases List.mem_cons.mp h with rfl | h
    · exact Nat.le_refl _
    · exact (List.pairwise_cons.mp hs).1 x h

/-- A non-zero spread means somebody has points. -/
theorem highest_pos {s : Scores} (h : stdDev s.byScoreDesc ≠ 0) : 1 ≤ highest s.byScoreDesc := by
  by_contra h0
  apply h
  have hall : ∀ x ∈ s.byScoreDesc, x.2 = 0 := fun x hx => by have := le_highest hx; omega
  have e1 : (s.byScoreDesc.map (·.2)).sum = 0 := by
    apply List.sum_eq_zero
    intro a ha
    obtain ⟨x, hx, rfl⟩ := List.mem_map.mp ha
    exact hall x hx
  have e2 : mean s.byScoreDesc = 0 := by unfold mean; rw [e1]; simp
  have e3 : (s.byScoreDesc.map (fun x => sqDiff x.2 (mean s.byScoreDesc))).sum = 0 := by
    apply List.sum_eq_zero
    intro a ha
    obtain ⟨x, hx, rfl⟩ := List.mem_map.mp ha
    rw [hall x hx, e2]
    rfl
  unfold stdDev
  rw [e3]
  simp [isqrt, isqrtAux_zero]

/-! ### the two loops -/

/-- What the loop over the ceiling returns: the members at or below some ceiling, at most the starting
one, and either few enough of them or the ceiling is 0. -/
theorem badLoop_spec (auths : List (Nat × Nat)) (thr : Nat) {sd : Nat} (hsd : 1 ≤ sd) (fuel ceil : Nat)
    (hf : ceil < fuel) : ∃ k, badLoop c auths thr sd fuel ceil = (badAt c auths k, k) ∧ k ≤ ceil ∧
      ((badAt c auths k).length ≤ thr ∨ k = 0) := by
  induction fuel generalizing ceil with
  | zero => omega
  | succ fuel ih =>
    unfold badLoop
    split
    · exact ⟨ceil, rfl, Nat.le_refl _, Or.inl (by assumption)⟩
    · split
      · exact ⟨ceil, rfl, Nat.le_refl _, Or.inr (by omega)⟩
      · obtain ⟨k, h1, h2, h3⟩ := ih (ceil - sd) (by omega)
        exact ⟨k, h1, by omega, h3⟩

/-- With more iterations allowed the result is the same: the bound is never what ends the loop. -/
theorem badLoop_unfold (auths : List (Nat × Nat)) (thr : Nat) {sd : Nat} (hsd : 1 ≤ sd)
    (f1 f2 ceil : Nat) (h1 : ceil < f1) (h2 : ceil < f2) :
    badLoop c auths thr sd f1 ceil = badLoop c auths thr sd f2 ceil := by
  induction f1 generalizing f2 ceil with
  | zero => omega
  | succ f1 ih =>
    cases f2 with
    | zero => omega
    | succ f2 =>
      unfold badLoop
      split
      · rfl
      · split
        · rfl
        · exact ih f2 _ (by omega) (by omega)

/-- What the loop over the floor returns: the members at or above some floor between the limit and the
starting one; either enough of them or the floor is the limit. -/
theorem goodLoop_spec (auths : List (Nat × Nat)) (thr : Nat) {sd lo : Nat} (hsd : 1 ≤ sd)
    (fuel floor : Nat) (hf : floor < fuel) (hlo : lo ≤ floor) (hlo1 : 1 ≤ lo) :
    ∃ k, goodLoop c auths thr sd lo fuel floor = goodAt c auths k ∧ lo ≤ k ∧ k ≤ floor ∧
      (thr ≤ (goodAt c auths k).length ∨ k = lo) := by
  induction fuel generalizing floor with
  | zero => omega
  | succ fuel ih =>
    unfold goodLoop
    split
    · exact ⟨floor, rfl, hlo, Nat.le_refl _, Or.inl (by assumption)⟩
    · split
      · rename_i h
        exact ⟨floor, rfl, hlo, Nat.le_refl _, Or.inr (by omega)⟩
      · obtain ⟨k, h1, h2, h3, h4⟩ := ih (max (floor - sd) lo) (by omega) (by omega)
        exact ⟨k, h1, h2, by omega, h4⟩

/-- The same as `badLoop_unfold` for the good nodes. -/
theorem goodLoop_unfold (auths : List (Nat × Nat)) (thr : Nat) {sd lo : Nat} (hsd : 1 ≤ sd)
    (f1 f2 floor : Nat) (h1 : floor < f1) (h2 : floor < f2) (hlo : lo ≤ floor) :
    goodLoop c auths thr sd lo f1 floor = goodLoop c auths thr sd lo f2 floor := by
  induction f1 generalizing f2 floor with
  | zero => omega
  | succ f1 ih =>
    cases f2 with
    | zero => omega
    | succ f2 =>
      unfold goodLoop
      split
      · rfl
      · split
        · rfl
        · exact ih f2 _ (by omega) (by omega) (by omega)

/-- Shape of a table: empty, or the members scoring at most `lo` are bad and those scoring at least
`hi > lo` are good. -/
theorem new_shape (c : Committee) (s : Scores) (pct : Nat) :
    SwapTable.new c s pct = {} ∨ ∃ lo hi, lo < hi ∧ hi ≤ highest s.byScoreDesc ∧
      SwapTable.new c s pct = { good := goodAt c s.byScoreDesc hi, bad := badAt c s.byScoreDesc lo } ∧
      ((badAt c s.byScoreDesc lo).length ≤ listThreshold s.byScoreDesc.length pct ∨ lo = 0) ∧
      (listThreshold s.byScoreDesc.length pct ≤ (goodAt c s.byScoreDesc hi).length ∨ hi = lo + 1) := by
  unfold SwapTable.new
  simp only
  split
  · exact Or.inl rfl
  · rename_i h
    rw [not_or] at h
    have hpos := highest_pos h.1
    have hsd : 1 ≤ stdDev s.byScoreDesc := by omega
    obtain ⟨k, e1, h1, h2⟩ := badLoop_spec (c := c) s.byScoreDesc
      (listThreshold s.byScoreDesc.length pct) hsd (highest s.byScoreDesc - 2 * stdDev s.byScoreDesc + 1)
      (highest s.byScoreDesc - 2 * stdDev s.byScoreDesc) (by omega)
    rw [e1]
    simp only
    obtain ⟨m, e2, g1, g2, g3⟩ := goodLoop_spec (c := c) s.byScoreDesc
      (listThreshold s.byScoreDesc.length pct) hsd (lo := k + 1)
      (max (highest s.byScoreDesc - stdDev s.byScoreDesc) (k + 1) + 1)
      (max (highest s.byScoreDesc - stdDev s.byScoreDesc) (k + 1)) (by omega) (by omega) (by omega)
    rw [e2]
    exact Or.inr ⟨k, m, by omega, by omega, rfl, h2, g3⟩

/-! ### C15, C16 -/

theorem mem_badAt {auths : List (Nat × Nat)} {k : Nat} {a : Authority} :
    a ∈ badAt c auths k ↔ ∃ x ∈ auths, x.2 ≤ k ∧ c.authority x.1 = some a := by
  unfold badAt
  rw [List.mem_filterMap]
  simp only [List.mem_reverse]
  constructor
  · rintro ⟨x, hx, h⟩
    split at h
    · exact ⟨x, hx, by assumption, h⟩
    · cases h
  · rintro ⟨x, hx, h1, h2⟩
    exact ⟨x, hx, by rw [if_pos h1]; exact h2⟩

theorem mem_goodAt {auths : List (Nat × Nat)} {k : Nat} {a : Authority} :
    a ∈ goodAt c auths k ↔ ∃ x ∈ auths, k ≤ x.2 ∧ c.authority x.1 = some a := by
  unfold goodAt
  rw [List.mem_filterMap]
  constructor
  · rintro ⟨x, hx, h⟩
    split at h
    · exact ⟨x, hx, by assumption, h⟩
    · cases h
  · rintro ⟨x, hx, h1, h2⟩
    exact ⟨x, hx, by rw [if_pos h1]; exact h2⟩

theorem authority_some {id : AuthorityId} {a : Authority} (h : c.authority id = some a) :
    a ∈ c.authorities ∧ a.id = id := by
  unfold Committee.authority at h
  exact ⟨List.mem_of_find?_eq_some h, by simpa using List.find?_some h⟩

theorem scoreOf_of_mem {s : Scores} (hs : SMap.Sorted s.scores) {x : Nat × Nat}
    (h : x ∈ s.byScoreDesc) : s.scoreOf x.1 = x.2 := by
  unfold Scores.scoreOf
  rw [SMap.get?_of_mem hs (mem_byScoreDesc.mp h)]
  rfl

/-- C15. Both lists of a table consist of committee members. -/
theorem members (c : Committee) (s : Scores) (pct : Nat) {a : Authority}
    (h : a ∈ (new c s pct).good ∨ a ∈ (new c s pct).bad) : a ∈ c.authorities := by
  rcases new_shape c s pct with e | ⟨lo, hi, -, -, e, -⟩
  · rw [e] at h; simp at h
  · rw [e] at h
    rcases h with h | h
    · obtain ⟨x, -, -, hx⟩ := mem_goodAt.mp h
      exact (authority_some hx).1
    · obtain ⟨x, -, -, hx⟩ := mem_badAt.mp h
      exact (authority_some hx).1

/-- C16. Every demoted member scores strictly below every promoted one; with this the lists of C15
are disjoint. -/
theorem bad_below_good (c : Committee) {s : Scores} (hs : SMap.Sorted s.scores) (pct : Nat)
    {a b : Authority} (ha : a ∈ (new c s pct).bad) (hb : b ∈ (new c s pct).good) :
    s.scoreOf a.id < s.scoreOf b.id := by
  rcases new_shape c s pct with e | ⟨lo, hi, hlt, -, e, -⟩
  · rw [e] at ha; simp at ha
  · rw [e] at ha hb
    obtain ⟨x, hx, h1, h2⟩ := mem_badAt.mp ha
    obtain ⟨y, hy, h3, h4⟩ := mem_goodAt.mp hb
    rw [(authority_some h2).2, (authority_some h4).2, scoreOf_of_mem hs hx, scoreOf_of_mem hs hy]
    omega

/-- C15. The good list is non-empty whenever the bad list is: the panic in `swap` cannot happen. -/
theorem good_nonempty {s : Scores} (hcov : s.Covers c) (pct : Nat)
    (h : (new c s pct).bad ≠ []) : (new c s pct).good ≠ [] := by
  rcases new_shape c s pct with e | ⟨lo, hi, hlt, hhi, e, -⟩
  · rw [e] at h; simp at h
  · rw [e]
    simp only
    -- the best member is on the list
    cases hd : s.byScoreDesc with
    | nil =>
      rw [hd] at hhi
      simp [highest] at hhi
      omega
    | cons x xs =>
      have hx : x ∈ s.byScoreDesc := by rw [hd]; simp
      have hmem : x.1 ∈ c.Members := (hcov.2 x.1).mp
        (List.mem_map.mpr ⟨x, mem_byScoreDesc.mp hx, rfl⟩)
      rw [Committee.mem_members] at hmem
      cases ha : c.authority x.1 with
      | none =>
        unfold Committee.authority at ha
        rw [List.find?_eq_none] at ha
        obtain ⟨a, ha1, ha2⟩ := hmem
        exact absurd (by simp [ha2]) (ha a ha1)
      | some a =>
        have : a ∈ goodAt c (x :: xs) hi := mem_goodAt.mpr ⟨x, by simp, by
          rw [hd] at hhi; simpa [highest] using hhi, ha⟩
        intro he
        rw [he] at this
        simp at this

/-- C16, the part that holds: at most `max 1 (N * pct / 100)` members are demoted - unless all of the
demoted have no points at all. -/
theorem bad_count_partial (c : Committee) {s : Scores} (hs : SMap.Sorted s.scores) (pct : Nat) :
    (new c s pct).bad.length ≤ max (s.totalAuthorities * pct / 100) 1 ∨
      ∀ a ∈ (new c s pct).bad, s.scoreOf a.id = 0 := by
  have hlen : s.byScoreDesc.length = s.totalAuthorities := (stableSort_perm _).length_eq
  rcases new_shape c s pct with e | ⟨lo, hi, -, -, e, h, -⟩
  · left; rw [e]; simp
  · rw [e, ← hlen]
    rcases h with h | h
    · exact Or.inl h
    · right
      intro a ha
      obtain ⟨x, hx, h1, h2⟩ := mem_badAt.mp ha
      rw [(authority_some h2).2, scoreOf_of_mem hs hx]
      omega

/-- C16. Not everybody is demoted. -/
theorem bad_not_all {s : Scores} (hcov : s.Covers c) (pct : Nat) :
    (new c s pct).bad = [] ∨ ∃ b ∈ c.authorities, b ∉ (new c s pct).bad := by
  by_cases h : (new c s pct).bad = []
  · exact Or.inl h
  · right
    cases hg : (new c s pct).good with
    | nil => exact absurd hg (good_nonempty hcov pct h)
    | cons b bs =>
      have hb : b ∈ (new c s pct).good := by rw [hg]; simp
      refine ⟨b, members c s pct (Or.inl hb), fun hbad => ?_⟩
      exact Nat.lt_irrefl _ (bad_below_good c hcov.1 pct hbad hb)

/-- C16 fails as documented ("no more than the threshold"): ten members, five without points and five
with ten; with a threshold of 33 percent (three members) all five are demoted. -/
theorem bad_count_exceeded : ∃ (c : Committee) (s : Scores), c.WF ∧ s.Covers c ∧ s.final = true ∧
    max (s.totalAuthorities * 33 / 100) 1 < (new c s 33).bad.length := by
  refine ⟨⟨0, (List.range 10).map (fun i => ⟨i, i, 0⟩)⟩,
    ⟨(List.range 10).map (fun i => (i, if i < 5 then 0 else 10)), true⟩, ⟨by decide, by decide, by decide⟩,
    ⟨by unfold SMap.Sorted; decide, fun a => ?_⟩, rfl, by decide +kernel⟩
  rw [Committee.mem_members]
  simp

end SwapTable

/-! ### C15: the leader of a round -/

/-- C15. Every round has a leader, and it is a committee member, for the initial table and for the
table of any scores that cover the committee. -/
theorem leader_total {c : Committee} (hc : c.WF) (rng : Nat → Nat → Nat) {t : SwapTable}
    (ht : t = {} ∨ ∃ s : Scores, s.Covers c ∧ ∃ pct, t = SwapTable.new c s pct) (r : Round) :
    ∃ a, scheduleLeader c rng t r = some a ∧ a ∈ c.authorities := by
  have hlen : c.authoritiesById.length = c.size := (stableSort_perm _).length_eq
  have h2 := hc.two
  have hlt : (r / 2 - 1) % c.size < c.authoritiesById.length := by
    rw [hlen]; exact Nat.mod_lt _ (by omega)
  unfold scheduleLeader
  rw [List.getElem?_eq_getElem hlt]
  simp only
  have hm : c.authoritiesById[(r / 2 - 1) % c.size] ∈ c.authorities :=
    mem_authoritiesById.mp (List.getElem_mem _)
  generalize c.authoritiesById[(r / 2 - 1) % c.size] = a at *
  refine ⟨_, rfl, ?_⟩
  cases hsw : t.swap rng a.id r with
  | none => exact hm
  | some b =>
    unfold SwapTable.swap at hsw
    split at hsw
    · have hb : b ∈ t.good := List.mem_of_getElem? hsw
      rcases ht with rfl | ⟨s, -, pct, rfl⟩
      · simp at hb
      · exact SwapTable.members c s pct (Or.inl hb)
    · cases hsw

/-- C15. Who leads: the member whose turn it is keeps its slot unless it is on the bad list, and then a
member of the good list takes it. -/
theorem leader_spec {c : Committee} (hc : c.WF) (rng : Nat → Nat → Nat) {t : SwapTable}
    (ht : t = {} ∨ ∃ s : Scores, s.Covers c ∧ ∃ pct, t = SwapTable.new c s pct) (r : Round) :
    ∃ due ∈ c.authorities, c.authoritiesById[(r / 2 - 1) % c.size]? = some due ∧
      ((due ∉ t.bad → scheduleLeader c rng t r = some due) ∧
       (due ∈ t.bad → ∃ b ∈ t.good, scheduleLeader c rng t r = some b ∧ b ∉ t.bad)) := by
  have hlen : c.authoritiesById.length = c.size := (stableSort_perm _).length_eq
  have h2 := hc.two
  have hlt : (r / 2 - 1) % c.size < c.authoritiesById.length := by
    rw [hlen]; exact Nat.mod_lt _ (by omega)
  have hg := List.getElem?_eq_getElem hlt
  have hm : c.authoritiesById[(r / 2 - 1) % c.size] ∈ c.authorities :=
    mem_authoritiesById.mp (List.getElem_mem _)
  generalize c.authoritiesById[(r / 2 - 1) % c.size] = a at *
  have hbadmem : ∀ b ∈ t.bad, b ∈ c.authorities := by
    intro b hb
    rcases ht with rfl | ⟨s, -, pct, rfl⟩
    · simp at hb
    · exact SwapTable.members c s pct (Or.inr hb)
  have hany : t.bad.any (fun x => x.id == a.id) = true ↔ a ∈ t.bad := by
    rw [List.any_eq_true]
    constructor
    · rintro ⟨x, hx, he⟩
      have he : x.id = a.id := by simpa using he
      have : x = a := by
        have hnd := hc.idsNodup
        exact List.inj_on_of_nodup_map hnd (hbadmem x hx) hm he
      exact this ▸ hx
    · exact fun h => ⟨a, h, by simp⟩
  refine ⟨a, hm, hg, fun hnb => ?_, fun hb => ?_⟩
  · unfold scheduleLeader
    rw [hg]
    simp only
    unfold SwapTable.swap
    rw [if_neg (by rw [hany]; exact hnb)]
    rfl
  · rcases ht with rfl | ⟨s, hcov, pct, rfl⟩
    · simp at hb
    · have hne := SwapTable.good_nonempty hcov pct (List.ne_nil_of_mem hb)
      have hpos : 0 < (SwapTable.new c s pct).good.length := List.length_pos_iff.mpr hne
      have hi : rng r (SwapTable.new c s pct).good.length % (SwapTable.new c s pct).good.length <
        (SwapTable.new c s pct).good.length := Nat.mod_lt _ hpos
      refine ⟨(SwapTable.new c s pct).good[rng r (SwapTable.new c s pct).good.length %
        (SwapTable.new c s pct).good.length], List.getElem_mem _, ?_, ?_⟩
      · unfold scheduleLeader
        rw [hg]
        simp only
        unfold SwapTable.swap
        rw [if_pos (hany.mpr hb), List.getElem?_eq_getElem hi]
        rfl
      · intro hb2
        exact Nat.lt_irrefl _ (SwapTable.bad_below_good c hcov.1 pct hb2 (List.getElem_mem _))

/-- C15. The two lists are disjoint. -/
theorem good_bad_disjoint (c : Committee) {s : Scores} (hcov : s.Covers c) (pct : Nat) {a : Authority}
    (h1 : a ∈ (SwapTable.new c s pct).good) : a ∉ (SwapTable.new c s pct).bad :=
  fun h2 => Nat.lt_irrefl _ (SwapTable.bad_below_good c hcov.1 pct h2 h1)

/-- C15. Round robin: among any `N` consecutive leader slots every member leads exactly once, when
nobody is on the bad list. -/
theorem round_robin {c : Committee} (hc : c.WF) (rng : Nat → Nat → Nat) (k : Nat) {a : Authority}
    (ha : a ∈ c.authorities) : ∃ i, (i < c.size ∧ scheduleLeader c rng {} (2 * (k + i) + 2) = some a) ∧
      ∀ j, j < c.size → scheduleLeader c rng {} (2 * (k + j) + 2) = some a → j = i := by
  have hlen : c.authoritiesById.length = c.size := (stableSort_perm _).length_eq
  have h2 := hc.two
  have hsl : ∀ i, scheduleLeader c rng {} (2 * (k + i) + 2) = c.authoritiesById[(k + i) % c.size]? := by
    intro i
    unfold scheduleLeader
    have : (2 * (k + i) + 2) / 2 - 1 = k + i := by omega
    rw [this]
    cases c.authoritiesById[(k + i) % c.size]? <;> rfl
  have hnd : c.authoritiesById.Nodup := by
    unfold Committee.authoritiesById
    rw [(stableSort_perm _).nodup_iff]
    exact List.Nodup.of_map _ hc.idsNodup
  obtain ⟨m, hm, hma⟩ := List.getElem_of_mem (mem_authoritiesById.mpr ha)
  rw [hlen] at hm
  -- i with (k + i) % n = m
  refine ⟨(m + c.size - k % c.size) % c.size, ⟨Nat.mod_lt _ (by omega), ?_⟩, ?_⟩
  · rw [hsl]
    have : (k + (m + c.size - k % c.size) % c.size) % c.size = m := by
      rw [Nat.add_mod, Nat.mod_mod, ← Nat.add_mod]
      have hk := Nat.mod_lt k (show 0 < c.size by omega)
      have : k + (m + c.size - k % c.size) = m + c.size * (k / c.size + 1) := by
        have := Nat.div_add_mod k c.size
        rw [Nat.mul_add, Nat.mul_one]
        omega
      rw [this, Nat.add_mul_mod_self_left, Nat.mod_eq_of_lt hm]
    rw [this, List.getElem?_eq_getElem (by omega), hma]
  · intro j hj he
    rw [hsl] at he
    obtain ⟨h1, h3⟩ := List.getElem?_eq_some_iff.mp he
    have hjm : (k + j) % c.size = m := by
      have := (List.Nodup.getElem_inj_iff hnd (hi := h1) (hj := by omega)).mp (h3.trans hma.symm)
      exact this
    subst hjm
    have hk := Nat.mod_lt k (show 0 < c.size by omega)
    rw [show ((k + j) % c.size + c.size - k % c.size) = (k + j) % c.size + (c.size - k % c.size) by omega,
      Nat.add_mod, Nat.mod_mod, ← Nat.add_mod]
    have : k + j + (c.size - k % c.size) = j + c.size * (k / c.size + 1) := by
      have := Nat.div_add_mod k c.size
      rw [Nat.mul_add, Nat.mul_one]
      omega
    rw [this, Nat.add_mul_mod_self_left, Nat.mod_eq_of_lt hj]

/-! ### C17: reputation scores -/

theorem scoreOf_addScore {s : Scores} (a b : AuthorityId) (n : Nat) :
    (s.addScore a n).scoreOf b = s.scoreOf b + if b = a then n else 0 := by
  unfold Scores.addScore Scores.scoreOf
  split
  · rename_i v hv
    simp only
    rw [SMap.get?_insert]
    split
    · rename_i he; subst he; rw [hv]; simp
    · simp
  · rename_i hv
    simp only
    rw [SMap.get?_insert]
    split
    · rename_i he; subst he; rw [hv]; simp
    · simp

theorem scoreOf_foldl (hs : List Header) (s : Scores) (a : AuthorityId) :
    (hs.foldl (fun s c => s.addScore c.author 1) s).scoreOf a =
      s.scoreOf a + hs.countP (fun h => h.author == a) := by
  induction hs generalizing s with
  | nil => simp
  | cons x xs ih =>
    rw [List.foldl_cons, ih, scoreOf_addScore, List.countP_cons]
    by_cases h : x.author = a
    · subst h; simp; omega
    · rw [if_neg (fun e => h e.symm)]; simp [h]

theorem scoreOf_new (c : Committee) (a : AuthorityId) : (Scores.new c).scoreOf a = 0 := by
  unfold Scores.new Scores.scoreOf
  simp only
  cases h : SMap.get? a (SMap.ofList (c.authoritiesById.map (fun a => (a.id, 0)))) with
  | none => rfl
  | some v =>
    have hm := SMap.mem_of_get? h
    have : ∀ (l : List (Nat × Nat)), (∀ x ∈ l, x.2 = 0) → ∀ x ∈ SMap.ofList l, x.2 = 0 := by
      intro l hl x hx
      have := SMap.mem_of_mem_ofList hx
      exact hl x this
    have := this _ (by intro x hx; obtain ⟨y, -, rfl⟩ := List.mem_map.mp hx; rfl) _ hm
    simpa using this

namespace Bull

variable {U : Header → Prop} {p : Params}

theorem nextScores_spec (prev : Option SubDag) (seq : List Header) (i : Nat) :
    (nextScores p prev seq i).final = decide ((i / 2 + 1) % p.schedLen = 0) ∧
    ∀ a, (nextScores p prev seq i).scoreOf a =
      (if i / 2 % p.schedLen = 0 then 0 else ((prev.map (fun t => t.scores.scoreOf a)).getD 0)) +
      seq.countP (fun y => y.author == a && (match prev.bind (fun t => t.headers.getLast?) with
        | none => false
        | some q => y.round == q.round + 1 && y.parents.contains q.digest)) := by
  refine ⟨rfl, fun a => ?_⟩
  have e1 : (nextScores p prev seq i).scoreOf a =
      (addSupport prev seq (baseScores p prev i)).scoreOf a := rfl
  rw [e1]
  have ebase : (baseScores p prev i).scoreOf a =
      (if i / 2 % p.schedLen = 0 then 0 else ((prev.map (fun t => t.scores.scoreOf a)).getD 0)) := by
    unfold baseScores
    split
    · exact scoreOf_new _ _
    · cases prev with
      | none => exact scoreOf_new _ _
      | some t => rfl
  rw [← ebase]
  generalize baseScores p prev i = b
  unfold addSupport
  have e2 : prev.bind SubDag.leader? = prev.bind (fun t => t.headers.getLast?) := rfl
  rw [e2]
  cases prev.bind (fun t => t.headers.getLast?) with
  | none => simp
  | some q =>
    simp only
    rw [scoreOf_foldl, List.countP_filter]
    rfl

/-- C17. Scores of a committed sub-dag: at a window start they begin at zero, otherwise they continue
those of the previous sub-dag; each certificate of the sub-dag that points at the previous leader from the
round after it gives its author one point. They are final in the last slot of a window. The number of the
leader slot is half the nonce of the leader (`epoch * 2^32 + round`). -/
theorem scores_spec_partial (hS : Setup p U) {n : Node} (h : Reachable p U n) {pre post : List SubDag}
    {s : SubDag} (he : n.log = pre ++ s :: post) : ∃ l, s.headers.getLast? = some l ∧
      s.scores.final = decide ((nonce l / 2 + 1) % p.schedLen = 0) ∧
      ∀ a, s.scores.scoreOf a =
        (if nonce l / 2 % p.schedLen = 0 then 0
          else ((pre.getLast?.map (fun t => t.scores.scoreOf a)).getD 0)) +
        s.headers.countP (fun y => y.author == a && (match pre.getLast?.bind (fun t => t.headers.getLast?) with
          | none => false
          | some q => y.round == q.round + 1 && y.parents.contains q.digest)) := by
  obtain ⟨hL, hn⟩ := h.facts hS he
  obtain ⟨l, agg, h1, -, -, -, -, -, -, -, -, hsc⟩ := hn.facts hS hL
  rw [hsc]
  exact ⟨l, h1, nextScores_spec _ _ _⟩

/-- C17. Within a window scores never decrease. -/
theorem scores_mono (hS : Setup p U) {n : Node} (h : Reachable p U n) {pre post : List SubDag}
    {t s : SubDag} (he : n.log = pre ++ t :: s :: post) {l : Header}
    (hl : s.headers.getLast? = some l) (hw : nonce l / 2 % p.schedLen ≠ 0)
    (a : AuthorityId) : t.scores.scoreOf a ≤ s.scores.scoreOf a := by
  obtain ⟨l', h1, -, h2⟩ := scores_spec_partial hS h (pre := pre ++ [t]) (s := s) (post := post) (by simp [he])
  rw [hl] at h1
  cases h1
  rw [h2 a, if_neg hw]
  simp

/-- C17. Each sub-dag lists exactly the committee members. -/
theorem scores_cover (hS : Setup p U) {n : Node} (h : Reachable p U n) {s : SubDag} (hs : s ∈ n.log) :
    s.scores.totalAuthorities = p.committee.size ∧
      ∀ a, a ∈ s.scores.scores.map (·.1) ↔ ∃ x ∈ p.committee.authorities, x.id = a := by
  have hc := ((h.inv hS).1.wf hS.committee hS.gcPos hS.certs).scores s hs
  refine ⟨Scores.covers_total hS.committee hc, fun a => ?_⟩
  rw [hc.2 a, Committee.mem_members]

/-- C15. The leader of every round is defined at every reachable node: `LeaderSchedule::leader` never
panics. -/
theorem reachable_leader (hS : Setup p U) {n : Node} (h : Reachable p U n) (r : Round) :
    ∃ a ∈ p.committee.authorities, scheduleLeader p.committee p.rng n.st.table r = some a := by
  obtain ⟨hL, hs⟩ := h.inv hS
  have hw := hL.wf hS.committee hS.gcPos hS.certs
  have ht : n.st.table = {} ∨ ∃ s : Scores, s.Covers p.committee ∧
      ∃ pct, n.st.table = SwapTable.new p.committee s pct := by
    rw [hs.table]
    unfold tableOf
    split
    · exact Or.inl rfl
    · rename_i s hf
      exact Or.inr ⟨s.scores, hw.scores s (List.mem_reverse.mp (List.mem_of_find?_eq_some hf)), _, rfl⟩
  obtain ⟨a, h1, h2⟩ := leader_total hS.committee p.rng ht r
  exact ⟨a, h2, h1⟩

/-- C17 does not say that a schedule change happens every `schedLen` slots: it needs the leader of the
last slot of a window to be committed. Here slot 4 (round 8) belongs to an absent member, so the window of
five slots has no final scores and the schedule of slots 5 to 8 stays what it was. -/
theorem schedule_change_skipped : ∃ n, Reachable Fork.p Fork.U n ∧
    n.log.map (·.leaderRound) = [2, 4, 6, 10, 12, 14] ∧ (∀ s ∈ n.log, s.scores.final = false) ∧
    Fork.p.schedLen = 5 := by
  have : (run Fork.p (fun _ => 0) (Fork.certs 1 15) ⟨{}, []⟩).map (fun m => (m.log.map (·.leaderRound),
      m.log.all (fun s => s.scores.final == false))) = some ([2, 4, 6, 10, 12, 14], true) := by
    decide +kernel
  cases h : run Fork.p (fun _ => 0) (Fork.certs 1 15) ⟨{}, []⟩ with
  | none => rw [h] at this; cases this
  | some m =>
    rw [h] at this
    simp at this
    refine ⟨m, run_reachable (.start rfl) ?_ h, this.1, this.2, rfl⟩
    have : ∀ h ∈ Fork.certs 1 15, h ∈ Fork.certs 1 27 := by decide +kernel
    exact this

end Bull
end Verif
