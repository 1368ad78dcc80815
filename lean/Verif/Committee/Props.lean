import Verif.Committee.Model
import Mathlib.Data.Finset.Card
import Mathlib.Data.List.Nodup
import Mathlib.Data.Finset.Dedup
import Mathlib.Algebra.BigOperators.Group.Finset.Basic
/-
C01: quorum arithmetic.

Specification: `Members c` is the set of authority identifiers of the committee;
`maxFaults n = ⌊(n-1)/3⌋` is the number of Byzantine members a committee of `n` tolerates.
-/
namespace Verif
namespace Committee

/-- Specification: the set of member identifiers. -/
def Members (c : Committee) : Finset AuthorityId := (c.authorities.map (·.id)).toFinset

/-- Specification: the classical fault bound `f = ⌊(n-1)/3⌋`. -/
def maxFaults (c : Committee) : Nat := (c.size - 1) / 3

theorem mem_members {c : Committee} {x : AuthorityId} :
    x ∈ c.Members ↔ ∃ a ∈ c.authorities, a.id = x := by
  simp [Members]

theorem card_members {c : Committee} (h : c.WF) : c.Members.card = c.size := by
  unfold Members size
  rw [List.toFinset_card_of_nodup h.idsNodup, List.length_map]

theorem authority_isSome {c : Committee} {x : AuthorityId} :
    (c.authority x).isSome ↔ x ∈ c.Members := by
  simp [authority, mem_members, List.find?_isSome]

theorem isAuthority_iff {c : Committee} {x : AuthorityId} :
    c.isAuthority x = true ↔ x ∈ c.Members := authority_isSome

theorem authority_eq_none {c : Committee} {x : AuthorityId} :
    c.authority x = none ↔ x ∉ c.Members := by
  rw [← authority_isSome]; cases c.authority x <;> simp

theorem votingPowerById_eq {c : Committee} {x : AuthorityId} :
    c.votingPowerById x = if x ∈ c.Members then 1 else 0 := by
  unfold votingPowerById
  split
  · rename_i h; rw [authority_eq_none] at h; simp [h]
  · rename_i h
    have : x ∈ c.Members := by rw [← authority_isSome, h]; rfl
    simp [this]

/-- The power of a duplicate-free list is the number of members in it. -/
theorem power_eq_card {c : Committee} {l : List AuthorityId} (hl : l.Nodup) :
    c.power l = (l.toFinset ∩ c.Members).card := by
  unfold power
  induction l with
  | nil => simp
  | cons x xs ih =>
    have hx : x ∉ xs := (List.nodup_cons.mp hl).1
    have ih := ih (List.nodup_cons.mp hl).2
    simp only [List.map_cons, List.sum_cons, List.toFinset_cons]
    rw [ih, votingPowerById_eq]
    by_cases hm : x ∈ c.Members
    · rw [Finset.insert_inter_of_mem hm, Finset.card_insert_of_notMem]
      · simp [hm, Nat.add_comm]
      · simp [hx]
    · rw [Finset.insert_inter_of_notMem hm]; simp [hm]

/-! ### Property C01 -/

/-- C01 (a): the thresholds are `N - f` and `f + 1` for `f = ⌊(N-1)/3⌋`. -/
theorem thresholds_exact (c : Committee) (h : c.WF) :
    c.quorumThreshold = c.size - c.maxFaults ∧ c.validityThreshold = c.maxFaults + 1 ∧
    c.quorumThreshold ≤ c.size := by
  have := h.two
  unfold quorumThreshold validityThreshold maxFaults
  refine ⟨by omega, ?_, by omega⟩
  simp only; split <;> omega

/-- C01 (b): two vote sets that each reach the quorum threshold have at least validity-threshold
many members of the committee in common. The sets may contain strangers. -/
theorem quorum_intersection (c : Committee) (h : c.WF) (A B : List AuthorityId)
    (hA : A.Nodup) (hB : B.Nodup)
    (qA : c.reachedQuorum (c.power A) = true) (qB : c.reachedQuorum (c.power B) = true) :
    c.validityThreshold ≤ (A.toFinset ∩ B.toFinset ∩ c.Members).card := by
  simp only [reachedQuorum, decide_eq_true_eq, power_eq_card hA, power_eq_card hB] at qA qB
  obtain ⟨hq, hv, -⟩ := thresholds_exact c h
  have hN := card_members h
  have h2 := h.two
  set X := A.toFinset ∩ c.Members
  set Y := B.toFinset ∩ c.Members
  have hXY : A.toFinset ∩ B.toFinset ∩ c.Members = X ∩ Y := by
    ext z; simp only [X, Y, Finset.mem_inter]; tauto
  rw [hXY]
  have hu : (X ∪ Y).card ≤ c.Members.card :=
    Finset.card_le_card (Finset.union_subset Finset.inter_subset_right Finset.inter_subset_right)
  have hs := Finset.card_union_add_card_inter X Y
  unfold maxFaults at *
  omega

/-- C01 (c): whatever set `F` of at most `f` members is faulty, two quorums share a member that is
not faulty. -/
theorem quorums_share_honest (c : Committee) (h : c.WF) (A B : List AuthorityId)
    (hA : A.Nodup) (hB : B.Nodup)
    (qA : c.reachedQuorum (c.power A) = true) (qB : c.reachedQuorum (c.power B) = true)
    (F : Finset AuthorityId) (hF : F.card ≤ c.maxFaults) :
    ∃ x, x ∈ A ∧ x ∈ B ∧ x ∈ c.Members ∧ x ∉ F := by
  have hi := quorum_intersection c h A B hA hB qA qB
  obtain ⟨-, hv, -⟩ := thresholds_exact c h
  have : ¬ (A.toFinset ∩ B.toFinset ∩ c.Members) ⊆ F := fun hs => by
    have := Finset.card_le_card hs; omega
  obtain ⟨x, hx, hxF⟩ := Finset.not_subset.mp this
  simp only [Finset.mem_inter, List.mem_toFinset] at hx
  exact ⟨x, hx.1.1, hx.1.2, hx.2, hxF⟩

/-- C01 (d): a quorum and a validity set share a member. -/
theorem quorum_meets_validity (c : Committee) (h : c.WF) (A B : List AuthorityId)
    (hA : A.Nodup) (hB : B.Nodup)
    (qA : c.reachedQuorum (c.power A) = true) (vB : c.reachedValidity (c.power B) = true) :
    ∃ x, x ∈ A ∧ x ∈ B ∧ x ∈ c.Members := by
  simp only [reachedQuorum, reachedValidity, decide_eq_true_eq, power_eq_card hA,
    power_eq_card hB] at qA vB
  obtain ⟨hq, hv, -⟩ := thresholds_exact c h
  have hN := card_members h
  have h2 := h.two
  set X := A.toFinset ∩ c.Members with hX
  set Y := B.toFinset ∩ c.Members with hY
  have hu : (X ∪ Y).card ≤ c.Members.card :=
    Finset.card_le_card (Finset.union_subset Finset.inter_subset_right Finset.inter_subset_right)
  have hs := Finset.card_union_add_card_inter X Y
  unfold maxFaults at *
  have hpos : 0 < (X ∩ Y).card := by omega
  obtain ⟨x, hx⟩ := Finset.card_pos.mp hpos
  simp only [hX, hY, Finset.mem_inter, List.mem_toFinset] at hx
  exact ⟨x, hx.1.1, hx.2.1, hx.1.2⟩

/-- C01 (e): a set that reaches validity contains a member outside any faulty set of size `≤ f`. -/
theorem validity_has_honest (c : Committee) (h : c.WF) (B : List AuthorityId) (hB : B.Nodup)
    (vB : c.reachedValidity (c.power B) = true) (F : Finset AuthorityId)
    (hF : F.card ≤ c.maxFaults) : ∃ x, x ∈ B ∧ x ∈ c.Members ∧ x ∉ F := by
  simp only [reachedValidity, decide_eq_true_eq, power_eq_card hB] at vB
  obtain ⟨-, hv, -⟩ := thresholds_exact c h
  have : ¬ (B.toFinset ∩ c.Members) ⊆ F := fun hs => by
    have := Finset.card_le_card hs; omega
  obtain ⟨x, hx, hxF⟩ := Finset.not_subset.mp this
  simp only [Finset.mem_inter, List.mem_toFinset] at hx
  exact ⟨x, hx.1, hx.2, hxF⟩

/-- C01 (f): the members outside a faulty set of size `≤ f` reach a quorum on their own. -/
theorem honest_reach_quorum (c : Committee) (h : c.WF) (H : List AuthorityId) (hH : H.Nodup)
    (F : Finset AuthorityId) (hF : F.card ≤ c.maxFaults)
    (hall : ∀ x ∈ c.Members, x ∉ F → x ∈ H) :
    c.reachedQuorum (c.power H) = true := by
  simp only [reachedQuorum, decide_eq_true_eq, power_eq_card hH]
  obtain ⟨hq, -, -⟩ := thresholds_exact c h
  have hN := card_members h
  have hsub : c.Members ⊆ (H.toFinset ∩ c.Members) ∪ F := by
    intro x hx
    by_cases hxF : x ∈ F
    · simp [hxF]
    · simp [hall x hx hxF, hx]
  have h1 := Finset.card_le_card hsub
  have h2 := Finset.card_union_le (H.toFinset ∩ c.Members) F
  omega

/-- C01 (g): the two implementations of the quorum threshold (method and free function) agree. -/
theorem quorumThresholdOf_eq (c : Committee) : quorumThresholdOf c.size = c.quorumThreshold := rfl

/-- A committee of four used for the non-vacuity examples. -/
def four : Committee :=
  { epoch := 1, authorities := [⟨30, 1, 0⟩, ⟨10, 2, 0⟩, ⟨40, 3, 0⟩, ⟨20, 4, 0⟩] }

theorem four_wf : four.WF := ⟨by decide, by decide, by decide⟩

-- hypotheses are met: two different quorums of `four`, one Byzantine member in both
example : four.reachedQuorum (four.power [10, 20, 30]) = true ∧
    four.reachedQuorum (four.power [20, 30, 40, 99]) = true ∧
    ({20} : Finset Nat).card ≤ four.maxFaults ∧
    four.reachedValidity (four.power [10, 40]) = true ∧
    four.reachedQuorum (four.power [10, 20]) = false := by decide

end Committee
end Verif
