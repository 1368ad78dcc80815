import Mathlib.Data.List.Sort
/-
A stable sort that reduces in the kernel. Models Rust's stable `sort_by_key` / `sort_by`, and the
ascending order of a `BTreeMap`.
-/
namespace Verif

/-- Insert before the first element that is not smaller. -/
def insertSorted {α : Type} (le : α → α → Bool) (x : α) : List α → List α
  | [] => [x]
  | y :: ys => if le x y then x :: y :: ys else y :: insertSorted le x ys

/-- Stable insertion sort. -/
def stableSort {α : Type} (le : α → α → Bool) : List α → List α
  | [] => []
  | x :: xs => insertSorted le x (stableSort le xs)

variable {α : Type} {le : α → α → Bool}

theorem insertSorted_perm (x : α) (l : List α) : (insertSorted le x l).Perm (x :: l) := by
  induction l with
  | nil => exact List.Perm.refl _
  | cons y ys ih =>
    unfold insertSorted
    split
    · exact List.Perm.refl _
    · exact (List.Perm.cons y ih).trans (List.Perm.swap x y ys)

theorem stableSort_perm (l : List α) : (stableSort le l).Perm l := by
  induction l with
  | nil => exact List.Perm.refl _
  | cons x xs ih => exact (insertSorted_perm x _).trans (List.Perm.cons x ih)

theorem stableSort_pairwise (htrans : ∀ a b c, le a b = true → le b c = true → le a c = true)
    (htotal : ∀ a b, le a b = true ∨ le b a = true) (l : List α) :
    (stableSort le l).Pairwise (fun a b => le a b = true) := by
  induction l with
  | nil => exact List.Pairwise.nil
  | cons x xs ih =>
    unfold stableSort
    generalize stableSort le xs = ys at ih
    induction ys with
    | nil => simp [insertSorted]
    | cons y ys ih2 =>
      rw [List.pairwise_cons] at ih
      unfold insertSorted
      split
      · rename_i h
        rw [List.pairwise_cons]
        refine ⟨?_, List.pairwise_cons.mpr ih⟩
        intro z hz
        rcases List.mem_cons.mp hz with rfl | hz
        · exact h
        · exact htrans _ _ _ h (ih.1 z hz)
      · rename_i h
        rw [List.pairwise_cons]
        refine ⟨?_, ih2 ih.2⟩
        intro z hz
        rcases List.mem_cons.mp ((insertSorted_perm x ys).mem_iff.mp hz) with rfl | hz
        · exact (htotal z y).resolve_left h
        · exact ih.1 z hz

/-- A sorted list is left as it is. -/
theorem stableSort_of_pairwise {l : List α} (h : l.Pairwise (fun a b => le a b = true)) :
    stableSort le l = l := by
  induction l with
  | nil => rfl
  | cons x xs ih =>
    rw [List.pairwise_cons] at h
    unfold stableSort
    rw [ih h.2]
    cases xs with
    | nil => rfl
    | cons y ys => unfold insertSorted; rw [if_pos (h.1 y (by simp))]

end Verif
