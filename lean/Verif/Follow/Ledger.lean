import Mathlib.Tactic.Common
import Mathlib.Data.List.Sort
/-
Property C77, first part: the ledger of download walks, crates/state-sync/src/consensus.rs:28-136.
-/
namespace Verif
namespace Follow

/-- `WalkRange` (consensus.rs:35-39). -/
structure WRange where
  id : Nat
  floor : Nat
  ceil : Nat
deriving DecidableEq

/-- `WalkLedger` (consensus.rs:41-45). -/
structure Ledger where
  nextId : Nat
  ranges : List WRange

/-- `push` (consensus.rs:117-124). -/
def Ledger.push (l : Ledger) (floor ceil : Nat) : Ledger × Nat :=
  (⟨l.nextId + 1, l.ranges ++ [⟨l.nextId, floor, ceil⟩]⟩, l.nextId)

/-- `WalkGuard::drop` (consensus.rs:132-136). -/
def Ledger.drop (l : Ledger) (id : Nat) : Ledger := ⟨l.nextId, l.ranges.filter (fun r => !decide (r.id = id))⟩

/-- The order of pairs. -/
def pairLe (a b : Nat × Nat) : Prop := a.1 < b.1 ∨ (a.1 = b.1 ∧ a.2 ≤ b.2)

instance (a b : Nat × Nat) : Decidable (pairLe a b) := by unfold pairLe; infer_instance

/-- The sweep (consensus.rs:97-110). The saturating addition is only reached below `ceil`. -/
def sweep (ceil : Nat) : List (Nat × Nat) → Nat → Bool
  | [], _ => false
  | (f, c) :: rest, needed =>
    if needed < f then false
    else if ceil ≤ c then true
    else sweep ceil rest (max needed (c + 1))

/-- Overlapping ranges, sorted (consensus.rs:84-91). -/
def overlapping (l : Ledger) (floor ceil : Nat) : List (Nat × Nat) :=
  ((l.ranges.filter (fun r => decide (floor ≤ r.ceil ∧ r.floor ≤ ceil))).map (fun r => (r.floor, r.ceil))).insertionSort pairLe

/-- `covered` in `reserve_if_uncovered` (consensus.rs:82-110). -/
def covered (l : Ledger) (floor ceil : Nat) : Bool := sweep ceil (overlapping l floor ceil) floor

/-- `reserve_if_uncovered` (consensus.rs:82-115). -/
def reserveIfUncovered (l : Ledger) (floor ceil : Nat) : Option (Ledger × Nat) :=
  if covered l floor ceil then none else some (l.push floor ceil)

/-! ### Coverage -/

theorem pairLe_total (a b : Nat × Nat) : pairLe a b ∨ pairLe b a := by
  unfold pairLe; omega

theorem pairLe_trans {a b c : Nat × Nat} (h1 : pairLe a b) (h2 : pairLe b c) : pairLe a c := by
  unfold pairLe at *; omega

instance : Std.Total pairLe := ⟨pairLe_total⟩
instance : IsTrans (Nat × Nat) pairLe := ⟨fun _ _ _ => pairLe_trans⟩

theorem sweep_iff (ceil : Nat) (rs : List (Nat × Nat)) (hs : rs.Pairwise pairLe) (needed : Nat) (hn : needed ≤ ceil) :
    sweep ceil rs needed = true ↔ ∀ h, needed ≤ h → h ≤ ceil → ∃ r ∈ rs, r.1 ≤ h ∧ h ≤ r.2 := by
  induction rs generalizing needed with
  | nil =>
    constructor
    · intro h; cases h
    · intro h
      obtain ⟨r, hr, _⟩ := h needed (Nat.le_refl _) hn
      cases hr
  | cons x rs ih =>
    obtain ⟨f, c⟩ := x
    rw [List.pairwise_cons] at hs
    unfold sweep
    split
    · rename_i hlt
      constructor
      · intro h; cases h
      · intro h
        obtain ⟨r, hr, h1, _⟩ := h needed (Nat.le_refl _) hn
        rcases List.mem_cons.mp hr with rfl | hr
        · dsimp only at h1; omega
        · have := hs.1 r hr
          unfold pairLe at this
          dsimp only at this
          omega
    · rename_i hge
      split
      · rename_i hc
        constructor
        · intro _ h h1 h2
          exact ⟨(f, c), by simp, by dsimp only; omega, by dsimp only; omega⟩
        · intro _; rfl
      · rename_i hc
        rw [ih hs.2 (max needed (c + 1)) (by omega)]
        constructor
        · intro h k h1 h2
          by_cases hk : k ≤ c
          · exact ⟨(f, c), by simp, by dsimp only; omega, hk⟩
          · obtain ⟨r, hr, h3⟩ := h k (by omega) h2
            exact ⟨r, by simp [hr], h3⟩
        · intro h k h1 h2
          obtain ⟨r, hr, h3, h4⟩ := h k (by omega) h2
          rcases List.mem_cons.mp hr with rfl | hr
          · dsimp only at h4; omega
          · exact ⟨r, hr, h3, h4⟩

/-- **A request is deferred exactly when the walks under way together cover it**, also when only their union does, and
whatever ranges (also empty ones) the others have. -/
theorem covered_iff (l : Ledger) {floor ceil : Nat} (h : floor ≤ ceil) :
    covered l floor ceil = true ↔ ∀ k, floor ≤ k → k ≤ ceil → ∃ r ∈ l.ranges, r.floor ≤ k ∧ k ≤ r.ceil := by
  unfold covered
  have hs : (overlapping l floor ceil).Pairwise pairLe := by
    unfold overlapping; exact List.pairwise_insertionSort pairLe _
  rw [sweep_iff ceil _ hs floor h]
  constructor
  · intro hc k h1 h2
    obtain ⟨x, hx, h3, h4⟩ := hc k h1 h2
    unfold overlapping at hx
    rw [List.mem_insertionSort, List.mem_map] at hx
    obtain ⟨r, hr, rfl⟩ := hx
    exact ⟨r, (List.mem_filter.mp hr).1, h3, h4⟩
  · intro hc k h1 h2
    obtain ⟨r, hr, h3, h4⟩ := hc k h1 h2
    refine ⟨(r.floor, r.ceil), ?_, h3, h4⟩
    unfold overlapping
    rw [List.mem_insertionSort, List.mem_map]
    exact ⟨r, List.mem_filter.mpr ⟨hr, by simp; omega⟩, rfl⟩

/-! ### The ledger over time -/

/-- What happens to it. -/
inductive Op where
  | reserve (floor ceil : Nat)
  | tryReserve (floor ceil : Nat)
  /-- the guard with this id is dropped: the walk ended, panicked or was cancelled -/
  | release (id : Nat)

def apply (l : Ledger) : Op → Ledger
  | .reserve f c => (l.push f c).1
  | .tryReserve f c => match reserveIfUncovered l f c with
    | none => l
    | some r => r.1
  | .release id => l.drop id

def history (ops : List Op) : Ledger := ops.foldl apply ⟨0, []⟩

theorem ids_fresh (ops : List Op) :
    (∀ r ∈ (history ops).ranges, r.id < (history ops).nextId) ∧ ((history ops).ranges.map (·.id)).Nodup := by
  unfold history
  have key : ∀ (ops : List Op) (l : Ledger), (∀ r ∈ l.ranges, r.id < l.nextId) → (l.ranges.map (·.id)).Nodup →
      (∀ r ∈ (ops.foldl apply l).ranges, r.id < (ops.foldl apply l).nextId) ∧
        ((ops.foldl apply l).ranges.map (·.id)).Nodup := by
    intro ops
    induction ops with
    | nil => intro l h1 h2; exact ⟨h1, h2⟩
    | cons op ops ih =>
      intro l h1 h2
      have push : ∀ f c, (∀ r ∈ (l.push f c).1.ranges, r.id < (l.push f c).1.nextId) ∧
          ((l.push f c).1.ranges.map (·.id)).Nodup := by
        intro f c
        unfold Ledger.push
        dsimp only
        refine ⟨?_, ?_⟩
        · intro r hr
          rcases List.mem_append.mp hr with hr | hr
          · have := h1 r hr; omega
          · rw [List.mem_singleton] at hr; subst hr; exact Nat.lt_succ_self _
        · rw [List.map_append, List.nodup_append]
          refine ⟨h2, by simp, ?_⟩
          intro a ha b hb
          obtain ⟨r, hr, rfl⟩ := List.mem_map.mp ha
          simp only [List.map_cons, List.map_nil, List.mem_singleton] at hb
          have := h1 r hr
          omega
      rw [List.foldl_cons]
      cases op with
      | reserve f c => exact ih _ (push f c).1 (push f c).2
      | tryReserve f c =>
        by_cases hc : covered l f c = true
        · have e : apply l (.tryReserve f c) = l := by
            show (match reserveIfUncovered l f c with | none => l | some r => r.1) = _
            unfold reserveIfUncovered; rw [if_pos hc]
          rw [e]; exact ih _ h1 h2
        · have e : apply l (.tryReserve f c) = (l.push f c).1 := by
            show (match reserveIfUncovered l f c with | none => l | some r => r.1) = _
            unfold reserveIfUncovered; rw [if_neg hc]
          rw [e]; exact ih _ (push f c).1 (push f c).2
      | release id =>
        refine ih _ ?_ ?_
        · intro r hr
          exact h1 r (List.mem_filter.mp hr).1
        · exact h2.sublist (List.filter_sublist.map _)
  exact key ops _ (fun r hr => by cases hr) .nil

/-- **A walk that ends frees its own range and no other.** -/
theorem release_exact (ops : List Op) (id : Nat) (r : WRange) :
    r ∈ ((history ops).drop id).ranges ↔ r ∈ (history ops).ranges ∧ r.id ≠ id := by
  unfold Ledger.drop
  simp [List.mem_filter]

/-- A range taken is there, under an id no other range has. -/
theorem reserve_exact (ops : List Op) (f c : Nat) (r : WRange) :
    r ∈ ((history ops).push f c).1.ranges ↔ r ∈ (history ops).ranges ∨ r = ⟨((history ops).push f c).2, f, c⟩ := by
  unfold Ledger.push
  simp

theorem reserve_fresh (ops : List Op) (f c : Nat) : ∀ r ∈ (history ops).ranges, r.id ≠ ((history ops).push f c).2 := by
  intro r hr
  have := (ids_fresh ops).1 r hr
  show r.id ≠ (history ops).nextId
  omega

/-- The cases of the code's tests (consensus.rs:741-806), with an empty range among them. -/
example : covered (history [.reserve 0 100, .reserve 101 200, .reserve 60 40]) 50 200 = true ∧
    covered (history [.reserve 0 100, .reserve 101 200, .release 1, .reserve 150 200]) 50 200 = false := by decide

end Follow
end Verif
