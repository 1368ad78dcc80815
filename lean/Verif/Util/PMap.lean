/-
Sorted association lists over pairs of numbers in lexicographic order: the model of
`std::collections::BTreeMap<(A, B), V>` and of database tables with such keys.
-/
namespace Verif
namespace PMap

variable {β : Type}

/-- Lexicographic order. -/
def Lt (a b : Nat × Nat) : Prop := a.1 < b.1 ∨ (a.1 = b.1 ∧ a.2 < b.2)

instance (a b : Nat × Nat) : Decidable (Lt a b) := by unfold Lt; infer_instance

theorem Lt.trans {a b c : Nat × Nat} (h : Lt a b) (h' : Lt b c) : Lt a c := by
  unfold Lt at *; omega

theorem Lt.irrefl {a : Nat × Nat} : ¬ Lt a a := by unfold Lt; omega

theorem Lt.ne {a b : Nat × Nat} (h : Lt a b) : a ≠ b := fun e => Lt.irrefl (e ▸ h)

theorem Lt.total (a b : Nat × Nat) : Lt a b ∨ a = b ∨ Lt b a := by
  obtain ⟨a1, a2⟩ := a
  obtain ⟨b1, b2⟩ := b
  simp only [Lt, Prod.mk.injEq]
  omega

/-- `BTreeMap::insert`. -/
def insert (k : Nat × Nat) (v : β) : List ((Nat × Nat) × β) → List ((Nat × Nat) × β)
  | [] => [(k, v)]
  | (k', v') :: m =>
    if Lt k k' then (k, v) :: (k', v') :: m
    else if k = k' then (k, v) :: m
    else (k', v') :: insert k v m

/-- `BTreeMap::get`. -/
def get? (k : Nat × Nat) : List ((Nat × Nat) × β) → Option β
  | [] => none
  | (k', v') :: m => if k = k' then some v' else get? k m

/-- `BTreeMap::remove`. -/
def erase (k : Nat × Nat) : List ((Nat × Nat) × β) → List ((Nat × Nat) × β)
  | [] => []
  | (k', v') :: m => if k = k' then m else (k', v') :: erase k m

/-- The order invariant of the map. -/
def Sorted (m : List ((Nat × Nat) × β)) : Prop := (m.map (·.1)).Pairwise Lt

theorem sorted_nil : Sorted ([] : List ((Nat × Nat) × β)) := by simp [Sorted]

theorem Sorted.tail {x : (Nat × Nat) × β} {m : List ((Nat × Nat) × β)} (h : Sorted (x :: m)) : Sorted m :=
  (List.pairwise_cons.mp h).2

theorem Sorted.head {x : (Nat × Nat) × β} {m : List ((Nat × Nat) × β)} (h : Sorted (x :: m)) :
    ∀ y ∈ m, Lt x.1 y.1 := fun y hy => (List.pairwise_cons.mp h).1 y.1 (List.mem_map_of_mem hy)

theorem mem_keys_insert {k : Nat × Nat} {v : β} {m : List ((Nat × Nat) × β)} {x : Nat × Nat} :
    x ∈ (insert k v m).map (·.1) ↔ x = k ∨ x ∈ m.map (·.1) := by
  induction m with
  | nil => simp [insert]
  | cons kv m ih =>
    obtain ⟨k', v'⟩ := kv
    simp only [insert]
    split
    · simp
    · split
      · rename_i h1 h2; subst h2; simp
      · simp only [List.map_cons, List.mem_cons, ih]
        constructor
        · rintro (h | h | h) <;> simp [h]
        · rintro (h | h | h) <;> simp [h]

theorem sorted_insert {k : Nat × Nat} {v : β} {m : List ((Nat × Nat) × β)} (h : Sorted m) :
    Sorted (insert k v m) := by
  induction m with
  | nil => simp [insert, Sorted]
  | cons kv m ih =>
    obtain ⟨k', v'⟩ := kv
    have h0 := List.pairwise_cons.mp h
    simp only [insert]
    split
    · rename_i hlt
      refine List.pairwise_cons.mpr ⟨?_, h⟩
      intro a ha
      rcases List.mem_cons.mp ha with rfl | ha
      · exact hlt
      · exact hlt.trans (h0.1 a ha)
    · split
      · rename_i h1 h2; subst h2
        exact List.pairwise_cons.mpr h0
      · rename_i h1 h2
        refine List.pairwise_cons.mpr ⟨?_, ih h0.2⟩
        intro a ha
        rcases mem_keys_insert.mp ha with rfl | ha
        · rcases Lt.total a k' with h3 | h3 | h3
          · exact absurd h3 h1
          · exact absurd h3 h2
          · exact h3
        · exact h0.1 a ha

theorem get?_insert {k : Nat × Nat} {v : β} {m : List ((Nat × Nat) × β)} {x : Nat × Nat} :
    get? x (insert k v m) = if x = k then some v else get? x m := by
  induction m with
  | nil => simp [insert, get?]
  | cons kv m ih =>
    obtain ⟨k', v'⟩ := kv
    simp only [insert]
    split
    · simp [get?]
    · split
      · rename_i h1 h2; subst h2; simp only [get?]; split <;> rfl
      · rename_i h1 h2
        simp only [get?, ih]
        by_cases hx : x = k'
        · subst hx; rw [if_pos rfl, if_pos rfl, if_neg (fun e => h2 e.symm)]
        · rw [if_neg hx, if_neg hx]

theorem get?_eq_none {m : List ((Nat × Nat) × β)} {x : Nat × Nat} :
    get? x m = none ↔ x ∉ m.map (·.1) := by
  induction m with
  | nil => simp [get?]
  | cons kv m ih =>
    obtain ⟨k', v'⟩ := kv
    simp only [get?, List.map_cons, List.mem_cons, not_or]
    split
    · rename_i h; subst h; simp
    · rename_i h; rw [ih]; simp [h]

theorem mem_of_get? {m : List ((Nat × Nat) × β)} {x : Nat × Nat} {v : β} (h : get? x m = some v) :
    (x, v) ∈ m := by
  induction m with
  | nil => simp [get?] at h
  | cons kv m ih =>
    obtain ⟨k', v'⟩ := kv
    simp only [get?] at h
    split at h
    · rename_i hx; subst hx; simp at h; simp [h]
    · exact List.mem_cons_of_mem _ (ih h)

theorem get?_of_mem {m : List ((Nat × Nat) × β)} (hs : Sorted m) {x : Nat × Nat} {v : β}
    (h : (x, v) ∈ m) : get? x m = some v := by
  induction m with
  | nil => simp at h
  | cons kv m ih =>
    obtain ⟨k', v'⟩ := kv
    simp only [get?]
    rcases List.mem_cons.mp h with h | h
    · cases h; simp
    · rw [if_neg (fun e => (hs.head _ h).ne e.symm)]
      exact ih hs.tail h

theorem mem_iff {m : List ((Nat × Nat) × β)} (hs : Sorted m) {x : Nat × Nat} {v : β} :
    (x, v) ∈ m ↔ get? x m = some v := ⟨get?_of_mem hs, mem_of_get?⟩

theorem erase_sublist (k : Nat × Nat) (m : List ((Nat × Nat) × β)) : (erase k m).Sublist m := by
  induction m with
  | nil => exact .slnil
  | cons kv m ih =>
    obtain ⟨k', v'⟩ := kv
    simp only [erase]
    split
    · exact List.sublist_cons_self _ _
    · exact ih.cons_cons _

theorem sorted_erase {k : Nat × Nat} {m : List ((Nat × Nat) × β)} (h : Sorted m) : Sorted (erase k m) :=
  List.Pairwise.sublist ((erase_sublist k m).map _) h

theorem get?_erase {k : Nat × Nat} {m : List ((Nat × Nat) × β)} (hs : Sorted m) {x : Nat × Nat} :
    get? x (erase k m) = if x = k then none else get? x m := by
  induction m with
  | nil => simp [erase, get?]
  | cons kv m ih =>
    obtain ⟨k', v'⟩ := kv
    simp only [erase]
    by_cases h : k = k'
    · subst h
      rw [if_pos rfl]
      by_cases hx : x = k
      · subst hx
        rw [if_pos rfl, get?_eq_none]
        intro hm
        obtain ⟨y, hy, he⟩ := List.mem_map.mp hm
        exact (hs.head y hy).ne he.symm
      · rw [if_neg hx]; simp only [get?, if_neg hx]
    · rw [if_neg h]
      simp only [get?, ih hs.tail]
      by_cases hx : x = k'
      · subst hx; rw [if_pos rfl, if_pos rfl, if_neg (fun e => h e.symm)]
      · rw [if_neg hx, if_neg hx]

theorem mem_erase {k : Nat × Nat} {m : List ((Nat × Nat) × β)} (hs : Sorted m) {x : Nat × Nat} {v : β} :
    (x, v) ∈ erase k m ↔ x ≠ k ∧ (x, v) ∈ m := by
  rw [mem_iff (sorted_erase hs), get?_erase hs, mem_iff hs]
  split
  · rename_i h; simp [h]
  · rename_i h; simp [h]

theorem mem_insert {k : Nat × Nat} {v : β} {m : List ((Nat × Nat) × β)} (hs : Sorted m) {x : Nat × Nat}
    {w : β} : (x, w) ∈ insert k v m ↔ (x = k ∧ w = v) ∨ (x ≠ k ∧ (x, w) ∈ m) := by
  rw [mem_iff (sorted_insert hs), get?_insert, mem_iff hs]
  split
  · rename_i h; simp [h, eq_comm]
  · rename_i h; simp [h]

end PMap
end Verif
