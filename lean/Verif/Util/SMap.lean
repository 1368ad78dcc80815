/-
Sorted association lists over `Nat` keys: the model of `std::collections::BTreeMap`.
-/
namespace Verif
namespace SMap

variable {β : Type}

/-- `BTreeMap::insert`: replaces the value of an existing key. -/
def insert (k : Nat) (v : β) : List (Nat × β) → List (Nat × β)
  | [] => [(k, v)]
  | (k', v') :: m =>
    if k < k' then (k, v) :: (k', v') :: m
    else if k = k' then (k, v) :: m
    else (k', v') :: insert k v m

/-- `BTreeMap::get`. -/
def get? (k : Nat) : List (Nat × β) → Option β
  | [] => none
  | (k', v') :: m => if k = k' then some v' else get? k m

/-- `BTreeMap::remove`. -/
def erase (k : Nat) : List (Nat × β) → List (Nat × β)
  | [] => []
  | (k', v') :: m => if k = k' then m else (k', v') :: erase k m

/-- The order invariant of the map. -/
def Sorted (m : List (Nat × β)) : Prop := (m.map (·.1)).Pairwise (· < ·)

/-- `iter().collect::<BTreeMap<_,_>>()`: later entries overwrite earlier ones. -/
def ofList (l : List (Nat × β)) : List (Nat × β) := l.foldl (fun m kv => insert kv.1 kv.2 m) []

theorem mem_keys_insert {k : Nat} {v : β} {m : List (Nat × β)} {x : Nat} :
    x ∈ (insert k v m).map (·.1) ↔ x = k ∨ x ∈ m.map (·.1) := by
  induction m with
  | nil => simp [insert]
  | cons kv m ih =>
    obtain ⟨k', v'⟩ := kv
    simp only [insert]
    split
    · simp
    · split
      · rename_i h1 h2; subst h2; simp
      · simp only [List.map_cons, List.mem_cons, ih]
        constructor
        · rintro (h | h | h) <;> simp [h]
        · rintro (h | h | h) <;> simp [h]

theorem sorted_insert {k : Nat} {v : β} {m : List (Nat × β)} (h : Sorted m) :
    Sorted (insert k v m) := by
  induction m with
  | nil => simp [insert, Sorted]
  | cons kv m ih =>
    obtain ⟨k', v'⟩ := kv
    simp only [Sorted, List.map_cons, List.pairwise_cons] at h
    simp only [insert]
    split
    · rename_i hlt
      simp only [Sorted, List.map_cons, List.pairwise_cons, List.mem_cons]
      refine ⟨?_, h.1, h.2⟩
      rintro a (rfl | ha)
      · exact hlt
      · exact Nat.lt_trans hlt (h.1 a ha)
    · split
      · rename_i h1 h2; subst h2
        simp only [Sorted, List.map_cons, List.pairwise_cons]
        exact ⟨h.1, h.2⟩
      · rename_i h1 h2
        simp only [Sorted, List.map_cons, List.pairwise_cons]
        refine ⟨?_, ih h.2⟩
        intro a ha
        rcases mem_keys_insert.mp ha with rfl | ha
        · omega
        · exact h.1 a ha

theorem get?_insert {k : Nat} {v : β} {m : List (Nat × β)} {x : Nat} :
    get? x (insert k v m) = if x = k then some v else get? x m := by
  induction m with
  | nil => simp [insert, get?]
  | cons kv m ih =>
    obtain ⟨k', v'⟩ := kv
    simp only [insert]
    split
    · simp [get?]
    · split
      · rename_i h1 h2; subst h2; simp only [get?]; split <;> rfl
      · rename_i h1 h2
        simp only [get?, ih]
        by_cases hx : x = k' <;> by_cases hk : x = k <;> simp [hx, hk] <;> omega

theorem get?_eq_none {m : List (Nat × β)} {x : Nat} : get? x m = none ↔ x ∉ m.map (·.1) := by
  induction m with
  | nil => simp [get?]
  | cons kv m ih =>
    obtain ⟨k', v'⟩ := kv
    simp only [get?, List.map_cons, List.mem_cons, not_or]
    split
    · rename_i h; subst h; simp
    · rename_i h; rw [ih]; simp [h]

theorem get?_isSome {m : List (Nat × β)} {x : Nat} :
    (get? x m).isSome ↔ x ∈ m.map (·.1) := by
  have := get?_eq_none (m := m) (x := x)
  cases h : get? x m <;> simp_all

theorem mem_of_get? {m : List (Nat × β)} {x : Nat} {v : β} (h : get? x m = some v) :
    (x, v) ∈ m := by
  induction m with
  | nil => simp [get?] at h
  | cons kv m ih =>
    obtain ⟨k', v'⟩ := kv
    simp only [get?] at h
    split at h
    · rename_i hx; subst hx; simp at h; simp [h]
    · exact List.mem_cons_of_mem _ (ih h)

theorem get?_of_mem {m : List (Nat × β)} (hs : Sorted m) {x : Nat} {v : β} (h : (x, v) ∈ m) :
    get? x m = some v := by
  induction m with
  | nil => simp at h
  | cons kv m ih =>
    obtain ⟨k', v'⟩ := kv
    simp only [Sorted, List.map_cons, List.pairwise_cons] at hs
    simp only [List.mem_cons, Prod.mk.injEq] at h
    simp only [get?]
    rcases h with ⟨rfl, rfl⟩ | h
    · simp
    · have : k' < x := hs.1 x (List.mem_map.mpr ⟨_, h, rfl⟩)
      rw [if_neg (by omega)]
      exact ih hs.2 h

theorem mem_insert {k : Nat} {v : β} {m : List (Nat × β)} (hs : Sorted m) {x : Nat} {w : β} :
    (x, w) ∈ insert k v m ↔ (x = k ∧ w = v) ∨ (x ≠ k ∧ (x, w) ∈ m) := by
  constructor
  · intro h
    have := get?_of_mem (sorted_insert hs) h
    rw [get?_insert] at this
    split at this
    · rename_i hx; simp at this; exact Or.inl ⟨hx, this.symm⟩
    · rename_i hx; exact Or.inr ⟨hx, mem_of_get? this⟩
  · rintro (⟨rfl, rfl⟩ | ⟨hne, h⟩)
    · exact mem_of_get? (by rw [get?_insert]; simp)
    · apply mem_of_get?
      rw [get?_insert, if_neg hne]
      exact get?_of_mem hs h

/-- Two sorted maps with the same lookups are equal. -/
theorem sorted_ext {m m' : List (Nat × β)} (hs : Sorted m) (hs' : Sorted m')
    (h : ∀ x, get? x m = get? x m') : m = m' := by
  induction m generalizing m' with
  | nil =>
    cases m' with
    | nil => rfl
    | cons kv t => have := h kv.1; simp [get?] at this
  | cons kv m ih =>
    obtain ⟨k, v⟩ := kv
    cases m' with
    | nil => have := h k; simp [get?] at this
    | cons kv' m' =>
      obtain ⟨k', v'⟩ := kv'
      simp only [Sorted, List.map_cons, List.pairwise_cons] at hs hs'
      have hk : k = k' := by
        rcases Nat.lt_trichotomy k k' with hlt | heq | hgt
        · have h1 := h k
          simp only [get?, if_true] at h1
          rw [if_neg (by omega)] at h1
          have h2 := mem_of_get? h1.symm
          have := hs'.1 k (List.mem_map.mpr ⟨_, h2, rfl⟩)
          omega
        · exact heq
        · have h1 := h k'
          simp only [get?, if_true] at h1
          rw [if_neg (by omega)] at h1
          have h2 := mem_of_get? h1
          have := hs.1 k' (List.mem_map.mpr ⟨_, h2, rfl⟩)
          omega
      subst hk
      have hv : v = v' := by have := h k; simpa [get?] using this
      subst hv
      congr 1
      apply ih hs.2 hs'.2
      intro x
      have := h x
      simp only [get?] at this
      by_cases hx : x = k
      · subst hx
        rw [get?_eq_none.mpr (fun hm => by have := hs.1 x hm; omega),
          get?_eq_none.mpr (fun hm => by have := hs'.1 x hm; omega)]
      · simpa [hx] using this

theorem sorted_ofList_aux (l m : List (Nat × β)) (h : Sorted m) :
    Sorted (l.foldl (fun m kv => insert kv.1 kv.2 m) m) := by
  induction l generalizing m with
  | nil => exact h
  | cons x xs ih => exact ih _ (sorted_insert h)

theorem sorted_nil : Sorted ([] : List (Nat × β)) := by simp [Sorted]

theorem sorted_ofList (l : List (Nat × β)) : Sorted (ofList l) := sorted_ofList_aux l [] sorted_nil

theorem mem_keys_ofList_aux (l m : List (Nat × β)) (x : Nat) :
    x ∈ (l.foldl (fun m kv => insert kv.1 kv.2 m) m).map (·.1) ↔
      x ∈ l.map (·.1) ∨ x ∈ m.map (·.1) := by
  induction l generalizing m with
  | nil => simp
  | cons y ys ih =>
    rw [List.foldl_cons, ih, mem_keys_insert]
    simp only [List.map_cons, List.mem_cons]
    constructor
    · rintro (h | h | h) <;> simp [h]
    · rintro ((h | h) | h) <;> simp [h]

theorem mem_keys_ofList {l : List (Nat × β)} {x : Nat} :
    x ∈ (ofList l).map (·.1) ↔ x ∈ l.map (·.1) := by
  unfold ofList; rw [mem_keys_ofList_aux]; simp

theorem mem_ofList_aux (l m : List (Nat × β)) (x : Nat × β) (hm : Sorted m) :
    x ∈ l.foldl (fun m kv => insert kv.1 kv.2 m) m → x ∈ l ∨ x ∈ m := by
  induction l generalizing m with
  | nil => simp
  | cons y ys ih =>
    intro h
    rw [List.foldl_cons] at h
    rcases ih _ (sorted_insert hm) h with h | h
    · exact Or.inl (List.mem_cons_of_mem _ h)
    · obtain ⟨a, b⟩ := x
      rcases (mem_insert hm).mp h with ⟨h1, h2⟩ | ⟨_, h⟩
      · left; obtain ⟨c, d⟩ := y; simp at h1 h2; simp [h1, h2]
      · exact Or.inr h

theorem mem_of_mem_ofList {l : List (Nat × β)} {x : Nat × β} (h : x ∈ ofList l) : x ∈ l := by
  rcases mem_ofList_aux l [] x sorted_nil h with h | h
  · exact h
  · simp at h

theorem erase_sublist (k : Nat) (m : List (Nat × β)) : (erase k m).Sublist m := by
  induction m with
  | nil => exact .slnil
  | cons kv m ih =>
    obtain ⟨k', v'⟩ := kv
    simp only [erase]
    split
    · exact List.sublist_cons_self _ _
    · exact ih.cons_cons _

theorem sorted_erase {k : Nat} {m : List (Nat × β)} (h : Sorted m) : Sorted (erase k m) :=
  List.Pairwise.sublist ((erase_sublist k m).map _) h

theorem get?_erase {k : Nat} {m : List (Nat × β)} (hs : Sorted m) {x : Nat} :
    get? x (erase k m) = if x = k then none else get? x m := by
  induction m with
  | nil => simp [erase, get?]
  | cons kv m ih =>
    obtain ⟨k', v'⟩ := kv
    have h0 := List.pairwise_cons.mp hs
    simp only [erase]
    by_cases h : k = k'
    · subst h
      rw [if_pos rfl]
      by_cases hx : x = k
      · subst hx
        rw [if_pos rfl, get?_eq_none]
        intro hm
        exact Nat.lt_irrefl _ (h0.1 x hm)
      · rw [if_neg hx]; simp only [get?, if_neg hx]
    · rw [if_neg h]
      simp only [get?, ih h0.2]
      by_cases hx : x = k'
      · subst hx; rw [if_pos rfl, if_pos rfl, if_neg (fun e => h e.symm)]
      · rw [if_neg hx, if_neg hx]

theorem length_erase {k : Nat} {v : β} {m : List (Nat × β)} (h : get? k m = some v) :
    (erase k m).length + 1 = m.length := by
  induction m with
  | nil => simp [get?] at h
  | cons kv m ih =>
    obtain ⟨k', v'⟩ := kv
    simp only [get?] at h
    simp only [erase]
    split
    · rfl
    · rename_i hk
      rw [if_neg hk] at h
      simp [ih h]

theorem length_insert {k : Nat} {v w : β} {m : List (Nat × β)} (hs : Sorted m) (h : get? k m = some v) :
    (insert k w m).length = m.length := by
  induction m with
  | nil => simp [get?] at h
  | cons kv m ih =>
    obtain ⟨k', v'⟩ := kv
    have h0 := List.pairwise_cons.mp hs
    simp only [get?] at h
    simp only [insert]
    split at h
    · rename_i hk; subst hk; rw [if_neg (Nat.lt_irrefl _), if_pos rfl]; rfl
    · rename_i hk
      have := h0.1 k (List.mem_map.mpr ⟨_, mem_of_get? h, rfl⟩)
      rw [if_neg (show ¬ _ < _ from by dsimp only at this; omega), if_neg hk]
      simp [ih h0.2 h]

theorem nodup_keys {m : List (Nat × β)} (hs : Sorted m) : (m.map (·.1)).Nodup :=
  List.Pairwise.imp (fun h => Nat.ne_of_lt h) hs

end SMap
end Verif
