import Verif.Storage.Backends
/-
C119: lemmas: trees as ordered maps.
-/
namespace Verif
namespace Bkd
open Codec (Bytes ltB ltB_irrefl ltB_trans ltB_trichotomy)

variable {K V : Type} (C : Coding K)

theorem Coding.irrefl (k : K) : C.lt k k = false := by rw [← C.mono]; exact ltB_irrefl _

theorem Coding.trans {a b c : K} (h : C.lt a b = true) (h' : C.lt b c = true) : C.lt a c = true := by
  rw [← C.mono] at h h' ⊢; exact ltB_trans h h'

theorem Coding.inj {a b : K} (h : C.enc a = C.enc b) : a = b := by rw [← C.dec_enc a, h, C.dec_enc]

theorem Coding.tri {a b : K} (h : C.lt a b = false) (h' : C.lt b a = false) : a = b := by
  rw [← C.mono] at h h'; exact C.inj (ltB_trichotomy h h')

theorem Coding.asymm {a b : K} (h : C.lt a b = true) : C.lt b a = false := by
  cases h' : C.lt b a with
  | false => rfl
  | true => have := C.trans h h'; rw [C.irrefl] at this; cases this

/-- A tree: ascending, and all its keys are encodings. -/
structure Good (m : Tree V) : Prop where
  sorted : m.Pairwise (fun x y => ltB x.1 y.1 = true)
  keys : ∀ x ∈ m, ∃ k, x.1 = C.enc k

variable {C}

theorem sorted_inj {m : Tree V} (h : m.Pairwise (fun x y => ltB x.1 y.1 = true)) {x y : Bytes × V} (hx : x ∈ m) (hy : y ∈ m)
    (e : x.1 = y.1) : x = y := by
  induction m with
  | nil => cases hx
  | cons z m ih =>
    rw [List.pairwise_cons] at h
    rcases List.mem_cons.mp hx with h1 | h1 <;> rcases List.mem_cons.mp hy with h2 | h2
    · rw [h1, h2]
    · subst h1
      have := h.1 y h2; rw [e, ltB_irrefl] at this; cases this
    · subst h2
      have := h.1 x h1; rw [e, ltB_irrefl] at this; cases this
    · exact ih h.2 h1 h2

theorem mem_iff {m : Tree V} (h : Good C m) (b : Bytes) (v : V) : (b, v) ∈ m ↔ look m b = some v := by
  unfold look
  constructor
  · intro hm
    cases hf : m.find? (fun x => x.1 == b) with
    | none => exact absurd (List.find?_eq_none.mp hf _ hm) (by simp)
    | some y =>
      have h1 := List.mem_of_find?_eq_some hf
      have h2 := List.find?_some hf
      rw [sorted_inj h.sorted h1 hm (by simpa using h2)]
      rfl
  · intro hf
    obtain ⟨y, h1, h2⟩ := Option.map_eq_some_iff.mp hf
    have h3 := List.find?_some h1
    have h4 := List.mem_of_find?_eq_some h1
    have : y = (b, v) := Prod.ext (by simpa using h3) h2
    rw [← this]; exact h4

theorem good_nil : Good C ([] : Tree V) := ⟨.nil, fun _ h => by cases h⟩

theorem good_ins {m : Tree V} (h : Good C m) (k : K) (v : V) : Good C (ins m (C.enc k) v) := by
  unfold ins
  refine ⟨?_, ?_⟩
  · rw [List.pairwise_append, List.pairwise_cons]
    refine ⟨h.sorted.filter _, ⟨?_, h.sorted.filter _⟩, ?_⟩
    · intro y hy; exact (List.mem_filter.mp hy).2
    · intro x hx y hy
      have hx := (List.mem_filter.mp hx).2
      rcases List.mem_cons.mp hy with rfl | hy
      · exact hx
      · exact ltB_trans hx (List.mem_filter.mp hy).2
  · intro x hx
    rcases List.mem_append.mp hx with hx | hx
    · exact h.keys x (List.mem_filter.mp hx).1
    · rcases List.mem_cons.mp hx with rfl | hx
      · exact ⟨k, rfl⟩
      · exact h.keys x (List.mem_filter.mp hx).1

theorem good_del {m : Tree V} (h : Good C m) (b : Bytes) : Good C (del m b) :=
  ⟨h.sorted.filter _, fun x hx => h.keys x (List.mem_filter.mp hx).1⟩

theorem mem_ins {m : Tree V} {b c : Bytes} {v w : V} :
    (c, w) ∈ ins m b v ↔ (c = b ∧ w = v) ∨ (c ≠ b ∧ (c, w) ∈ m) := by
  unfold ins
  rw [List.mem_append, List.mem_cons, List.mem_filter, List.mem_filter]
  constructor
  · rintro (⟨h1, h2⟩ | h | ⟨h1, h2⟩)
    · exact .inr ⟨(fun e => by dsimp only at h2; rw [e, ltB_irrefl] at h2; cases h2), h1⟩
    · exact .inl (Prod.mk.inj h)
    · exact .inr ⟨(fun e => by dsimp only at h2; rw [e, ltB_irrefl] at h2; cases h2), h1⟩
  · rintro (⟨rfl, rfl⟩ | ⟨h1, h2⟩)
    · exact .inr (.inl rfl)
    · cases hc : ltB c b with
      | true => exact .inl ⟨h2, rfl⟩
      | false =>
        cases hb : ltB b c with
        | true => exact .inr (.inr ⟨h2, rfl⟩)
        | false => exact absurd (ltB_trichotomy hc hb) h1

theorem opt_ext {α : Type} {a b : Option α} (h : ∀ x, a = some x ↔ b = some x) : a = b := by
  cases a with
  | none =>
    cases b with
    | none => rfl
    | some y => exact ((h y).mpr rfl)
  | some x => exact ((h x).mp rfl).symm

theorem look_ins {m : Tree V} (h : Good C m) (k j : K) (v : V) [DecidableEq K] :
    look (ins m (C.enc k) v) (C.enc j) = if k = j then some v else look m (C.enc j) := by
  apply opt_ext
  intro w
  rw [← mem_iff (good_ins h k v), mem_ins]
  by_cases e : k = j
  · rw [if_pos e, e]
    simp [eq_comm]
  · rw [if_neg e, ← mem_iff h]
    constructor
    · rintro (⟨h1, -⟩ | ⟨-, h1⟩)
      · exact absurd (C.inj h1).symm e
      · exact h1
    · intro h1; exact .inr ⟨fun h2 => e (C.inj h2).symm, h1⟩

theorem look_del {m : Tree V} (h : Good C m) (k j : K) [DecidableEq K] :
    look (del m (C.enc k)) (C.enc j) = if k = j then none else look m (C.enc j) := by
  apply opt_ext
  intro w
  rw [← mem_iff (good_del h _)]
  unfold del
  rw [List.mem_filter]
  by_cases e : k = j
  · rw [if_pos e, e]
    simp
  · rw [if_neg e, ← mem_iff h]
    constructor
    · exact fun h1 => h1.1
    · intro h1
      refine ⟨h1, ?_⟩
      have : ¬ C.enc j = C.enc k := fun h2 => e (C.inj h2).symm
      simpa using this

/-! ### Rows -/

/-- The rows of a tree, for what is written in the table. -/
structure Rows (lt : K → K → Bool) (T : K → Option V) (l : List (K × V)) : Prop where
  sorted : l.Pairwise (fun x y => lt x.1 y.1 = true)
  mem : ∀ x, x ∈ l ↔ T x.1 = some x.2

theorem rows_of {m : Tree V} (h : Good C m) {T : K → Option V} (hT : ∀ k, look m (C.enc k) = T k) :
    Rows C.lt T (m.map (row C)) where
  sorted := by
    rw [List.pairwise_map]
    refine h.sorted.imp_of_mem ?_
    intro x y hx hy hxy
    obtain ⟨a, ha⟩ := h.keys x hx
    obtain ⟨b, hb⟩ := h.keys y hy
    unfold row
    dsimp only
    rw [ha, hb, C.dec_enc, C.dec_enc, ← C.mono, ← ha, ← hb]
    exact hxy
  mem := by
    intro x
    rw [List.mem_map, ← hT, ← mem_iff h]
    constructor
    · rintro ⟨y, hy, rfl⟩
      obtain ⟨a, ha⟩ := h.keys y hy
      have : C.enc (row C y).1 = y.1 := by unfold row; dsimp only; rw [ha, C.dec_enc]
      rw [this]
      exact hy
    · intro hx
      exact ⟨_, hx, by unfold row; dsimp only; rw [C.dec_enc]⟩

theorem map_dropWhile {m : Tree V} (h : ∀ x ∈ m, ∃ k, x.1 = C.enc k) (k : K) :
    (m.dropWhile (fun x => ltB x.1 (C.enc k))).map (row C) = (m.map (row C)).dropWhile (fun x => C.lt x.1 k) := by
  induction m with
  | nil => rfl
  | cons x m ih =>
    obtain ⟨a, ha⟩ := h x (by simp)
    have e : C.lt (row C x).1 k = ltB x.1 (C.enc k) := by unfold row; dsimp only; rw [ha, C.dec_enc, C.mono]
    rw [List.map_cons, List.dropWhile_cons, List.dropWhile_cons, e]
    split
    · exact ih (fun y hy => h y (by simp [hy]))
    · rfl

theorem map_takeWhile {m : Tree V} (h : ∀ x ∈ m, ∃ k, x.1 = C.enc k) (k : K) :
    (m.takeWhile (fun x => ltB x.1 (C.enc k))).map (row C) = (m.map (row C)).takeWhile (fun x => C.lt x.1 k) := by
  induction m with
  | nil => rfl
  | cons x m ih =>
    obtain ⟨a, ha⟩ := h x (by simp)
    have e : C.lt (row C x).1 k = ltB x.1 (C.enc k) := by unfold row; dsimp only; rw [ha, C.dec_enc, C.mono]
    rw [List.map_cons, List.takeWhile_cons, List.takeWhile_cons, e]
    split
    · rw [List.map_cons, ih (fun y hy => h y (by simp [hy]))]
    · rfl

theorem skip_rows {m : Tree V} (h : Good C m) (kd : Kind) (k : K) :
    skip C kd m k = (m.map (row C)).dropWhile (fun x => C.lt x.1 k) := by
  cases kd with
  | mem => exact map_dropWhile h.keys k
  | mdbx => rfl
  | redb => rfl

theorem prior_rows {m : Tree V} (h : Good C m) (kd : Kind) (k : K) :
    prior C kd m k = ((m.map (row C)).takeWhile (fun x => C.lt x.1 k)).getLast? := by
  cases kd with
  | mem => rw [← map_takeWhile h.keys k, List.getLast?_map]; rfl
  | mdbx => rfl
  | redb => rfl

theorem while_filter {l : List (K × V)} (h : l.Pairwise (fun x y => C.lt x.1 y.1 = true)) (k : K) :
    l.dropWhile (fun x => C.lt x.1 k) = l.filter (fun x => !C.lt x.1 k) ∧
    l.takeWhile (fun x => C.lt x.1 k) = l.filter (fun x => C.lt x.1 k) := by
  induction l with
  | nil => exact ⟨rfl, rfl⟩
  | cons x l ih =>
    rw [List.pairwise_cons] at h
    obtain ⟨i1, i2⟩ := ih h.2
    rw [List.dropWhile_cons, List.takeWhile_cons, List.filter_cons, List.filter_cons]
    cases hx : C.lt x.1 k with
    | true => simp [i1, i2]
    | false =>
      have hall : ∀ y ∈ l, C.lt y.1 k = false := by
        intro y hy
        cases hy' : C.lt y.1 k with
        | false => rfl
        | true => have := C.trans (h.1 y hy) hy'; rw [hx] at this; cases this
      constructor
      · simp only [Bool.not_false, if_true, Bool.false_eq_true, if_false]
        congr 1
        exact (List.filter_eq_self.mpr (fun y hy => by rw [hall y hy]; rfl)).symm
      · simp only [Bool.false_eq_true, if_false]
        exact (List.filter_eq_nil_iff.mpr (fun y hy => by rw [hall y hy]; simp)).symm

theorem getLast_iff {l : List (K × V)} (h : l.Pairwise (fun x y => C.lt x.1 y.1 = true)) (x : K × V) :
    l.getLast? = some x ↔ x ∈ l ∧ ∀ y ∈ l, C.lt x.1 y.1 = false := by
  rcases List.eq_nil_or_concat l with rfl | ⟨l', z, rfl⟩
  · simp
  · rw [List.concat_eq_append] at h ⊢
    rw [List.getLast?_concat]
    rw [List.pairwise_append] at h
    constructor
    · intro e
      cases e
      refine ⟨by simp, ?_⟩
      intro y hy
      rcases List.mem_append.mp hy with hy | hy
      · exact C.asymm (h.2.2 y hy x (by simp))
      · rw [List.mem_singleton.mp hy]; exact C.irrefl _
    · rintro ⟨h1, h2⟩
      rcases List.mem_append.mp h1 with h1 | h1
      · have a := h.2.2 x h1 z (by simp)
        rw [h2 z (by simp)] at a
        cases a
      · rw [List.mem_singleton.mp h1]

end Bkd
end Verif
