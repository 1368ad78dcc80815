import Mathlib.Data.List.Nodup
import Mathlib.Data.List.Count

/-!
# Association lists used for the peer tables

`HashMap`s of the peer manager are modelled by association lists with pairwise
different keys; the order of the list is the iteration order of the map, and every
operation that iterates is proved about for all orders (the run relation may permute
the list at any time).
-/

namespace Verif.Net

variable {κ ν : Type} [DecidableEq κ]

/-- `HashMap::get` -/
def get (k : κ) : List (κ × ν) → Option ν
  | [] => none
  | (k', v) :: l => if k' = k then some v else get k l

/-- `HashMap::remove` (the map without the key) -/
def del (k : κ) (l : List (κ × ν)) : List (κ × ν) := l.filter fun e => !decide (e.1 = k)

/-- `HashMap::insert` -/
def put (k : κ) (v : ν) (l : List (κ × ν)) : List (κ × ν) := (k, v) :: del k l

/-- the keys of the map -/
def keys (l : List (κ × ν)) : List κ := l.map Prod.fst

/-- how many records satisfy `q` -/
def cnt (q : ν → Bool) (l : List (κ × ν)) : Nat := l.countP fun e => q e.2

/-- a Boolean as a number -/
def b2n (b : Bool) : Nat := if b then 1 else 0

theorem get_put_self (k : κ) (v : ν) (l : List (κ × ν)) : get k (put k v l) = some v := by
  simp [put, get]

theorem get_del_self (k : κ) (l : List (κ × ν)) : get k (del k l) = none := by
  induction l with
  | nil => rfl
  | cons e l ih =>
    unfold del at ih ⊢
    by_cases h : e.1 = k
    · simpa [List.filter_cons, h] using ih
    · simp [List.filter_cons, h, get, ih]

theorem get_del_ne {k k' : κ} (h : k' ≠ k) (l : List (κ × ν)) : get k' (del k l) = get k' l := by
  induction l with
  | nil => rfl
  | cons e l ih =>
    unfold del at ih ⊢
    by_cases he : e.1 = k
    · have : ¬ e.1 = k' := fun h' => h (h'.symm.trans he)
      simp [List.filter_cons, he, get, ih]
      intro hkk; exact absurd hkk.symm h
    · simp [List.filter_cons, he, get, ih]

theorem get_put_ne {k k' : κ} (h : k' ≠ k) (v : ν) (l : List (κ × ν)) :
    get k' (put k v l) = get k' l := by
  unfold put
  rw [get, if_neg (fun h' => h h'.symm), get_del_ne h]

theorem get_put (k k' : κ) (v : ν) (l : List (κ × ν)) :
    get k' (put k v l) = if k' = k then some v else get k' l := by
  by_cases h : k' = k
  · subst h; rw [if_pos rfl, get_put_self]
  · rw [if_neg h, get_put_ne h]

theorem get_del (k k' : κ) (l : List (κ × ν)) :
    get k' (del k l) = if k' = k then none else get k' l := by
  by_cases h : k' = k
  · subst h; rw [if_pos rfl, get_del_self]
  · rw [if_neg h, get_del_ne h]

theorem mem_of_get {k : κ} {v : ν} {l : List (κ × ν)} (h : get k l = some v) : (k, v) ∈ l := by
  induction l with
  | nil => cases h
  | cons e l ih =>
    rw [get] at h
    by_cases he : e.1 = k
    · rw [if_pos he] at h
      injection h with h
      subst he; subst h
      exact List.mem_cons_self
    · rw [if_neg he] at h
      exact List.mem_cons_of_mem _ (ih h)

theorem get_of_mem {k : κ} {v : ν} {l : List (κ × ν)} (hn : (keys l).Nodup) (h : (k, v) ∈ l) :
    get k l = some v := by
  induction l with
  | nil => cases h
  | cons e l ih =>
    unfold keys at hn ih
    rw [List.map_cons, List.nodup_cons] at hn
    rw [get]
    rcases List.mem_cons.mp h with rfl | h'
    · rw [if_pos rfl]
    · rw [if_neg, ih hn.2 h']
      rintro rfl
      exact hn.1 (List.mem_map.mpr ⟨_, h', rfl⟩)

theorem get_eq_none {k : κ} {l : List (κ × ν)} : get k l = none ↔ k ∉ keys l := by
  induction l with
  | nil => simp [get, keys]
  | cons e l ih =>
    unfold keys at ih ⊢
    rw [get]
    by_cases he : e.1 = k
    · simp [he]
    · rw [if_neg he, ih]
      simp [List.mem_cons, Ne.symm he, fun h : k = e.1 => he h.symm]

theorem nodup_del (k : κ) {l : List (κ × ν)} (h : (keys l).Nodup) : (keys (del k l)).Nodup :=
  h.sublist ((List.filter_sublist).map _)

theorem not_mem_keys_del (k : κ) (l : List (κ × ν)) : k ∉ keys (del k l) := by
  rw [← get_eq_none, get_del_self]

theorem nodup_put (k : κ) (v : ν) {l : List (κ × ν)} (h : (keys l).Nodup) :
    (keys (put k v l)).Nodup := by
  have : keys (put k v l) = k :: keys (del k l) := rfl
  rw [this, List.nodup_cons]
  exact ⟨not_mem_keys_del k l, nodup_del k h⟩

theorem del_eq_self {k : κ} {l : List (κ × ν)} (h : get k l = none) : del k l = l := by
  rw [get_eq_none] at h
  unfold del
  rw [List.filter_eq_self]
  intro e he
  have : e.1 ≠ k := fun h' => h (h' ▸ List.mem_map.mpr ⟨e, he, rfl⟩)
  simp [this]

theorem cnt_del_some (q : ν → Bool) {k : κ} {v : ν} {l : List (κ × ν)} (hn : (keys l).Nodup)
    (h : get k l = some v) : cnt q l = cnt q (del k l) + b2n (q v) := by
  induction l with
  | nil => cases h
  | cons e l ih =>
    unfold keys at hn ih
    rw [List.map_cons, List.nodup_cons] at hn
    rw [get] at h
    by_cases he : e.1 = k
    · rw [if_pos he] at h
      injection h with h
      have hnone : get k l = none := by
        rw [get_eq_none]; exact he ▸ hn.1
      have hdel : del k (e :: l) = l := by
        have h1 : del k (e :: l) = del k l := by simp [del, List.filter_cons, he]
        rw [h1, del_eq_self hnone]
      rw [hdel]
      unfold cnt b2n
      rw [List.countP_cons, ← h]
    · rw [if_neg he] at h
      have hdel : del k (e :: l) = e :: del k l := by simp [del, List.filter_cons, he]
      have := ih hn.2 h
      rw [hdel]
      unfold cnt at this ⊢
      rw [List.countP_cons, List.countP_cons]
      omega

theorem cnt_del_none (q : ν → Bool) {k : κ} {l : List (κ × ν)} (h : get k l = none) :
    cnt q (del k l) = cnt q l := by rw [del_eq_self h]

theorem cnt_put (q : ν → Bool) (k : κ) (v : ν) (l : List (κ × ν)) :
    cnt q (put k v l) = cnt q (del k l) + b2n (q v) := by
  unfold put cnt b2n
  rw [List.countP_cons]

theorem keys_perm {l l' : List (κ × ν)} (h : l.Perm l') : (keys l).Perm (keys l') := h.map _

theorem get_perm {l l' : List (κ × ν)} (hn : (keys l).Nodup) (h : l.Perm l') (k : κ) :
    get k l' = get k l := by
  have hn' : (keys l').Nodup := (keys_perm h).nodup_iff.mp hn
  cases hk : get k l with
  | some v => exact get_of_mem hn' (h.mem_iff.mp (mem_of_get hk))
  | none =>
    rw [get_eq_none] at hk ⊢
    exact fun hm => hk ((keys_perm h).mem_iff.mpr hm)

theorem cnt_perm (q : ν → Bool) {l l' : List (κ × ν)} (h : l.Perm l') : cnt q l' = cnt q l :=
  (h.countP_eq _).symm

end Verif.Net
