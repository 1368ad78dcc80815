import Mathlib.Tactic.Common
import Mathlib.Data.Nat.Bitwise
/-
C125: the filter of a digest index, byte by byte (`crates/storage/src/archive/digest_index/bloom.rs` 14-125).

A filter is its bytes, a byte a number; it has `2 ^ s` of them (`BLOOM_SIZE_BYTES`: s = 21, 16 in test builds), and `n` bytes of
the key make one index (`ITEM_BYTES`: 3 for both).
-/
namespace Verif
namespace Bloom

/-- `ITEM_BYTES`, bloom.rs:30. -/
def itemBytes (s : Nat) : Nat := (s + 3 + 7) / 8

/-- The bytes `hash[ptr]` of one index; fewer than `itemBytes` if an access is out of bounds, bloom.rs:71-74 and 90-93. -/
def reads (s : Nat) (key : List Nat) (j : Nat) : List Nat := (key.drop (j * itemBytes s)).take (itemBytes s)

/-- One index, bloom.rs:70-75 and 89-94. -/
def index (s : Nat) (key : List Nat) (j : Nat) : Nat :=
  (reads s key j).foldl (fun a b => (a <<< 8) ||| b) 0 &&& (2 ^ (s + 3) - 1)

/-- Setting one bit, bloom.rs:95. -/
def setBit (s : Nat) (b : List Nat) (i : Nat) : List Nat :=
  b.set (2 ^ s - 1 - i / 8) (b.getD (2 ^ s - 1 - i / 8) 0 ||| (1 <<< (i % 8)))

/-- `accrue`, bloom.rs:85-97. -/
def accrue (s : Nat) (b key : List Nat) : List Nat := (List.range 8).foldl (fun b j => setBit s b (index s key j)) b

/-- `contains`, bloom.rs:66-82. -/
def contains (s : Nat) (b key : List Nat) : Bool :=
  (List.range 8).all fun j => decide (b.getD (2 ^ s - 1 - index s key j / 8) 0 &&& (1 <<< (index s key j % 8)) ≠ 0)

/-- `Bloom::new`, bloom.rs:51-53. -/
def new (s : Nat) : List Nat := List.replicate (2 ^ s) 0

/-- `try_from`, bloom.rs:112-125. -/
def tryFrom (s : Nat) (b : List Nat) : Option (List Nat) :=
  if b.length < 2 ^ s then none else if 2 ^ s < b.length then none else some b

/-! ### Specification -/

/-- The bit `i` of a filter: they are counted from the last byte's lowest. -/
def bit (s : Nat) (b : List Nat) (i : Nat) : Bool := (b.getD (2 ^ s - 1 - i / 8) 0).testBit (i % 8)

/-- A filter of the right size. -/
def Sized (s : Nat) (b : List Nat) : Prop := b.length = 2 ^ s ∧ ∀ x ∈ b, x < 256

/-! ### Theorems -/

variable {s : Nat}

theorem index_lt (key : List Nat) (j : Nat) : index s key j < 8 * 2 ^ s := by
  unfold index
  rw [Nat.and_two_pow_sub_one_eq_mod, show 8 * 2 ^ s = 2 ^ (s + 3) by rw [Nat.pow_add]; omega]
  exact Nat.mod_lt _ (Nat.two_pow_pos _)

/-- C125. No access is out of bounds: the indices are within the filter, and a digest has enough bytes for all eight. -/
theorem in_bounds (hs : s ≤ 29) (key : List Nat) (hk : key.length = 32) (j : Nat) (hj : j < 8) :
    2 ^ s - 1 - index s key j / 8 < 2 ^ s ∧ index s key j / 8 ≤ 2 ^ s - 1 ∧
      (reads s key j).length = itemBytes s := by
  have h := index_lt (s := s) key j
  have hp := Nat.two_pow_pos s
  refine ⟨by omega, by omega, ?_⟩
  unfold reads
  rw [List.length_take, List.length_drop, hk]
  have h4 : itemBytes s ≤ 4 := by unfold itemBytes; omega
  have : j * itemBytes s + itemBytes s ≤ 32 := by
    have : (j + 1) * itemBytes s ≤ 8 * 4 := Nat.mul_le_mul (by omega) h4
    rw [Nat.add_mul] at this
    omega
  omega

theorem setBit_length (b : List Nat) (i : Nat) : (setBit s b i).length = b.length := by
  unfold setBit; rw [List.length_set]

theorem setBit_bit {b : List Nat} (hb : b.length = 2 ^ s) {i k : Nat} (hi : i < 8 * 2 ^ s) (hk : k < 8 * 2 ^ s) :
    bit s (setBit s b i) k = (bit s b k || decide (i = k)) := by
  unfold bit setBit
  have hp := Nat.two_pow_pos s
  by_cases c : i / 8 = k / 8
  · rw [c, List.getD_eq_getElem?_getD, List.getElem?_set_self (by omega), Option.getD_some, Nat.testBit_or,
      Nat.shiftLeft_eq, Nat.one_mul, Nat.testBit_two_pow]
    congr 1
    exact decide_eq_decide.mpr ⟨fun h => by omega, fun h => by omega⟩
  · rw [List.getD_eq_getElem?_getD, List.getElem?_set_ne (by omega), ← List.getD_eq_getElem?_getD,
      decide_eq_false (fun h => c (by rw [h])), Bool.or_false]

theorem setBit_sized {b : List Nat} (hb : Sized s b) (i : Nat) : Sized s (setBit s b i) := by
  refine ⟨by rw [setBit_length]; exact hb.1, ?_⟩
  intro x hx
  unfold setBit at hx
  rcases List.mem_or_eq_of_mem_set hx with h | h
  · exact hb.2 x h
  · rw [h]
    refine Nat.or_lt_two_pow (n := 8) ?_ ?_
    · rw [List.getD_eq_getElem?_getD]
      cases e : b[2 ^ s - 1 - i / 8]? with
      | none => decide
      | some y => exact hb.2 y (List.mem_of_getElem? e)
    · rw [Nat.shiftLeft_eq, Nat.one_mul]
      exact Nat.pow_lt_pow_right (by omega) (Nat.mod_lt _ (by decide))

theorem fold_bits (key : List Nat) : ∀ (js : List Nat) (b : List Nat), Sized s b →
    Sized s (js.foldl (fun b j => setBit s b (index s key j)) b) ∧ ∀ k, k < 8 * 2 ^ s →
      bit s (js.foldl (fun b j => setBit s b (index s key j)) b) k = (bit s b k || js.any (fun j => decide (index s key j = k)))
  | [], b, hb => ⟨hb, fun k _ => by simp⟩
  | j :: js, b, hb => by
    obtain ⟨h1, h2⟩ := fold_bits key js (setBit s b (index s key j)) (setBit_sized hb _)
    refine ⟨h1, fun k hk => ?_⟩
    rw [List.foldl_cons, h2 k hk, setBit_bit hb.1 (index_lt key j) hk, List.any_cons, Bool.or_assoc]

/-- C125. Adding a key sets its eight bits and no other, and leaves a filter of the right size. -/
theorem accrued {b : List Nat} (hb : Sized s b) (key : List Nat) :
    Sized s (accrue s b key) ∧ ∀ k, k < 8 * 2 ^ s →
      (bit s (accrue s b key) k = true ↔ bit s b k = true ∨ ∃ j, j < 8 ∧ index s key j = k) := by
  obtain ⟨h1, h2⟩ := fold_bits key (List.range 8) b hb
  refine ⟨h1, fun k hk => ?_⟩
  unfold accrue
  rw [h2 k hk, Bool.or_eq_true, List.any_eq_true]
  simp only [List.mem_range, decide_eq_true_eq]

/-- C125. A key is contained exactly if its eight bits are set. -/
theorem contains_iff (b key : List Nat) : contains s b key = true ↔ ∀ j, j < 8 → bit s b (index s key j) = true := by
  unfold contains
  rw [List.all_eq_true]
  simp only [List.mem_range, decide_eq_true_eq]
  have h : ∀ n m : Nat, n &&& (1 <<< m) ≠ 0 ↔ n.testBit m = true := by
    intro n m
    rw [Nat.shiftLeft_eq, Nat.one_mul, Nat.and_two_pow]
    have := Nat.two_pow_pos m
    cases n.testBit m <;> simp
  exact ⟨fun k j hj => (h _ _).mp (k j hj), fun k j hj => (h _ _).mpr (k j hj)⟩

theorem new_sized : Sized s (new s) :=
  ⟨List.length_replicate, fun x hx => by rw [(List.mem_replicate.mp hx).2]; decide⟩

theorem new_bit (k : Nat) : bit s (new s) k = false := by
  unfold bit new
  rw [List.getD_eq_getElem?_getD, List.getElem?_replicate]
  split <;> simp

theorem fold_keys : ∀ (keys : List (List Nat)) (b : List Nat), Sized s b → Sized s (keys.foldl (accrue s) b) ∧
    ∀ k, k < 8 * 2 ^ s → (bit s (keys.foldl (accrue s) b) k = true ↔
      bit s b k = true ∨ ∃ key ∈ keys, ∃ j, j < 8 ∧ index s key j = k)
  | [], b, hb => ⟨hb, fun k _ => by simp⟩
  | key :: keys, b, hb => by
    obtain ⟨h1, h2⟩ := accrued hb key
    obtain ⟨h3, h4⟩ := fold_keys keys (accrue s b key) h1
    refine ⟨h3, fun k hk => ?_⟩
    rw [List.foldl_cons, h4 k hk, h2 k hk]
    constructor
    · rintro ((h | h) | ⟨key', h, h'⟩)
      · exact .inl h
      · exact .inr ⟨key, by simp, h⟩
      · exact .inr ⟨key', by simp [h], h'⟩
    · rintro (h | ⟨key', h, h'⟩)
      · exact .inl (.inl h)
      · rcases List.mem_cons.mp h with rfl | h
        · exact .inl (.inr h')
        · exact .inr ⟨key', h, h'⟩

/-- C125. After any keys, a key is contained exactly if each of its bits is one of theirs. -/
theorem history (keys : List (List Nat)) (key : List Nat) :
    contains s (keys.foldl (accrue s) (new s)) key = true ↔
      ∀ j, j < 8 → ∃ k ∈ keys, ∃ i, i < 8 ∧ index s k i = index s key j := by
  rw [contains_iff]
  have h := (fold_keys keys (new s) new_sized).2
  constructor
  · intro hc j hj
    rcases (h _ (index_lt key j)).mp (hc j hj) with h' | h'
    · rw [new_bit] at h'; cases h'
    · exact h'
  · intro hc j hj
    exact (h _ (index_lt key j)).mpr (.inr (hc j hj))

/-- C125. A key that was added is contained, whatever is added before and after, and also after the filter was written and
read again in between. -/
theorem never_missed (before later : List (List Nat)) (key : List Nat) :
    ∃ b, tryFrom s ((before ++ [key]).foldl (accrue s) (new s)) = some b ∧
      contains s (later.foldl (accrue s) b) key = true := by
  have hb := (fold_keys (before ++ [key]) (new s) new_sized).1
  refine ⟨(before ++ [key]).foldl (accrue s) (new s), ?_, ?_⟩
  · unfold tryFrom
    rw [if_neg (by rw [hb.1]; omega), if_neg (by rw [hb.1]; omega)]
  · rw [← List.foldl_append, history]
    intro j hj
    exact ⟨key, by simp, j, hj, rfl⟩

/-- C125. A filter is read exactly if it has the right number of bytes, and then as it is. -/
theorem read_iff (b c : List Nat) : tryFrom s b = some c ↔ b.length = 2 ^ s ∧ c = b := by
  unfold tryFrom
  by_cases h1 : b.length < 2 ^ s
  · rw [if_pos h1]
    exact ⟨(fun h => by cases h), fun h => by omega⟩
  · rw [if_neg h1]
    by_cases h2 : 2 ^ s < b.length
    · rw [if_pos h2]
      exact ⟨(fun h => by cases h), fun h => by omega⟩
    · rw [if_neg h2]
      exact ⟨fun h => by cases h; exact ⟨by omega, rfl⟩, fun h => by rw [h.2]⟩

namespace Ex

def key (x : Nat) : List Nat := List.replicate 31 x ++ [7]

/-- A filter of four bytes (one byte of the key to an index): what was added is contained, another key is not. -/
example : contains 2 ([key 3, key 9].foldl (accrue 2) (new 2)) (key 9) = true ∧
    contains 2 ([key 3, key 9].foldl (accrue 2) (new 2)) (key 4) = false := by decide +kernel

/-- A key that was not added can be contained: it shares all bits, here as only the first bytes count. -/
theorem false_positive : contains 2 ((accrue 2 (new 2)) (key 3)) (key (3 + 32)) = true := by decide +kernel

/-- The sizes of the code. -/
example : itemBytes 21 = 3 ∧ itemBytes 16 = 3 ∧ 2 ^ 21 = 2 * 1024 * 1024 ∧ 2 ^ 16 = 64 * 1024 := by decide

end Ex

end Bloom
end Verif
