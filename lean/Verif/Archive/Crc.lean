import Verif.Codec.Bcs
/-
CRC-32, as `crc32fast` computes it (a dependency; modelled from the definition of the IEEE checksum: initial
state all ones, reflected polynomial 0xEDB88320, final complement), and what it detects: every change that lies
within 32 consecutive bits of the data and the stored checksum. Used by `crates/storage/src/archive/pack.rs`
496-540, 403-442, 587-660, `pack_iter.rs` 80-131 and `crc.rs`.
-/
namespace Verif
namespace Crc
open Codec (Byte Bytes leBytes leNat)

def poly : BitVec 32 := 0xEDB88320#32

/-- One bit of data, least significant first. -/
def stepBit (s : BitVec 32) (b : Bool) : BitVec 32 :=
  (s >>> 1) ^^^ (if Bool.xor (s.getLsbD 0) b then poly else 0#32)

/-- The bits of a byte, least significant first. -/
def byteBits (x : Byte) : List Bool := (List.range 8).map x.val.testBit

def bits (b : Bytes) : List Bool := b.flatMap byteBits

def run (s : BitVec 32) (l : List Bool) : BitVec 32 := l.foldl stepBit s

def ones : BitVec 32 := 0xFFFFFFFF#32

/-- `Hasher::new(); update(b); finalize()`. -/
def crc32 (b : Bytes) : Nat := (run ones (bits b) ^^^ ones).toNat

/-- The check value of the standard: the checksum of `"123456789"`. -/
theorem check_value : crc32 [49, 50, 51, 52, 53, 54, 55, 56, 57] = 0xCBF43926 := by decide +kernel

theorem crc32_lt (b : Bytes) : crc32 b < 256 ^ 4 := (run ones (bits b) ^^^ ones).isLt

/-! ## The state after a difference -/

theorem stepBit_xor (s d : BitVec 32) (b e : Bool) :
    stepBit (s ^^^ d) (Bool.xor b e) = stepBit s b ^^^ stepBit d e := by
  unfold stepBit
  rw [BitVec.ushiftRight_xor_distrib, BitVec.getLsbD_xor]
  have h : (if Bool.xor (Bool.xor (s.getLsbD 0) (d.getLsbD 0)) (Bool.xor b e) then poly else 0#32) =
      (if Bool.xor (s.getLsbD 0) b then poly else 0#32) ^^^ (if Bool.xor (d.getLsbD 0) e then poly else 0#32) := by
    cases s.getLsbD 0 <;> cases d.getLsbD 0 <;> cases b <;> cases e <;> decide
  rw [h]
  ac_rfl

def diff (l m : List Bool) : List Bool := List.zipWith Bool.xor l m

theorem run_diff : ∀ (l m : List Bool) (s d : BitVec 32), l.length = m.length →
    run (s ^^^ d) (diff l m) = run s l ^^^ run d m
  | [], [], s, d, _ => rfl
  | a :: l, b :: m, s, d, h => by
    show run (stepBit (s ^^^ d) (Bool.xor a b)) (diff l m) = run (stepBit s a) l ^^^ run (stepBit d b) m
    rw [stepBit_xor]
    exact run_diff l m _ _ (Nat.succ.inj h)

def bitsNat : List Bool → Nat
  | [] => 0
  | e :: l => e.toNat + 2 * bitsNat l

theorem bitsNat_lt : ∀ l : List Bool, bitsNat l < 2 ^ l.length
  | [] => by decide
  | e :: l => by
    have := bitsNat_lt l
    show e.toNat + 2 * bitsNat l < 2 ^ (l.length + 1)
    rw [Nat.pow_succ]
    cases e <;> simp <;> omega

theorem bitsNat_zero : ∀ {l : List Bool}, bitsNat l = 0 → ∀ e ∈ l, e = false
  | e :: l, h, x, hx => by
    have h' : e.toNat + 2 * bitsNat l = 0 := h
    rcases List.mem_cons.mp hx with rfl | hx
    · cases x
      · rfl
      · simp at h'
    · exact bitsNat_zero (by omega) x hx

/-- The state before the last at most 32 bits is determined by them if the state after is zero. -/
theorem run_zero : ∀ (l : List Bool) (d : BitVec 32), l.length ≤ 32 → run d l = 0#32 → d.toNat = bitsNat l
  | [], d, _, h => by
    have : d = 0#32 := h
    rw [this]; rfl
  | e :: l, d, hl, h => by
    have hl' : l.length ≤ 31 := Nat.le_of_succ_le_succ hl
    have ih := run_zero l (stepBit d e) (by omega) h
    have hlt : (stepBit d e).toNat < 2 ^ 31 := by
      rw [ih]
      exact Nat.lt_of_lt_of_le (bitsNat_lt l) (Nat.pow_le_pow_right (by omega) hl')
    have hm : (stepBit d e).getLsbD 31 = false := by
      rw [BitVec.getLsbD, Nat.testBit_lt_two_pow hlt]
    have hc : Bool.xor (d.getLsbD 0) e = false := by
      cases hx : Bool.xor (d.getLsbD 0) e with
      | false => rfl
      | true =>
        unfold stepBit at hm
        rw [hx, if_pos rfl, BitVec.getLsbD_xor, BitVec.getLsbD_ushiftRight] at hm
        have h32 : d.getLsbD (1 + 31) = false := BitVec.getLsbD_of_ge d 32 (by omega)
        rw [h32] at hm
        exact absurd hm (by decide)
    have hs : stepBit d e = d >>> 1 := by
      unfold stepBit
      rw [hc]
      simp
    rw [hs, BitVec.toNat_ushiftRight, Nat.shiftRight_eq_div_pow] at ih
    have h0 : d.getLsbD 0 = e := by
      revert hc
      cases d.getLsbD 0 <;> cases e <;> simp
    have hp : d.toNat % 2 = e.toNat := by
      rw [← h0, BitVec.getLsbD, Nat.testBit_zero]
      rcases Nat.mod_two_eq_zero_or_one d.toNat with h | h <;> simp [h]
    show d.toNat = e.toNat + 2 * bitsNat l
    omega

theorem run_append (s : BitVec 32) (l m : List Bool) : run s (l ++ m) = run (run s l) m := List.foldl_append

theorem run_zeros (n : Nat) : run 0#32 (List.replicate n false) = 0#32 := by
  induction n with
  | zero => rfl
  | succ n ih => exact ih

theorem zeros_run (n : Nat) (d : BitVec 32) (h : run d (List.replicate n false) = 0#32) : d = 0#32 := by
  induction n generalizing d with
  | zero => exact h
  | succ n ih =>
    have h1 : stepBit d false = 0#32 := ih _ h
    exact BitVec.eq_of_toNat_eq (run_zero [false] d (by decide) h1)

theorem all_false {l : List Bool} (h : ∀ e ∈ l, e = false) : l = List.replicate l.length false :=
  List.eq_replicate_iff.mpr ⟨rfl, h⟩

/-- A nonzero difference within 32 consecutive bits leaves a nonzero state. -/
theorem burst (l : List Bool) (a : Nat) (hw : ∀ i, l[i]? = some true → a ≤ i ∧ i < a + 32)
    (h : run 0#32 l = 0#32) : ∀ e ∈ l, e = false := by
  have h1 : l = l.take a ++ ((l.drop a).take 32 ++ (l.drop a).drop 32) := by
    rw [List.take_append_drop, List.take_append_drop]
  have za : ∀ e ∈ l.take a, e = false := by
    intro e he
    obtain ⟨i, hi⟩ := List.mem_iff_getElem?.mp he
    rw [List.getElem?_take] at hi
    split at hi
    · cases e
      · rfl
      · have := hw i hi; omega
    · cases hi
  have zc : ∀ e ∈ (l.drop a).drop 32, e = false := by
    intro e he
    obtain ⟨i, hi⟩ := List.mem_iff_getElem?.mp he
    rw [List.getElem?_drop, List.getElem?_drop] at hi
    cases e
    · rfl
    · have := hw _ hi; omega
  have e1 : run 0#32 l = run (run 0#32 ((l.drop a).take 32)) ((l.drop a).drop 32) := by
    conv => lhs; rw [h1]
    rw [run_append, run_append, all_false za, run_zeros]
  rw [h, all_false zc] at e1
  have e2 := run_zero _ _ (by rw [List.length_take]; omega) (zeros_run _ _ e1.symm)
  have zb := bitsNat_zero e2.symm
  intro e he
  rw [h1] at he
  rcases List.mem_append.mp he with he | he
  · exact za e he
  · rcases List.mem_append.mp he with he | he
    · exact zb e he
    · exact zc e he

/-! ## Data with its checksum -/

theorem bits_append (a b : Bytes) : bits (a ++ b) = bits a ++ bits b := List.flatMap_append

theorem byteBits_length (x : Byte) : (byteBits x).length = 8 := by simp [byteBits]

theorem bits_length : ∀ b : Bytes, (bits b).length = 8 * b.length
  | [] => rfl
  | x :: b => by
    show (byteBits x ++ bits b).length = _
    rw [List.length_append, byteBits_length, bits_length b, List.length_cons]
    omega

theorem byteBits_nat (x : Byte) : bitsNat (byteBits x) = x.val := by
  revert x
  decide +kernel

theorem bitsNat_append : ∀ l m : List Bool, bitsNat (l ++ m) = bitsNat l + 2 ^ l.length * bitsNat m
  | [], m => by simp [bitsNat]
  | e :: l, m => by
    show e.toNat + 2 * bitsNat (l ++ m) = e.toNat + 2 * bitsNat l + 2 ^ (l.length + 1) * bitsNat m
    rw [bitsNat_append l m, Nat.pow_succ, Nat.mul_add, ← Nat.mul_assoc, Nat.mul_comm 2 (2 ^ _)]
    omega

theorem bits_nat : ∀ b : Bytes, bitsNat (bits b) = leNat b
  | [] => rfl
  | x :: b => by
    show bitsNat (byteBits x ++ bits b) = x.val + 256 * leNat b
    rw [bitsNat_append, byteBits_nat, byteBits_length, bits_nat b]

theorem bitsNat_inj : ∀ {l m : List Bool}, l.length = m.length → bitsNat l = bitsNat m → l = m
  | [], [], _, _ => rfl
  | a :: l, b :: m, h, e => by
    have e' : a.toNat + 2 * bitsNat l = b.toNat + 2 * bitsNat m := e
    have hab : a = b := by cases a <;> cases b <;> simp at e' ⊢ <;> omega
    subst hab
    rw [bitsNat_inj (Nat.succ.inj h) (by omega)]

theorem bits_inj {a b : Bytes} (h : bits a = bits b) : a = b := by
  induction a generalizing b with
  | nil =>
    cases b with
    | nil => rfl
    | cons y b => have := congrArg List.length h; rw [bits_length, bits_length] at this; simp at this
  | cons x a ih =>
    cases b with
    | nil => have := congrArg List.length h; rw [bits_length, bits_length] at this; simp at this
    | cons y b =>
      have h' : byteBits x ++ bits a = byteBits y ++ bits b := h
      obtain ⟨h1, h2⟩ := List.append_inj h' (by rw [byteBits_length, byteBits_length])
      have : x = y := Fin.ext (by rw [← byteBits_nat x, ← byteBits_nat y, h1])
      rw [this, ih h2]

/-- Feeding a state to itself clears it. -/
theorem run_self : ∀ (l : List Bool) (s : BitVec 32), l.length ≤ 32 → s.toNat = bitsNat l → run s l = 0#32
  | [], s, _, h => BitVec.eq_of_toNat_eq h
  | e :: l, s, hl, h => by
    have h' : s.toNat = e.toNat + 2 * bitsNat l := h
    have h0 : s.getLsbD 0 = e := by
      rw [BitVec.getLsbD, Nat.testBit_zero, h']
      cases e <;> simp [Nat.add_mod]
    have hs : stepBit s e = s >>> 1 := by
      unfold stepBit
      rw [h0]
      simp
    show run (stepBit s e) l = 0#32
    rw [hs]
    refine run_self l _ (Nat.le_of_succ_le hl) ?_
    rw [BitVec.toNat_ushiftRight, Nat.shiftRight_eq_div_pow, h']
    cases e <;> simp <;> omega

/-- The state after any data followed by its checksum. -/
def residue : BitVec 32 := run 0#32 (List.replicate 32 true)

theorem bits_ones : bits [255, 255, 255, 255] = List.replicate 32 true := by decide +kernel

theorem zipWith_xor_true : ∀ l : List Bool, diff (l.map (!·)) (List.replicate l.length true) = l
  | [] => rfl
  | a :: l => by
    show Bool.xor (!a) true :: diff (l.map (!·)) (List.replicate l.length true) = a :: l
    rw [zipWith_xor_true l]
    simp

theorem bitsNat_not : ∀ l : List Bool, bitsNat (l.map (!·)) + bitsNat l = 2 ^ l.length - 1
  | [] => rfl
  | a :: l => by
    have := bitsNat_not l
    have hp : 0 < 2 ^ l.length := Nat.pow_pos (by omega)
    show (!a).toNat + 2 * bitsNat (l.map (!·)) + (a.toNat + 2 * bitsNat l) = 2 ^ (l.length + 1) - 1
    rw [Nat.pow_succ]
    cases a <;> simp <;> omega

theorem xor_ones (s : BitVec 32) : (s ^^^ ones).toNat = 2 ^ 32 - 1 - s.toNat := by
  have h : s ^^^ ones = ~~~ s := by
    have : ones = BitVec.allOnes 32 := by decide
    rw [this, BitVec.xor_allOnes]
  rw [h, BitVec.toNat_not]

/-- **Data and checksum fit exactly if the state after both is the residue.** -/
theorem valid_iff (data field : Bytes) (hf : field.length = 4) :
    crc32 data = leNat field ↔ run ones (bits (data ++ field)) = residue := by
  rw [bits_append, run_append]
  generalize hs : run ones (bits data) = s
  have hlen : (bits field).length = 32 := by rw [bits_length, hf]
  have hcrc : crc32 data = 2 ^ 32 - 1 - s.toNat := by unfold crc32; rw [hs, xor_ones]
  have hnot := bitsNat_not (bits field)
  have hsl : s.toNat < 2 ^ 32 := s.isLt
  have hb : bitsNat (bits field) < 2 ^ 32 := by have := bitsNat_lt (bits field); rwa [hlen] at this
  have key : run s (bits field) = residue ↔ run s ((bits field).map (!·)) = 0#32 := by
    have e : run s (bits field) = run s ((bits field).map (!·)) ^^^ residue := by
      have := run_diff ((bits field).map (!·)) (List.replicate 32 true) s 0#32 (by simp [hlen])
      rw [BitVec.xor_zero] at this
      rw [show diff ((bits field).map (!·)) (List.replicate 32 true) = bits field from by
        have := zipWith_xor_true (bits field); rwa [hlen] at this] at this
      exact this
    rw [e]
    constructor
    · intro h
      have := congrArg (· ^^^ residue) h
      simpa [BitVec.xor_assoc] using this
    · intro h
      rw [h]; simp
  rw [key, ← bits_nat, hcrc]
  constructor
  · intro h
    refine run_self _ _ (by simp [hlen]) ?_
    rw [hlen] at hnot
    omega
  · intro h
    have := run_zero _ _ (by simp [hlen]) h
    rw [hlen] at hnot
    omega

/-- Two byte strings differ only within 32 consecutive bits. -/
def NearBy (a b : Bytes) : Prop :=
  a.length = b.length ∧ ∃ p, ∀ i, (bits a)[i]? ≠ (bits b)[i]? → p ≤ i ∧ i < p + 32

theorem diff_true {l m : List Bool} {i : Nat} (hi : (diff l m)[i]? = some true) :
    l[i]? ≠ m[i]? := by
  unfold diff at hi
  rw [List.getElem?_zipWith] at hi
  cases hl : l[i]? with
  | none => rw [hl] at hi; cases hi
  | some a =>
    cases hm : m[i]? with
    | none => rw [hl, hm] at hi; cases hi
    | some b =>
      rw [hl, hm] at hi
      intro hab
      cases hab
      simp at hi

theorem diff_false : ∀ {l m : List Bool}, l.length = m.length → (∀ e ∈ diff l m, e = false) → l = m
  | [], [], _, _ => rfl
  | a :: l, b :: m, h, hf => by
    have h1 : Bool.xor a b = false := hf _ (List.mem_cons_self ..)
    have h2 := diff_false (Nat.succ.inj h) (fun e he => hf e (List.mem_cons_of_mem _ he))
    have : a = b := by revert h1; cases a <;> cases b <;> simp
    rw [this, h2]

/-- **What the checksum detects:** of two byte strings that both carry a fitting checksum in their last four
bytes, and that differ only within 32 consecutive bits, neither differs at all. -/
theorem detects {d d' f f' : Bytes} (hd : d.length = d'.length) (hf : f.length = 4) (hf' : f'.length = 4)
    (hn : NearBy (d ++ f) (d' ++ f')) (h : crc32 d = leNat f) (h' : crc32 d' = leNat f') : d = d' ∧ f = f' := by
  rw [valid_iff d f hf] at h
  rw [valid_iff d' f' hf'] at h'
  obtain ⟨hl, p, hp⟩ := hn
  have hbl : (bits (d ++ f)).length = (bits (d' ++ f')).length := by rw [bits_length, bits_length, hl]
  have e := run_diff (bits (d ++ f)) (bits (d' ++ f')) ones ones hbl
  rw [h, h', BitVec.xor_self, BitVec.xor_self] at e
  have z := burst _ p (fun i hi => hp i (diff_true hi)) e
  have := bits_inj (diff_false hbl z)
  exact List.append_inj this hd

end Crc
end Verif
