/-
The wire encoding `tn_types::encode` / `decode` (crates/types/src/codec.rs:55-70): BCS, a dependency. Modelled from
its specification: little-endian integers of fixed width, ULEB128 lengths that must be in canonical form and
below 2^31, sequences and byte strings with a length prefix, structures as the concatenation of their fields,
`Option` with a tag byte, maps with strictly ascending keys. `decode` fails when bytes are left over.
-/
namespace Verif
namespace Codec

abbrev Byte := Fin 256
abbrev Bytes := List Byte

/-- An encoder and a decoder of a prefix of the input. -/
structure Codec (α : Type) where
  enc : α → Bytes
  dec : Bytes → Option (α × Bytes)

/-- What is encoded is read back, whatever follows. `P`: the values that can be encoded. -/
def Codec.Ok {α : Type} (c : Codec α) (P : α → Prop) : Prop :=
  ∀ a, P a → ∀ rest, c.dec (c.enc a ++ rest) = some (a, rest)

/-- Whatever is decoded is a value that can be encoded. -/
def Codec.Sound {α : Type} (c : Codec α) (P : α → Prop) : Prop :=
  ∀ b a rest, c.dec b = some (a, rest) → P a

/-- `bcs::from_bytes`: the whole input must be used. -/
def Codec.fromBytes {α : Type} (c : Codec α) (b : Bytes) : Option α :=
  match c.dec b with
  | some (a, []) => some a
  | _ => none

theorem Codec.Ok.fromBytes {α : Type} {c : Codec α} {P : α → Prop} (h : c.Ok P) {a : α} (ha : P a) :
    c.fromBytes (c.enc a) = some a := by
  have := h a ha []
  rw [List.append_nil] at this
  unfold Codec.fromBytes
  rw [this]

/-- Encodings are uniquely readable: no encoding is a proper prefix of another. -/
theorem Codec.Ok.prefix_free {α : Type} {c : Codec α} {P : α → Prop} (h : c.Ok P) {a b : α} (ha : P a) (hb : P b)
    {x y : Bytes} (he : c.enc a ++ x = c.enc b ++ y) : a = b ∧ x = y := by
  have h1 := h a ha x
  have h2 := h b hb y
  rw [he, h2] at h1
  cases h1
  exact ⟨rfl, rfl⟩

theorem Codec.Ok.inj {α : Type} {c : Codec α} {P : α → Prop} (h : c.Ok P) {a b : α} (ha : P a) (hb : P b)
    (he : c.enc a = c.enc b) : a = b :=
  (h.prefix_free ha hb (x := []) (y := []) (by rw [he])).1

theorem Codec.Ok.mono {α : Type} {c : Codec α} {P Q : α → Prop} (h : c.Ok P) (hq : ∀ a, Q a → P a) : c.Ok Q :=
  fun a ha => h a (hq a ha)

/-! ### Integers -/

/-- `n` in `k` bytes, least significant first. -/
def leBytes : Nat → Nat → Bytes
  | 0, _ => []
  | k + 1, n => ⟨n % 256, Nat.mod_lt _ (by omega)⟩ :: leBytes k (n / 256)

def leNat : Bytes → Nat
  | [] => 0
  | b :: bs => b.val + 256 * leNat bs

theorem leBytes_length (k n : Nat) : (leBytes k n).length = k := by
  induction k generalizing n with
  | zero => rfl
  | succ k ih => simp only [leBytes, List.length_cons, ih]

theorem leNat_leBytes (k n : Nat) (h : n < 256 ^ k) : leNat (leBytes k n) = n := by
  induction k generalizing n with
  | zero => simp only [Nat.pow_zero] at h; simp only [leBytes, leNat]; omega
  | succ k ih =>
    simp only [leBytes, leNat]
    rw [ih (n / 256) (by rw [Nat.pow_succ] at h; exact Nat.div_lt_of_lt_mul (by omega))]
    omega

theorem leNat_lt (bs : Bytes) : leNat bs < 256 ^ bs.length := by
  induction bs with
  | nil => simp [leNat]
  | cons b bs ih =>
    simp only [leNat, List.length_cons, Nat.pow_succ]
    have := b.isLt
    omega

/-- An unsigned integer of `k` bytes. -/
def uint (k : Nat) : Codec Nat where
  enc n := leBytes k n
  dec b := if b.length < k then none else some (leNat (b.take k), b.drop k)

theorem uint_ok (k : Nat) : (uint k).Ok (· < 256 ^ k) := by
  intro n hn rest
  have hl := leBytes_length k n
  simp only [uint]
  rw [if_neg (by rw [List.length_append]; omega), List.take_left' hl, List.drop_left' hl, leNat_leBytes k n hn]

theorem uint_sound (k : Nat) : (uint k).Sound (· < 256 ^ k) := by
  intro b a rest h
  simp only [uint] at h
  split at h
  · cases h
  · rename_i hl
    cases h
    have := leNat_lt (b.take k)
    rw [List.length_take, Nat.min_eq_left (by omega)] at this
    exact this

/-! ### Raw bytes -/

/-- `k` raw bytes (an array). -/
def raw (k : Nat) : Codec Bytes where
  enc b := b
  dec b := if b.length < k then none else some (b.take k, b.drop k)

theorem raw_ok (k : Nat) : (raw k).Ok (·.length = k) := by
  intro b hb rest
  simp only [raw]
  rw [if_neg (by rw [List.length_append]; omega), ← hb, List.take_left, List.drop_left]

theorem raw_sound (k : Nat) : (raw k).Sound (·.length = k) := by
  intro b a rest h
  simp only [raw] at h
  split at h
  · cases h
  · cases h
    rw [List.length_take]; omega

/-! ### Lengths -/

/-- ULEB128 with at most `fuel` bytes. -/
def ulebEnc : Nat → Nat → Bytes
  | 0, _ => []
  | fuel + 1, n =>
    if n < 128 then [⟨n % 256, Nat.mod_lt _ (by omega)⟩]
    else ⟨(n % 128 + 128) % 256, Nat.mod_lt _ (by omega)⟩ :: ulebEnc fuel (n / 128)

/-- Reads at most `fuel` bytes; the last digit of more than one may not be zero. -/
def ulebDec : Nat → Bool → Bytes → Option (Nat × Bytes)
  | 0, _, _ => none
  | _ + 1, _, [] => none
  | fuel + 1, first, b :: bs =>
    if b.val < 128 then (if first = false ∧ b.val = 0 then none else some (b.val, bs))
    else match ulebDec fuel false bs with
      | none => none
      | some (n, rest) => some (b.val - 128 + 128 * n, rest)

/-- The largest length of a sequence (`MAX_SEQUENCE_LENGTH`). -/
def maxLen : Nat := 2147483647

/-- A length: at most five bytes. -/
def len : Codec Nat where
  enc n := ulebEnc 5 n
  dec b := match ulebDec 5 true b with
    | none => none
    | some (n, rest) => if n ≤ maxLen then some (n, rest) else none

theorem ulebDec_enc (fuel n : Nat) (first : Bool) (rest : Bytes) (hn : n < 128 ^ fuel) (h0 : first = false → 0 < n)
    (hf : 0 < fuel) : ulebDec fuel first (ulebEnc fuel n ++ rest) = some (n, rest) := by
  induction fuel generalizing n first with
  | zero => omega
  | succ fuel ih =>
    unfold ulebEnc
    split
    · rename_i h
      have hv : n % 256 = n := Nat.mod_eq_of_lt (by omega)
      simp only [List.cons_append, List.nil_append, ulebDec, hv]
      rw [if_pos h, if_neg]
      rintro ⟨h1, h2⟩
      have := h0 h1
      omega
    · rename_i h
      have hv : (n % 128 + 128) % 256 = n % 128 + 128 := Nat.mod_eq_of_lt (by omega)
      simp only [List.cons_append, ulebDec, hv]
      rw [if_neg (by omega)]
      have hd : n / 128 < 128 ^ fuel := by rw [Nat.pow_succ] at hn; exact Nat.div_lt_of_lt_mul (by omega)
      rcases fuel with _ | fuel
      · simp only [Nat.pow_zero] at hd; omega
      · rw [ih (n / 128) false hd (by omega) (by omega)]
        simp only
        congr 1
        congr 1
        omega

theorem len_ok : len.Ok (· ≤ maxLen) := by
  intro n hn rest
  simp only [len]
  rw [ulebDec_enc 5 n true rest (by unfold maxLen at hn; omega) (by simp) (by omega)]
  simp only
  rw [if_pos hn]

theorem len_sound : len.Sound (· ≤ maxLen) := by
  intro b a rest h
  simp only [len] at h
  split at h
  · cases h
  · split at h
    · rename_i hle; cases h; exact hle
    · cases h

theorem ulebEnc_pos (fuel n : Nat) (h : 0 < fuel) : 1 ≤ (ulebEnc fuel n).length := by
  cases fuel with
  | zero => omega
  | succ k =>
    unfold ulebEnc
    split <;> simp

theorem len_small {n : Nat} (h : n < 128) : len.enc n = [⟨n, by omega⟩] := by
  simp only [len, ulebEnc, if_pos h]
  congr 1
  exact Fin.ext (Nat.mod_eq_of_lt (by omega))

/-! ### Composition -/

def pair {α β : Type} (c : Codec α) (d : Codec β) : Codec (α × β) where
  enc x := c.enc x.1 ++ d.enc x.2
  dec b := match c.dec b with
    | none => none
    | some (a, r) => match d.dec r with
      | none => none
      | some (x, r) => some ((a, x), r)

theorem pair_ok {α β : Type} {c : Codec α} {d : Codec β} {P : α → Prop} {Q : β → Prop} (hc : c.Ok P) (hd : d.Ok Q) :
    (pair c d).Ok (fun x => P x.1 ∧ Q x.2) := by
  rintro ⟨a, x⟩ ⟨h1, h2⟩ rest
  simp only [pair, List.append_assoc]
  rw [hc a h1]
  simp only
  rw [hd x h2]

theorem pair_sound {α β : Type} {c : Codec α} {d : Codec β} {P : α → Prop} {Q : β → Prop} (hc : c.Sound P)
    (hd : d.Sound Q) : (pair c d).Sound (fun x => P x.1 ∧ Q x.2) := by
  intro b a rest h
  simp only [pair] at h
  split at h
  · cases h
  · rename_i h1
    split at h
    · cases h
    · rename_i h2
      cases h
      exact ⟨hc _ _ _ h1, hd _ _ _ h2⟩

/-- The values of a codec seen as another type; decoding may refuse. -/
def conv {α β : Type} (c : Codec α) (f : α → Option β) (g : β → α) : Codec β where
  enc x := c.enc (g x)
  dec b := match c.dec b with
    | none => none
    | some (a, r) => match f a with
      | none => none
      | some x => some (x, r)

theorem conv_ok {α β : Type} {c : Codec α} {P : α → Prop} {Q : β → Prop} {f : α → Option β} {g : β → α} (hc : c.Ok P)
    (hg : ∀ x, Q x → P (g x) ∧ f (g x) = some x) : (conv c f g).Ok Q := by
  intro x hx rest
  simp only [conv]
  rw [hc (g x) (hg x hx).1]
  simp only
  rw [(hg x hx).2]

theorem conv_sound {α β : Type} {c : Codec α} {P : α → Prop} {Q : β → Prop} {f : α → Option β} {g : β → α}
    (hc : c.Sound P) (hf : ∀ a x, P a → f a = some x → Q x) : (conv c f g).Sound Q := by
  intro b x rest h
  simp only [conv] at h
  split at h
  · cases h
  · rename_i h1
    split at h
    · cases h
    · rename_i h2
      cases h
      exact hf _ _ (hc _ _ _ h1) h2

/-- `n` elements one after the other. -/
def manyDec {α : Type} (c : Codec α) : Nat → Bytes → Option (List α × Bytes)
  | 0, b => some ([], b)
  | n + 1, b => match c.dec b with
    | none => none
    | some (a, r) => match manyDec c n r with
      | none => none
      | some (as, r) => some (a :: as, r)

def manyEnc {α : Type} (c : Codec α) : List α → Bytes
  | [] => []
  | a :: as => c.enc a ++ manyEnc c as

theorem manyDec_enc {α : Type} {c : Codec α} {P : α → Prop} (hc : c.Ok P) (as : List α) (h : ∀ a ∈ as, P a)
    (rest : Bytes) : manyDec c as.length (manyEnc c as ++ rest) = some (as, rest) := by
  induction as with
  | nil => rfl
  | cons a as ih =>
    simp only [List.length_cons, manyEnc, manyDec, List.append_assoc]
    rw [hc a (h a (by simp))]
    simp only
    rw [ih (fun x hx => h x (List.mem_cons_of_mem _ hx))]

theorem manyDec_sound {α : Type} {c : Codec α} {P : α → Prop} (hc : c.Sound P) {n : Nat} {b : Bytes} {as : List α}
    {rest : Bytes} (h : manyDec c n b = some (as, rest)) : as.length = n ∧ ∀ a ∈ as, P a := by
  induction n generalizing b as with
  | zero => cases h; exact ⟨rfl, fun a ha => (by cases ha)⟩
  | succ n ih =>
    simp only [manyDec] at h
    split at h
    · cases h
    · rename_i h1
      split at h
      · cases h
      · rename_i h2
        cases h
        obtain ⟨h3, h4⟩ := ih h2
        refine ⟨by simp only [List.length_cons, h3], ?_⟩
        intro a ha
        rcases List.mem_cons.mp ha with rfl | ha
        · exact hc _ _ _ h1
        · exact h4 a ha

/-- A sequence: its length, then the elements. -/
def seq {α : Type} (c : Codec α) : Codec (List α) where
  enc as := len.enc as.length ++ manyEnc c as
  dec b := match len.dec b with
    | none => none
    | some (n, r) => manyDec c n r

theorem seq_ok {α : Type} {c : Codec α} {P : α → Prop} (hc : c.Ok P) :
    (seq c).Ok (fun as => as.length ≤ maxLen ∧ ∀ a ∈ as, P a) := by
  rintro as ⟨h1, h2⟩ rest
  simp only [seq, List.append_assoc]
  rw [len_ok _ h1]
  exact manyDec_enc hc as h2 rest

theorem seq_sound {α : Type} {c : Codec α} {P : α → Prop} (hc : c.Sound P) :
    (seq c).Sound (fun as => as.length ≤ maxLen ∧ ∀ a ∈ as, P a) := by
  intro b as rest h
  simp only [seq] at h
  split at h
  · cases h
  · rename_i h1
    obtain ⟨h2, h3⟩ := manyDec_sound hc h
    exact ⟨by have := len_sound _ _ _ h1; rw [h2]; exact this, h3⟩

/-- A byte string: its length, then the bytes (`serialize_bytes`). -/
def bytes : Codec Bytes where
  enc b := len.enc b.length ++ b
  dec b := match len.dec b with
    | none => none
    | some (n, r) => (raw n).dec r

theorem bytes_ok : bytes.Ok (·.length ≤ maxLen) := by
  intro b hb rest
  simp only [bytes, List.append_assoc]
  rw [len_ok _ hb]
  exact raw_ok b.length b rfl rest

/-- A byte string of which only length `k` is accepted (`Digest<32>`, alloy's `FixedBytes`). -/
def bytesN (k : Nat) : Codec Bytes := conv bytes (fun b => if b.length = k then some b else none) id

theorem bytesN_ok {k : Nat} (hk : k ≤ maxLen) : (bytesN k).Ok (·.length = k) :=
  conv_ok bytes_ok (fun x hx => ⟨by dsimp only [id]; omega, by simp only [id, hx, if_true]⟩)

theorem bytesN_sound (k : Nat) : (bytesN k).Sound (·.length = k) := by
  intro b a rest h
  simp only [bytesN, conv] at h
  split at h
  · cases h
  · split at h
    · cases h
    · rename_i h2
      split at h2
      · rename_i hl; cases h2; cases h; exact hl
      · cases h2

/-- `bool`. -/
def bool : Codec Bool where
  enc x := if x then [1] else [0]
  dec b := match b with
    | [] => none
    | t :: r => if t = 0 then some (false, r) else if t = 1 then some (true, r) else none

theorem bool_ok : bool.Ok (fun _ => True) := by
  intro x _ rest
  cases x <;> rfl

/-- `Option`. -/
def option {α : Type} (c : Codec α) : Codec (Option α) where
  enc x := match x with
    | none => [0]
    | some a => 1 :: c.enc a
  dec b := match b with
    | [] => none
    | t :: r => if t = 0 then some (none, r)
      else if t = 1 then (match c.dec r with
        | none => none
        | some (a, r) => some (some a, r))
      else none

theorem option_ok {α : Type} {c : Codec α} {P : α → Prop} (hc : c.Ok P) :
    (option c).Ok (fun x => ∀ a, x = some a → P a) := by
  intro x hx rest
  cases x with
  | none => rfl
  | some a =>
    show (match c.dec (c.enc a ++ rest) with
      | none => none
      | some (a, r) => some (some a, r)) = _
    rw [hc a (hx a rfl)]

end Codec
end Verif
