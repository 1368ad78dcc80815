import Verif.Codec.Signed
/-
Node records in two layouts (crates/network-libp2p/src/types.rs:840-985) and database keys (crates/types/src/codec.rs:15-50).
Properties C38, C39.
-/
namespace Verif
namespace Codec

/-! ### Node records -/

/-- `NetworkInfo` / `LegacyNetworkInfo` without the RPC information: network key, addresses, timestamp. -/
structure WInfo where
  key : Bytes
  addrs : List Bytes
  timestamp : Nat
deriving DecidableEq

structure WInfo.WF (valid : Bytes → Bool) (i : WInfo) : Prop where
  key : i.key.length ≤ maxLen ∧ valid i.key = true
  addrs : i.addrs.length ≤ maxLen ∧ ∀ a ∈ i.addrs, a.length ≤ maxLen
  timestamp : i.timestamp < 2 ^ 64

/-- The fields in order. `valid`: the byte strings that are network keys. Addresses are byte strings (which ones parse as
multiaddresses is not modelled). -/
def infoC (valid : Bytes → Bool) : Codec WInfo :=
  conv (pair (conv bytes (fun b => if valid b then some b else none) id) (pair (seq bytes) (uint 8)))
    (fun x => some ⟨x.1, x.2.1, x.2.2⟩) (fun i => (i.key, i.addrs, i.timestamp))

theorem infoC_ok (valid : Bytes → Bool) : (infoC valid).Ok (WInfo.WF valid) :=
  conv_ok (pair_ok (conv_ok (Q := fun b => b.length ≤ maxLen ∧ valid b = true) bytes_ok
      (fun x hx => ⟨hx.1, by simp only [id, hx.2, if_true]⟩)) (pair_ok (seq_ok bytes_ok) (uint_ok 8)))
    (fun x hx => ⟨⟨hx.key, hx.addrs, hx.timestamp⟩, rfl⟩)

/-- `NodeRecord`: information with optional RPC information `R`, signature. -/
def recC {R : Type} (valid : Bytes → Bool) (B : Build) (rpc : Codec R) : Codec ((WInfo × Option R) × Bytes) :=
  pair (pair (infoC valid) (option rpc)) (sigC B)

/-- `LegacyNodeRecord`. -/
def legacyRecC (valid : Bytes → Bool) (B : Build) : Codec (WInfo × Bytes) := pair (infoC valid) (sigC B)

/-- `try_decode_compat` (types.rs:942-946): the layout read and the record. -/
def tryDecodeCompat {R : Type} (valid : Bytes → Bool) (B : Build) (rpc : Codec R) (b : Bytes) :
    Option ((WInfo × Option R) × Bytes) :=
  match (recC valid B rpc).fromBytes b with
  | some r => some r
  | none => match (legacyRecC valid B).fromBytes b with
    | some (i, s) => some ((i, none), s)
    | none => none

/-- `decode_and_verify` (types.rs:953-968). `verify sig message`. -/
def decodeAndVerify {R : Type} (valid : Bytes → Bool) (B : Build) (rpc : Codec R) (verify : Bytes → Bytes → Bool)
    (b : Bytes) : Option ((WInfo × Option R) × Bytes) :=
  match (recC valid B rpc).fromBytes b with
  | some (i, s) => if verify s ((pair (infoC valid) (option rpc)).enc i) then some (i, s) else none
  | none => match (legacyRecC valid B).fromBytes b with
    | some (i, s) => if verify s ((infoC valid).enc i) then some ((i, none), s) else none
    | none => none

section
variable {R : Type} {valid : Bytes → Bool} {B : Build} {rpc : Codec R} {P : R → Prop}

theorem recC_ok (hr : rpc.Ok P) : (recC valid B rpc).Ok (fun x => (WInfo.WF valid x.1.1 ∧ ∀ r, x.1.2 = some r → P r) ∧
    x.2.length = 48 ∧ B.validSig x.2 = true) :=
  pair_ok (pair_ok (infoC_ok valid) (option_ok hr)) (sigC_ok B)

theorem legacyRecC_ok : (legacyRecC valid B).Ok (fun x => WInfo.WF valid x.1 ∧ x.2.length = 48 ∧ B.validSig x.2 = true) :=
  pair_ok (infoC_ok valid) (sigC_ok B)

theorem sigC_enc {s : Bytes} (h : s.length = 48) : (sigC B).enc s = 48 :: s := by
  show len.enc s.length ++ s = 48 :: s
  rw [h, len_small (by decide)]
  rfl

/-- **C38** Bytes of the old layout do not decode under the new one. -/
theorem legacy_not_current {i : WInfo} {s : Bytes} (hi : WInfo.WF valid i) (hs : s.length = 48) :
    (recC valid B rpc).fromBytes ((legacyRecC valid B).enc (i, s)) = none := by
  unfold Codec.fromBytes recC legacyRecC pair
  dsimp only
  rw [infoC_ok valid i hi]
  dsimp only
  rw [sigC_enc hs]
  rfl

/-- **C38** Bytes of the new layout do not decode under the old one. -/
theorem current_not_legacy {i : WInfo} {r : Option R} {s : Bytes} (hi : WInfo.WF valid i) :
    (legacyRecC valid B).fromBytes ((recC valid B rpc).enc ((i, r), s)) = none := by
  have short : ∀ (t : Byte) (tl : Bytes), t.val < 2 → (sigC B).dec (t :: tl) = none := by
    intro t tl ht
    have hl : len.dec (t :: tl) = some (t.val, tl) := by
      simp only [len, ulebDec]
      rw [if_pos (by omega), if_neg (by simp)]
      simp only
      rw [if_pos (by unfold maxLen; omega)]
    have hb : bytes.dec (t :: tl) = (raw t.val).dec tl := by simp only [bytes, hl]
    simp only [sigC, conv, bytesN, hb, raw]
    split
    · rfl
    · rename_i heq
      split at heq
      · cases heq
      · rename_i heq2
        split at heq2
        · cases heq2
        · rename_i hlt
          cases heq2
          rw [if_neg (by rw [List.length_take]; omega)] at heq
          cases heq
  unfold Codec.fromBytes recC legacyRecC pair
  dsimp only
  rw [List.append_assoc, infoC_ok valid i hi]
  dsimp only
  cases r with
  | none => rw [show (option rpc).enc none ++ (sigC B).enc s = 0 :: (sigC B).enc s from rfl, short _ _ (by decide)]
  | some x =>
    rw [show (option rpc).enc (some x) ++ (sigC B).enc s = 1 :: (rpc.enc x ++ (sigC B).enc s) from rfl,
      short _ _ (by decide)]

/-- **C38** Records of both layouts decode to themselves; an old record comes without RPC information. -/
theorem compat_roundtrip (hr : rpc.Ok P) {i : WInfo} {r : Option R} {s : Bytes} (hi : WInfo.WF valid i)
    (hp : ∀ x, r = some x → P x) (hs : s.length = 48 ∧ B.validSig s = true) :
    tryDecodeCompat valid B rpc ((recC valid B rpc).enc ((i, r), s)) = some ((i, r), s) ∧
    tryDecodeCompat valid B rpc ((legacyRecC valid B).enc (i, s)) = some ((i, none), s) := by
  constructor
  · unfold tryDecodeCompat
    rw [(recC_ok hr).fromBytes ⟨⟨hi, hp⟩, hs⟩]
  · unfold tryDecodeCompat
    rw [legacy_not_current hi hs.1, legacyRecC_ok.fromBytes ⟨hi, hs⟩]

/-- **C38** A record is accepted exactly when the signature verifies over the layout it was written in. -/
theorem verify_exact (hr : rpc.Ok P) {i : WInfo} {r : Option R} {s : Bytes} (hi : WInfo.WF valid i)
    (hp : ∀ x, r = some x → P x) (hs : s.length = 48 ∧ B.validSig s = true) (verify : Bytes → Bytes → Bool) :
    decodeAndVerify valid B rpc verify ((recC valid B rpc).enc ((i, r), s)) =
      (if verify s ((pair (infoC valid) (option rpc)).enc (i, r)) then some ((i, r), s) else none) ∧
    decodeAndVerify valid B rpc verify ((legacyRecC valid B).enc (i, s)) =
      (if verify s ((infoC valid).enc i) then some ((i, none), s) else none) := by
  constructor
  · unfold decodeAndVerify
    rw [(recC_ok hr).fromBytes ⟨⟨hi, hp⟩, hs⟩]
  · unfold decodeAndVerify
    rw [legacy_not_current hi hs.1, legacyRecC_ok.fromBytes ⟨hi, hs⟩]

end

/-- A record that meets the hypotheses. -/
example : WInfo.WF (fun b => b.length == 36) ⟨List.replicate 36 8, [[4, 127, 0, 0, 1]], 1700000000⟩ :=
  ⟨by decide, by decide, by decide⟩

/-! ### Database keys -/

/-- `encode_key` (codec.rs:39-50): fixed-width integers, most significant byte first; arrays raw. -/
def roundKey (round : Nat) (author : Bytes) : Bytes := beBytes 4 round ++ author

/-- The key of the index by origin. -/
def originKey (author : Bytes) (round : Nat) : Bytes := author ++ beBytes 4 round

theorem ltB_append_left (p a b : Bytes) : ltB (p ++ a) (p ++ b) = ltB a b := by
  induction p with
  | nil => rfl
  | cons x xs ih => simp only [List.cons_append, ltB, Nat.lt_irrefl, if_false, ih]

theorem ltB_append_lt {p q : Bytes} (h : ltB p q = true) (hl : p.length = q.length) (a b : Bytes) :
    ltB (p ++ a) (q ++ b) = true := by
  induction p generalizing q with
  | nil => cases q <;> simp [ltB] at h hl
  | cons x xs ih =>
    cases q with
    | nil => simp at hl
    | cons y ys =>
      simp only [List.cons_append, ltB] at h ⊢
      by_cases h1 : x.val < y.val
      · rw [if_pos h1]
      · rw [if_neg h1] at h ⊢
        by_cases h2 : y.val < x.val
        · rw [if_pos h2] at h; cases h
        · rw [if_neg h2] at h ⊢
          exact ih h (by simpa using hl)

theorem ltB_snoc {p q : Bytes} (hl : p.length = q.length) (x y : Byte) :
    ltB (p ++ [x]) (q ++ [y]) = true ↔ ltB p q = true ∨ (p = q ∧ x.val < y.val) := by
  induction p generalizing q with
  | nil =>
    cases q with
    | nil => simp [ltB]
    | cons => simp at hl
  | cons a as ih =>
    cases q with
    | nil => simp at hl
    | cons b bs =>
      simp only [List.cons_append, ltB]
      by_cases h1 : a.val < b.val
      · rw [if_pos h1, if_pos h1]; simp
      · rw [if_neg h1, if_neg h1]
        by_cases h2 : b.val < a.val
        · rw [if_pos h2, if_pos h2]
          simp only [Bool.false_eq_true, false_or, false_iff, not_and, List.cons.injEq]
          rintro ⟨rfl, -⟩
          omega
        · rw [if_neg h2, if_neg h2, ih (by simpa using hl)]
          have : a = b := Fin.ext (by omega)
          subst this
          simp

/-- **C39** Integers compare as their key bytes. -/
theorem beBytes_lt (k : Nat) : ∀ {n m : Nat}, n < 256 ^ k → m < 256 ^ k →
    (ltB (beBytes k n) (beBytes k m) = true ↔ n < m) := by
  induction k with
  | zero =>
    intro n m hn hm
    simp only [Nat.pow_zero] at hn hm
    simp only [beBytes, leBytes, List.reverse_nil, ltB, Bool.false_eq_true, false_iff]
    omega
  | succ k ih =>
    intro n m hn hm
    have hn' : n / 256 < 256 ^ k := by rw [Nat.pow_succ] at hn; exact Nat.div_lt_of_lt_mul (by omega)
    have hm' : m / 256 < 256 ^ k := by rw [Nat.pow_succ] at hm; exact Nat.div_lt_of_lt_mul (by omega)
    have e : ∀ x, beBytes (k + 1) x = beBytes k (x / 256) ++ [⟨x % 256, Nat.mod_lt _ (by omega)⟩] := by
      intro x
      simp only [beBytes, leBytes, List.reverse_cons]
    rw [e n, e m, ltB_snoc (by rw [beBytes_length, beBytes_length]), ih hn' hm']
    constructor
    · rintro (h | ⟨h1, h2⟩)
      · omega
      · have := beBytes_inj hn' hm' h1
        dsimp only at h2
        omega
    · intro h
      by_cases hd : n / 256 < m / 256
      · exact .inl hd
      · have hq : n / 256 = m / 256 := by omega
        exact .inr ⟨by rw [hq], by dsimp only; omega⟩

/-- **C39** Rows of the index by round come in the order of rounds, then authors. -/
theorem roundKey_lt {r r' : Nat} {a a' : Bytes} (hr : r < 2 ^ 32) (hr' : r' < 2 ^ 32) :
    ltB (roundKey r a) (roundKey r' a') = true ↔ r < r' ∨ (r = r' ∧ ltB a a' = true) := by
  unfold roundKey
  rcases Nat.lt_trichotomy r r' with h | h | h
  · exact ⟨fun _ => .inl h, fun _ => ltB_append_lt ((beBytes_lt 4 hr hr').mpr h)
      (by rw [beBytes_length, beBytes_length]) _ _⟩
  · subst h
    rw [ltB_append_left]
    constructor
    · exact fun h => .inr ⟨rfl, h⟩
    · rintro (h | h)
      · omega
      · exact h.2
  · constructor
    · intro hlt
      have hgt := ltB_append_lt ((beBytes_lt 4 hr' hr).mpr h) (by rw [beBytes_length, beBytes_length]) a' a
      have := ltB_trans hlt hgt
      rw [ltB_irrefl] at this
      cases this
    · rintro (h' | h')
      · omega
      · omega

/-- **C39** Rows of the index by origin come in the order of authors, then rounds. -/
theorem originKey_lt {r r' : Nat} {a a' : Bytes} (hr : r < 2 ^ 32) (hr' : r' < 2 ^ 32) (hl : a.length = a'.length) :
    ltB (originKey a r) (originKey a' r') = true ↔ ltB a a' = true ∨ (a = a' ∧ r < r') := by
  unfold originKey
  by_cases h1 : ltB a a' = true
  · exact ⟨fun _ => .inl h1, fun _ => ltB_append_lt h1 hl _ _⟩
  · by_cases h2 : ltB a' a = true
    · constructor
      · intro hlt
        have := ltB_trans hlt (ltB_append_lt h2 hl.symm (beBytes 4 r') (beBytes 4 r))
        rw [ltB_irrefl] at this
        cases this
      · rintro (h | ⟨rfl, -⟩)
        · exact absurd h h1
        · exact absurd h2 h1
    · have := ltB_trichotomy (by simpa using h1) (by simpa using h2)
      subst this
      rw [ltB_append_left, beBytes_lt 4 hr hr']
      constructor
      · exact fun h => .inr ⟨rfl, h⟩
      · rintro (h | h)
        · exact absurd h h1
        · exact h.2

/-- Different keys are different bytes. -/
theorem roundKey_inj {r r' : Nat} {a a' : Bytes} (hr : r < 2 ^ 32) (hr' : r' < 2 ^ 32)
    (h : roundKey r a = roundKey r' a') : r = r' ∧ a = a' := by
  obtain ⟨h1, h2⟩ := List.append_inj h (by rw [beBytes_length, beBytes_length])
  exact ⟨beBytes_inj (k := 4) hr hr' h1, h2⟩

/-- Little-endian keys (the encoding of values) would not do. -/
example : ltB (leBytes 4 256) (leBytes 4 1) = true ∧ ltB (beBytes 4 1) (beBytes 4 256) = true := by decide

end Codec
end Verif
