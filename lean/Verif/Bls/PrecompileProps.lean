import Verif.Bls.Precompile

/-!
# The signature precompile and proofs of possession: the theorems (C110)
-/

namespace Verif.Bls
open Verif.Codec

/-! ## The encoding -/

theorem word_length (n : Nat) : (word n).length = 32 := beBytes_length 32 n

theorem beNat_word {n : Nat} (h : n < 256 ^ 32) : beNat (word n) = n := by
  unfold beNat word beBytes
  rw [List.reverse_reverse]
  exact leNat_leBytes 32 n h

theorem pow_small : 2 ^ 66 < 256 ^ 32 := by decide

theorem wordAt_mid (pre post : Bytes) {n : Nat} (h : n < 256 ^ 32) :
    wordAt (pre ++ (word n ++ post)) pre.length = some n := by
  unfold wordAt
  rw [if_pos (by simp only [List.length_append, word_length]; omega), List.drop_left,
    List.take_append_of_le_length (by rw [word_length]; exact Nat.le_refl _),
    List.take_of_length_le (by rw [word_length]; exact Nat.le_refl _), beNat_word h]

theorem bytesAt_mid (pre post x : Bytes) (h : x.length < 2 ^ 64) :
    bytesAt (pre ++ (tail x ++ post)) pre.length = some x := by
  have h' : x.length < 256 ^ 32 := by have := pow_small; omega
  unfold bytesAt
  have e : pre ++ (tail x ++ post) = pre ++ (word x.length ++ (pad x ++ post)) := by
    unfold tail; rw [List.append_assoc]
  rw [e, wordAt_mid pre _ h', Option.bind_some]
  have hp : x.length ≤ (pad x).length := by
    unfold pad; rw [List.length_append]; omega
  rw [if_pos (by simp only [List.length_append, word_length]; omega)]
  have e2 : pre ++ (word x.length ++ (pad x ++ post)) = (pre ++ word x.length) ++ (pad x ++ post) := by
    rw [List.append_assoc]
  rw [e2, show pre.length + 32 = (pre ++ word x.length).length by
    rw [List.length_append, word_length], List.drop_left]
  unfold pad
  rw [List.append_assoc, List.take_append_of_le_length (Nat.le_refl _),
    List.take_of_length_le (Nat.le_refl _)]

theorem tail_length (x : Bytes) : (tail x).length ≤ x.length + 63 := by
  unfold tail pad
  rw [List.length_append, word_length, List.length_append, List.length_replicate]
  omega

/-- There is a decoder that inverts the encoding. -/
theorem standard_inverts : Inverts standard := by
  intro sig key message h1 h2 h3
  have t1 := tail_length sig
  have t2 := tail_length key
  have hs := pow_small
  have b1 : 96 < 256 ^ 32 := by decide
  have b2 : 96 + (tail sig).length < 256 ^ 32 := by omega
  have b3 : 96 + (tail sig).length + (tail key).length < 256 ^ 32 := by omega
  have w1 := wordAt_mid [] (word (96 + (tail sig).length) ++
    (word (96 + (tail sig).length + (tail key).length) ++ (tail sig ++ tail key ++ tail message))) b1
  have w2 := wordAt_mid (word 96) (word (96 + (tail sig).length + (tail key).length) ++
    (tail sig ++ tail key ++ tail message)) b2
  have w3 := wordAt_mid (word 96 ++ word (96 + (tail sig).length))
    (tail sig ++ tail key ++ tail message) b3
  have a1 := bytesAt_mid (word 96 ++ word (96 + (tail sig).length) ++
    word (96 + (tail sig).length + (tail key).length)) (tail key ++ tail message) sig h1
  have a2 := bytesAt_mid (word 96 ++ word (96 + (tail sig).length) ++
    word (96 + (tail sig).length + (tail key).length) ++ tail sig) (tail message) key h2
  have a3 := bytesAt_mid (word 96 ++ word (96 + (tail sig).length) ++
    word (96 + (tail sig).length + (tail key).length) ++ tail sig ++ tail key) [] message h3
  simp only [List.append_assoc, List.length_append, word_length, List.nil_append, List.length_nil,
    List.append_nil] at w1 w2 w3 a1 a2 a3
  unfold standard encode
  simp only [List.append_assoc]
  rw [w1, Option.bind_some, w2, Option.bind_some, w3, Option.bind_some, a1, Option.bind_some]
  rw [show 32 + (32 + (32 + (tail sig).length)) = 96 + (tail sig).length by omega] at a2
  rw [show 32 + (32 + (32 + ((tail sig).length + (tail key).length))) =
    96 + (tail sig).length + (tail key).length by omega] at a3
  rw [a2, Option.bind_some, a3, Option.bind_some]

/-! ## Gas -/

/-- The price of a message that is not too long: no overflow. -/
theorem gas_exact {n : Nat} (h : n ≤ maxMessage) : gasCost n = some (150000 + 12 * ((n + 31) / 32)) := by
  have h : n ≤ 4096 := h
  unfold gasCost u64 wordGas baseGas
  rw [if_pos (by omega), Option.bind_some, if_pos (by omega), Option.bind_some, if_pos (by omega)]
  congr 1; omega

/-! ## The answer -/

/-- The verifier's answer: both encodings have exactly the compressed length, decode, and the signature
verifies. -/
theorem verify_exact (c : Curve) (sig key message : Bytes) :
    c.blsVerify sig key message = true ↔ sig.length = 48 ∧ key.length = 96 ∧
      ∃ s k, c.sigOf sig = some s ∧ c.keyOf key = some k ∧ c.verify s k message = true := by
  unfold Curve.blsVerify
  by_cases h : sig.length ≠ 48 ∨ key.length ≠ 96
  · rw [if_pos h]
    constructor
    · intro h'; cases h'
    · rintro ⟨h1, h2, _⟩; exact absurd h (by omega)
  · rw [if_neg h]
    have h1 : sig.length = 48 := by omega
    have h2 : key.length = 96 := by omega
    cases hk : c.keyOf key with
    | none =>
        constructor
        · intro h'; cases h'
        · rintro ⟨_, _, s, k, _, h', _⟩; cases h'
    | some k =>
        cases hs : c.sigOf sig with
        | none =>
            constructor
            · intro h'; cases h'
            · rintro ⟨_, _, s, k, h', _⟩; cases h'
        | some s =>
            constructor
            · intro h'; exact ⟨h1, h2, s, k, rfl, rfl, h'⟩
            · rintro ⟨_, _, s', k', e1, e2, h'⟩
              cases e1; cases e2; exact h'

theorem dispatch_call (c : Curve) {dec : Decoder} {selector : Bytes} (hsel : selector.length = 4)
    (args : Bytes) (gas : Nat) : c.dispatch dec selector (selector ++ args) gas = c.handle dec args gas := by
  unfold Curve.dispatch
  rw [if_neg (by rw [List.length_append]; omega),
    List.take_append_of_le_length (by omega), List.take_of_length_le (by omega), if_pos rfl,
    show 4 = selector.length from hsel.symm, List.drop_left]

/-- A call by the book, with a message that is not too long and enough gas: the price, and the
verifier's answer; an invalid signature is an answer and not a failure. -/
theorem call_answer (c : Curve) {dec : Decoder} (hd : Inverts dec) {selector : Bytes}
    (hsel : selector.length = 4) {sig key message : Bytes} (h1 : sig.length < 2 ^ 64)
    (h2 : key.length < 2 ^ 64) (hm : message.length ≤ 4096) {gas : Nat}
    (hg : 150000 + 12 * ((message.length + 31) / 32) ≤ gas) :
    c.dispatch dec selector (selector ++ encode sig key message) gas =
      .ok (150000 + 12 * ((message.length + 31) / 32), boolWord (c.blsVerify sig key message)) := by
  rw [dispatch_call c hsel]
  unfold Curve.handle
  rw [hd sig key message h1 h2 (by omega)]
  dsimp only
  rw [if_pos (show message.length ≤ maxMessage from hm), gas_exact hm]
  dsimp only
  rw [if_pos hg]

/-- Too little gas for such a call. -/
theorem call_out_of_gas (c : Curve) {dec : Decoder} (hd : Inverts dec) {selector : Bytes}
    (hsel : selector.length = 4) {sig key message : Bytes} (h1 : sig.length < 2 ^ 64)
    (h2 : key.length < 2 ^ 64) (hm : message.length ≤ 4096) {gas : Nat}
    (hg : gas < 150000 + 12 * ((message.length + 31) / 32)) :
    c.dispatch dec selector (selector ++ encode sig key message) gas = .error .outOfGas := by
  rw [dispatch_call c hsel]
  unfold Curve.handle
  rw [hd sig key message h1 h2 (by omega)]
  dsimp only
  rw [if_pos (show message.length ≤ maxMessage from hm), gas_exact hm]
  dsimp only
  rw [if_neg (by omega)]

/-- A message that is too long, whatever the gas. -/
theorem call_too_long (c : Curve) {dec : Decoder} (hd : Inverts dec) {selector : Bytes}
    (hsel : selector.length = 4) {sig key message : Bytes} (h1 : sig.length < 2 ^ 64)
    (h2 : key.length < 2 ^ 64) (hm : 4096 < message.length) (hm' : message.length < 2 ^ 64) (gas : Nat) :
    c.dispatch dec selector (selector ++ encode sig key message) gas = .error .other := by
  rw [dispatch_call c hsel]
  unfold Curve.handle
  rw [hd sig key message h1 h2 hm']
  dsimp only
  rw [if_neg (show ¬ message.length ≤ maxMessage from by unfold maxMessage; omega)]

/-- Any call data, by the book or not: an answer is one of two words, is charged within the limit given
and within fixed bounds, and `true` only for a signature that verifies. -/
theorem any_call (c : Curve) (dec : Decoder) (selector data : Bytes) (gas : Nat) {cost : Nat} {out : Bytes}
    (h : c.dispatch dec selector data gas = .ok (cost, out)) :
    data.take 4 = selector ∧ cost ≤ gas ∧ 150000 ≤ cost ∧ cost ≤ 151536 ∧
    ∃ sig key message, dec (data.drop 4) = some (sig, key, message) ∧ message.length ≤ 4096 ∧
      out = boolWord (c.blsVerify sig key message) := by
  unfold Curve.dispatch at h
  split at h
  · cases h
  · split at h
    · rename_i hs
      unfold Curve.handle at h
      cases hd : dec (data.drop 4) with
      | none => rw [hd] at h; cases h
      | some x =>
          obtain ⟨sig, key, message⟩ := x
          rw [hd] at h
          dsimp only at h
          split at h
          · rename_i hm
            have hm' : message.length ≤ 4096 := hm
            rw [gas_exact hm] at h
            dsimp only at h
            split at h
            · rename_i hg
              cases h
              exact ⟨hs, hg, by omega, by omega, sig, key, message, rfl, hm', rfl⟩
            · cases h
          · cases h
    · cases h

/-- The two answers differ. -/
theorem answers_differ : boolWord true ≠ boolWord false := by
  intro h
  have := beBytes_inj (k := 32) (n := 1) (m := 0) (by decide) (by decide) h
  cases this

/-! ## Proofs of possession -/

/-- The check on chain and the check at genesis agree on every proof, key and address. -/
theorem same_check {c : Curve} (hc : c.Ok) (proof : c.Sig) (k : c.Key) (address : Bytes) :
    c.registry (c.sigBytes proof) (c.keyBytes k) address = c.verifyPop proof k address := by
  have e : c.registry (c.sigBytes proof) (c.keyBytes k) address =
      c.verify proof k (c.popMessage k address) := by
    unfold Curve.registry Curve.blsVerify
    rw [if_neg (by rw [hc.sigLen, hc.keyLen]; omega), hc.keyRound, hc.sigRound]
    rfl
  rw [e]
  unfold Curve.verifyPop
  split
  · rfl
  · rename_i h
    cases hv : c.verify proof k (c.popMessage k address) with
    | false => rfl
    | true => exact absurd (hc.checks _ _ _ hv) h

/-- The same for arbitrary bytes: what the registry accepts is a compressed signature and key that pass the
check of genesis. -/
theorem same_check_bytes {c : Curve} (hc : c.Ok) (sig key address : Bytes) :
    c.registry sig key address = true ↔ sig.length = 48 ∧ key.length = 96 ∧
      ∃ s k, c.sigOf sig = some s ∧ c.keyOf key = some k ∧ c.verifyPop s k address = true := by
  unfold Curve.registry
  rw [verify_exact]
  constructor
  · rintro ⟨h1, h2, s, k, h3, h4, h5⟩
    refine ⟨h1, h2, s, k, h3, h4, ?_⟩
    unfold Curve.verifyPop Curve.popMessage
    rw [if_pos (hc.checks _ _ _ h5), hc.keyCanon key k h2 h4]
    exact h5
  · rintro ⟨h1, h2, s, k, h3, h4, h5⟩
    refine ⟨h1, h2, s, k, h3, h4, ?_⟩
    unfold Curve.verifyPop Curve.popMessage at h5
    rw [hc.keyCanon key k h2 h4] at h5
    split at h5
    · exact h5
    · cases h5

/-- The proof a node makes of its own key passes both, and the message has 119 bytes: the call costs
150048. -/
theorem own_proof {c : Curve} (hc : c.Ok) {sign : Bytes → c.Sig} {k : c.Key}
    (hs : ∀ m, c.verify (sign m) k m = true) {address : Bytes} (ha : address.length = 20) :
    c.verifyPop (sign (c.popMessage k address)) k address = true ∧
    c.registry (c.sigBytes (sign (c.popMessage k address))) (c.keyBytes k) address = true ∧
    (c.popMessage k address).length = 119 := by
  have h1 : c.verifyPop (sign (c.popMessage k address)) k address = true := by
    unfold Curve.verifyPop
    rw [if_pos (hc.checks _ _ _ (hs []))]
    exact hs _
  refine ⟨h1, by rw [same_check hc]; exact h1, ?_⟩
  unfold Curve.popMessage intent
  rw [List.length_append, List.length_append, hc.keyLen, ha]
  rfl

/-- The whole way: the registry's call for a node's own proof, with enough gas, answers true. -/
theorem own_proof_call {c : Curve} (hc : c.Ok) {dec : Decoder} (hd : Inverts dec) {selector : Bytes}
    (hsel : selector.length = 4) {sign : Bytes → c.Sig} {k : c.Key}
    (hs : ∀ m, c.verify (sign m) k m = true) {address : Bytes} (ha : address.length = 20) {gas : Nat}
    (hg : 150048 ≤ gas) :
    c.dispatch dec selector (selector ++ encode (c.sigBytes (sign (c.popMessage k address)))
      (c.keyBytes k) (c.popMessage k address)) gas = .ok (150048, boolWord true) := by
  obtain ⟨_, h2, h3⟩ := own_proof hc hs ha
  rw [call_answer c hd hsel (by rw [hc.sigLen]; decide) (by rw [hc.keyLen]; decide) (by rw [h3]; decide)
    (by rw [h3]; exact hg), h3]
  have : c.blsVerify (c.sigBytes (sign (c.popMessage k address))) (c.keyBytes k)
      (c.popMessage k address) = true := h2
  rw [this]

/-- The uncompressed forms are not accepted, although they decode. -/
theorem compressed_only (c : Curve) {sig key message : Bytes} (h : sig.length = 96 ∨ key.length = 192) :
    c.blsVerify sig key message = false := by
  cases hv : c.blsVerify sig key message with
  | false => rfl
  | true =>
      have := (verify_exact c sig key message).mp hv
      omega

/-- An accepted proof binds: under a key whose holder signs only well-formed messages of the protocol and
whose signatures cannot be forged, the holder has proved possession of this key for this address. A vote,
a record's signature or any other message it has signed cannot be passed off as a proof. -/
theorem proof_binds {c : Curve} {H : Bytes → Bytes} {B : Build}
    (hH : ∀ x, (H x).length = 32) {given : Msg → Prop} (hg : ∀ m, given m → m.WF B)
    {key : Bytes} {k : c.Key} (hk : c.keyOf key = some k)
    (unforged : ∀ s b, c.verify s k b = true → ∃ m, given m ∧ m.signed H B = b)
    {sig address : Bytes} (ha : address.length = 20) (h : c.registry sig key address = true) :
    given (.possession key address) := by
  obtain ⟨_, h2, s, k', _, hk', hv⟩ := (verify_exact c sig key _).mp h
  rw [hk] at hk'
  cases hk'
  obtain ⟨m, hm, e⟩ := unforged _ _ hv
  have hs := signed_separated (H := H) (B := B) hH (hg m hm)
    (m' := .possession key address) ⟨h2, ha⟩ (fun x _ y hy => nomatch hy) e
  cases m with
  | possession key' addr' =>
      have : Msg.possession key' addr' = Msg.possession key address := hs
      rw [← this]; exact hm
  | vote => exact hs.elim
  | result => cases (show Msg.result _ _ _ _ = Msg.possession key address from hs)
  | record => cases (show Msg.record _ = Msg.possession key address from hs)
  | seed => cases (show Msg.seed _ _ _ = Msg.possession key address from hs)
  | nodeInfo => cases (show Msg.nodeInfo _ _ = Msg.possession key address from hs)

/-! ## A curve for the examples -/

/-- The first 48 bytes of a message, reversed: not a signature scheme, but of the right shape. -/
def toySign (m : Bytes) : { b : Bytes // b.length = 48 } :=
  ⟨((m ++ List.replicate 48 0).take 48).reverse, by
    rw [List.length_reverse, List.length_take, List.length_append, List.length_replicate]; omega⟩

def toy : Curve where
  Sig := { b : Bytes // b.length = 48 }
  Key := { b : Bytes // b.length = 96 }
  sigOf b := if h : b.length = 48 then some ⟨b, h⟩ else none
  keyOf b := if h : b.length = 96 then some ⟨b, h⟩ else none
  sigBytes s := s.val
  keyBytes k := k.val
  valid _ := true
  verify s _ m := decide (s = toySign m)

theorem toy_ok : toy.Ok where
  sigLen s := s.property
  keyLen k := k.property
  sigRound s := dif_pos s.property
  keyRound k := dif_pos k.property
  keyCanon b k h e := by
    have e : (if h : b.length = 96 then some (⟨b, h⟩ : { b : Bytes // b.length = 96 }) else none) = some k := e
    rw [dif_pos h] at e
    exact (congrArg Subtype.val (Option.some.inj e)).symm
  checks _ _ _ _ := rfl

def toyKey : toy.Key := (⟨List.replicate 96 7, by decide⟩ : { b : Bytes // b.length = 96 })

/-- The hypotheses of `own_proof_call` are met: the call costs 150048 and answers true. -/
theorem toy_call : toy.dispatch standard [1, 2, 3, 4] ([1, 2, 3, 4] ++
      encode (toy.sigBytes (toySign (toy.popMessage toyKey (List.replicate 20 9)))) (toy.keyBytes toyKey)
        (toy.popMessage toyKey (List.replicate 20 9))) 200000 = .ok (150048, boolWord true) :=
  own_proof_call toy_ok standard_inverts rfl (sign := toySign) (k := toyKey)
    (fun _ => decide_eq_true rfl) (by decide) (by decide)

/-- The same proof for another address is refused, without failure of the call. (This toy looks only at
the first 48 bytes, so the key is changed too.) -/
theorem toy_other : toy.registry (toy.sigBytes (toySign (toy.popMessage toyKey (List.replicate 20 9))))
    (List.replicate 96 8) (List.replicate 20 9) = false := by
  decide

end Verif.Bls
