import Verif.Tx.FeeCap
/-
**C113.** The operator's cap on the fee of a submitted transaction: whatever bytes are submitted, on whatever
transport, what gets past the RPC server cannot cost its sender more than the cap in fees.
-/
namespace Verif
namespace Cap

/-- The most a transaction can pay in fees, in exact arithmetic. -/
def exactFee (tx : Tx) : Nat :=
  tx.maxFee * tx.gasLimit +
    (match tx.blobFee, tx.blobGas with
     | some f, some g => f * g
     | _, _ => 0)

theorem mul_small {a b : Nat} (ha : a < 2 ^ 128) (hb : b < 2 ^ 64) : a * b < 2 ^ 192 := by
  have : a * b ≤ (2 ^ 128 - 1) * (2 ^ 64 - 1) := Nat.mul_le_mul (by omega) (by omega)
  have e : (2 ^ 128 - 1) * (2 ^ 64 - 1) < 2 ^ 192 := by decide
  omega

theorem satMul_exact {a b : Nat} (ha : a < 2 ^ 128) (hb : b < 2 ^ 64) : satMul a b = a * b := by
  have := mul_small ha hb
  unfold satMul
  omega

/-- **C113**, the arithmetic never saturates: the quantity compared is the exact one. -/
theorem fee_exact {tx : Tx} (h : tx.Fits) : maxTxFee tx = exactFee tx := by
  unfold maxTxFee exactFee blobPart
  rw [satMul_exact h.maxFee h.gasLimit]
  have h1 := mul_small h.maxFee h.gasLimit
  cases hf : tx.blobFee with
  | none => simp only; unfold satAdd; omega
  | some f =>
    cases hg : tx.blobGas with
    | none => simp only; unfold satAdd; omega
    | some g =>
      simp only
      have h2 := mul_small (h.blobFee f hf) (h.blobGas g hg)
      rw [satMul_exact (h.blobFee f hf) (h.blobGas g hg)]
      unfold satAdd
      omega

variable {decode : List Nat → Option Tx}

/-- **C113**, the decision. A cap of zero lets everything through; any other cap lets through exactly the bytes
that decode to a transaction whose maximal fee is at most the cap. -/
theorem enforce_iff (hd : ∀ raw tx, decode raw = some tx → tx.Fits) (cap : Nat) (raw : List Nat) :
    enforce decode cap raw = .ok () ↔
      cap = 0 ∨ (raw ≠ [] ∧ ∃ tx, decode raw = some tx ∧ exactFee tx ≤ cap) := by
  unfold enforce
  by_cases h0 : cap = 0
  · rw [if_pos h0]; exact ⟨fun _ => .inl h0, fun _ => rfl⟩
  · rw [if_neg h0]
    by_cases hr : raw = []
    · rw [if_pos hr]
      refine ⟨fun h => (nomatch h), ?_⟩
      rintro (h | ⟨h, _⟩)
      · exact absurd h h0
      · exact absurd hr h
    · rw [if_neg hr]
      cases hx : decode raw with
      | none =>
        refine ⟨fun h => (nomatch h), ?_⟩
        rintro (h | ⟨_, tx, h, _⟩)
        · exact absurd h h0
        · cases h
      | some tx =>
        show checkCap tx cap = .ok () ↔ _
        unfold checkCap
        rw [fee_exact (hd raw tx hx)]
        by_cases hc : exactFee tx ≤ cap
        · rw [if_pos hc]; exact ⟨fun _ => .inr ⟨hr, tx, rfl, hc⟩, fun _ => rfl⟩
        · rw [if_neg hc]
          refine ⟨fun h => (nomatch h), ?_⟩
          rintro (h | ⟨_, tx', h, h2⟩)
          · exact absurd h h0
          · cases h; exact absurd h2 hc

/-- **C113**, the errors: nothing but empty bytes is called empty, nothing but undecodable bytes undecodable, and
the error of the cap carries the fee (cut at `u128`) and the cap. -/
theorem enforce_error (hd : ∀ raw tx, decode raw = some tx → tx.Fits) (cap : Nat) (raw : List Nat) (e : CapErr)
    (h : enforce decode cap raw = .error e) :
    cap ≠ 0 ∧ ((e = .empty ∧ raw = []) ∨ (e = .undecodable ∧ raw ≠ [] ∧ decode raw = none) ∨
      ∃ tx, decode raw = some tx ∧ raw ≠ [] ∧ cap < exactFee tx ∧
        e = .exceeds (min (exactFee tx) (2 ^ 128 - 1)) cap) := by
  unfold enforce at h
  by_cases h0 : cap = 0
  · rw [if_pos h0] at h; cases h
  · refine ⟨h0, ?_⟩
    rw [if_neg h0] at h
    by_cases hr : raw = []
    · rw [if_pos hr] at h; cases h; exact .inl ⟨rfl, hr⟩
    · rw [if_neg hr] at h
      cases hx : decode raw with
      | none => rw [hx] at h; cases h; exact .inr (.inl ⟨rfl, hr, rfl⟩)
      | some tx =>
        rw [hx] at h
        have h : checkCap tx cap = .error e := h
        unfold checkCap at h
        rw [fee_exact (hd raw tx hx)] at h
        by_cases hc : exactFee tx ≤ cap
        · rw [if_pos hc] at h; cases h
        · rw [if_neg hc] at h; cases h
          exact .inr (.inr ⟨tx, rfl, hr, by omega, rfl⟩)

/-- What a transaction is charged when it is executed: gas within its limit at a price within its maximum. -/
structure Charge (tx : Tx) where
  gasUsed : Nat
  price : Nat
  blobGas : Nat
  blobPrice : Nat
  gas_le : gasUsed ≤ tx.gasLimit
  price_le : price ≤ tx.maxFee
  /-- a transaction without blobs pays no blob fee -/
  blob : (blobGas = 0 ∧ (tx.blobFee = none ∨ tx.blobGas = none)) ∨
    ∃ f g, tx.blobFee = some f ∧ tx.blobGas = some g ∧ blobGas ≤ g ∧ blobPrice ≤ f

def Charge.total {tx : Tx} (c : Charge tx) : Nat := c.gasUsed * c.price + c.blobGas * c.blobPrice

theorem charge_le {tx : Tx} (c : Charge tx) : c.total ≤ exactFee tx := by
  have h1 : c.gasUsed * c.price ≤ tx.maxFee * tx.gasLimit := by
    rw [Nat.mul_comm tx.maxFee]; exact Nat.mul_le_mul c.gas_le c.price_le
  unfold Charge.total exactFee
  rcases c.blob with ⟨h, _⟩ | ⟨f, g, hf, hg, h2, h3⟩
  · rw [h]; omega
  · rw [hf, hg]
    have : c.blobGas * c.blobPrice ≤ f * g := by
      rw [Nat.mul_comm f]; exact Nat.mul_le_mul h2 h3
    simp only
    omega

/-- The two methods that submit a raw transaction. -/
def Submits : Method → Prop
  | .sendRaw => True
  | .sendRawSync => True
  | .other _ => False

theorem server_mem {cap : Nat} {config : List (Bool × (Nat → Bool))} {t : Transport} (h : t ∈ server cap config) :
    ∃ c ∈ config, t = install cap (built c.1 c.2) := by
  unfold server at h
  obtain ⟨x, hx, rfl⟩ := List.mem_map.mp h
  obtain ⟨c, hc, rfl⟩ := List.mem_map.mp hx
  exact ⟨c, hc, rfl⟩

theorem installed (cap : Nat) (eth : Bool) (o : Nat → Bool) (m : Method) (hm : Submits m) :
    (install cap (built eth o)).table m = if eth = true then some (.guarded cap) else none := by
  cases eth with
  | true => cases m <;> first | rfl | cases hm
  | false => cases m <;> first | rfl | cases hm

/-- **C113**, no transport hands over a transaction the guard has not seen: on every transport a submission is
refused with the error of the check, or handed to reth unchanged when the check passes, or the method is not
there at all because the namespace is not configured. -/
theorem every_transport (cap : Nat) (config : List (Bool × (Nat → Bool))) (t : Transport)
    (ht : t ∈ server cap config) (m : Method) (hm : Submits m) (raw : List Nat) :
    (call decode t m raw = .unknown ∧ t.eth = false) ∨
      (t.eth = true ∧ call decode t m raw =
        match enforce decode cap raw with
        | .ok _ => .handed raw
        | .error e => .refused e) := by
  obtain ⟨c, _, rfl⟩ := server_mem ht
  have hi := installed cap c.1 c.2 m hm
  have he : (install cap (built c.1 c.2)).eth = c.1 := by
    unfold install; split <;> rfl
  cases hc : c.1 with
  | false =>
    left
    rw [hc] at hi he
    refine ⟨?_, he⟩
    unfold call
    rw [hi]
    rfl
  | true =>
    right
    rw [hc] at hi he
    refine ⟨he, ?_⟩
    unfold call
    rw [hi]
    cases m <;> first | rfl | cases hm

/-- **C113.** With a cap, whatever is submitted on whatever transport: bytes that reach the pool are those of a
transaction that, however it is executed, is charged at most the cap. -/
theorem capped (hd : ∀ raw tx, decode raw = some tx → tx.Fits) (cap : Nat) (h0 : cap ≠ 0)
    (config : List (Bool × (Nat → Bool))) (t : Transport) (ht : t ∈ server cap config) (m : Method)
    (hm : Submits m) (raw raw' : List Nat) (h : call decode t m raw = .handed raw') :
    raw' = raw ∧ ∃ tx, decode raw = some tx ∧ exactFee tx ≤ cap ∧ ∀ c : Charge tx, c.total ≤ cap := by
  rcases every_transport (decode := decode) cap config t ht m hm raw with ⟨h1, _⟩ | ⟨_, h1⟩
  · rw [h1] at h; cases h
  · rw [h1] at h
    cases he : enforce decode cap raw with
    | error e => rw [he] at h; cases h
    | ok u =>
      rw [he] at h
      cases h
      have hok : enforce decode cap raw = .ok () := he
      rcases (enforce_iff hd cap raw).mp hok with hz | ⟨_, tx, hx, hle⟩
      · exact absurd hz h0
      · exact ⟨rfl, tx, hx, hle, fun c => Nat.le_trans (charge_le c) hle⟩

/-- **C113**, and a transaction within the cap, or any bytes without a cap, are handed over on every transport
with the namespace. -/
theorem let_through (hd : ∀ raw tx, decode raw = some tx → tx.Fits) (cap : Nat)
    (config : List (Bool × (Nat → Bool))) (t : Transport) (ht : t ∈ server cap config) (he : t.eth = true)
    (m : Method) (hm : Submits m) (raw : List Nat)
    (h : cap = 0 ∨ (raw ≠ [] ∧ ∃ tx, decode raw = some tx ∧ exactFee tx ≤ cap)) :
    call decode t m raw = .handed raw := by
  rcases every_transport (decode := decode) cap config t ht m hm raw with ⟨_, h2⟩ | ⟨_, h1⟩
  · rw [he] at h2; cases h2
  · rw [h1, (enforce_iff hd cap raw).mpr h]

/-- **C113**, the other methods are as reth built them. -/
theorem others_untouched (cap : Nat) (eth : Bool) (o : Nat → Bool) (n : Nat) (raw : List Nat) :
    call decode (install cap (built eth o)) (.other n) raw = call decode (built eth o) (.other n) raw := by
  cases eth <;> rfl

/-- **C113**, never laxer than reth's validator: what the guard lets through its check would let through. -/
theorem never_laxer (cap : Nat) (tx : Tx) (h : tx.Fits) (hc : checkCap tx cap = .ok ()) :
    rethAllows cap tx = true := by
  unfold checkCap at hc
  rw [fee_exact h] at hc
  have hle : exactFee tx ≤ cap := by
    by_contra hn
    rw [if_neg hn] at hc; cases hc
  unfold rethAllows
  refine Bool.or_eq_true_iff.mpr (.inr (decide_eq_true (Nat.le_trans ?_ hle)))
  unfold rethFee exactFee toU128
  cases tx.blobFee with
  | none => simp only; omega
  | some f =>
    cases tx.blobGas with
    | none => simp only; omega
    | some g => simp only; omega

/-- It is strictly more careful: with a cap of 2^128 - 1 reth's saturated products let a fee of 2^129 pass. -/
theorem sometimes_stricter :
    ∃ tx : Tx, tx.Fits ∧ rethAllows (2 ^ 128 - 1) tx = true ∧ checkCap tx (2 ^ 128 - 1) ≠ .ok () := by
  refine ⟨⟨2 ^ 127, 4, none, none⟩, ⟨by decide, by decide, fun _ h => (nomatch h), fun _ h => (nomatch h)⟩,
    by decide, ?_⟩
  unfold checkCap
  rw [if_neg (by decide)]
  exact fun h => nomatch h

/-- The transactions of the tests: 7 wei times 21000 gas, alone and with one blob at 3 wei. -/
theorem example_cap :
    (let plain : Tx := ⟨7, 21000, none, none⟩
     let blob : Tx := ⟨7, 21000, some 3, some 131072⟩
     let dec : List Nat → Option Tx := fun raw => if raw = [1] then some plain else if raw = [2] then some blob else none
     enforce dec 147000 [1] = .ok () ∧ enforce dec 146999 [1] = .error (.exceeds 147000 146999) ∧
       enforce dec 540216 [2] = .ok () ∧ enforce dec 540215 [2] = .error (.exceeds 540216 540215) ∧
       enforce dec 1 [] = .error .empty ∧ enforce dec 1 [9] = .error .undecodable ∧ enforce dec 0 [9] = .ok ()) :=
  ⟨rfl, rfl, rfl, rfl, rfl, rfl, rfl⟩

/-- A server with `eth` on http but not on ipc: the hypotheses of `capped` are met, and a call that is handed
over. -/
theorem example_server :
    (let plain : Tx := ⟨7, 21000, none, none⟩
     let dec : List Nat → Option Tx := fun raw => if raw = [1] then some plain else none
     let s := server 147000 [(true, fun _ => true), (false, fun _ => true)]
     (s[0]?.map (fun t => call dec t .sendRaw [1])) = some (.handed [1]) ∧
       (s[0]?.map (fun t => call dec t .sendRawSync [2])) = some (.refused .undecodable) ∧
       (s[1]?.map (fun t => call dec t .sendRaw [1])) = some .unknown) :=
  ⟨rfl, rfl, rfl⟩

end Cap
end Verif
