import Verif.Tx.BuildProps
/-
C61: the theorems about the batch builder.
-/
namespace Verif
namespace Tx
open Exec (Batch)
open Worker (maxBatchGas maxBatchSize Validator BatchErr Acceptable validate_iff)

/-- What the builder is to select from the transactions the pool yields in its order. -/
structure Selection (best ch : List PTx) (o : Output) : Prop where
  /-- in the pool's order, each at most as often as in the pool -/
  sub : ch.Sublist best
  /-- the batch and the list of mined transactions are those of the selected ones -/
  txs : o.batch.txs = ch.map (·.bytes)
  mined : o.mined = ch.map (·.hash)
  /-- within the limits -/
  gas : gasOf ch ≤ maxBatchGas
  size : sizeOf' ch ≤ maxBatchSize
  allowed : ∀ t ∈ ch, Allowed t
  /-- per sender: everything, or everything before one transaction that does not fit or is of another type -/
  senders : ∀ s, of s ch = of s best ∨ ∃ (t : PTx) (rest : List PTx) (k : Nat),
    of s best = of s ch ++ t :: rest ∧ Reason (ch.take k) t ∧
      (gasOf (ch.take k) + t.gas ≤ maxBatchGas → ¬ Allowed t → t.hash ∈ o.removed)

/-- **C61 (a).** For every content of the pool: the selected transactions are a subsequence of what the pool
offers, within the limits of gas and size, of the allowed types, and of every sender the first ones, up to one that
does not fit what was selected before or is of a type that is not allowed. -/
theorem build_selection (epoch worker baseFee beneficiary : Nat) (balance : Nat → Nat) {best : List PTx}
    (ha : Admitted best) :
    ∃ ch, Selection best ch (build epoch worker baseFee beneficiary balance best) := by
  obtain ⟨ch, h⟩ := inv_all ha
  refine ⟨ch, h.sub, h.txs, h.mined, by rw [← h.gas]; exact h.gasLe, by rw [← h.size]; exact h.sizeLe,
    h.allowed, ?_⟩
  intro s
  by_cases hs : s ∈ (best.foldl step {}).bad
  · exact .inr (h.closed s hs)
  · exact .inl (h.open_ s hs)

theorem of_map_hash {s : Nat} {best ch : List PTx} {o : Output} (h : Selection best ch o) :
    of s ch <+: of s best := by
  rcases h.senders s with h | ⟨t, rest, _, h, _⟩
  · rw [h]
  · rw [h]; exact List.prefix_append _ _

/-- **C61 (b).** The nonces of a sender in the batch have no gap: if the pool offers a sender's transactions with
consecutive nonces from `n`, the batch has them with consecutive nonces from `n`. -/
theorem build_nonces (epoch worker baseFee beneficiary : Nat) (balance : Nat → Nat) {best : List PTx}
    (ha : Admitted best) : ∃ ch, Selection best ch (build epoch worker baseFee beneficiary balance best) ∧
      ∀ s n, (of s best).map (·.nonce) = List.range' n (of s best).length →
        (of s ch).map (·.nonce) = List.range' n (of s ch).length := by
  obtain ⟨ch, h⟩ := build_selection epoch worker baseFee beneficiary balance ha
  refine ⟨ch, h, ?_⟩
  intro s n hn
  obtain ⟨r, hr⟩ := of_map_hash (s := s) h
  rw [← hr, List.map_append, List.length_append, ← List.range'_append] at hn
  exact (List.append_inj hn (by simp)).1

/-- **C61 (c).** A transaction that is left out although the pool offers it has a cause: itself, or one of the same
sender before it, is not of an allowed type, or does not fit in what was selected before. -/
theorem left_out {best ch : List PTx} {o : Output} (h : Selection best ch o) {t : PTx} (ht : t ∈ best)
    (hn : t ∉ ch) : ∃ (c : PTx) (before after : List PTx) (k : Nat), of t.sender best = before ++ c :: after ∧
      before = of t.sender ch ∧ t ∈ c :: after ∧ Reason (ch.take k) c := by
  have hm : t ∈ of t.sender best := by unfold of; rw [List.mem_filter]; exact ⟨ht, by simp⟩
  have hm' : t ∉ of t.sender ch := by unfold of; rw [List.mem_filter]; exact fun hh => hn hh.1
  rcases h.senders t.sender with h | ⟨c, rest, k, h1, h2, _⟩
  · rw [← h] at hm; exact absurd hm hm'
  · refine ⟨c, _, rest, k, h1, rfl, ?_, h2⟩
    rw [h1, List.mem_append] at hm
    exact hm.resolve_left hm'

theorem sublist_sum_le (f : PTx → Nat) {a b : List PTx} (h : a.Sublist b) : (a.map f).sum ≤ (b.map f).sum := by
  induction h with
  | slnil => exact Nat.le_refl _
  | cons x _ ih => simp only [List.map_cons, List.sum_cons]; omega
  | cons_cons x _ ih => simp only [List.map_cons, List.sum_cons]; omega

theorem sum_le_of {f g : PTx → Nat} {l : List PTx} (h : ∀ t ∈ l, f t ≤ g t) : (l.map f).sum ≤ (l.map g).sum := by
  induction l with
  | nil => exact Nat.le_refl _
  | cons x l ih =>
    have h1 := h x (List.mem_cons_self ..)
    have h2 := ih (fun t ht => h t (List.mem_cons_of_mem _ ht))
    simp only [List.map_cons, List.sum_cons]; omega

/-- **C61 (d).** If everything fits, everything of an allowed type is selected. -/
theorem all_selected (epoch worker baseFee beneficiary : Nat) (balance : Nat → Nat) {best : List PTx}
    (hal : ∀ t ∈ best, Allowed t) (hg : gasOf best ≤ maxBatchGas) (hs : sizeOf' best ≤ maxBatchSize) :
    (build epoch worker baseFee beneficiary balance best).mined = best.map (·.hash) := by
  have ha : Admitted best := by
    intro t ht
    have := sublist_sum_le (·.gas) (List.singleton_sublist.mpr ht)
    have e : (List.map (·.gas) [t]).sum = t.gas := by simp
    unfold gasOf at hg
    omega
  obtain ⟨ch, h⟩ := build_selection epoch worker baseFee beneficiary balance ha
  have hall : ∀ s, of s ch = of s best := by
    intro s
    rcases h.senders s with h' | ⟨t, rest, k, h1, h2, _⟩
    · exact h'
    · exfalso
      -- `t` and the selected ones before it are together a part of what the pool offers
      have htin : t ∈ of s best := by rw [h1]; simp
      have htb : t ∈ best := (List.mem_filter.mp htin).1
      -- count by filtering: the sum over `ch` plus `t`
      have key : ∀ f : PTx → Nat, (ch.map f).sum + f t ≤ (best.map f).sum := by
        intro f
        have hsplit : ∀ l : List PTx, (l.map f).sum = ((of s l).map f).sum +
            ((l.filter fun x => !(x.sender == s)).map f).sum := by
          intro l
          have := (List.filter_append_perm (fun x : PTx => x.sender == s) l).map f
          have := this.sum_eq
          rw [List.map_append, List.sum_append] at this
          exact this.symm
        rw [hsplit ch, hsplit best, h1, List.map_append, List.sum_append, List.map_cons, List.sum_cons]
        have := sublist_sum_le f (h.sub.filter fun x => !(x.sender == s))
        omega
      have k1 := key (·.gas)
      have k2 := key (·.size)
      have g1 := sublist_sum_le (·.gas) (List.take_sublist k ch)
      have g2 := sublist_sum_le (·.size) (List.take_sublist k ch)
      unfold gasOf at hg
      unfold sizeOf' at hs
      rcases h2 with h2 | h2 | h2
      · exact h2 (hal t htb)
      · unfold gasOf at h2; omega
      · unfold sizeOf' at h2; omega
  have hlen : ch.length = best.length := by
    have hc : ∀ x, x ∈ best → List.count x ch = List.count x best := by
      intro x _
      have e : ∀ l : List PTx, List.count x (of x.sender l) = List.count x l := by
        intro l; unfold of; exact List.count_filter (by simp)
      rw [← e ch, ← e best, hall]
    have hp : ch.Perm best := by
      rw [List.perm_iff_count]
      intro x
      by_cases hx : x ∈ best
      · exact hc x hx
      · rw [List.count_eq_zero.mpr hx, List.count_eq_zero.mpr (fun hh => hx (h.sub.subset hh))]
    exact hp.length_eq
  rw [h.mined, h.sub.eq_of_length hlen]

/-- **C61 (e).** The batch is not empty if the first transaction the pool offers is of an allowed type and fits in
an empty batch. -/
theorem first_selected (epoch worker baseFee beneficiary : Nat) (balance : Nat → Nat) {t : PTx} {rest : List PTx}
    (hal : Allowed t) (hg : t.gas ≤ maxBatchGas) (hs : t.size ≤ maxBatchSize) (ha : Admitted rest) :
    ∃ more, (build epoch worker baseFee beneficiary balance (t :: rest)).mined = t.hash :: more := by
  have h1 : step {} t = Acc.take {} t := by
    unfold step
    rw [if_neg (by simp), if_neg, if_neg, if_neg]
    · exact Nat.not_lt.mpr (by simpa using hs)
    · simp [(allowedTy_iff t).mpr hal]
    · exact Nat.not_lt.mpr (by rw [wadd_eq (Nat.zero_le _) hg]; simpa using hg)
  have hinv : Inv (step {} t) [t] [t] := by
    rw [h1]
    have := inv_init.taken (t := t) (by simp) (by simpa using hg) (wadd_eq (Nat.zero_le _) hg) hal
      (by simpa using hs)
    simpa using this
  obtain ⟨c, hc⟩ := inv_fold rest hinv ha
  refine ⟨c.map (·.hash), ?_⟩
  have := hc.mined
  simpa [build] using this

/-- **C61 (f).** The accounts reported to the pool are exactly the senders of the selected transactions, each once,
with the nonce after the highest selected one and the canonical balance less the cost of the selected ones. -/
theorem build_changed (epoch worker baseFee beneficiary : Nat) (balance : Nat → Nat) {best : List PTx}
    (ha : Admitted best) : ∃ ch, Selection best ch (build epoch worker baseFee beneficiary balance best) ∧
      ((build epoch worker baseFee beneficiary balance best).changed.map (·.address)).Nodup ∧
      (∀ s, s ∈ (build epoch worker baseFee beneficiary balance best).changed.map (·.address) ↔
        ∃ t ∈ ch, t.sender = s) ∧
      ∀ c ∈ (build epoch worker baseFee beneficiary balance best).changed,
        (∃ t ∈ ch, t.sender = c.address ∧ c.nonce = t.nonce + 1) ∧
        (∀ t ∈ ch, t.sender = c.address → t.nonce < c.nonce) ∧
        c.balance = balance c.address - costOf (of c.address ch) := by
  obtain ⟨ch, h⟩ := inv_all ha
  have hsel : Selection best ch (build epoch worker baseFee beneficiary balance best) :=
    ⟨h.sub, h.txs, h.mined, by rw [← h.gas]; exact h.gasLe, by rw [← h.size]; exact h.sizeLe, h.allowed,
      fun s => by
        by_cases hs : s ∈ (best.foldl step {}).bad
        · exact .inr (h.closed s hs)
        · exact .inl (h.open_ s hs)⟩
  refine ⟨ch, hsel, ?_, ?_, ?_⟩
  · have : (build epoch worker baseFee beneficiary balance best).changed.map (·.address) =
        (best.foldl step {}).nonces.map Prod.fst := by
      unfold build changedOf; simp [Function.comp_def]
    rw [this]; exact h.nonceNodup
  · intro s
    have : (build epoch worker baseFee beneficiary balance best).changed.map (·.address) =
        (best.foldl step {}).nonces.map Prod.fst := by
      unfold build changedOf; simp [Function.comp_def]
    rw [this]
    have h1 := h.nonceNone s
    rw [entry_none] at h1
    constructor
    · intro hm
      by_cases he : of s ch = []
      · exact absurd hm (h1.mpr he)
      · obtain ⟨t, ht⟩ := List.exists_mem_of_ne_nil _ he
        have := List.mem_filter.mp ht
        exact ⟨t, this.1, by simpa using this.2⟩
    · rintro ⟨t, ht, rfl⟩
      by_contra hm
      have := h1.mp hm
      have ht' : t ∈ of t.sender ch := List.mem_filter.mpr ⟨ht, by simp⟩
      rw [this] at ht'; cases ht'
  · intro c hc
    obtain ⟨x, hx, rfl⟩ := List.mem_map.mp hc
    have he := entry_of_mem h.nonceNodup (s := x.1) (v := x.2) hx
    obtain ⟨⟨t, ht1, ht2⟩, ht3⟩ := h.nonceTop x.1 x.2 he
    have hts := List.mem_filter.mp ht1
    refine ⟨⟨t, hts.1, by simpa using hts.2, by simp [ht2]⟩, ?_, ?_⟩
    · intro t' ht' hs'
      have := ht3 t' (List.mem_filter.mpr ⟨ht', by simpa using hs'⟩)
      dsimp only
      omega
    · dsimp only
      rw [h.costs]

/-- **C61 (g).** Only transactions of types that are not allowed are removed from the pool. -/
theorem build_removed (epoch worker baseFee beneficiary : Nat) (balance : Nat → Nat) {best : List PTx}
    (ha : Admitted best) : ∀ x ∈ (build epoch worker baseFee beneficiary balance best).removed,
      ∃ t ∈ best, t.hash = x ∧ ¬ Allowed t := by
  obtain ⟨ch, h⟩ := inv_all ha
  exact h.refused

/-! ### What the other validators say -/

/-- The validator decodes the bytes of the pool's transactions to their type and gas limit. -/
def Decodes (v : Validator) (best : List PTx) : Prop := ∀ t ∈ best, v.decode t.bytes = some ⟨t.ty, t.gas⟩

/-- **C61 (h).** A batch that is not empty is accepted by every validator of this worker and epoch with this base
fee exactly if the encoded transactions have at most 1,000,000 bytes. -/
theorem built_accepted_iff (v : Validator) (beneficiary : Nat) (balance : Nat → Nat) {best : List PTx}
    (ha : Admitted best) (hd : Decodes v best)
    (hne : (build v.epoch v.workerId v.baseFee beneficiary balance best).mined ≠ []) :
    v.validate (build v.epoch v.workerId v.baseFee beneficiary balance best).batch
        (v.digest (build v.epoch v.workerId v.baseFee beneficiary balance best).batch) = .ok () ↔
      ((build v.epoch v.workerId v.baseFee beneficiary balance best).batch.txs.map List.length).sum ≤
        maxBatchSize := by
  obtain ⟨ch, h⟩ := build_selection v.epoch v.workerId v.baseFee beneficiary balance ha
  rw [validate_iff]
  constructor
  · rintro ⟨_, h⟩; exact h.bytes
  · intro hb
    refine ⟨ch.map fun t => ⟨t.ty, t.gas⟩, rfl, rfl, rfl, ?_, hb, ?_, ?_, ?_, rfl⟩
    · rw [h.txs]
      rw [h.mined] at hne
      simpa using hne
    · rw [h.txs, List.map_map, List.map_map]
      apply List.map_congr_left
      intro t ht
      exact hd t (h.sub.subset ht)
    · intro x hx
      obtain ⟨t, ht, rfl⟩ := List.mem_map.mp hx
      exact h.allowed t ht
    · rw [List.map_map]
      exact h.gas

/-- **C61 (i).** In particular if no transaction is longer encoded than its size in memory, which is what the
builder measures. -/
theorem built_accepted (v : Validator) (beneficiary : Nat) (balance : Nat → Nat) {best : List PTx}
    (ha : Admitted best) (hd : Decodes v best) (hsz : ∀ t ∈ best, t.bytes.length ≤ t.size)
    (hne : (build v.epoch v.workerId v.baseFee beneficiary balance best).mined ≠ []) :
    v.validate (build v.epoch v.workerId v.baseFee beneficiary balance best).batch
        (v.digest (build v.epoch v.workerId v.baseFee beneficiary balance best).batch) = .ok () := by
  rw [built_accepted_iff v beneficiary balance ha hd hne]
  obtain ⟨ch, h⟩ := build_selection v.epoch v.workerId v.baseFee beneficiary balance ha
  rw [h.txs, List.map_map]
  refine Nat.le_trans ?_ h.size
  unfold sizeOf'
  exact sum_le_of (fun t ht => hsz t (h.sub.subset ht))

/-- **C61 (j).** Nothing selected, for instance since the pool became empty since it was looked at: the batch is
refused by every validator. -/
theorem empty_refused (v : Validator) (beneficiary : Nat) (balance : Nat → Nat) :
    v.validate (build v.epoch v.workerId v.baseFee beneficiary balance []).batch
        (v.digest (build v.epoch v.workerId v.baseFee beneficiary balance []).batch) = .error .emptyBatch := by
  unfold Validator.validate
  simp [build]

/-- **C61 (k).** The builder measures another size than the validators: a transaction that fits by its size in
memory but is longer than 1,000,000 bytes encoded is selected (alone, and again in every attempt), and every
validator refuses the batch. -/
theorem built_refused (v : Validator) (beneficiary : Nat) (balance : Nat → Nat) {t : PTx} (hal : Allowed t)
    (hg : t.gas ≤ maxBatchGas) (hs : t.size ≤ maxBatchSize) (hd : v.decode t.bytes = some ⟨t.ty, t.gas⟩)
    (hb : maxBatchSize < t.bytes.length) :
    (build v.epoch v.workerId v.baseFee beneficiary balance [t]).mined = [t.hash] ∧
    v.validate (build v.epoch v.workerId v.baseFee beneficiary balance [t]).batch
        (v.digest (build v.epoch v.workerId v.baseFee beneficiary balance [t]).batch) ≠ .ok () := by
  have ha : Admitted [t] := by
    intro t' ht; rw [List.mem_singleton.mp ht]; exact hg
  obtain ⟨ch, h⟩ := build_selection v.epoch v.workerId v.baseFee beneficiary balance ha
  have hm : (build v.epoch v.workerId v.baseFee beneficiary balance [t]).mined = [t].map (·.hash) := by
    apply all_selected
    · intro t' ht; rw [List.mem_singleton.mp ht]; exact hal
    · simpa [gasOf] using hg
    · simpa [sizeOf'] using hs
  refine ⟨hm, ?_⟩
  rw [Ne, built_accepted_iff v beneficiary _ ha (by intro t' ht; rw [List.mem_singleton.mp ht]; exact hd)
    (by rw [hm]; simp)]
  have hch : ch = [t] := by
    apply h.sub.eq_of_length
    have := h.mined
    rw [hm] at this
    have := congrArg List.length this
    simpa using this.symm
  rw [h.txs, hch]
  simpa using hb

/-- The case exists: a validator that decodes the type and gas limit from the first two bytes. -/
example : ∃ (v : Validator) (t : PTx), Allowed t ∧ t.gas ≤ maxBatchGas ∧ t.size ≤ maxBatchSize ∧
    v.decode t.bytes = some ⟨t.ty, t.gas⟩ ∧ maxBatchSize < t.bytes.length := by
  refine ⟨{ workerId := 0, epoch := 3, baseFee := 7, digest := fun _ => 5,
            decode := fun l => l.head?.map fun t => ⟨t, 21000⟩ },
    { hash := 1, sender := 7, nonce := 0, gas := 21000, size := 999000,
      bytes := 1 :: List.replicate maxBatchSize 0, ty := 1, cost := 0 }, .inr (.inl rfl), by decide, by decide, rfl, ?_⟩
  rw [List.length_cons, List.length_replicate]
  exact Nat.lt_succ_self _

/-! ### Examples -/

def ptx (hash sender nonce gas size ty : Nat) : PTx :=
  { hash := hash, sender := sender, nonce := nonce, gas := gas, size := size, bytes := [ty, hash], ty := ty,
    cost := 10 * gas }

/-- Sender 1's second transaction does not fit, nor (therefore) its third; sender 2 sends a blob; sender 3 fits. -/
def exBest : List PTx :=
  [ptx 10 1 5 20000000 100 2, ptx 20 2 0 21000 100 3, ptx 11 1 6 15000000 100 2, ptx 30 3 9 5000000 100 0,
   ptx 12 1 7 21000 100 2, ptx 31 3 10 21000 100 1]

example : Admitted exBest := by unfold Admitted; decide

example : build 3 0 7 9 (fun _ => 1000000000) exBest =
    { batch := { txs := [[2, 10], [0, 30], [1, 31]], epoch := 3, beneficiary := 9, baseFee := 7, workerId := 0 }
      mined := [10, 30, 31]
      changed := [⟨1, 6, 800000000⟩, ⟨3, 11, 949790000⟩]
      removed := [20] } := by decide +kernel

/-- A transaction the pool would not accept (its gas limit is close to 2 ^ 64) wraps the sum and is selected. -/
example : (build 3 0 7 9 (fun _ => 0) [ptx 10 1 5 30000000 100 2, ptx 20 2 0 (2 ^ 64 - 1) 100 2]).mined = [10, 20] := by
  decide +kernel

end Tx
end Verif
