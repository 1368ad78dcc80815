import Verif.Exec.Build
import Verif.Gas.RestartProps
/-
What the execution of a consensus output leaves on chain (C28) and that it is all or nothing (C41).
-/
namespace Verif
namespace Exec
open Bull Codec

variable {S : Type}

/-! ## Specification -/

/-- What the block executed for batch `i` of output `o` must say: number and parent link, the digest of
the batch, the fee recipient of the header's author, the commit time, the mixed randomness, epoch and
round of the leader, the batch's base fee, the gas limit, index and worker packed into the difficulty,
the consensus header's digest, and the shuffle seed exactly if it is the last batch of a closing
output. -/
structure HeaderSpec (E : Evm S) (o : Output) (parent : XHeader) (i d addr : Nat) (b : Batch)
    (h : XHeader) : Prop where
  number : h.number = parent.number + 1
  parentHash : h.parentHash = E.hash parent
  batch : h.ommersHash = d
  beneficiary : h.beneficiary = addr
  timestamp : h.timestamp = o.subDag.commitTimestamp
  mix : h.mixHash = o.hash ^^^ d
  nonce : h.nonce = o.nonce
  baseFee : h.baseFee = b.baseFee
  gasLimit : h.gasLimit = 30000000
  place : h.difficulty = i * 65536 + b.workerId
  consensus : h.beaconRoot = some o.hash
  extra : h.extraData = if o.closeEpoch = true ∧ i + 1 = o.digests.length
    then beBytes 32 o.subDag.randomness else []

/-- The blocks `blks` are, one by one from index `i` and on top of `parent`, those of the batches. -/
def BlocksSpec (E : Evm S) (o : Output) : Nat → XHeader → List (Nat × Batch) → List (Block S) → Prop
  | _, _, [], [] => True
  | i, parent, (addr, b) :: xs, blk :: blks =>
    (∃ d, o.digests[i]? = some d ∧ HeaderSpec E o parent i d addr b blk.header) ∧
    BlocksSpec E o (i + 1) blk.header xs blks
  | _, _, _, _ => False

/-- The gas facts the accumulator gets: worker, gas used and gas limit of each block. -/
def gasFacts : List (Nat × Batch) → List (Block S) → List (Nat × Nat × Nat)
  | (_, b) :: xs, blk :: blks => (b.workerId, blk.header.gasUsed, blk.header.gasLimit) :: gasFacts xs blks
  | _, _ => []

/-- The state between two outputs: nothing speculative in memory, the head served to clients is the
last durable block. -/
structure Clean (s : Eng S) (tip : XHeader) : Prop where
  mem : s.mem = []
  head : s.head = tip
  last : s.durable.getLast?.map (·.header) = some tip

/-! ## Building -/

theorem buildBlock_header {E : Evm S} {acc : Gas.Accounting} {st : S} {p : Payload}
    {txs : List (List Nat)} {blk : Block S} (h : buildBlock E acc st p txs = some blk) :
    blk.header = assembleHeader E (envOf p) (ctxOf E p) blk.state := by
  unfold buildBlock at h
  split at h
  · cases h
  · split at h
    · cases h
    · split at h
      · cases h
      · rw [← Option.some.inj h]

theorem executePayload_build {E : Evm S} {F : Faults} {s : Eng S} {i : Nat} {p : Payload}
    {txs : List (List Nat)} {blk : Block S} (h : executePayload E F s i p txs = some blk) :
    ∃ st, s.stateAt E p.parent = some st ∧ buildBlock E s.acc st p txs = some blk := by
  unfold executePayload at h
  split at h
  · cases h
  · split at h
    · cases h
    · rename_i st hst; exact ⟨st, hst, h⟩

theorem batch_header {E : Evm S} {F : Faults} {s : Eng S} {o : Output} {parent : XHeader}
    {i d addr : Nat} {b : Batch} {blk : Block S} (hd : o.digests[i]? = some d)
    (h : executePayload E F s i (batchPayload o parent i d addr b) b.txs = some blk) :
    HeaderSpec E o parent i d addr b blk.header := by
  obtain ⟨st, _, hb⟩ := executePayload_build h
  rw [buildBlock_header hb]
  have hi : i < o.digests.length := (List.getElem?_eq_some_iff.mp hd).1
  refine ⟨rfl, rfl, rfl, rfl, rfl, rfl, rfl, rfl, rfl, rfl, rfl, ?_⟩
  show extraOf (if o.closesAt i then some o.subDag.randomness else none) = _
  by_cases hc : o.closeEpoch = true ∧ i + 1 = o.digests.length
  · have : o.closesAt i = true := by
      simp only [Output.closesAt, hc.1, Bool.true_and, Bool.or_eq_true, decide_eq_true_eq]
      right; omega
    rw [if_pos hc, if_pos this]; rfl
  · have : o.closesAt i = false := by
      unfold Output.closesAt
      by_cases hce : o.closeEpoch = true
      · have hne : o.digests.isEmpty = false := by
          cases hl : o.digests with
          | nil => rw [hl] at hi; simp at hi
          | cons _ _ => rfl
        have : ¬ o.digests.length ≤ i + 1 := fun hle => hc ⟨hce, by omega⟩
        simp [hne, this]
      · simp [hce]
    rw [if_neg hc, this]; rfl

theorem runBatches_ok {E : Evm S} {F : Faults} {o : Output} {anchor : XHeader} :
    ∀ (xs : List (Nat × Batch)) (i : Nat) (s s' : Eng S) (h h' : XHeader),
      runBatches E F o anchor xs i s h = (s', .ok h') →
      ∃ blks, s'.mem = s.mem ++ blks ∧ s'.durable = s.durable ∧ s'.updates = s.updates ∧
        s'.acc.leaders = s.acc.leaders ∧
        Gas.foldBlocks s.acc.slots (gasFacts xs blks) = some s'.acc.slots ∧
        blks.length = xs.length ∧ BlocksSpec E o i h xs blks ∧
        h' = ((blks.getLast?).map (·.header)).getD h ∧
        s'.head = ((blks.getLast?).map (·.header)).getD s.head := by
  intro xs
  induction xs with
  | nil =>
    intro i s s' h h' hr
    simp only [runBatches, Prod.mk.injEq, Except.ok.injEq] at hr
    obtain ⟨rfl, rfl⟩ := hr
    exact ⟨[], by simp, rfl, rfl, rfl, rfl, rfl, trivial, rfl, rfl⟩
  | cons x xs ih =>
    obtain ⟨addr, b⟩ := x
    intro i s s' h h' hr
    unfold runBatches at hr
    split at hr
    · simp at hr
    · rename_i d hd
      split at hr
      · simp at hr
      · rename_i blk hblk
        split at hr
        · simp at hr
        · rename_i sl hsl
          obtain ⟨blks, e1, e2, e3, e4, e5, e6, e7, e8, e9⟩ := ih _ _ _ _ _ hr
          refine ⟨blk :: blks, ?_, e2, e3, e4, ?_, by simp [e6], ⟨⟨d, hd, batch_header hd hblk⟩, e7⟩,
            ?_, ?_⟩
          · rw [e1]; simp [Eng.push]
          · simp only [gasFacts, Gas.foldBlocks, List.foldlM_cons]
            rw [hsl]; exact e5
          · rw [e8, List.getLast?_cons]; cases blks.getLast? <;> rfl
          · rw [e9, List.getLast?_cons]; cases blks.getLast? <;> rfl

/-- A failed batch loop: nothing durable changed, and the in-memory chain is back where it was. -/
theorem runBatches_err {E : Evm S} {F : Faults} {o : Output} {anchor : XHeader} :
    ∀ (xs : List (Nat × Batch)) (i : Nat) (s s' : Eng S) (h : XHeader) (e : EngErr),
      runBatches E F o anchor xs i s h = (s', .error e) →
      s'.durable = s.durable ∧ s'.updates = s.updates ∧
      (e = .digestMissing ∨ e = .panicked ∨ e = .build) ∧
      (i + xs.length ≤ o.digests.length → e ≠ .digestMissing) ∧
      ((∀ x ∈ xs, x.2.workerId < s.acc.slots.length) → e ≠ .panicked) ∧
      (e = .build → i ≤ s.mem.length → s'.mem = s.mem.take (s.mem.length - i) ∧ s'.head = anchor) := by
  intro xs
  induction xs with
  | nil => intro i s s' h e hr; simp [runBatches] at hr
  | cons x xs ih =>
    obtain ⟨addr, b⟩ := x
    intro i s s' h e hr
    unfold runBatches at hr
    split at hr
    · rename_i hd
      simp only [Prod.mk.injEq, Except.error.injEq] at hr
      obtain ⟨rfl, rfl⟩ := hr
      refine ⟨rfl, rfl, .inl rfl, fun hl => ?_, fun _ => by simp, fun h => by simp at h⟩
      have := List.getElem?_eq_none_iff.mp hd
      simp at hl; omega
    · rename_i d hd
      split at hr
      · simp only [Prod.mk.injEq, Except.error.injEq] at hr
        obtain ⟨rfl, rfl⟩ := hr
        exact ⟨rfl, rfl, by simp, fun _ => by simp, fun _ => by simp, fun _ _ => ⟨rfl, rfl⟩⟩
      · rename_i blk hblk
        split at hr
        · rename_i hinc
          simp only [Prod.mk.injEq, Except.error.injEq] at hr
          obtain ⟨rfl, rfl⟩ := hr
          refine ⟨rfl, rfl, by simp, fun _ => by simp, fun hw => ?_, fun h => by simp at h⟩
          exfalso
          have hw := hw _ (List.mem_cons_self)
          unfold Gas.incBlock at hinc
          split at hinc
          · cases hinc
          · split at hinc
            · rename_i hn
              have := List.getElem?_eq_none_iff.mp hn
              dsimp only at hw; omega
            · cases hinc
        · rename_i sl hsl
          have hlen : sl.length = s.acc.slots.length := by
            unfold Gas.incBlock at hsl
            split at hsl
            · rw [Option.some.inj hsl]
            · split at hsl
              · cases hsl
              · rw [← Option.some.inj hsl]; simp
          obtain ⟨a1, a2, a3, a4, a5, a6⟩ := ih _ _ _ _ _ hr
          refine ⟨a1, a2, a3, fun hl => a4 (by simp at hl; omega), fun hw => a5 ?_, fun he hi => ?_⟩
          · intro x hx
            show x.2.workerId < sl.length
            rw [hlen]; exact hw x (by simp [hx])
          · have hi' : i + 1 ≤ ({ s.push blk with acc := { s.acc with slots := sl } } : Eng S).mem.length := by
              simp [Eng.push]; omega
            obtain ⟨m1, m2⟩ := a6 he hi'
            refine ⟨?_, m2⟩
            rw [m1]
            simp only [Eng.push, List.length_append, List.length_singleton]
            rw [show s.mem.length + 1 - (i + 1) = s.mem.length - i from by omega]
            exact List.take_append_of_le_length (by omega)

/-! ## One output -/

theorem commit_ok {F : Faults} {o : Output} {anchor : XHeader} {n : Nat} {s s' : Eng S} {h h' : XHeader}
    (hc : commitOutput F o anchor n s h = (s', .ok h')) :
    h' = h ∧ s'.durable = s.durable ++ s.mem.drop (s.mem.length - n) ∧ s'.mem = [] ∧ s'.head = s.head ∧
      s'.acc = s.acc ∧
      s'.updates = s.updates ++ [(o.subDag.leaderRound, o.number, o.hash, some h)] := by
  unfold commitOutput at hc
  split at hc
  · dsimp only at hc
    split at hc
    · simp at hc
    · simp only [Prod.mk.injEq, Except.ok.injEq] at hc
      obtain ⟨rfl, rfl⟩ := hc
      exact ⟨rfl, rfl, rfl, rfl, rfl, rfl⟩
  · simp at hc

theorem commit_err {F : Faults} {o : Output} {anchor : XHeader} {n : Nat} {s s' : Eng S} {h : XHeader}
    {e : EngErr} (hc : commitOutput F o anchor n s h = (s', .error e)) :
    (e = .announce ∧ s'.durable = s.durable ++ s.mem.drop (s.mem.length - n) ∧ s'.head = s.head) ∨
    (e = .persist ∧ s'.durable = s.durable ∧ s'.mem = s.mem.take (s.mem.length - n) ∧
      s'.head = anchor) := by
  unfold commitOutput at hc
  split at hc
  · dsimp only at hc
    split at hc
    · simp only [Prod.mk.injEq, Except.error.injEq] at hc
      obtain ⟨rfl, rfl⟩ := hc
      exact .inl ⟨rfl, rfl, rfl⟩
    · simp at hc
  · simp only [Prod.mk.injEq, Except.error.injEq] at hc
    obtain ⟨rfl, rfl⟩ := hc
    exact .inr ⟨rfl, rfl, rfl, rfl⟩

/-- The accounting facts of an output as `Gas.EngineOutput` sees them. -/
def engineOutput (o : Output) (blks : List (Block S)) : Gas.EngineOutput :=
  { number := o.number, round := o.subDag.leaderRound
    leader := (o.subDag.leader?.map (·.author)).getD 0, batches := gasFacts o.flat blks }

theorem BlocksSpec.length {E : Evm S} {o : Output} : ∀ {i : Nat} {h : XHeader}
    {xs : List (Nat × Batch)} {blks : List (Block S)}, BlocksSpec E o i h xs blks →
    blks.length = xs.length
  | _, _, [], [], _ => rfl
  | _, _, (_, _) :: _, _ :: _, h => by simp [BlocksSpec.length h.2]
  | _, _, [], _ :: _, h => h.elim
  | _, _, (_, _) :: _, [], h => h.elim

/-- **One block per batch, in order.** A successfully executed output with batches appends to the
durable chain exactly one block per batch, in the order of the output, each as specified by
`HeaderSpec` on top of the previous one; the first on top of the chain's tip. The accumulator advances by
exactly the leader and these blocks' gas, and consensus is told the new tip. -/
theorem batches_exact {E : Evm S} {addrOf : Nat → Option Nat} {tol : Bool} {F : Faults} {s s' : Eng S}
    {tip h' : XHeader} {o : Output} (hs : Clean s tip) (hne : o.flat ≠ [])
    (hr : executeOutput E addrOf tol F s tip o = (s', .ok h')) :
    ∃ blks, s'.durable = s.durable ++ blks ∧ BlocksSpec E o 0 tip o.flat blks ∧
      blks.getLast?.map (·.header) = some h' ∧ Clean s' h' ∧
      Gas.executeAccounting s.acc (engineOutput o blks) = some s'.acc ∧
      s'.updates = s.updates ++ [(o.subDag.leaderRound, o.number, o.hash, some h')] := by
  unfold executeOutput at hr
  dsimp only at hr
  split at hr
  · simp at hr
  · split at hr
    · simp at hr
    · rename_i s1 h1 hrun
      obtain ⟨blks, m1, m2, m3, m4, m5, m6, m7, m8, m9⟩ := runBatches_ok _ _ _ _ _ _ hrun
      obtain ⟨rfl, c2, c3, c4, c5, c6⟩ := commit_ok hr
      have hmem : s1.mem = blks := by rw [m1]; simp [hs.mem]
      have hl : blks.length = o.flat.length := m6
      have hbne : blks ≠ [] := by
        intro hb; rw [hb] at hl
        exact hne (List.length_eq_zero_iff.mp hl.symm)
      have hdrop : s1.mem.drop (s1.mem.length - o.flat.length) = blks := by
        rw [hmem, hl]; simp
      obtain ⟨lastb, hlast⟩ : ∃ b, blks.getLast? = some b := ⟨_, List.getLast?_eq_some_getLast hbne⟩
      have hh' : h' = lastb.header := by rw [m8, hlast]; rfl
      refine ⟨blks, ?_, m7, ?_, ⟨c3, ?_, ?_⟩, ?_, ?_⟩
      · rw [c2, m2, hdrop]
      · rw [hlast, hh']; rfl
      · rw [c4, m9, hlast, hh']; rfl
      · rw [c2, m2, hdrop, List.getLast?_append, hlast, hh']; rfl
      · rw [c5]
        unfold Gas.executeAccounting engineOutput
        show (Gas.foldBlocks s.acc.slots (gasFacts o.flat blks)).map _ = _
        have m5' : Gas.foldBlocks s.acc.slots (gasFacts o.flat blks) = some s1.acc.slots := m5
        rw [m5']
        have m4' : s1.acc.leaders = Gas.incLeader s.acc.leaders
          ((o.subDag.leader?.map (·.author)).getD 0) := m4
        show some (Gas.Accounting.mk _ _) = some s1.acc
        rw [← m4']
      · rw [c6, m3]

/-- **No batches, no block.** An output without batches that does not close the epoch leaves the chain
as it is; only the leader is counted and consensus is told that the round was processed. -/
theorem empty_no_block {E : Evm S} {addrOf : Nat → Option Nat} {tol : Bool} {F : Faults} {s s' : Eng S}
    {tip h' : XHeader} {o : Output} (hs : Clean s tip) (he : o.flat = []) (hc : o.closeEpoch = false)
    (hr : executeOutput E addrOf tol F s tip o = (s', .ok h')) :
    s'.durable = s.durable ∧ h' = tip ∧ Clean s' tip ∧
      Gas.executeAccounting s.acc (engineOutput o ([] : List (Block S))) = some s'.acc ∧
      s'.updates = s.updates ++ [(o.subDag.leaderRound, o.number, o.hash, none)] := by
  unfold executeOutput at hr
  dsimp only at hr
  split at hr
  · simp at hr
  · split at hr
    · simp at hr
    · simp only [Prod.mk.injEq, Except.ok.injEq] at hr
      obtain ⟨rfl, rfl⟩ := hr
      exact ⟨rfl, rfl, ⟨hs.mem, hs.head, hs.last⟩, by simp [Gas.executeAccounting, engineOutput, he, gasFacts], rfl⟩

/-- **An empty closing output closes the epoch in one block**, paid to the leader, with the shuffle seed in
`extra_data`, worker 0 and index 0, and the fee and gas limit of the block before. -/
theorem empty_close_block {E : Evm S} {addrOf : Nat → Option Nat} {tol : Bool} {F : Faults} {s s' : Eng S}
    {tip h' : XHeader} {o : Output} (hs : Clean s tip) (he : o.flat = []) (hd : o.digests = [])
    (hc : o.closeEpoch = true) (hr : executeOutput E addrOf tol F s tip o = (s', .ok h')) :
    ∃ blk, s'.durable = s.durable ++ [blk] ∧ blk.header = h' ∧ Clean s' h' ∧
      h'.number = tip.number + 1 ∧ h'.parentHash = E.hash tip ∧
      addrOf ((o.subDag.leader?.map (·.author)).getD 0) = some h'.beneficiary ∧
      h'.timestamp = o.subDag.commitTimestamp ∧ h'.mixHash = o.hash ∧ h'.nonce = o.nonce ∧
      h'.baseFee = tip.baseFee ∧ h'.gasLimit = tip.gasLimit ∧ h'.difficulty = 0 ∧
      h'.ommersHash = 0 ∧ h'.beaconRoot = some o.hash ∧
      h'.extraData = beBytes 32 o.subDag.randomness := by
  unfold executeOutput at hr
  dsimp only at hr
  split at hr
  · simp at hr
  · split at hr
    · rename_i hf; simp [hc] at hf
    · split at hr
      · simp at hr
      rename_i a ha
      split at hr
      · simp at hr
      · rename_i blk hblk
        obtain ⟨rfl, c2, c3, c4, _, _⟩ := commit_ok hr
        obtain ⟨st, _, hb⟩ := executePayload_build hblk
        have hh := buildBlock_header hb
        have hd' : s'.durable = s.durable ++ [blk] := by rw [c2]; simp [Eng.push, hs.mem]
        refine ⟨blk, ?_, rfl, ⟨c3, c4, ?_⟩, ?_⟩
        · exact hd'
        · rw [hd']; simp
        · rw [hh]
          refine ⟨rfl, rfl, ha, rfl, rfl, rfl, rfl, rfl, ?_, rfl, rfl, ?_⟩
          · show Gas.blockDifficulty 0 0 = 0
            simp [Gas.blockDifficulty]
          show extraOf (if o.closesAt 0 then some o.subDag.randomness else none) = _
          have : o.closesAt 0 = true := by simp [Output.closesAt, hc, hd]
          rw [if_pos this]; rfl

/-- **All or nothing.** If executing an output fails for whatever reason — a block cannot be built, the
database refuses the write, a channel is closed — then either no block of it is durable and clients see
the same head and no leftover blocks as before, or (only the notification failed) all its blocks are
durable. For outputs whose digests match their batches (`assemble_even`) and whose workers are known. -/
theorem all_or_nothing {E : Evm S} {addrOf : Nat → Option Nat} {tol : Bool} {F : Faults} {s s' : Eng S}
    {tip : XHeader} {o : Output} {e : EngErr} (hs : Clean s tip)
    (hlen : o.flat.length ≤ o.digests.length)
    (hw : ∀ x ∈ o.flat, x.2.workerId < s.acc.slots.length)
    (hr : executeOutput E addrOf tol F s tip o = (s', .error e)) :
    (s'.durable = s.durable ∧ Clean s' tip) ∨
    (e = .announce ∧ ∃ blks, s'.durable = s.durable ++ blks ∧
      s'.head = (blks.getLast?.map (·.header)).getD tip ∧
      (o.flat ≠ [] → BlocksSpec E o 0 tip o.flat blks) ∧ (o.flat = [] → blks.length = 1)) := by
  have clean : ∀ x : Eng S, x.mem = s.mem → x.durable = s.durable → ∀ n (y : Eng S),
      y.durable = s.durable → y.mem = x.mem.take n → y.head = tip → Clean y tip := by
    intro x hx hxd n y hyd hy hyh
    exact ⟨by rw [hy, hx, hs.mem]; simp, hyh, by rw [hyd]; exact hs.last⟩
  unfold executeOutput at hr
  dsimp only at hr
  split at hr
  · simp only [Prod.mk.injEq, Except.error.injEq] at hr
    obtain ⟨rfl, _⟩ := hr
    exact .inl ⟨rfl, hs.mem, hs.head, hs.last⟩
  · split at hr
    · rename_i he
      split at hr
      · split at hr
        · simp only [Prod.mk.injEq, Except.error.injEq] at hr
          obtain ⟨rfl, _⟩ := hr
          exact .inl ⟨rfl, hs.mem, hs.head, hs.last⟩
        · simp at hr
      · split at hr
        · simp only [Prod.mk.injEq, Except.error.injEq] at hr
          obtain ⟨rfl, _⟩ := hr
          exact .inl ⟨rfl, hs.mem, hs.head, hs.last⟩
        · split at hr
          · simp only [Prod.mk.injEq, Except.error.injEq] at hr
            obtain ⟨rfl, _⟩ := hr
            refine .inl ⟨rfl, ?_, rfl, hs.last⟩
            simp [Eng.rollback, hs.mem]
          · rename_i blk hblk
            rcases commit_err hr with ⟨rfl, c1, c2⟩ | ⟨rfl, c1, c2, c3⟩
            · refine .inr ⟨rfl, [blk], ?_, ?_, fun h => absurd he h, fun _ => rfl⟩
              · rw [c1]; simp [Eng.push, hs.mem]
              · rw [c2]; rfl
            · refine .inl ⟨c1, ?_, c3, by rw [c1]; exact hs.last⟩
              rw [c2]; simp [Eng.push, hs.mem]
    · rename_i hne
      split at hr
      · rename_i s1 e1 hrun
        simp only [Prod.mk.injEq, Except.error.injEq] at hr
        obtain ⟨rfl, rfl⟩ := hr
        obtain ⟨a1, _, a3, a4, a5, a6⟩ := runBatches_err _ _ _ _ _ _ hrun
        have n1 := a4 (by omega)
        have n2 := a5 hw
        have hb : e1 = .build := by
          rcases a3 with h | h | h
          · exact absurd h n1
          · exact absurd h n2
          · exact h
        obtain ⟨m1, m2⟩ := a6 hb (Nat.zero_le _)
        exact .inl ⟨a1, clean _ rfl rfl _ _ a1 m1 m2⟩
      · rename_i s1 h1 hrun
        obtain ⟨blks, m1, m2, _, _, _, m6, m7, m8, m9⟩ := runBatches_ok _ _ _ _ _ _ hrun
        have hmem : s1.mem = blks := by rw [m1]; simp [hs.mem]
        rcases commit_err hr with ⟨rfl, c1, c2⟩ | ⟨rfl, c1, c2, c3⟩
        · refine .inr ⟨rfl, blks, ?_, ?_, fun _ => m7, fun h => absurd h hne⟩
          · rw [c1, m2, hmem, m6]; simp
          · rw [c2, m9]
            show (blks.getLast?.map (·.header)).getD s.head = _
            rw [hs.head]
        · refine .inl ⟨by rw [c1, m2], ?_, c3, by rw [c1, m2]; exact hs.last⟩
          rw [c2, hmem, m6]; simp

/-! ## The result does not depend on the node -/

theorem runBatches_faults {E : Evm S} {F : Faults} {o : Output} {anchor anchor' : XHeader} :
    ∀ (xs : List (Nat × Batch)) (i : Nat) (s s' : Eng S) (h h' : XHeader),
      runBatches E F o anchor xs i s h = (s', .ok h') →
      runBatches E {} o anchor' xs i s h = (s', .ok h') := by
  intro xs
  induction xs with
  | nil => intro i s s' h h' hr; simpa [runBatches] using hr
  | cons x xs ih =>
    obtain ⟨addr, b⟩ := x
    intro i s s' h h' hr
    unfold runBatches at hr ⊢
    cases hd : o.digests[i]? with
    | none => simp [hd] at hr
    | some d =>
      simp only [hd] at hr ⊢
      cases hx : executePayload E F s i (batchPayload o h i d addr b) b.txs with
      | none => simp [hx] at hr
      | some blk =>
        have hx' : executePayload E {} s i (batchPayload o h i d addr b) b.txs = some blk := by
          unfold executePayload at hx ⊢
          split at hx
          · cases hx
          · rw [if_neg (by simp)]; exact hx
        simp only [hx, hx'] at hr ⊢
        split at hr
        · simp at hr
        · exact ih _ _ _ _ _ hr

/-- **Execution is deterministic.** If two nodes with the same chain and accumulator execute the same
output and both succeed, then whatever transient faults each of them saw, both end with the same chain,
the same accumulator and the same tip. -/
theorem deterministic {E : Evm S} {addrOf : Nat → Option Nat} {tol : Bool} {F F' : Faults} {s a b : Eng S}
    {tip ha hb : XHeader} {o : Output}
    (h1 : executeOutput E addrOf tol F s tip o = (a, .ok ha))
    (h2 : executeOutput E addrOf tol F' s tip o = (b, .ok hb)) : a = b ∧ ha = hb := by
  have comm : ∀ (F : Faults) (n : Nat) (s s' : Eng S) (h h' : XHeader),
      commitOutput F o tip n s h = (s', .ok h') → commitOutput {} o tip n s h = (s', .ok h') := by
    intro F n s s' h h' hc
    unfold commitOutput at hc ⊢
    split at hc
    · dsimp only at hc
      split at hc
      · simp at hc
      · rw [if_pos (by rfl)]; dsimp only; rw [if_neg (by simp)]; exact hc
    · simp at hc
  have key : ∀ (F : Faults) (a : Eng S) (ha : XHeader),
      executeOutput E addrOf tol F s tip o = (a, .ok ha) →
      executeOutput E addrOf tol {} s tip o = (a, .ok ha) := by
    intro F a ha h
    unfold executeOutput at h ⊢
    dsimp only at h ⊢
    split at h
    · simp at h
    · rename_i hu
      rw [if_neg hu]
      split at h
      · rename_i he
        rw [if_pos he]
        split at h
        · rename_i hc
          rw [if_pos hc]
          split at h
          · simp at h
          · rw [if_neg (by simp)]; exact h
        · rename_i hc
          rw [if_neg hc]
          cases had : addrOf ((o.subDag.leader?.map (·.author)).getD 0) with
          | none => simp [had] at h
          | some ad =>
            simp only [had] at h ⊢
            split at h
            · simp at h
            · rename_i blk hx
              have hx' : ∀ x p, executePayload E F x 0 p [] = some blk →
                  executePayload E {} x 0 p [] = some blk := by
                intro x p hx
                unfold executePayload at hx ⊢
                split at hx
                · cases hx
                · rw [if_neg (by simp)]; exact hx
              rw [hx' _ _ hx]
              exact comm _ _ _ _ _ _ h
      · rename_i he
        rw [if_neg he]
        split at h
        · simp at h
        · rename_i s1 h1 hrun
          rw [runBatches_faults (anchor' := tip) _ _ _ _ _ _ hrun]
          exact comm _ _ _ _ _ _ h
  have e := (key F a ha h1).symm.trans (key F' b hb h2)
  simp only [Prod.mk.injEq, Except.ok.injEq] at e
  exact e

/-! ## Reading blocks back -/

/-- Exactly one block of a closing output carries the seed: the last. No block of any other output
does. -/
theorem closes_once {E : Evm S} {o : Output} {tip : XHeader} {blks : List (Block S)}
    (hb : BlocksSpec E o 0 tip o.flat blks) (heven : o.flat.length = o.digests.length) (i : Nat)
    (blk : Block S) (hi : blks[i]? = some blk) :
    (blk.header.extraData ≠ [] ↔ o.closeEpoch = true ∧ i + 1 = blks.length) := by
  have key : ∀ (xs : List (Nat × Batch)) (blks : List (Block S)) (i0 : Nat) (h : XHeader),
      BlocksSpec E o i0 h xs blks → ∀ i blk, blks[i]? = some blk →
      blk.header.extraData = if o.closeEpoch = true ∧ i0 + i + 1 = o.digests.length
        then beBytes 32 o.subDag.randomness else [] := by
    intro xs
    induction xs with
    | nil =>
      intro blks i0 h hs i blk hi
      cases blks with
      | nil => simp at hi
      | cons _ _ => exact hs.elim
    | cons x xs ih =>
      intro blks i0 h hs i blk hi
      cases blks with
      | nil => exact hs.elim
      | cons b0 bs =>
        obtain ⟨⟨d, _, hspec⟩, hrest⟩ := hs
        cases i with
        | zero =>
          simp only [List.getElem?_cons_zero, Option.some.injEq] at hi
          subst hi; exact hspec.extra
        | succ i =>
          rw [List.getElem?_cons_succ] at hi
          have := ih bs (i0 + 1) _ hrest i blk hi
          rw [this, show i0 + 1 + i + 1 = i0 + (i + 1) + 1 from by omega]
  have hx := key _ _ _ _ hb i blk hi
  have hl := hb.length
  rw [hx, Nat.zero_add, hl, heven]
  by_cases hc : o.closeEpoch = true ∧ i + 1 = o.digests.length
  · rw [if_pos hc]
    refine ⟨fun _ => hc, fun _ h => ?_⟩
    have := beBytes_length 32 o.subDag.randomness
    rw [h] at this; simp at this
  · rw [if_neg hc]; exact ⟨fun h => absurd rfl h, fun h => absurd h hc⟩

/-- Epoch and round of the leader can be read back from the nonce. -/
theorem nonce_roundtrip (epoch round : Nat) (he : epoch < 2 ^ 32) (hr : round < 2 ^ 32) :
    unpackNonce (packNonce epoch round) = (epoch, round) := by
  unfold unpackNonce packNonce
  have h1 : (epoch * 2 ^ 32 + round) / 2 ^ 32 = epoch := by
    rw [Nat.mul_comm, Nat.mul_add_div (by decide), Nat.div_eq_of_lt hr, Nat.add_zero]
  have h2 : (epoch * 2 ^ 32 + round) % 2 ^ 32 = round := by
    rw [Nat.mul_comm, Nat.mul_add_mod, Nat.mod_eq_of_lt hr]
  rw [h1, h2, Nat.mod_eq_of_lt he]

/-- Index and worker can be read back from the difficulty; the consensus root is written for the first
batch only. -/
theorem difficulty_roundtrip (i w : Nat) (hw : w < 2 ^ 16) :
    Gas.blockDifficulty i w / 65536 = i ∧ Gas.workerIdFromDifficulty (Gas.blockDifficulty i w) = w ∧
      (∀ c : Ctx, c.difficulty = Gas.blockDifficulty i w → (c.firstBatch = true ↔ i = 0)) := by
  refine ⟨by unfold Gas.blockDifficulty; omega, Gas.worker_roundtrip i w hw, ?_⟩
  intro c hc
  unfold Ctx.firstBatch
  rw [hc, decide_eq_true_eq]; unfold Gas.blockDifficulty; omega

/-- **Replay uses the context of the original execution.** The context rebuilt from a stored block equals
the one with which the block was built, seed included. -/
theorem replay_context {E : Evm S} {acc : Gas.Accounting} {st : S} {p : Payload} {txs : List (List Nat)}
    {blk : Block S} (hb : buildBlock E acc st p txs = some blk)
    (hseed : ∀ x, p.closeEpoch = some x → x < 256 ^ 32) :
    ctxOfBlock blk.header = some (ctxOf E p) := by
  rw [buildBlock_header hb]
  unfold ctxOfBlock assembleHeader ctxOf
  dsimp only
  cases hc : p.closeEpoch with
  | none => rfl
  | some x =>
    have hl : (extraOf (some x)).length = 32 := beBytes_length 32 x
    rw [if_neg (by omega), if_pos hl]
    have : leNat (extraOf (some x)).reverse = x := by
      unfold extraOf beBytes
      rw [List.reverse_reverse]
      exact leNat_leBytes 32 x (hseed x hc)
    rw [this]

/-- Two batches of one output with different digests get different randomness. -/
theorem mix_distinct {E : Evm S} {o : Output} {p p' : XHeader} {i i' d d' a a' : Nat} {b b' : Batch}
    {h h' : XHeader} (hs : HeaderSpec E o p i d a b h) (hs' : HeaderSpec E o p' i' d' a' b' h') :
    h.mixHash = h'.mixHash ↔ d = d' := by
  rw [hs.mix, hs'.mix]
  refine ⟨fun e => ?_, fun e => by rw [e]⟩
  have := congrArg (o.hash ^^^ ·) e
  simpa [← Nat.xor_assoc] using this

/-- **Junk in a batch is harmless.** Transactions that do not decode, or that are invalid when their turn
comes, change nothing: the block is the one built without them. -/
theorem junk_ignored {E : Evm S} {acc : Gas.Accounting} {st : S} {p : Payload}
    (a b : List (List Nat)) (t : List Nat) (hj : E.recover t = none) :
    buildBlock E acc st p (a ++ t :: b) = buildBlock E acc st p (a ++ b) := by
  unfold buildBlock
  simp [List.filterMap_append, hj]

theorem invalid_skipped {E : Evm S} {env : BEnv} :
    ∀ (a : List Nat) (s s1 : S) (t : Nat) (b : List Nat), runTxs E env s a = some s1 →
      E.tx s1 env t = .invalid → runTxs E env s (a ++ t :: b) = runTxs E env s (a ++ b) := by
  intro a
  induction a with
  | nil =>
    intro s s1 t b h ht
    simp only [runTxs, Option.some.injEq] at h
    subst h
    simp [runTxs, ht]
  | cons x a ih =>
    intro s s1 t b h ht
    simp only [List.cons_append, runTxs] at h ⊢
    cases hx : E.tx s env x with
    | ok s' => simp only [hx] at h ⊢; exact ih _ _ _ _ h ht
    | invalid => simp only [hx] at h ⊢; exact ih _ _ _ _ h ht
    | fatal => simp [hx] at h

end Exec
end Verif
