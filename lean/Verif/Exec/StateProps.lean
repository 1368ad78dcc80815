import Verif.Exec.BuildProps
/-
What the execution of an output does to the state (C28, second part): every block runs the transactions of
its batch once, in order, on the state of the block before it, in the environment its header states.
-/
namespace Verif
namespace Exec
open Bull Codec

variable {S : Type}

/-- The transactions run one after the other; an invalid one leaves the state as it is; nothing is run
after a fatal one. -/
inductive Applied (E : Evm S) (env : BEnv) : S → List Nat → S → Prop
  | done (s : S) : Applied E env s [] s
  | run {s s1 s2 : S} {t : Nat} {ts : List Nat} : E.tx s env t = .ok s1 → Applied E env s1 ts s2 →
      Applied E env s (t :: ts) s2
  | skip {s s2 : S} {t : Nat} {ts : List Nat} : E.tx s env t = .invalid → Applied E env s ts s2 →
      Applied E env s (t :: ts) s2

/-- The environment a block's header states. -/
def headerEnv (h : XHeader) : BEnv :=
  ⟨h.number, h.beneficiary, h.timestamp, h.mixHash, h.gasLimit, h.baseFee⟩

/-- The context a block's header states, with seed `c`. -/
def headerCtx (h : XHeader) (c : Option Nat) : Ctx :=
  ⟨h.parentHash, h.beaconRoot, h.nonce, h.ommersHash, c, h.difficulty⟩

/-- State of a block: from the parent's state, the consensus root (first block of the output only), the
block hash history, the batch's transactions, and the epoch closing calls exactly if `seed` is given. -/
def StateSpec (E : Evm S) (acc : Gas.Accounting) (first : Prop) (seed : Option Nat) (prev : S)
    (txs : List (List Nat)) (blk : Block S) : Prop :=
  ∃ s1 s2 s3 : S,
    ((first ∧ E.beaconCall (E.start prev) (headerEnv blk.header) (headerCtx blk.header seed) = some s1) ∨
      (¬ first ∧ s1 = E.start prev)) ∧
    E.blockhashCall s1 (headerEnv blk.header) (headerCtx blk.header seed) = some s2 ∧
    Applied E (headerEnv blk.header) s2 (txs.filterMap E.recover) s3 ∧
    (match seed with
     | none => blk.state = s3
     | some x => E.close s3 (headerEnv blk.header) (headerCtx blk.header seed) x acc = some blk.state) ∧
    blk.header.gasUsed = E.gasUsed blk.state ∧ blk.header.roots = E.roots blk.state

/-- The seed the `i`-th block of an output gets. -/
def seedAt (o : Output) (i : Nat) : Option Nat :=
  if o.closeEpoch = true ∧ i + 1 = o.digests.length then some o.subDag.randomness else none

/-- Every block runs on the state of the one before; the accumulator the closing calls see has counted
all blocks before. -/
def StatesSpec (E : Evm S) (o : Output) : Nat → Gas.Accounting → S → List (Nat × Batch) →
    List (Block S) → Prop
  | _, _, _, [], [] => True
  | i, acc, prev, (_, b) :: xs, blk :: blks =>
    StateSpec E acc (i = 0) (seedAt o i) prev b.txs blk ∧
    ∃ sl, Gas.incBlock acc.slots b.workerId blk.header.gasUsed blk.header.gasLimit = some sl ∧
      StatesSpec E o (i + 1) { acc with slots := sl } blk.state xs blks
  | _, _, _, _, _ => False

theorem runTxs_applied {E : Evm S} {env : BEnv} : ∀ (ts : List Nat) (s s' : S),
    runTxs E env s ts = some s' → Applied E env s ts s' := by
  intro ts
  induction ts with
  | nil => intro s s' h; simp only [runTxs, Option.some.injEq] at h; subst h; exact .done _
  | cons t ts ih =>
    intro s s' h
    unfold runTxs at h
    split at h
    · rename_i s1 hs1; exact .run hs1 (ih _ _ h)
    · rename_i hs1; exact .skip hs1 (ih _ _ h)
    · cases h

theorem buildBlock_state {E : Evm S} {acc : Gas.Accounting} {st : S} {p : Payload}
    {txs : List (List Nat)} {blk : Block S} (hw : p.workerId < 65536)
    (h : buildBlock E acc st p txs = some blk) :
    StateSpec E acc (p.batchIndex = 0) p.closeEpoch st txs blk := by
  have hh := buildBlock_header h
  have henv : headerEnv blk.header = envOf p := by rw [hh]; rfl
  have hctx : headerCtx blk.header p.closeEpoch = ctxOf E p := by rw [hh]; rfl
  have hfirst : (ctxOf E p).firstBatch = true ↔ p.batchIndex = 0 :=
    (difficulty_roundtrip p.batchIndex p.workerId hw).2.2 (ctxOf E p) rfl
  unfold buildBlock at h
  split at h
  · cases h
  · rename_i s2 hs2
    split at h
    · cases h
    · rename_i s3 hs3
      split at h
      · cases h
      · rename_i s4 hs4
        have hblk := Option.some.inj h
        unfold preExec at hs2
        split at hs2
        · cases hs2
        · rename_i s1 hs1
          refine ⟨s1, s2, s3, ?_, ?_, ?_, ?_, ?_, ?_⟩
          · rw [henv, hctx]
            by_cases hf : p.batchIndex = 0
            · left
              refine ⟨hf, ?_⟩
              rw [if_pos (hfirst.mpr hf)] at hs1; exact hs1
            · right
              refine ⟨hf, ?_⟩
              rw [if_neg (fun hx => hf (hfirst.mp hx))] at hs1
              exact (Option.some.inj hs1).symm
          · rw [henv, hctx]; exact hs2
          · rw [henv]; exact runTxs_applied _ _ _ hs3
          · rw [henv, hctx]
            have hst : blk.state = s4 := by rw [← hblk]
            unfold finish at hs4
            have hce : (ctxOf E p).closeEpoch = p.closeEpoch := rfl
            rw [hce] at hs4
            rw [hst]
            cases hc : p.closeEpoch with
            | none => rw [hc] at hs4; exact (Option.some.inj hs4).symm
            | some x => rw [hc] at hs4; exact hs4
          · rw [hh]; rfl
          · rw [hh]; rfl

theorem stateAt_last {E : Evm S} {s : Eng S} {blk : Block S}
    (hl : (s.durable ++ s.mem).getLast? = some blk) : s.stateAt E blk.header = some blk.state := by
  unfold Eng.stateAt
  obtain ⟨ys, hys⟩ := List.getLast?_eq_some_iff.mp hl
  rw [hys]
  simp

theorem closesAt_seed {o : Output} {i : Nat} (hi : i < o.digests.length) :
    (if o.closesAt i then some o.subDag.randomness else none) = seedAt o i := by
  unfold seedAt
  by_cases hc : o.closeEpoch = true ∧ i + 1 = o.digests.length
  · have : o.closesAt i = true := by
      simp only [Output.closesAt, hc.1, Bool.true_and, Bool.or_eq_true, decide_eq_true_eq]
      right; omega
    rw [if_pos hc, if_pos this]
  · have : o.closesAt i = false := by
      unfold Output.closesAt
      by_cases hce : o.closeEpoch = true
      · have hne : o.digests.isEmpty = false := by
          cases hl : o.digests with
          | nil => rw [hl] at hi; simp at hi
          | cons _ _ => rfl
        have : ¬ o.digests.length ≤ i + 1 := fun hle => hc ⟨hce, by omega⟩
        simp [hne, this]
      · simp [hce]
    rw [if_neg hc, this]; rfl

theorem runBatches_states {E : Evm S} {F : Faults} {o : Output} {anchor : XHeader} :
    ∀ (xs : List (Nat × Batch)) (i : Nat) (s s' : Eng S) (last : Block S) (h' : XHeader),
      (∀ x ∈ xs, x.2.workerId < 65536) →
      (s.durable ++ s.mem).getLast? = some last →
      runBatches E F o anchor xs i s last.header = (s', .ok h') →
      ∃ blks, s'.mem = s.mem ++ blks ∧ StatesSpec E o i s.acc last.state xs blks := by
  intro xs
  induction xs with
  | nil =>
    intro i s s' last h' _ _ hr
    simp only [runBatches, Prod.mk.injEq, Except.ok.injEq] at hr
    obtain ⟨rfl, _⟩ := hr
    exact ⟨[], by simp, trivial⟩
  | cons x xs ih =>
    obtain ⟨addr, b⟩ := x
    intro i s s' last h' hw hl hr
    unfold runBatches at hr
    split at hr
    · simp at hr
    · rename_i d hd
      split at hr
      · simp at hr
      · rename_i blk hblk
        split at hr
        · simp at hr
        · rename_i sl hsl
          obtain ⟨st, hst, hb⟩ := executePayload_build hblk
          have hst' : st = last.state := by
            have := stateAt_last (E := E) hl
            rw [show (batchPayload o last.header i d addr b).parent = last.header from rfl] at hst
            rw [this] at hst; exact (Option.some.inj hst).symm
          obtain ⟨blks, e1, e2⟩ := ih (i + 1) { s.push blk with acc := { s.acc with slots := sl } } s' blk h'
            (fun x hx => hw x (by simp [hx])) (by simp [Eng.push, List.getLast?_append]) hr
          refine ⟨blk :: blks, by rw [e1]; simp [Eng.push], ?_, sl, hsl, e2⟩
          have hsp := buildBlock_state (p := batchPayload o last.header i d addr b)
            (hw _ (List.mem_cons_self)) hb
          have hi : i < o.digests.length := (List.getElem?_eq_some_iff.mp hd).1
          rw [show (batchPayload o last.header i d addr b).closeEpoch = seedAt o i from closesAt_seed hi,
            hst'] at hsp
          exact hsp

/-- **Every batch is executed once, in order, on the right state.** The blocks a successful output appends
are those of `batches_exact`, and each one's state is obtained from the state of the block before it (for
the first: from the tip's) by the consensus root if it is the first, the block hash history, the batch's
decodable transactions in order, and the closing calls exactly in the last block of a closing output; all in
the environment the block's own header states, so anyone who has the header and the batch can check it. -/
theorem batches_states {E : Evm S} {addrOf : Nat → Option Nat} {tol : Bool} {F : Faults} {s s' : Eng S}
    {tip : Block S} {h' : XHeader} {o : Output} (hs : Clean s tip.header)
    (htip : s.durable.getLast? = some tip) (hne : o.flat ≠ [])
    (hw : ∀ x ∈ o.flat, x.2.workerId < 65536)
    (hr : executeOutput E addrOf tol F s tip.header o = (s', .ok h')) :
    ∃ blks, s'.durable = s.durable ++ blks ∧ BlocksSpec E o 0 tip.header o.flat blks ∧
      StatesSpec E o 0 (Gas.Accounting.mk s.acc.slots (Gas.incLeader s.acc.leaders
        ((o.subDag.leader?.map (·.author)).getD 0))) tip.state o.flat blks := by
  obtain ⟨blks, hd, hb, _⟩ := batches_exact hs hne hr
  refine ⟨blks, hd, hb, ?_⟩
  unfold executeOutput at hr
  dsimp only at hr
  split at hr
  · simp at hr
  · split at hr
    · simp at hr
    · rename_i s1 h1 hrun
      obtain ⟨blks', m1, m2⟩ := runBatches_states _ _ _ _ tip _ hw
        (by simp [hs.mem, htip]) hrun
      obtain ⟨_, _, k2, _, _, _, _⟩ := runBatches_ok _ _ _ _ _ _ hrun
      obtain ⟨_, c2, _⟩ := commit_ok hr
      have hm : s1.mem = blks' := by rw [m1]; simp [hs.mem]
      have hl : blks.length = o.flat.length := hb.length
      have : ∀ (xs : List (Nat × Batch)) (bs : List (Block S)) i a p,
          StatesSpec E o i a p xs bs → bs.length = xs.length := by
        intro xs
        induction xs with
        | nil => intro bs i a p h; cases bs with
          | nil => rfl
          | cons _ _ => exact h.elim
        | cons x xs ih =>
          intro bs i a p h
          cases bs with
          | nil => exact h.elim
          | cons b bs => obtain ⟨_, _, _, h⟩ := h; simp [ih _ _ _ _ h]
      have hl' := this _ _ _ _ _ m2
      rw [hm, ← hl', Nat.sub_self, List.drop_zero, k2] at c2
      have : blks = blks' := by
        have := hd.symm.trans c2
        exact List.append_cancel_left this
      rw [this]; exact m2

/-! ## A concrete case -/
namespace BuildEx

/-- A toy EVM: the state is a number; a transaction adds its first byte (7 is invalid, 8 is fatal), the
beacon call adds 100, the closing calls add the seed. -/
def E : Evm Nat :=
  { hash := fun h => h.number * 1000 + h.roots
    recover := fun t => t.head?
    start := id
    beaconCall := fun s _ _ => some (s + 100)
    blockhashCall := fun s _ _ => some s
    tx := fun s _ t => if t = 7 then .invalid else if t = 8 then .fatal else .ok (s + t)
    close := fun s _ _ seed _ => some (s + seed)
    gasUsed := fun _ => 21000
    roots := id }

def genesis : Block Nat :=
  ⟨⟨0, 0, 0, 0, 0, 0, 0, 7, 30000000, 0, 0, none, [], 0⟩, 0⟩

def s0 : Eng Nat :=
  { durable := [genesis], head := genesis.header, acc := ⟨[{ }], []⟩ }

def out : Output :=
  { subDag := OutEx.sd, parent := 4, number := 1, hash := 9, closeEpoch := true,
    digests := [5, 6, 5],
    certs := [⟨100, [OutEx.b1, OutEx.b2]⟩, ⟨200, [OutEx.b1]⟩] }

theorem clean : Clean s0 genesis.header := ⟨rfl, rfl, rfl⟩

/-- The output of `OutEx`, closing the epoch, is executed into three blocks; the states are
100+1, +2 and +1+77. -/
theorem executed : ∃ s' h', executeOutput E (fun _ => some 1) false {} s0 genesis.header out = (s', .ok h') ∧
    s'.durable.map (·.state) = [0, 101, 103, 181] ∧
    s'.durable.map (·.header.beneficiary) = [0, 100, 100, 200] ∧
    s'.durable.map (·.header.extraData.length) = [0, 0, 0, 32] := by
  refine ⟨_, _, rfl, ?_, ?_, ?_⟩ <;> decide +kernel

/-- When the third block cannot be built, nothing of the output remains. -/
theorem failed : ∃ s', executeOutput E (fun _ => some 1) false { build := fun i => i == 2 } s0 genesis.header out =
    (s', .error .build) ∧ s'.durable.map (·.state) = [0] ∧ s'.mem.length = 0 ∧ s'.head = genesis.header := by
  refine ⟨_, rfl, ?_, ?_, ?_⟩ <;> decide +kernel

/-- When the database refuses three times, nothing remains either. -/
theorem not_persisted : ∃ s', executeOutput E (fun _ => some 1) false { persist := fun _ => .retryable } s0
    genesis.header out = (s', .error .persist) ∧ s'.durable.map (·.state) = [0] ∧ s'.mem.length = 0 := by
  refine ⟨_, rfl, ?_, ?_⟩ <;> decide +kernel

end BuildEx
end Exec
end Verif
