import Verif.Exec.ExecutorProps
/-
Gas and receipts of a block (C90), and why an accepted batch cannot stop the chain by its gas.
-/
namespace Verif
namespace Blk
open Exec

/-- The interpreter never uses more gas than a transaction's limit (revm). -/
def GasLaw (vm : Vm) : Prop := ∀ w env t g ok cs, vm.tx w env t = .done g ok cs → g ≤ vm.gasLimit t

/-- The transactions run by the interpreter one after the other, without any block accounting; what validation refuses
is passed over without effect. `gs` lists gas and success of those that ran. -/
inductive Ran (vm : Vm) (env : BEnv) : World → List Nat → List (Nat × Bool) → World → Prop
  | done (w : World) : Ran vm env w [] [] w
  | run {w w' : World} {t g : Nat} {ok : Bool} {cs : Changes} {ts : List Nat} {gs : List (Nat × Bool)} :
      vm.tx w env t = .done g ok cs → Ran vm env (commit w cs) ts gs w' → Ran vm env w (t :: ts) ((g, ok) :: gs) w'
  | skip {w w' : World} {t : Nat} {ts : List Nat} {gs : List (Nat × Bool)} :
      vm.tx w env t = .invalid → Ran vm env w ts gs w' → Ran vm env w (t :: ts) gs w'

/-- Receipts whose cumulative gas is the running sum, from `start`, of the gas of the transactions that ran. -/
def receiptsOf : Nat → List (Nat × Bool) → List Receipt
  | _, [] => []
  | start, g :: gs => ⟨start + g.1, g.2⟩ :: receiptsOf (start + g.1) gs

theorem receiptsOf_length (gs : List (Nat × Bool)) : ∀ k, (receiptsOf k gs).length = gs.length := by
  induction gs with
  | nil => intro k; rfl
  | cons g gs ih => intro k; simp [receiptsOf, ih]

theorem receiptsOf_get (gs : List (Nat × Bool)) : ∀ k i r, (receiptsOf k gs)[i]? = some r →
    r.cumulative = k + ((gs.take (i + 1)).map Prod.fst).sum ∧ (gs[i]?).map Prod.snd = some r.success := by
  induction gs with
  | nil => intro k i r h; simp [receiptsOf] at h
  | cons g gs ih =>
    intro k i r h
    cases i with
    | zero =>
      simp only [receiptsOf, List.getElem?_cons_zero, Option.some.injEq] at h
      subst h
      simp
    | succ i =>
      simp only [receiptsOf, List.getElem?_cons_succ] at h
      obtain ⟨h1, h2⟩ := ih _ _ _ h
      refine ⟨?_, by simpa using h2⟩
      rw [h1, List.take_succ_cons, List.map_cons, List.sum_cons]
      omega

/-- What `runTxs` does, in terms of the interpreter alone. -/
theorem runTxs_ran {vm : Vm} {ch : Chain} {env : BEnv} (hg : GasLaw vm) : ∀ (ts : List Nat) (s s' : St),
    s.gasUsed ≤ env.gasLimit → runTxs (evm vm ch) env s ts = some s' →
    ∃ gs, Ran vm env s.world ts gs s'.world ∧ s'.gasUsed = s.gasUsed + (gs.map Prod.fst).sum ∧
      s'.receipts = s.receipts ++ receiptsOf s.gasUsed gs ∧ s'.gasUsed ≤ env.gasLimit ∧
      s'.closeCalls = s.closeCalls := by
  intro ts
  induction ts with
  | nil =>
    intro s s' hle h
    simp only [runTxs, Option.some.injEq] at h
    subst h
    exact ⟨[], .done _, by simp, by simp [receiptsOf], hle, rfl⟩
  | cons t ts ih =>
    intro s s' hle h
    rw [runTxs] at h
    have e : (evm vm ch).tx s env t = execTx vm s env t := rfl
    rw [e] at h
    unfold execTx at h
    by_cases hlim : env.gasLimit - s.gasUsed < vm.gasLimit t
    · rw [if_pos hlim] at h; cases h
    rw [if_neg hlim] at h
    cases ht : vm.tx s.world env t with
    | invalid =>
      rw [ht] at h
      obtain ⟨gs, h1, h2⟩ := ih s s' hle h
      exact ⟨gs, .skip ht h1, h2⟩
    | error => rw [ht] at h; cases h
    | done g ok cs =>
      rw [ht] at h
      dsimp only at h
      have hgl := hg _ _ _ _ _ _ ht
      obtain ⟨gs, h1, h2, h3, h4, h5⟩ := ih _ s' (by dsimp only; omega) h
      dsimp only at h1 h2 h3 h5
      refine ⟨(g, ok) :: gs, .run ht h1, ?_, ?_, h4, h5⟩
      · rw [h2, List.map_cons, List.sum_cons]; omega
      · rw [h3, receiptsOf]; simp

/-- If the gas limits of the transactions together fit into what the block has left, the block accounting never stands
in the way: the transactions run through exactly if the interpreter runs them. -/
theorem runTxs_complete {vm : Vm} {ch : Chain} {env : BEnv} (hg : GasLaw vm) : ∀ (ts : List Nat) (s : St)
    (gs : List (Nat × Bool)) (w' : World), s.gasUsed + (ts.map vm.gasLimit).sum ≤ env.gasLimit →
    Ran vm env s.world ts gs w' → ∃ s', runTxs (evm vm ch) env s ts = some s' ∧ s'.world = w' := by
  intro ts
  induction ts with
  | nil =>
    intro s gs w' _ hr
    cases hr
    exact ⟨s, rfl, rfl⟩
  | cons t ts ih =>
    intro s gs w' hle hr
    rw [List.map_cons, List.sum_cons] at hle
    rw [runTxs]
    have e : (evm vm ch).tx s env t = execTx vm s env t := rfl
    rw [e]
    unfold execTx
    rw [if_neg (show ¬ env.gasLimit - s.gasUsed < vm.gasLimit t by omega)]
    cases hr with
    | run ht hr =>
      rw [ht]
      dsimp only
      have hgl := hg _ _ _ _ _ _ ht
      exact ih _ _ w' (by dsimp only; omega) hr
    | skip ht hr =>
      rw [ht]
      dsimp only
      exact ih _ _ w' (by omega) hr

theorem ran_unique {vm : Vm} {env : BEnv} {w : World} {ts : List Nat} {gs gs' : List (Nat × Bool)} {a b : World}
    (h : Ran vm env w ts gs a) (h' : Ran vm env w ts gs' b) : gs = gs' ∧ a = b := by
  induction h generalizing gs' with
  | done w => cases h'; exact ⟨rfl, rfl⟩
  | run ht _ ih =>
    cases h' with
    | run ht' hr' =>
      rw [ht] at ht'; cases ht'
      obtain ⟨rfl, h2⟩ := ih hr'
      exact ⟨rfl, h2⟩
    | skip ht' _ => rw [ht] at ht'; cases ht'
  | skip ht _ ih =>
    cases h' with
    | run ht' _ => rw [ht] at ht'; cases ht'
    | skip ht' hr' => exact ih hr'

/-- **C90 (a). Gas and receipts of a block.** In every block that is built, the gas used its header states is the sum of
the gas of the transactions that ran, and at most the gas limit the header states; there is one receipt for each of
them, in order, with the gas used so far and its success; what was skipped has no receipt and left no change; the
calls before the transactions and the epoch's closing use no gas and make no receipt. -/
theorem block_gas {vm : Vm} {ch : Chain} {acc : Gas.Accounting} {st : St} {p : Payload} {txs : List (List Nat)}
    {blk : Block St} (hg : GasLaw vm) (h : buildBlock (evm vm ch) acc st p txs = some blk) :
    ∃ w0 w1 gs, Ran vm (headerEnv blk.header) w0 (txs.filterMap vm.recover) gs w1 ∧
      (∀ a, a ≠ historyAddr → (a ≠ beaconRootsAddr ∨ 65536 ≤ blk.header.difficulty) → w0 a = st.world a) ∧
      (p.closeEpoch = none → blk.state.world = w1) ∧
      blk.header.gasUsed = (gs.map Prod.fst).sum ∧ blk.header.gasUsed ≤ blk.header.gasLimit ∧
      blk.state.receipts.length = gs.length ∧
      (∀ i r, blk.state.receipts[i]? = some r →
        r.cumulative = ((gs.take (i + 1)).map Prod.fst).sum ∧ (gs[i]?).map Prod.snd = some r.success) := by
  have hh := buildBlock_header h
  have henv : headerEnv blk.header = envOf p := by rw [hh]; rfl
  unfold buildBlock at h
  split at h
  · cases h
  rename_i s2 hs2
  split at h
  · cases h
  rename_i s3 hs3
  split at h
  · cases h
  rename_i s4 hs4
  have hblk := Option.some.inj h
  obtain ⟨f1, f2, f3, f4⟩ := preExec_frame hs2
  obtain ⟨gs, r1, r2, r3, r4, r5⟩ := runTxs_ran hg _ s2 s3 (by rw [f2]; exact Nat.zero_le _) hs3
  rw [f2] at r2 r3
  rw [f3] at r3
  have hfin : s4.gasUsed = s3.gasUsed ∧ s4.receipts = s3.receipts ∧ (p.closeEpoch = none → s4.world = s3.world) := by
    unfold finish at hs4
    have hce : (ctxOf (evm vm ch) p).closeEpoch = p.closeEpoch := rfl
    rw [hce] at hs4
    cases hc : p.closeEpoch with
    | none =>
      rw [hc] at hs4
      have := Option.some.inj hs4
      rw [this]; exact ⟨rfl, rfl, fun _ => rfl⟩
    | some x =>
      rw [hc] at hs4
      obtain ⟨_, g2, g3⟩ := close_system (vm := vm) (ch := ch) hs4
      exact ⟨g2, g3, fun h => by cases h⟩
  have hgu : blk.header.gasUsed = s4.gasUsed := by rw [← hblk]; rfl
  have hgl : blk.header.gasLimit = (envOf p).gasLimit := by rw [← hblk]; rfl
  have hdi : blk.header.difficulty = (ctxOf (evm vm ch) p).difficulty := by rw [← hblk]; rfl
  have hst : blk.state = s4 := by rw [← hblk]
  refine ⟨s2.world, s3.world, gs, ?_, ?_, ?_, ?_, ?_, ?_, ?_⟩
  · rw [henv]; exact r1
  · rw [hdi]; exact f1
  · intro hc; rw [hst]; exact hfin.2.2 hc
  · rw [hgu, hfin.1, r2, Nat.zero_add]
  · rw [hgu, hgl, hfin.1]; exact r4
  · rw [hst, hfin.2.1, r3, List.nil_append, receiptsOf_length]
  · intro i r hi
    rw [hst, hfin.2.1, r3, List.nil_append] at hi
    obtain ⟨k1, k2⟩ := receiptsOf_get _ _ _ _ hi
    exact ⟨by rw [k1, Nat.zero_add], k2⟩

/-- The validator decodes as execution does (both call `recover_raw_transaction`). -/
def SameDecoding (v : Worker.Validator) (vm : Vm) : Prop :=
  ∀ bytes, (v.decode bytes).map (·.gasLimit) = (vm.recover bytes).map vm.gasLimit

theorem decoded_sum {dec : List Nat → Option Worker.Tx} {vm : Vm}
    (hd : ∀ bytes, (dec bytes).map (·.gasLimit) = (vm.recover bytes).map vm.gasLimit) :
    ∀ (l : List (List Nat)) (txs : List Worker.Tx), l.map dec = txs.map some →
      (l.filterMap vm.recover).map vm.gasLimit = txs.map (·.gasLimit) ∧ (l.filterMap vm.recover).length = l.length := by
  intro l
  induction l with
  | nil => intro txs h; cases txs <;> simp_all
  | cons b l ih =>
    intro txs h
    cases txs with
    | nil => simp at h
    | cons t ts =>
      rw [List.map_cons, List.map_cons, List.cons.injEq] at h
      obtain ⟨i1, i2⟩ := ih ts h.2
      have hb := hd b
      rw [h.1] at hb
      cases hr : vm.recover b with
      | none => rw [hr] at hb; simp at hb
      | some x =>
        rw [hr] at hb
        simp only [Option.map_some, Option.some.injEq] at hb
        rw [List.filterMap_cons, hr]
        exact ⟨by simp [i1, hb], by simp [i2]⟩

/-- **C90 (b). An accepted batch cannot stop the chain by its gas.** If a batch passed validation, then in the block
made from it (gas limit 30,000,000) every transaction is recovered, and the transactions run through exactly if the
interpreter runs each of them without an error of its own (a database failure): the check that a transaction's gas
limit fits into the rest of the block, which is fatal for the block, never fires. -/
theorem accepted_runs {vm : Vm} {ch : Chain} {v : Worker.Validator} {b : Batch} {d : Nat} {env : BEnv} {s : St}
    (hg : GasLaw vm) (hdec : SameDecoding v vm) (hv : v.validate b d = .ok ()) (hl : env.gasLimit = Exec.maxBatchGas 0)
    (hs : s.gasUsed = 0) :
    (b.txs.filterMap vm.recover).length = b.txs.length ∧
    ((∃ s', runTxs (evm vm ch) env s (b.txs.filterMap vm.recover) = some s') ↔
      ∃ gs w', Ran vm env s.world (b.txs.filterMap vm.recover) gs w') := by
  obtain ⟨txs, ha⟩ := (Worker.validate_iff v b d).mp hv
  obtain ⟨h1, h2⟩ := decoded_sum hdec _ _ ha.decoded
  refine ⟨h2, ?_, ?_⟩
  · rintro ⟨s', h⟩
    obtain ⟨gs, r, _⟩ := runTxs_ran hg _ s s' (by rw [hs]; exact Nat.zero_le _) h
    exact ⟨gs, _, r⟩
  · rintro ⟨gs, w', h⟩
    obtain ⟨s', h3, _⟩ := runTxs_complete (ch := ch) hg _ s gs w' (by
      rw [h1, hs, hl, Nat.zero_add]; exact ha.gas) h
    exact ⟨s', h3⟩

/-- The interpreter has no error of its own on these transactions, from any state. -/
def NoError (vm : Vm) (env : BEnv) (ts : List Nat) : Prop := ∀ w, ∀ t ∈ ts, vm.tx w env t ≠ .error

theorem noError_ran {vm : Vm} {env : BEnv} : ∀ (ts : List Nat) (w : World), NoError vm env ts →
    ∃ gs w', Ran vm env w ts gs w' := by
  intro ts
  induction ts with
  | nil => intro w _; exact ⟨[], w, .done w⟩
  | cons t ts ih =>
    intro w h
    have ht := h w t List.mem_cons_self
    have hts : NoError vm env ts := fun w t ht => h w t (List.mem_cons_of_mem _ ht)
    cases hx : vm.tx w env t with
    | invalid => obtain ⟨gs, w', hr⟩ := ih w hts; exact ⟨gs, w', .skip hx hr⟩
    | error => exact absurd hx ht
    | done g ok cs => obtain ⟨gs, w', hr⟩ := ih (commit w cs) hts; exact ⟨_, w', .run hx hr⟩

/-- **C90 (c).** The block of an accepted batch, in an output that does not close the epoch, is built whenever the
pre-block calls succeed and the interpreter has no error of its own. -/
theorem accepted_builds {vm : Vm} {ch : Chain} {acc : Gas.Accounting} {v : Worker.Validator} {b : Batch} {d : Nat}
    {st : St} {p : Payload} (hg : GasLaw vm) (hdec : SameDecoding v vm) (hv : v.validate b d = .ok ())
    (hl : p.gasLimit = Exec.maxBatchGas 0) (hc : p.closeEpoch = none)
    (hpre : ∃ s, preExec (evm vm ch) (St.start st) (envOf p) (ctxOf (evm vm ch) p) = some s)
    (hn : NoError vm (envOf p) (b.txs.filterMap vm.recover)) :
    ∃ blk, buildBlock (evm vm ch) acc st p b.txs = some blk := by
  obtain ⟨s, hs⟩ := hpre
  have hs' : preExec (evm vm ch) ((evm vm ch).start st) (envOf p) (ctxOf (evm vm ch) p) = some s := hs
  have h0 := (preExec_frame hs').2.1
  obtain ⟨s', h'⟩ := (accepted_runs (ch := ch) (env := envOf p) hg hdec hv hl h0).2.mpr (noError_ran _ s.world hn)
  unfold buildBlock
  rw [hs']
  dsimp only
  have er : (evm vm ch).recover = vm.recover := rfl
  rw [er, h']
  dsimp only
  have hf : finish (evm vm ch) acc s' (envOf p) (ctxOf (evm vm ch) p) = some s' := by
    unfold finish
    have hce : (ctxOf (evm vm ch) p).closeEpoch = none := hc
    rw [hce]
  rw [hf]
  exact ⟨_, rfl⟩

/-- **C90 (d), why the validation matters.** A single transaction whose gas limit is above the block's makes the block,
and with it the output and the chain, impossible to execute, even if the interpreter would have skipped it. -/
theorem oversized_stops {vm : Vm} {ch : Chain} {env : BEnv} (pre post : List Nat) (t : Nat)
    (ht : env.gasLimit < vm.gasLimit t) (s : St) : runTxs (evm vm ch) env s (pre ++ t :: post) = none := by
  induction pre generalizing s with
  | nil =>
    rw [List.nil_append, runTxs]
    have e : (evm vm ch).tx s env t = execTx vm s env t := rfl
    rw [e]
    unfold execTx
    rw [if_pos (show env.gasLimit - s.gasUsed < vm.gasLimit t by omega)]
  | cons x pre ih =>
    rw [List.cons_append, runTxs]
    cases hx : (evm vm ch).tx s env x with
    | ok s' => exact ih s'
    | invalid => exact ih s
    | fatal => rfl

/-! ## A concrete case -/
namespace Ex

/-- A toy interpreter. Transactions: 7 is invalid, 8 is an interpreter error, `t` transfers `t` to account `t` and uses
`20000 + t` gas of a limit of `21000 + t`. System calls record themselves in slot 0 of the contract (the caller's
account is touched too); the registry asks for a committee of 2 of the validators 5, 3 and 9. -/
def vm : Vm :=
  { sys := fun w _ k c =>
      let bump := [(k, { w k with storage := fun i => if i = 0 then (w k).storage 0 + 1 else (w k).storage i }),
                   (systemAddr, { w systemAddr with nonce := 99 })]
      match c with
      | .nextSize => some (.success (.size 2), [])
      | .validatorsInfo .active => some (.success (.vals [⟨5, .active⟩, ⟨3, .active⟩]), [])
      | .validatorsInfo .pendingActivation => some (.success (.vals [⟨9, .pendingActivation⟩]), [])
      | .validatorsInfo .pendingExit => some (.success (.vals []), [])
      | .validatorsLegacy => some (.success (.vals [⟨5, .active⟩, ⟨3, .active⟩]), [])
      | .allConfigs => some (.success (.configs [⟨.eip1559 1000, 0⟩, ⟨.static 3, 0⟩]), [])
      | _ => some (.success .other, bump)
    tx := fun w _ t => if t = 7 then .invalid else if t = 8 then .error
      else .done (20000 + t) true [(t, { w t with balance := (w t).balance + t })]
    gasLimit := fun t => 21000 + t
    recover := fun l => l.head?
    draws := fun seed => [seed % 3, 0]
    hash := fun h => h.number
    root := fun w rs => (w 2).balance + rs.length }

def chain : Chain := { cancun := fun _ => true, prague := fun _ => true, fork := none, committee := none }

theorem gasLaw : GasLaw vm := by
  intro w env t g ok cs h
  simp only [vm] at h
  split at h
  · cases h
  split at h
  · cases h
  cases h
  show 20000 + t ≤ 21000 + t
  omega

theorem keepsCode : KeepsCode vm := by
  intro w env k c r cs h a ha x hx
  have he : cs = [] ∨ cs = [(k, { w k with storage := fun i => if i = 0 then (w k).storage 0 + 1 else (w k).storage i }),
                   (systemAddr, { w systemAddr with nonce := 99 })] := by
    simp only [vm] at h
    split at h
    all_goals
      simp only [Option.some.injEq, Prod.mk.injEq] at h
      first
        | exact .inl h.2.symm
        | exact .inr h.2.symm
  rcases he with rfl | rfl
  · cases hx
  · simp only [Changes.find] at hx
    split at hx
    · rename_i hk
      cases hx
      rw [← hk]
    · have hne : ¬ systemAddr = a := by rcases ha with rfl | rfl <;> decide
      rw [if_neg hne] at hx; cases hx

def st : St := { world := fun _ => { } }
def hdr : XHeader := ⟨4, 0, 0, 0, 0, 0, 0, 7, 30000000, 0, 0, none, [], 0⟩
def payload : Payload := ⟨hdr, 1, 3 * 2 ^ 32 + 8, 0, 50, 6, 9, 7, 30000000, 1, some 4, 0⟩
def acc : Gas.Accounting := ⟨[{ gasUsed := 5000 }], []⟩

/-- A closing block with a skipped transaction: two receipts, gas 40005, three calls to the registry and one to the
worker configuration; the system address keeps its nonce. -/
theorem built : ∃ blk, buildBlock (evm vm chain) acc st payload [[2], [7], [3]] = some blk ∧
    blk.header.gasUsed = 40005 ∧ blk.state.receipts = [⟨20002, true⟩, ⟨40005, true⟩] ∧
    (blk.state.world systemAddr).nonce = 0 ∧ (blk.state.world registryAddr).storage 0 = 3 ∧
    (blk.state.world workerConfigsAddr).storage 0 = 1 ∧ (blk.state.world beaconRootsAddr).storage 0 = 1 ∧
    (blk.state.world 3).balance = 3 ∧
    blk.state.closeCalls = [.incentives [], .slashes [], .conclude [5, 9], .setFees [(0, 8)]] := by
  refine ⟨_, rfl, ?_, ?_, ?_, ?_, ?_, ?_, ?_, ?_⟩ <;> decide +kernel

def forkChain : Chain := { chain with fork := some adiri }

/-- The state before the fork: both contracts carry the pinned code and have some storage and balance. -/
def pre : St :=
  { world := fun a => if a = registryAddr then { balance := 50, nonce := 2, codeHash := adiri.registryPre, storage := fun _ => 7 }
      else if a = workerConfigsAddr then { balance := 1, codeHash := adiri.configsPre, storage := fun _ => 4 } else { } }

/-- The block that concludes epoch 406. -/
def ctx406 : Ctx := ⟨0, some 9, 406 * 2 ^ 32 + 12, 0, some 4, 0⟩
def ctx405 : Ctx := ⟨0, some 9, 405 * 2 ^ 32 + 12, 0, some 4, 0⟩

theorem reach0 : Reach vm forkChain adiri 0 pre.world := .genesis _ rfl rfl

/-- Epoch 405 is closed with the old pair of calls and keeps the code. -/
theorem closed405 : ∃ s', close vm forkChain pre (envOf payload) ctx405 4 acc = some s' ∧
    s'.closeCalls = [.incentives [], .conclude [3, 5]] ∧ (s'.world registryAddr).codeHash = adiri.registryPre := by
  refine ⟨_, rfl, ?_, ?_⟩ <;> decide +kernel

/-- Epoch 406 is closed on the new code: balance, nonce and storage (but for the marks of the four calls) are kept. -/
theorem closed406 : ∃ s', close vm forkChain pre (envOf payload) ctx406 4 acc = some s' ∧
    s'.closeCalls = [.migrate, .incentives [], .slashes [], .conclude [5, 9], .setFees [(0, 8)]] ∧
    (s'.world registryAddr).codeHash = adiri.registryPost ∧
    (s'.world workerConfigsAddr).codeHash = adiri.configsPost ∧ (s'.world registryAddr).balance = 50 ∧
    (s'.world registryAddr).nonce = 2 ∧ (s'.world registryAddr).storage 0 = 11 ∧ (s'.world registryAddr).storage 5 = 7 := by
  refine ⟨_, rfl, ?_, ?_, ?_, ?_, ?_, ?_, ?_⟩ <;> decide +kernel

/-- Over any other deployment (here: no code at all) the boundary block fails. -/
theorem stopped406 : close vm forkChain st (envOf payload) ctx406 4 acc = none :=
  fork_fails_closed rfl (by decide) (by decide) (by decide) (by decide)

/-- A validator that accepts the batch of `built`. -/
def v : Worker.Validator :=
  { workerId := 0, epoch := 3, baseFee := 7, decode := fun l => l.head?.map (fun t => ⟨0, 21000 + t⟩), digest := fun _ => 5 }

theorem same : SameDecoding v vm := by
  intro l
  cases l <;> rfl

theorem accepts : v.validate { txs := [[2], [7], [3]], epoch := 3 } 5 = .ok () := by decide

theorem noError : NoError vm (envOf payload) ([[2], [7], [3]].filterMap vm.recover) := by
  intro w t ht
  have : t = 2 ∨ t = 7 ∨ t = 3 := by simpa [vm] using ht
  rcases this with rfl | rfl | rfl <;> simp [vm]

end Ex
end Blk
end Verif
