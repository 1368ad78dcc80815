import Verif.Exec.Executor
import Verif.Exec.StateProps
import Verif.Worker.Quorum
import Verif.Gas.RestartProps
/-
What the block executor does (C90: gas and receipts; C91: system calls, closing sequence, contract forks).
-/
namespace Verif
namespace Blk
open Exec

/-! ## Change sets -/

theorem find_retain (cs : Changes) (a b : Nat) :
    (cs.retain a).find b = if b = a then cs.find b else none := by
  induction cs with
  | nil => simp [Changes.retain, Changes.find]
  | cons c rest ih =>
    unfold Changes.retain at ih ⊢
    rw [List.filter_cons]
    by_cases h : c.1 = a
    · rw [if_pos (by simpa using h)]
      simp only [Changes.find]
      by_cases hb : c.1 = b
      · rw [if_pos hb, if_pos (hb.symm.trans h), if_pos hb]
      · rw [if_neg hb, ih, if_neg hb]
    · rw [if_neg (by simpa using h), ih]
      by_cases hb : b = a
      · rw [if_pos hb, if_pos hb]; simp only [Changes.find]; rw [if_neg (fun hx => h (hx.trans hb))]
      · rw [if_neg hb, if_neg hb]

theorem find_remove (cs : Changes) (a b : Nat) :
    (cs.remove a).find b = if b = a then none else cs.find b := by
  induction cs with
  | nil => simp [Changes.remove, Changes.find]
  | cons c rest ih =>
    unfold Changes.remove at ih ⊢
    rw [List.filter_cons]
    by_cases h : c.1 = a
    · rw [if_neg (by simpa using h), ih]
      by_cases hb : b = a
      · rw [if_pos hb, if_pos hb]
      · rw [if_neg hb, if_neg hb]; simp only [Changes.find]; rw [if_neg (fun hx => hb (hx.symm.trans h))]
    · rw [if_pos (by simpa using h)]
      simp only [Changes.find]
      by_cases hb : c.1 = b
      · rw [if_pos hb, if_neg (fun hx => h (hb.trans hx)), if_pos hb]
      · rw [if_neg hb]; rw [ih]; by_cases hx : b = a
        · rw [if_pos hx, if_pos hx]
        · rw [if_neg hx, if_neg hx, if_neg hb]

theorem commit_remove (w : World) (cs : Changes) (a b : Nat) :
    commit w (cs.remove a) b = if b = a then w b else (cs.find b).getD (w b) := by
  unfold commit
  rw [find_remove]
  by_cases h : b = a
  · rw [if_pos h, if_pos h]; rfl
  · rw [if_neg h, if_neg h]

theorem commit_retain (w : World) (cs : Changes) (a b : Nat) :
    commit w (cs.retain a) b = if b = a then (cs.find b).getD (w b) else w b := by
  unfold commit
  rw [find_retain]
  by_cases h : b = a
  · rw [if_pos h, if_pos h]
  · rw [if_neg h, if_neg h]; rfl

/-! ## Specification -/

/-- The world after a change set, except that the account `keep` is left alone. -/
def Overlaid (w : World) (cs : Changes) (keep : Nat → Prop) (w' : World) : Prop :=
  ∀ a, (keep a → w' a = w a) ∧ (¬ keep a → w' a = (cs.find a).getD (w a))

/-- A system call that succeeds and is committed, without the caller's account. -/
def Step (vm : Vm) (env : BEnv) (contract : Nat) (c : Call) (w w' : World) : Prop :=
  ∃ r cs, vm.sys w env contract c = some (.success r, cs) ∧ Overlaid w cs (· = systemAddr) w'

/-- A read returns `r`. -/
def Reads (vm : Vm) (env : BEnv) (contract : Nat) (c : Call) (w : World) (r : Ret) : Prop :=
  ∃ cs, vm.sys w env contract c = some (.success r, cs)

/-- The pool of the current registry: the validators that are active, pending activation and pending exit. -/
def PoolNew (vm : Vm) (env : BEnv) (w : World) (pool : List Shuffle.Val) : Prop :=
  ∃ a b c, Reads vm env registryAddr (.validatorsInfo .active) w (.vals a) ∧
    Reads vm env registryAddr (.validatorsInfo .pendingActivation) w (.vals b) ∧
    Reads vm env registryAddr (.validatorsInfo .pendingExit) w (.vals c) ∧ pool = a ++ b ++ c

/-- The pool of the pre-fork registry: one query. -/
def PoolOld (vm : Vm) (env : BEnv) (w : World) (pool : List Shuffle.Val) : Prop :=
  Reads vm env registryAddr .validatorsLegacy w (.vals pool)

/-- The committee is the one the seed draws from this pool, of the size the registry asks for, sorted. -/
def Chosen (vm : Vm) (env : BEnv) (seed : Nat) (w : World) (pool : List Shuffle.Val) (cm : List Nat) : Prop :=
  ∃ n c, Reads vm env registryAddr .nextSize w (.size n) ∧ Shuffle.assemble n pool (vm.draws seed) = .ok c ∧
    cm = c.insertionSort (· ≤ ·)

/-- The fees published: one entry for each EIP-1559 worker, in order, the next fee computed from the worker's
accumulated gas plus, for the block's own worker, the gas of this block. -/
def FeeList (acc : Gas.Slots) (own ownGas : Nat) (rows : List Gas.Row) (fees : List (Nat × Nat)) : Prop :=
  (fees.map Prod.fst).Pairwise (· < ·) ∧
  ∀ w f, (w, f) ∈ fees ↔ ∃ row t, rows[w]? = some row ∧ row.cfg = .eip1559 t ∧
    f = Gas.computeNextBaseFeeEip1559 (Gas.feeAndGas acc w).1
      (if w = own then min ((Gas.feeAndGas acc w).2 + ownGas) (2 ^ 64 - 1) else (Gas.feeAndGas acc w).2) t

/-- Closing with the current contracts: incentives, slashes (none), the committee drawn from the pool of the state
after the slashes, its conclusion, and the fees, where the last call is left out if there is nothing to publish. -/
def ClosesNew (vm : Vm) (env : BEnv) (own ownGas seed : Nat) (rewards : List (Nat × Nat)) (acc : Gas.Slots)
    (w w' : World) (calls : List Call) : Prop :=
  ∃ w1 w2 w3 pool cm rows fees,
    Step vm env registryAddr (.incentives rewards) w w1 ∧
    Step vm env registryAddr (.slashes []) w1 w2 ∧
    PoolNew vm env w2 pool ∧ Chosen vm env seed w2 pool cm ∧
    Step vm env registryAddr (.conclude cm) w2 w3 ∧
    Reads vm env workerConfigsAddr .allConfigs w3 (.configs rows) ∧ FeeList acc own ownGas rows fees ∧
    ((fees = [] ∧ w' = w3 ∧ calls = [.incentives rewards, .slashes [], .conclude cm]) ∨
     (fees ≠ [] ∧ Step vm env workerConfigsAddr (.setFees fees) w3 w' ∧
      calls = [.incentives rewards, .slashes [], .conclude cm, .setFees fees]))

/-- Closing with the pre-fork registry: incentives, and the conclusion with the committee drawn from its pool. -/
def ClosesOld (vm : Vm) (env : BEnv) (seed : Nat) (rewards : List (Nat × Nat)) (w w' : World) (calls : List Call) :
    Prop :=
  ∃ w1 pool cm, Step vm env registryAddr (.incentives rewards) w w1 ∧
    PoolOld vm env w1 pool ∧ Chosen vm env seed w1 pool cm ∧
    Step vm env registryAddr (.conclude cm) w1 w' ∧ calls = [.incentives rewards, .conclude cm]

/-- Only the code of account `a` differs. -/
def CodeSwapped (a h : Nat) (w w' : World) : Prop :=
  (∀ b, b ≠ a → w' b = w b) ∧ (w' a).codeHash = h ∧ (w' a).balance = (w a).balance ∧ (w' a).nonce = (w a).nonce ∧
    (w' a).storage = (w a).storage

/-- The fork: both contracts carry the pinned code, their code (and nothing else of them) is replaced, and the registry
migrates its sets in between. -/
def Forks (vm : Vm) (env : BEnv) (f : Fork) (w w' : World) : Prop :=
  ∃ w1 w2, (w registryAddr).codeHash = f.registryPre ∧ CodeSwapped registryAddr f.registryPost w w1 ∧
    Step vm env registryAddr .migrate w1 w2 ∧ (w2 workerConfigsAddr).codeHash = f.configsPre ∧
    CodeSwapped workerConfigsAddr f.configsPost w2 w'

/-! ## System calls -/

theorem overlaid_unique {w : World} {cs : Changes} {k : Nat → Prop} {a b : World} (ha : Overlaid w cs k a)
    (hb : Overlaid w cs k b) : a = b := by
  funext x
  by_cases hk : k x
  · rw [(ha x).1 hk, (hb x).1 hk]
  · rw [(ha x).2 hk, (hb x).2 hk]

theorem overlaid_remove (w : World) (cs : Changes) :
    Overlaid w cs (· = systemAddr) (commit w (cs.remove systemAddr)) := by
  intro a
  constructor
  · intro h; rw [commit_remove, if_pos h]
  · intro h; rw [commit_remove, if_neg h]

theorem sysCall_iff {vm : Vm} {s s' : St} {env : BEnv} {k : Nat} {c : Call} :
    sysCall vm s env k c = some s' ↔ ∃ w', Step vm env k c s.world w' ∧
      s' = { s with world := w', closeCalls := s.closeCalls ++ [c] } := by
  unfold sysCall
  constructor
  · intro h
    split at h
    · rename_i r cs he
      exact ⟨_, ⟨r, cs, he, overlaid_remove _ _⟩, (Option.some.inj h).symm⟩
    · cases h
  · rintro ⟨w', ⟨r, cs, he, ho⟩, rfl⟩
    rw [he]
    dsimp only
    rw [overlaid_unique ho (overlaid_remove _ _)]

theorem read_iff {vm : Vm} {s : St} {env : BEnv} {k : Nat} {c : Call} {r : Ret} :
    read vm s env k c = some r ↔ Reads vm env k c s.world r := by
  unfold read Reads
  constructor
  · intro h
    split at h
    · rename_i r' cs he
      cases h; exact ⟨cs, he⟩
    · cases h
  · rintro ⟨cs, he⟩
    rw [he]

theorem nextSize_iff {vm : Vm} {s : St} {env : BEnv} {n : Nat} :
    nextSize vm s env = some n ↔ Reads vm env registryAddr .nextSize s.world (.size n) := by
  unfold nextSize
  rw [← read_iff]
  constructor
  · intro h
    split at h
    · rename_i m he; rw [he]; cases h; rfl
    · cases h
  · intro h; rw [h]

theorem infoOf_iff {vm : Vm} {s : St} {env : BEnv} {st : Shuffle.Status} {l : List Shuffle.Val} :
    infoOf vm s env st = some l ↔ Reads vm env registryAddr (.validatorsInfo st) s.world (.vals l) := by
  unfold infoOf
  rw [← read_iff]
  constructor
  · intro h
    split at h
    · rename_i m he; rw [he]; cases h; rfl
    · cases h
  · intro h; rw [h]

theorem pool_old {vm : Vm} {ch : Chain} {s : St} {env : BEnv} (hp : preFork ch s = true) {l : List Shuffle.Val} :
    eligiblePool vm ch s env = some l ↔ PoolOld vm env s.world l := by
  unfold eligiblePool PoolOld
  rw [if_pos hp, ← read_iff]
  constructor
  · intro h
    split at h
    · rename_i m he; rw [he]; cases h; rfl
    · cases h
  · intro h; rw [h]

theorem pool_new {vm : Vm} {ch : Chain} {s : St} {env : BEnv} (hp : preFork ch s = false) {l : List Shuffle.Val} :
    eligiblePool vm ch s env = some l ↔ PoolNew vm env s.world l := by
  unfold eligiblePool PoolNew
  rw [if_neg (by rw [hp]; decide)]
  simp only [← infoOf_iff]
  constructor
  · intro h
    split at h
    · rename_i a b c ha hb hc
      exact ⟨a, b, c, ha, hb, hc, (Option.some.inj h).symm⟩
    · cases h
  · rintro ⟨a, b, c, ha, hb, hc, rfl⟩
    rw [ha, hb, hc]

theorem newCommittee_iff {vm : Vm} {ch : Chain} {s : St} {env : BEnv} {seed : Nat} {cm : List Nat} :
    newCommittee vm ch s env seed = some cm ↔
      ∃ pool, eligiblePool vm ch s env = some pool ∧ Chosen vm env seed s.world pool cm := by
  unfold newCommittee Chosen
  simp only [← nextSize_iff]
  constructor
  · intro h
    split at h
    · rename_i n p hn hp
      split at h
      · rename_i c hc
        exact ⟨p, hp, n, c, hn, hc, (Option.some.inj h).symm⟩
      · cases h
    · cases h
  · rintro ⟨p, hp, n, c, hn, hc, rfl⟩
    rw [hn, hp]
    dsimp only
    rw [hc]

/-! ## The fees -/

theorem feesFrom_spec (acc : Gas.Slots) (own ownGas : Nat) : ∀ (rows : List Gas.Row) (k : Nat),
    ((feesFrom acc own ownGas k rows).map Prod.fst).Pairwise (· < ·) ∧
    (∀ p ∈ feesFrom acc own ownGas k rows, k ≤ p.1) ∧
    ∀ w f, (w, f) ∈ feesFrom acc own ownGas k rows ↔ ∃ row t, k ≤ w ∧ rows[w - k]? = some row ∧ row.cfg = .eip1559 t ∧
      f = Gas.computeNextBaseFeeEip1559 (Gas.feeAndGas acc w).1
        (if w = own then min ((Gas.feeAndGas acc w).2 + ownGas) (2 ^ 64 - 1) else (Gas.feeAndGas acc w).2) t := by
  intro rows
  induction rows with
  | nil => intro k; simp [feesFrom]
  | cons r rs ih =>
    intro k
    obtain ⟨i1, i2, i3⟩ := ih (k + 1)
    have tail : ∀ w row, (k + 1 ≤ w ∧ rs[w - (k + 1)]? = some row) ↔ (k < w ∧ (r :: rs)[w - k]? = some row) := by
      intro w row
      constructor
      · rintro ⟨h1, h2⟩
        refine ⟨h1, ?_⟩
        rw [show w - k = (w - (k + 1)) + 1 by omega]; simpa using h2
      · rintro ⟨h1, h2⟩
        refine ⟨h1, ?_⟩
        rw [show w - k = (w - (k + 1)) + 1 by omega] at h2; simpa using h2
    cases hc : r.cfg with
    | static fee =>
      have e : feesFrom acc own ownGas k (r :: rs) = feesFrom acc own ownGas (k + 1) rs := by
        rw [feesFrom]; rw [hc]
      rw [e]
      refine ⟨i1, fun p hp => by have := i2 p hp; omega, fun w f => ?_⟩
      rw [i3]
      constructor
      · rintro ⟨row, t, h1, h2, h3⟩
        have := (tail w row).mp ⟨h1, h2⟩
        exact ⟨row, t, by omega, this.2, h3⟩
      · rintro ⟨row, t, h1, h2, h3, h4⟩
        by_cases hk : w = k
        · subst hk
          simp only [Nat.sub_self, List.getElem?_cons_zero, Option.some.injEq] at h2
          rw [← h2, hc] at h3; cases h3
        · have := (tail w row).mpr ⟨by omega, h2⟩
          exact ⟨row, t, this.1, this.2, h3, h4⟩
    | eip1559 tg =>
      have e : feesFrom acc own ownGas k (r :: rs) =
          (k, Gas.computeNextBaseFeeEip1559 (Gas.feeAndGas acc k).1
            (if k = own then min ((Gas.feeAndGas acc k).2 + ownGas) (2 ^ 64 - 1) else (Gas.feeAndGas acc k).2) tg) ::
          feesFrom acc own ownGas (k + 1) rs := by
        rw [feesFrom]; rw [hc]; rfl
      rw [e]
      refine ⟨?_, ?_, fun w f => ?_⟩
      · rw [List.map_cons, List.pairwise_cons]
        refine ⟨?_, i1⟩
        intro a ha
        obtain ⟨p, hp, rfl⟩ := List.mem_map.mp ha
        have := i2 p hp
        dsimp only
        omega
      · intro p hp
        rcases List.mem_cons.mp hp with rfl | hp
        · exact Nat.le_refl _
        · have := i2 p hp; omega
      · rw [List.mem_cons, i3]
        constructor
        · rintro (h | ⟨row, t, h1, h2, h3⟩)
          · obtain ⟨rfl, rfl⟩ := Prod.mk.inj h
            exact ⟨r, tg, Nat.le_refl _, by simp, hc, rfl⟩
          · have := (tail w row).mp ⟨h1, h2⟩
            exact ⟨row, t, by omega, this.2, h3⟩
        · rintro ⟨row, t, h1, h2, h3, h4⟩
          by_cases hk : w = k
          · subst hk
            simp only [Nat.sub_self, List.getElem?_cons_zero, Option.some.injEq] at h2
            rw [← h2, hc] at h3
            cases h3
            left; rw [h4]
          · right
            have := (tail w row).mpr ⟨by omega, h2⟩
            exact ⟨row, t, this.1, this.2, h3, h4⟩

theorem feesFrom_feeList (acc : Gas.Slots) (own ownGas : Nat) (rows : List Gas.Row) :
    FeeList acc own ownGas rows (feesFrom acc own ownGas 0 rows) := by
  obtain ⟨h1, _, h3⟩ := feesFrom_spec acc own ownGas rows 0
  refine ⟨h1, fun w f => ?_⟩
  rw [h3]
  simp

theorem feeList_unique {acc : Gas.Slots} {own ownGas : Nat} {rows : List Gas.Row} {l l' : List (Nat × Nat)}
    (h : FeeList acc own ownGas rows l) (h' : FeeList acc own ownGas rows l') : l = l' := by
  have hp : ∀ {m : List (Nat × Nat)}, (m.map Prod.fst).Pairwise (· < ·) → m.Pairwise (fun a b => a.1 < b.1) :=
    fun hm => List.pairwise_map.mp hm
  have nd : ∀ {m : List (Nat × Nat)}, (m.map Prod.fst).Pairwise (· < ·) → m.Nodup := by
    intro m hm
    exact (hp hm).imp (fun hlt he => by rw [he] at hlt; exact Nat.lt_irrefl _ hlt)
  have perm : l.Perm l' := by
    rw [List.perm_ext_iff_of_nodup (nd h.1) (nd h'.1)]
    rintro ⟨w, f⟩
    rw [h.2, h'.2]
  exact perm.eq_of_pairwise (fun a b _ _ hab hba => absurd hab (by omega)) (hp h.1) (hp h'.1)

/-- The fees the call publishes are those the row update of the gas model stores (`Gas.recordFees`), so what C-theorems
about fee records say holds for a contract that stores each published fee in the worker's data word. -/
theorem fees_are_record (acc : Gas.Slots) (own ownGas : Nat) (rows : List Gas.Row) (w : Nat) (row : Gas.Row)
    (hr : rows[w]? = some row) :
    (Gas.recordFees rows acc own ownGas)[w]? =
      some { row with data := match (feesFrom acc own ownGas 0 rows).find? (fun p => p.1 == w) with
                              | some p => p.2
                              | none => row.data } := by
  obtain ⟨hs, hm⟩ := feesFrom_feeList acc own ownGas rows
  unfold Gas.recordFees
  rw [List.getElem?_mapIdx, hr]
  dsimp only [Option.map]
  cases hf : (feesFrom acc own ownGas 0 rows).find? (fun p => p.1 == w) with
  | none =>
    cases hc : row.cfg with
    | static fee => simp [← hc]
    | eip1559 t =>
      have := (hm w _).mpr ⟨row, t, hr, hc, rfl⟩
      have h0 := List.find?_eq_none.mp hf _ this
      simp at h0
  | some p =>
    have h1 := List.mem_of_find?_eq_some hf
    have h2 : p.1 = w := by have := List.find?_some hf; simpa using this
    obtain ⟨row', t, h3, h4, h5⟩ := (hm p.1 p.2).mp h1
    rw [h2, hr] at h3
    cases h3
    rw [h4]
    dsimp only
    rw [h5, h2]
    rfl

/-! ## Closing the epoch -/

theorem recordFees_iff {vm : Vm} {s s' : St} {env : BEnv} {c : Ctx} {acc : Gas.Accounting} :
    recordFees vm s env c acc = some s' ↔ ∃ rows fees,
      Reads vm env workerConfigsAddr .allConfigs s.world (.configs rows) ∧
      FeeList acc.slots (Gas.workerIdFromDifficulty c.difficulty) s.gasUsed rows fees ∧
      ((fees = [] ∧ s' = s) ∨ (fees ≠ [] ∧ sysCall vm s env workerConfigsAddr (.setFees fees) = some s')) := by
  unfold recordFees
  simp only [← read_iff]
  constructor
  · intro h
    split at h
    · rename_i rows he
      refine ⟨rows, _, he, feesFrom_feeList _ _ _ _, ?_⟩
      split at h
      · rename_i hf; exact .inl ⟨hf, (Option.some.inj h).symm⟩
      · rename_i hf; exact .inr ⟨hf, h⟩
    · cases h
  · rintro ⟨rows, fees, he, hf, ho⟩
    rw [he]
    dsimp only
    have := feeList_unique hf (feesFrom_feeList _ _ _ _)
    rw [← this]
    rcases ho with ⟨h1, rfl⟩ | ⟨h1, h2⟩
    · rw [if_pos h1]
    · rw [if_neg h1]; exact h2

/-- System calls do not replace the code of the two system contracts (deployed code is immutable in the EVM). -/
def KeepsCode (vm : Vm) : Prop :=
  ∀ w env k c r cs, vm.sys w env k c = some (.success r, cs) → ∀ a, a = registryAddr ∨ a = workerConfigsAddr →
    ∀ x, cs.find a = some x → x.codeHash = (w a).codeHash

theorem step_code {vm : Vm} (hk : KeepsCode vm) {env : BEnv} {k : Nat} {c : Call} {w w' : World}
    (h : Step vm env k c w w') : (w' registryAddr).codeHash = (w registryAddr).codeHash ∧
      (w' workerConfigsAddr).codeHash = (w workerConfigsAddr).codeHash := by
  obtain ⟨r, cs, h1, h2⟩ := h
  have key : ∀ a, a = registryAddr ∨ a = workerConfigsAddr → (w' a).codeHash = (w a).codeHash := by
    intro a ha
    have hne : ¬ a = systemAddr := by rcases ha with rfl | rfl <;> decide
    rw [(h2 a).2 hne]
    cases hf : cs.find a with
    | none => rfl
    | some x => exact hk _ _ _ _ _ _ h1 a ha x hf
  exact ⟨key _ (.inl rfl), key _ (.inr rfl)⟩

theorem preFork_congr {ch : Chain} {s s' : St}
    (h : (s'.world registryAddr).codeHash = (s.world registryAddr).codeHash) : preFork ch s' = preFork ch s := by
  unfold preFork
  rw [h]

theorem closing_old {vm : Vm} {ch : Chain} {s s' : St} {env : BEnv} {c : Ctx} {seed : Nat} {acc : Gas.Accounting}
    (hk : KeepsCode vm) (hp : preFork ch s = true) :
    closingCalls vm ch s env c seed acc = some s' ↔ ∃ w' calls,
      ClosesOld vm env seed (Gas.addressCounts ch.committee acc.leaders) s.world w' calls ∧
      s' = { s with world := w', closeCalls := s.closeCalls ++ calls } := by
  unfold closingCalls
  dsimp only
  rw [if_pos hp]
  simp only [Option.bind_eq_some_iff, sysCall_iff, newCommittee_iff]
  constructor
  · rintro ⟨s1, ⟨w1, h1, rfl⟩, cm, ⟨pool, h2, h3⟩, w', h4, rfl⟩
    have hp' : ∀ cl : List Call, preFork ch { s with world := w1, closeCalls := cl } = true := fun cl =>
      (preFork_congr (ch := ch) (s := s) (step_code hk h1).1).trans hp
    exact ⟨w', _, ⟨w1, pool, cm, h1, (pool_old (hp' _)).mp h2, h3, h4, rfl⟩, by simp⟩
  · rintro ⟨w', calls, ⟨w1, pool, cm, h1, h2, h3, h4, rfl⟩, rfl⟩
    have hp' : ∀ cl : List Call, preFork ch { s with world := w1, closeCalls := cl } = true := fun cl =>
      (preFork_congr (ch := ch) (s := s) (step_code hk h1).1).trans hp
    exact ⟨_, ⟨w1, h1, rfl⟩, cm, ⟨pool, (pool_old (hp' _)).mpr h2, h3⟩, w', h4, by simp⟩

theorem closing_new {vm : Vm} {ch : Chain} {s s' : St} {env : BEnv} {c : Ctx} {seed : Nat} {acc : Gas.Accounting}
    (hk : KeepsCode vm) (hp : preFork ch s = false) :
    closingCalls vm ch s env c seed acc = some s' ↔ ∃ w' calls,
      ClosesNew vm env (Gas.workerIdFromDifficulty c.difficulty) s.gasUsed seed
        (Gas.addressCounts ch.committee acc.leaders) acc.slots s.world w' calls ∧
      s' = { s with world := w', closeCalls := s.closeCalls ++ calls } := by
  unfold closingCalls
  dsimp only
  rw [if_neg (by rw [hp]; decide)]
  simp only [Option.bind_eq_some_iff, sysCall_iff, newCommittee_iff, recordFees_iff]
  constructor
  · rintro ⟨s1, ⟨w1, h1, rfl⟩, s2, ⟨w2, h2, rfl⟩, cm, ⟨pool, h3, h4⟩, s3, ⟨w3, h5, rfl⟩, rows, fees, h6, h7, h8⟩
    have hp' : ∀ cl : List Call, preFork ch { s with world := w2, closeCalls := cl } = false := fun cl =>
      (preFork_congr (ch := ch) (s := s) ((step_code hk h2).1.trans (step_code hk h1).1)).trans hp
    have h3' := (pool_new (hp' _)).mp h3
    rcases h8 with ⟨hf, rfl⟩ | ⟨hf, w', h9, rfl⟩
    · exact ⟨w3, _, ⟨w1, w2, w3, pool, cm, rows, fees, h1, h2, h3', h4, h5, h6, h7, .inl ⟨hf, rfl, rfl⟩⟩,
        by simp [boundarySlashes]⟩
    · exact ⟨w', _, ⟨w1, w2, w3, pool, cm, rows, fees, h1, h2, h3', h4, h5, h6, h7, .inr ⟨hf, h9, rfl⟩⟩,
        by simp [boundarySlashes]⟩
  · rintro ⟨w', calls, ⟨w1, w2, w3, pool, cm, rows, fees, h1, h2, h3, h4, h5, h6, h7, h8⟩, rfl⟩
    have hp' : ∀ cl : List Call, preFork ch { s with world := w2, closeCalls := cl } = false := fun cl =>
      (preFork_congr (ch := ch) (s := s) ((step_code hk h2).1.trans (step_code hk h1).1)).trans hp
    refine ⟨_, ⟨w1, h1, rfl⟩, _, ⟨w2, h2, rfl⟩, cm, ⟨pool, (pool_new (hp' _)).mpr h3, h4⟩, _, ⟨w3, h5, rfl⟩, rows, fees,
      h6, h7, ?_⟩
    rcases h8 with ⟨hf, rfl, rfl⟩ | ⟨hf, h9, rfl⟩
    · exact .inl ⟨hf, by simp [boundarySlashes]⟩
    · exact .inr ⟨hf, w', h9, by simp [boundarySlashes]⟩

theorem setCode_iff (s : St) (a h : Nat) (w' : World) :
    CodeSwapped a h s.world w' ↔ w' = (setCode s a h).world := by
  have e : ∀ b, (setCode s a h).world b = if b = a then { s.world a with codeHash := h } else s.world b := by
    intro b
    simp only [setCode, commit, Changes.find]
    by_cases hb : a = b
    · rw [if_pos hb, if_pos hb.symm]; rfl
    · rw [if_neg hb, if_neg (fun hx => hb hx.symm)]; rfl
  constructor
  · rintro ⟨h1, h2, h3, h4, h5⟩
    funext b
    rw [e b]
    by_cases hb : b = a
    · rw [if_pos hb, hb]
      cases hw : w' a
      rw [hw] at h2 h3 h4 h5
      dsimp only at h2 h3 h4 h5
      subst h2 h3 h4 h5
      rfl
    · rw [if_neg hb]; exact h1 b hb
  · rintro rfl
    refine ⟨fun b hb => ?_, ?_, ?_, ?_, ?_⟩
    · rw [e b, if_neg hb]
    all_goals rw [e a, if_pos rfl]

theorem forks_iff {vm : Vm} {f : Fork} {s s' : St} {env : BEnv} :
    ((registryFork vm f s env).bind (configsFork f)) = some s' ↔ ∃ w', Forks vm env f s.world w' ∧
      s' = { s with world := w', closeCalls := s.closeCalls ++ [.migrate] } := by
  unfold registryFork configsFork Forks
  constructor
  · intro h
    rw [Option.bind_eq_some_iff] at h
    obtain ⟨s1, h1, h2⟩ := h
    split at h1
    · cases h1
    rename_i hr
    split at h2
    · cases h2
    rename_i hc
    obtain ⟨w2, hst, rfl⟩ := sysCall_iff.mp h1
    refine ⟨_, ⟨(setCode s registryAddr f.registryPost).world, w2, by simpa using hr, (setCode_iff _ _ _ _).mpr rfl,
      hst, by simpa using hc, (setCode_iff
        { (setCode s registryAddr f.registryPost) with
          world := w2, closeCalls := (setCode s registryAddr f.registryPost).closeCalls ++ [.migrate] } _ _ _).mpr rfl⟩,
      ?_⟩
    rw [← Option.some.inj h2]
    rfl
  · rintro ⟨w', ⟨w1, w2, h1, h2, h3, h4, h5⟩, rfl⟩
    have e1 := (setCode_iff s _ _ _).mp h2
    subst e1
    rw [if_neg (by simpa using h1)]
    rw [sysCall_iff.mpr ⟨w2, h3, rfl⟩]
    dsimp only [Option.bind]
    rw [if_neg (by simpa using h4)]
    have e2 := (setCode_iff { (setCode s registryAddr f.registryPost) with
          world := w2, closeCalls := (setCode s registryAddr f.registryPost).closeCalls ++ [.migrate] } _ _ _).mp h5
    rw [e2]
    rfl

/-- Whether the epoch's block of nonce `nonce` is the one before the fork epoch. -/
theorem atFork_iff {ch : Chain} {c : Ctx} {f : Fork} (hn : c.nonce < 2 ^ 64) (hf : f.epoch < 2 ^ 32) :
    atFork ch c = some f ↔ ch.fork = some f ∧ c.nonce / 2 ^ 32 + 1 = f.epoch := by
  unfold atFork unpackNonce
  cases hc : ch.fork with
  | none => simp
  | some g =>
    dsimp only
    have hmod : c.nonce / 2 ^ 32 % 2 ^ 32 = c.nonce / 2 ^ 32 := Nat.mod_eq_of_lt (by omega)
    rw [hmod]
    constructor
    · intro h
      split at h
      · rename_i h1; cases h; exact ⟨rfl, h1.2⟩
      · cases h
    · rintro ⟨h1, h2⟩
      cases h1
      rw [if_pos ⟨by omega, h2⟩]

/-- **C91 (a). How an epoch is closed.** In a build without the contract forks, the closing part of a block succeeds
exactly if the four calls of `ClosesNew` do, in this order and each on the state the one before left, the committee
being drawn from the pool *after* the slashes; its effect is theirs, and neither gas used nor receipts change. -/
theorem close_plain {vm : Vm} {ch : Chain} {s s' : St} {env : BEnv} {c : Ctx} {seed : Nat} {acc : Gas.Accounting}
    (hk : KeepsCode vm) (hf : ch.fork = none) :
    close vm ch s env c seed acc = some s' ↔ ∃ w' calls,
      ClosesNew vm env (Gas.workerIdFromDifficulty c.difficulty) s.gasUsed seed
        (Gas.addressCounts ch.committee acc.leaders) acc.slots s.world w' calls ∧
      s' = { s with world := w', closeCalls := s.closeCalls ++ calls } := by
  have h1 : atFork ch c = none := by unfold atFork; rw [hf]
  have h2 : preFork ch s = false := by unfold preFork; rw [hf]
  unfold close
  rw [h1]
  exact closing_new hk h2

/-- **C91 (b). The fork.** In a build with the forks, the block that concludes the epoch before the fork epoch succeeds
exactly if both contracts carry the pinned pre-fork code, the migration succeeds on the new code, and the *new* closing
sequence then does; the swap changes nothing of the two accounts but their code. -/
theorem close_fork {vm : Vm} {ch : Chain} {f : Fork} {s s' : St} {env : BEnv} {c : Ctx} {seed : Nat}
    {acc : Gas.Accounting} (hk : KeepsCode vm) (hf : ch.fork = some f) (hd : f.registryPost ≠ f.registryPre)
    (hn : c.nonce < 2 ^ 64) (he : f.epoch < 2 ^ 32) (hb : c.nonce / 2 ^ 32 + 1 = f.epoch) :
    close vm ch s env c seed acc = some s' ↔ ∃ w1 w' calls, Forks vm env f s.world w1 ∧
      ClosesNew vm env (Gas.workerIdFromDifficulty c.difficulty) s.gasUsed seed
        (Gas.addressCounts ch.committee acc.leaders) acc.slots w1 w' calls ∧
      s' = { s with world := w', closeCalls := s.closeCalls ++ .migrate :: calls } := by
  have h1 : atFork ch c = some f := (atFork_iff hn he).mpr ⟨hf, hb⟩
  unfold close
  rw [h1]
  dsimp only
  have hass : ((registryFork vm f s env).bind fun s1 => (configsFork f s1).bind fun s2 =>
      closingCalls vm ch s2 env c seed acc) =
      ((registryFork vm f s env).bind (configsFork f)).bind (fun s2 => closingCalls vm ch s2 env c seed acc) := by
    cases registryFork vm f s env <;> rfl
  rw [hass, Option.bind_eq_some_iff]
  have key : ∀ w1, Forks vm env f s.world w1 →
      preFork ch { s with world := w1, closeCalls := s.closeCalls ++ [.migrate] } = false := by
    rintro w1 ⟨u1, u2, _, k2, k3, _, k5⟩
    unfold preFork
    rw [hf]
    dsimp only
    have hne : registryAddr ≠ workerConfigsAddr := by decide
    rw [k5.1 _ hne, (step_code hk k3).1, k2.2.1]
    simpa using hd
  constructor
  · rintro ⟨s2, h2, h3⟩
    obtain ⟨w1, k1, rfl⟩ := forks_iff.mp h2
    obtain ⟨w', calls, k2, rfl⟩ := (closing_new hk (key w1 k1)).mp h3
    exact ⟨w1, w', calls, k1, k2, by simp⟩
  · rintro ⟨w1, w', calls, k1, k2, rfl⟩
    exact ⟨_, forks_iff.mpr ⟨w1, k1, rfl⟩, (closing_new hk (key w1 k1)).mpr ⟨w', calls, k2, by simp⟩⟩

/-- **C91 (c). Away from the boundary nothing forks.** In every other closing block the sequence is chosen by the code
the registry has at that moment: the pre-fork pair of calls over the pinned code, the current four otherwise. -/
theorem close_other {vm : Vm} {ch : Chain} {f : Fork} {s s' : St} {env : BEnv} {c : Ctx} {seed : Nat}
    {acc : Gas.Accounting} (hk : KeepsCode vm) (hf : ch.fork = some f)
    (hn : c.nonce < 2 ^ 64) (he : f.epoch < 2 ^ 32) (hb : c.nonce / 2 ^ 32 + 1 ≠ f.epoch) :
    close vm ch s env c seed acc = some s' ↔ ∃ w' calls,
      (((s.world registryAddr).codeHash = f.registryPre ∧
          ClosesOld vm env seed (Gas.addressCounts ch.committee acc.leaders) s.world w' calls) ∨
       ((s.world registryAddr).codeHash ≠ f.registryPre ∧
          ClosesNew vm env (Gas.workerIdFromDifficulty c.difficulty) s.gasUsed seed
            (Gas.addressCounts ch.committee acc.leaders) acc.slots s.world w' calls)) ∧
      s' = { s with world := w', closeCalls := s.closeCalls ++ calls } := by
  have h1 : atFork ch c = none := by
    cases ha : atFork ch c with
    | none => rfl
    | some g =>
      have hg : g = f := by
        unfold atFork at ha
        rw [hf] at ha
        dsimp only at ha
        split at ha
        · exact (Option.some.inj ha).symm
        · cases ha
      subst hg
      exact absurd ((atFork_iff hn he).mp ha).2 hb
  unfold close
  rw [h1]
  dsimp only
  by_cases hp : (s.world registryAddr).codeHash = f.registryPre
  · have : preFork ch s = true := by unfold preFork; rw [hf]; simpa using hp
    rw [closing_old hk this]
    constructor
    · rintro ⟨w', calls, h, e⟩; exact ⟨w', calls, .inl ⟨hp, h⟩, e⟩
    · rintro ⟨w', calls, h | h, e⟩
      · exact ⟨w', calls, h.2, e⟩
      · exact absurd hp h.1
  · have : preFork ch s = false := by unfold preFork; rw [hf]; simpa using hp
    rw [closing_new hk this]
    constructor
    · rintro ⟨w', calls, h, e⟩; exact ⟨w', calls, .inr ⟨hp, h⟩, e⟩
    · rintro ⟨w', calls, h | h, e⟩
      · exact absurd h.1 hp
      · exact ⟨w', calls, h.2, e⟩

/-- **C91 (d). Fail closed.** Over any other registry or worker configuration code the boundary block can never be
built, whatever its transactions were: the chain stops there. -/
theorem fork_fails_closed {vm : Vm} {ch : Chain} {f : Fork} {s : St} {env : BEnv} {c : Ctx} {seed : Nat}
    {acc : Gas.Accounting} (hf : ch.fork = some f) (hn : c.nonce < 2 ^ 64) (he : f.epoch < 2 ^ 32)
    (hb : c.nonce / 2 ^ 32 + 1 = f.epoch) (hc : (s.world registryAddr).codeHash ≠ f.registryPre) :
    close vm ch s env c seed acc = none := by
  have h1 : atFork ch c = some f := (atFork_iff hn he).mpr ⟨hf, hb⟩
  unfold close
  rw [h1]
  dsimp only
  unfold registryFork
  rw [if_pos hc]
  rfl

theorem closesOld_code {vm : Vm} (hk : KeepsCode vm) {env : BEnv} {seed : Nat} {rewards : List (Nat × Nat)}
    {w w' : World} {calls : List Call} (h : ClosesOld vm env seed rewards w w' calls) :
    (w' registryAddr).codeHash = (w registryAddr).codeHash ∧
      (w' workerConfigsAddr).codeHash = (w workerConfigsAddr).codeHash := by
  obtain ⟨w1, _, _, h1, _, _, h2, _⟩ := h
  exact ⟨(step_code hk h2).1.trans (step_code hk h1).1, (step_code hk h2).2.trans (step_code hk h1).2⟩

theorem closesNew_code {vm : Vm} (hk : KeepsCode vm) {env : BEnv} {own g seed : Nat} {rewards : List (Nat × Nat)}
    {acc : Gas.Slots} {w w' : World} {calls : List Call} (h : ClosesNew vm env own g seed rewards acc w w' calls) :
    (w' registryAddr).codeHash = (w registryAddr).codeHash ∧
      (w' workerConfigsAddr).codeHash = (w workerConfigsAddr).codeHash := by
  obtain ⟨w1, w2, w3, _, _, _, _, h1, h2, _, _, h3, _, _, h4⟩ := h
  have a := step_code hk h1
  have b := step_code hk h2
  have c := step_code hk h3
  rcases h4 with ⟨_, rfl, _⟩ | ⟨_, h4, _⟩
  · exact ⟨c.1.trans (b.1.trans a.1), c.2.trans (b.2.trans a.2)⟩
  · have d := step_code hk h4
    exact ⟨d.1.trans (c.1.trans (b.1.trans a.1)), d.2.trans (c.2.trans (b.2.trans a.2))⟩

theorem forks_code {vm : Vm} (hk : KeepsCode vm) {env : BEnv} {f : Fork} {w w' : World} (h : Forks vm env f w w') :
    (w' registryAddr).codeHash = f.registryPost ∧ (w' workerConfigsAddr).codeHash = f.configsPost ∧
    (w registryAddr).codeHash = f.registryPre ∧ (w workerConfigsAddr).codeHash = f.configsPre := by
  obtain ⟨u1, u2, k1, k2, k3, k4, k5⟩ := h
  have hne : registryAddr ≠ workerConfigsAddr := by decide
  refine ⟨?_, k5.2.1, k1, ?_⟩
  · rw [k5.1 _ hne, (step_code hk k3).1, k2.2.1]
  · rw [← k2.1 _ hne.symm, ← (step_code hk k3).2, k4]

/-- The states of a chain with the forks: it starts with the pinned contracts; transactions and pre-block calls keep
deployed code; epochs are concluded one after the other. The number is that of the epochs concluded. -/
inductive Reach (vm : Vm) (ch : Chain) (f : Fork) : Nat → World → Prop
  | genesis (w : World) : (w registryAddr).codeHash = f.registryPre → (w workerConfigsAddr).codeHash = f.configsPre →
      Reach vm ch f 0 w
  | other {e : Nat} {w : World} (w' : World) : Reach vm ch f e w →
      (w' registryAddr).codeHash = (w registryAddr).codeHash →
      (w' workerConfigsAddr).codeHash = (w workerConfigsAddr).codeHash → Reach vm ch f e w'
  | closed {e : Nat} {s s' : St} {env : BEnv} {c : Ctx} {seed : Nat} {acc : Gas.Accounting} :
      Reach vm ch f e s.world → c.nonce < 2 ^ 64 → c.nonce / 2 ^ 32 = e →
      close vm ch s env c seed acc = some s' → Reach vm ch f (e + 1) s'.world

/-- **C91 (g). The fork happens once, at its epoch.** On a chain that started with the pinned contracts, the contracts
carry the pre-fork code as long as the epoch before the fork epoch is not concluded, and the new code from then on. -/
theorem fork_once {vm : Vm} {ch : Chain} {f : Fork} (hk : KeepsCode vm) (hf : ch.fork = some f)
    (hd : f.registryPost ≠ f.registryPre) (he : f.epoch < 2 ^ 32) (h0 : 0 < f.epoch) {e : Nat} {w : World}
    (h : Reach vm ch f e w) :
    (e < f.epoch → (w registryAddr).codeHash = f.registryPre ∧ (w workerConfigsAddr).codeHash = f.configsPre) ∧
    (f.epoch ≤ e → (w registryAddr).codeHash = f.registryPost ∧ (w workerConfigsAddr).codeHash = f.configsPost) := by
  induction h with
  | genesis w h1 h2 => exact ⟨fun _ => ⟨h1, h2⟩, fun h => by omega⟩
  | other w' _ h1 h2 ih => rw [h1, h2]; exact ih
  | @closed e s s' env c seed acc _ hn hc hcl ih =>
    by_cases hb : c.nonce / 2 ^ 32 + 1 = f.epoch
    · obtain ⟨w1, w2, calls, k1, k2, rfl⟩ := (close_fork hk hf hd hn he hb).mp hcl
      refine ⟨fun h => by omega, fun _ => ?_⟩
      obtain ⟨f1, f2, _⟩ := forks_code hk k1
      obtain ⟨c1, c2⟩ := closesNew_code hk k2
      exact ⟨c1.trans f1, c2.trans f2⟩
    · obtain ⟨w2, calls, k, rfl⟩ := (close_other hk hf hn he hb).mp hcl
      have hcode : (w2 registryAddr).codeHash = (s.world registryAddr).codeHash ∧
          (w2 workerConfigsAddr).codeHash = (s.world workerConfigsAddr).codeHash := by
        rcases k with ⟨_, k⟩ | ⟨_, k⟩
        · exact closesOld_code hk k
        · exact closesNew_code hk k
      dsimp only
      rw [hcode.1, hcode.2]
      exact ⟨fun h => ih.1 (by omega), fun h => ih.2 (by omega)⟩

/-- So every epoch before the one preceding the fork epoch is closed with the pre-fork pair of calls, that one by the
fork followed by the new calls, and every later one with the new calls: the sequence depends on the epoch alone, on
every node that executes (or executes again) the block. -/
theorem sequence_by_epoch {vm : Vm} {ch : Chain} {f : Fork} (hk : KeepsCode vm) (hf : ch.fork = some f)
    (hd : f.registryPost ≠ f.registryPre) (he : f.epoch < 2 ^ 32) {e : Nat} {s s' : St} {env : BEnv}
    {c : Ctx} {seed : Nat} {acc : Gas.Accounting} (h : Reach vm ch f e s.world) (h0 : 0 < f.epoch)
    (hn : c.nonce < 2 ^ 64) (hc : c.nonce / 2 ^ 32 = e) (hcl : close vm ch s env c seed acc = some s') :
    (e + 1 < f.epoch → ∃ rewards cm, s'.closeCalls = s.closeCalls ++ [.incentives rewards, .conclude cm]) ∧
    (e + 1 = f.epoch → ∃ rewards cm rest, s'.closeCalls =
      s.closeCalls ++ [.migrate, .incentives rewards, .slashes [], .conclude cm] ++ rest) ∧
    (f.epoch < e + 1 → ∃ rewards cm rest, s'.closeCalls =
      s.closeCalls ++ [.incentives rewards, .slashes [], .conclude cm] ++ rest) := by
  obtain ⟨ho, hnw⟩ := fork_once hk hf hd he h0 h
  refine ⟨fun hlt => ?_, fun heq => ?_, fun hgt => ?_⟩
  · obtain ⟨w', calls, k, rfl⟩ := (close_other hk hf hn he (by omega)).mp hcl
    rcases k with ⟨_, _, _, cm, _, _, _, _, rfl⟩ | ⟨hx, _⟩
    · exact ⟨_, cm, rfl⟩
    · exact absurd (ho (by omega)).1 hx
  · obtain ⟨w1, w', calls, _, k, rfl⟩ := (close_fork hk hf hd hn he (by omega)).mp hcl
    obtain ⟨_, _, _, _, cm, _, fees, _, _, _, _, _, _, _, ⟨_, _, rfl⟩ | ⟨_, _, rfl⟩⟩ := k
    · exact ⟨Gas.addressCounts ch.committee acc.leaders, cm, [], by simp⟩
    · exact ⟨Gas.addressCounts ch.committee acc.leaders, cm, [.setFees fees], by simp⟩
  · obtain ⟨w', calls, k, rfl⟩ := (close_other hk hf hn he (by omega)).mp hcl
    rcases k with ⟨hx, _⟩ | ⟨_, k⟩
    · rw [(hnw (by omega)).1] at hx; exact absurd hx hd
    · obtain ⟨_, _, _, _, cm, _, fees, _, _, _, _, _, _, _, ⟨_, _, rfl⟩ | ⟨_, _, rfl⟩⟩ := k
      · exact ⟨Gas.addressCounts ch.committee acc.leaders, cm, [], by simp⟩
      · exact ⟨Gas.addressCounts ch.committee acc.leaders, cm, [.setFees fees], by simp⟩

/-- The pinned constants differ, and the fork epoch is a u32 above 0. -/
theorem adiri_ok : adiri.registryPost ≠ adiri.registryPre ∧ adiri.configsPost ≠ adiri.configsPre ∧
    0 < adiri.epoch ∧ adiri.epoch < 2 ^ 32 := by decide

/-! ## The caller's account -/

theorem sysCall_system {vm : Vm} {s s' : St} {env : BEnv} {k : Nat} {c : Call} (h : sysCall vm s env k c = some s') :
    s'.world systemAddr = s.world systemAddr ∧ s'.gasUsed = s.gasUsed ∧ s'.receipts = s.receipts := by
  obtain ⟨w', ⟨r, cs, _, ho⟩, rfl⟩ := sysCall_iff.mp h
  exact ⟨(ho systemAddr).1 rfl, rfl, rfl⟩

theorem closingCalls_system {vm : Vm} {ch : Chain} {s s' : St} {env : BEnv} {c : Ctx} {seed : Nat}
    {acc : Gas.Accounting} (h : closingCalls vm ch s env c seed acc = some s') :
    s'.world systemAddr = s.world systemAddr ∧ s'.gasUsed = s.gasUsed ∧ s'.receipts = s.receipts := by
  unfold closingCalls at h
  dsimp only at h
  split at h
  · obtain ⟨s1, h1, h⟩ := Option.bind_eq_some_iff.mp h
    obtain ⟨cm, _, h⟩ := Option.bind_eq_some_iff.mp h
    obtain ⟨a1, a2, a3⟩ := sysCall_system h1
    obtain ⟨b1, b2, b3⟩ := sysCall_system h
    exact ⟨b1.trans a1, b2.trans a2, b3.trans a3⟩
  · obtain ⟨s1, h1, h⟩ := Option.bind_eq_some_iff.mp h
    obtain ⟨s2, h2, h⟩ := Option.bind_eq_some_iff.mp h
    obtain ⟨cm, _, h⟩ := Option.bind_eq_some_iff.mp h
    obtain ⟨s3, h3, h⟩ := Option.bind_eq_some_iff.mp h
    obtain ⟨a1, a2, a3⟩ := sysCall_system h1
    obtain ⟨b1, b2, b3⟩ := sysCall_system h2
    obtain ⟨c1, c2, c3⟩ := sysCall_system h3
    obtain ⟨rows, fees, _, _, ⟨_, rfl⟩ | ⟨_, h4⟩⟩ := recordFees_iff.mp h
    · exact ⟨c1.trans (b1.trans a1), c2.trans (b2.trans a2), c3.trans (b3.trans a3)⟩
    · obtain ⟨d1, d2, d3⟩ := sysCall_system h4
      exact ⟨d1.trans (c1.trans (b1.trans a1)), d2.trans (c2.trans (b2.trans a2)), d3.trans (c3.trans (b3.trans a3))⟩

theorem setCode_system (s : St) {a : Nat} (h : Nat) (ha : a ≠ systemAddr) :
    (setCode s a h).world systemAddr = s.world systemAddr := by
  simp only [setCode, commit, Changes.find]
  rw [if_neg ha]
  rfl

/-- **C91 (e). System calls leave no trace of their caller**, use no gas of the block and make no receipt: closing an
epoch, fork included, changes neither the system address' account nor gas used nor receipts. -/
theorem close_system {vm : Vm} {ch : Chain} {s s' : St} {env : BEnv} {c : Ctx} {seed : Nat}
    {acc : Gas.Accounting} (h : close vm ch s env c seed acc = some s') :
    s'.world systemAddr = s.world systemAddr ∧ s'.gasUsed = s.gasUsed ∧ s'.receipts = s.receipts := by
  unfold close at h
  split at h
  · exact closingCalls_system h
  · obtain ⟨s1, h1, h⟩ := Option.bind_eq_some_iff.mp h
    obtain ⟨s2, h2, h⟩ := Option.bind_eq_some_iff.mp h
    unfold registryFork at h1
    split at h1
    · cases h1
    unfold configsFork at h2
    split at h2
    · cases h2
    obtain ⟨a1, a2, a3⟩ := sysCall_system h1
    obtain ⟨b1, b2, b3⟩ := closingCalls_system h
    have e2 := Option.some.inj h2
    rw [← e2] at b1 b2 b3
    refine ⟨b1.trans ((setCode_system _ _ (by decide)).trans (a1.trans (setCode_system _ _ (by decide)))),
      b2.trans a2, b3.trans a3⟩

theorem beaconCall_frame {vm : Vm} {ch : Chain} {s s' : St} {env : BEnv} {c : Ctx}
    (h : beaconCall vm ch s env c = some s') :
    (∀ a, a ≠ beaconRootsAddr → s'.world a = s.world a) ∧ s'.gasUsed = s.gasUsed ∧ s'.receipts = s.receipts ∧
      s'.closeCalls = s.closeCalls := by
  unfold beaconCall at h
  split at h
  · cases h; exact ⟨fun _ _ => rfl, rfl, rfl, rfl⟩
  split at h
  · cases h
  split at h
  · split at h
    · cases h; exact ⟨fun _ _ => rfl, rfl, rfl, rfl⟩
    · cases h
  split at h
  · cases h
  · cases h
    refine ⟨fun a ha => ?_, rfl, rfl, rfl⟩
    show commit s.world _ a = _
    rw [commit_retain, if_neg ha]

theorem blockhashCall_frame {vm : Vm} {ch : Chain} {s s' : St} {env : BEnv} {c : Ctx}
    (h : blockhashCall vm ch s env c = some s') :
    (∀ a, a ≠ historyAddr → s'.world a = s.world a) ∧ s'.gasUsed = s.gasUsed ∧ s'.receipts = s.receipts ∧
      s'.closeCalls = s.closeCalls := by
  unfold blockhashCall at h
  split at h
  · cases h; exact ⟨fun _ _ => rfl, rfl, rfl, rfl⟩
  split at h
  · cases h; exact ⟨fun _ _ => rfl, rfl, rfl, rfl⟩
  split at h
  · cases h
  · cases h
    refine ⟨fun a ha => ?_, rfl, rfl, rfl⟩
    show commit s.world _ a = _
    rw [commit_retain, if_neg ha]

/-- **C91 (f). The pre-block calls touch only their contracts**: every account other than the beacon roots and history
contracts is as the parent left it, and in every block but an output's first the beacon roots contract is too. Gas and
receipts start at nothing. -/
theorem preExec_frame {vm : Vm} {ch : Chain} {s s' : St} {env : BEnv} {c : Ctx}
    (h : preExec (evm vm ch) ((evm vm ch).start s) env c = some s') :
    (∀ a, a ≠ historyAddr → (a ≠ beaconRootsAddr ∨ 65536 ≤ c.difficulty) → s'.world a = s.world a) ∧
      s'.gasUsed = 0 ∧ s'.receipts = [] ∧ s'.closeCalls = [] := by
  unfold preExec at h
  split at h
  · cases h
  rename_i s1 h1
  obtain ⟨a1, a2, a3, a4⟩ := blockhashCall_frame (vm := vm) (ch := ch) h
  by_cases hf : c.firstBatch
  · rw [if_pos hf] at h1
    obtain ⟨b1, b2, b3, b4⟩ := beaconCall_frame (vm := vm) (ch := ch) h1
    refine ⟨fun a ha hb => ?_, a2.trans b2, a3.trans b3, a4.trans b4⟩
    rw [a1 a ha]
    refine b1 a (hb.resolve_right (fun hx => ?_))
    simp only [Ctx.firstBatch, decide_eq_true_eq] at hf
    omega
  · rw [if_neg hf] at h1
    have e := Option.some.inj h1
    rw [← e] at a1 a2 a3 a4
    exact ⟨fun a ha _ => a1 a ha, a2, a3, a4⟩

end Blk
end Verif
