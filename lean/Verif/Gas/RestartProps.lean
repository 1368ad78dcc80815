import Verif.Gas.RewardsProps
import Verif.Gas.FeeProps
/-
C29 (the three ways a node learns the next base fee agree) and C30 (a restart rebuilds the same
accounting as an uninterrupted run).
-/
namespace Verif.Gas

/-! ## C30 -/

/-- The worker id survives the packing into the block's difficulty word. -/
theorem worker_roundtrip (i w : Nat) (hw : w < 2 ^ 16) :
    workerIdFromDifficulty (blockDifficulty i w) = w := by
  unfold workerIdFromDifficulty blockDifficulty u64; omega

/-- `inc_block` over a list of (worker, gas used, gas limit). -/
def foldBlocks (s : Slots) (bs : List (Nat × Nat × Nat)) : Option Slots :=
  bs.foldlM (fun s b => incBlock s b.1 b.2.1 b.2.2) s

theorem foldBlocks_append (s : Slots) (a b : List (Nat × Nat × Nat)) :
    foldBlocks s (a ++ b) = (foldBlocks s a).bind (fun s => foldBlocks s b) := by
  unfold foldBlocks; rw [List.foldlM_append]; rfl

theorem executeAll_eq (os : List EngineOutput) (a : Accounting) :
    executeAll a os = (foldBlocks a.slots (os.flatMap (·.batches))).map
      (fun s => { slots := s, leaders := (os.map (·.leader)).foldl incLeader a.leaders }) := by
  induction os generalizing a with
  | nil => simp [executeAll, foldBlocks]
  | cons o os ih =>
    have : executeAll a (o :: os) = (executeAccounting a o).bind (fun a => executeAll a os) := by
      simp [executeAll, List.foldlM_cons]
    rw [this, List.flatMap_cons, foldBlocks_append]
    unfold executeAccounting
    show ((foldBlocks a.slots o.batches).map _).bind _ = _
    cases h : foldBlocks a.slots o.batches with
    | none => rfl
    | some s => simp [ih]

theorem catchup_eq (entry : Slots) (os : List EngineOutput)
    (hw : ∀ o ∈ os, ∀ b ∈ o.batches, b.1 < entry.length ∧ b.1 < 2 ^ 16) :
    catchup entry ((os.flatMap blocksOf).map (·.block)) =
      foldBlocks entry (os.flatMap (·.batches)) := by
  have hb : ∀ (o : EngineOutput), (∀ b ∈ o.batches, b.1 < 2 ^ 16) →
      ((blocksOf o).map (·.block)).map
        (fun b => (workerIdFromDifficulty b.difficulty, b.gasUsed, b.gasLimit)) = o.batches := by
    intro o ho
    apply List.ext_getElem
    · simp [blocksOf]
    · intro i h1 h2
      have := ho o.batches[i] (List.getElem_mem h2)
      simp [blocksOf, worker_roundtrip _ _ this]
  have hall : ((os.flatMap blocksOf).map (·.block)).map
      (fun b => (workerIdFromDifficulty b.difficulty, b.gasUsed, b.gasLimit)) =
      os.flatMap (·.batches) := by
    clear * - hb hw
    induction os with
    | nil => rfl
    | cons o os ih =>
      simp only [List.flatMap_cons, List.map_append]
      rw [hb o (fun b h => (hw o (by simp) b h).2), ih (fun o' h => hw o' (List.mem_cons_of_mem _ h))]
  unfold catchup
  rw [if_neg]
  · unfold foldBlocks
    rw [← hall]; simp only [List.foldlM_map]
  · simp only [List.any_eq_true, decide_eq_true_eq, not_exists, not_and, Nat.not_le]
    intro b hbm
    have : (workerIdFromDifficulty b.difficulty, b.gasUsed, b.gasLimit) ∈ os.flatMap (·.batches) := by
      rw [← hall]; exact List.mem_map.mpr ⟨b, hbm, rfl⟩
    obtain ⟨o, ho, hbo⟩ := List.mem_flatMap.mp this
    exact (hw o ho _ hbo).1

/-- What consensus guarantees about the outputs of an epoch (C13): numbers and leader rounds are
positive and strictly increase. -/
structure GoodOutputs (os : List EngineOutput) : Prop where
  numbers : (os.map (·.number)).Pairwise (· < ·)
  rounds : (os.map (·.round)).Pairwise (· < ·)
  posNumber : ∀ o ∈ os, 0 < o.number
  posRound : ∀ o ∈ os, 0 < o.round
  short : os.length < u32

theorem foldl_if_filter (p : EngineOutput → Bool) (os : List EngineOutput) (m : LeaderCounts) :
    os.foldl (fun m o => if p o then incLeader m o.leader else m) m =
      ((os.filter p).map (·.leader)).foldl incLeader m := by
  induction os generalizing m with
  | nil => rfl
  | cons o os ih =>
    simp only [List.foldl_cons]
    by_cases h : p o
    · rw [if_pos h, List.filter_cons_of_pos h, ih]; rfl
    · rw [if_neg h, List.filter_cons_of_neg h, ih]

theorem countLeaders_eq (os : List EngineOutput) (n : Nat) (hpos : ∀ o ∈ os, 0 < o.round)
    (hlen : os.length < u32) :
    countLeaders os n [] =
      ((os.filter (fun o => decide (o.round ≤ n))).map (·.leader)).foldl incLeader [] := by
  unfold countLeaders
  have : os.reverse.foldl (fun m o =>
      if o.round = 0 then m else if n < o.round then m else incLeader m o.leader) [] =
      os.reverse.foldl (fun m o => if (decide (o.round ≤ n)) then incLeader m o.leader else m) [] := by
    apply List.foldl_ext
    intro m o ho
    have := hpos o (List.mem_reverse.mp ho)
    rw [if_neg (by omega)]
    by_cases h : n < o.round
    · rw [if_pos h, if_neg (by simp; omega)]
    · rw [if_neg h, if_pos (by simp; omega)]
  rw [this, foldl_if_filter (fun o => decide (o.round ≤ n))]
  apply counts_perm
  · exact ((List.reverse_perm os).filter _).map _
  · have := List.length_filter_le (fun o : EngineOutput => decide (o.round ≤ n)) os.reverse
    simp only [List.length_map, List.length_reverse] at this ⊢; omega

/-- Splits a list at its last element satisfying `p`. -/
theorem split_last {α : Type} (p : α → Bool) (l : List α) :
    (∀ x ∈ l, p x = false) ∨
    ∃ pre x post, l = pre ++ x :: post ∧ p x = true ∧ ∀ y ∈ post, p y = false := by
  induction l with
  | nil => left; simp
  | cons a l ih =>
    rcases ih with h | ⟨pre, x, post, rfl, hx, hp⟩
    · by_cases ha : p a
      · right; exact ⟨[], a, l, rfl, ha, h⟩
      · left; intro x hx
        rcases List.mem_cons.mp hx with rfl | hx
        · simpa using ha
        · exact h x hx
    · right; exact ⟨a :: pre, x, post, rfl, hx, hp⟩

theorem filter_prefix {f : EngineOutput → Nat} (pre post : List EngineOutput) (o : EngineOutput)
    (hs : ((pre ++ o :: post).map f).Pairwise (· < ·)) :
    (pre ++ o :: post).filter (fun x => decide (f x ≤ f o)) = pre ++ [o] ∧
    (pre ++ o :: post).filter (fun x => decide (f o < f x)) = post := by
  rw [List.map_append, List.pairwise_append, List.map_cons, List.pairwise_cons] at hs
  obtain ⟨h1, ⟨h2, -⟩, h3⟩ := hs
  have hpre : ∀ x ∈ pre, f x < f o := fun x hx =>
    h3 _ (List.mem_map.mpr ⟨x, hx, rfl⟩) _ (by simp)
  have hpost : ∀ x ∈ post, f o < f x := fun x hx => h2 _ (List.mem_map.mpr ⟨x, hx, rfl⟩)
  constructor
  · rw [List.filter_append, List.filter_cons_of_pos (by simp)]
    rw [List.filter_eq_self.mpr (fun x hx => by have := hpre x hx; simp; omega),
      List.filter_eq_nil_iff.mpr (fun x hx => by have := hpost x hx; simp; omega)]
  · rw [List.filter_append, List.filter_cons_of_neg (by simp)]
    rw [List.filter_eq_nil_iff.mpr (fun x hx => by have := hpre x hx; simp; omega),
      List.filter_eq_self.mpr (fun x hx => by have := hpost x hx; simp; omega)]
    rfl

/-- C30: crash anywhere. A node stored the outputs `executed ++ rest` of the current epoch, its
database holds the blocks of the outputs `executed` (a whole output is persisted atomically), and it
lost everything in memory. The restart ends with exactly the gas totals, fees and leader counts of
the node that executed all outputs without interruption. -/
theorem restart_eq_live (entry : Slots) (executed rest : List EngineOutput)
    (hg : GoodOutputs (executed ++ rest))
    (hw : ∀ o ∈ executed ++ rest, ∀ b ∈ o.batches, b.1 < entry.length ∧ b.1 < 2 ^ 16) :
    restart entry (executed.flatMap blocksOf) (executed ++ rest) =
      executeAll { slots := entry, leaders := [] } (executed ++ rest) := by
  unfold restart
  rw [catchup_eq entry executed (fun o ho => hw o (by simp [ho]))]
  rcases split_last (fun o : EngineOutput => !o.batches.isEmpty) executed with hnone | ⟨pre, o, post, hsplit, ho, hpost⟩
  · -- no block of this epoch on disk
    have hb : executed.flatMap (·.batches) = [] := by
      rw [List.flatMap_eq_nil_iff]; intro x hx
      have := hnone x hx; simpa using this
    have hblk : executed.flatMap blocksOf = [] := by
      rw [List.flatMap_eq_nil_iff]; intro x hx
      have := hnone x hx
      simp only [Bool.not_eq_false', List.isEmpty_iff] at this
      simp [blocksOf, this]
    rw [hblk, hb]
    have hf : (executed ++ rest).filter (fun o => decide (0 < o.number)) = executed ++ rest :=
      List.filter_eq_self.mpr (fun x hx => by have := hg.posNumber x hx; simp; omega)
    show executeAll { slots := entry, leaders := [] }
      ((executed ++ rest).filter (fun o => decide (0 < o.number))) = _
    rw [hf]
  · -- the last executed block belongs to output `o`
    subst hsplit
    have hne : o.batches ≠ [] := by simpa using ho
    have hpb : post.flatMap (·.batches) = [] := by
      rw [List.flatMap_eq_nil_iff]; intro x hx
      have := hpost x hx; simpa using this
    have hpblk : post.flatMap blocksOf = [] := by
      rw [List.flatMap_eq_nil_iff]; intro x hx
      have := hpost x hx
      simp only [Bool.not_eq_false', List.isEmpty_iff] at this
      simp [blocksOf, this]
    have hlast : ∃ b, ((pre ++ o :: post).flatMap blocksOf).getLast? = some b ∧
        b.number = o.number ∧ b.round = o.round := by
      rw [List.flatMap_append, List.flatMap_cons, hpblk, List.append_nil]
      have hbne : blocksOf o ≠ [] := by
        intro h; apply hne
        have := congrArg List.length h
        simp [blocksOf] at this; exact this
      have hbl : (blocksOf o).getLast? = some ((blocksOf o).getLast hbne) := List.getLast?_eq_some_getLast hbne
      refine ⟨(blocksOf o).getLast hbne, ?_, ?_⟩
      · rw [List.getLast?_append, hbl]; rfl
      · have hmem := List.getLast_mem hbne
        generalize (blocksOf o).getLast hbne = b at hmem
        simp only [blocksOf, List.mem_mapIdx] at hmem
        obtain ⟨i, hi, rfl⟩ := hmem
        exact ⟨rfl, rfl⟩
    obtain ⟨b, hbl, hbn, hbr⟩ := hlast
    rw [hbl]
    have hmem : o ∈ (pre ++ o :: post) ++ rest := by simp
    have hreshape : (pre ++ o :: post) ++ rest = pre ++ o :: (post ++ rest) := by simp
    have hr0 : 0 < b.round := by rw [hbr]; exact hg.posRound o hmem
    have hfr := (filter_prefix (f := (·.round)) pre (post ++ rest) o (by rw [← hreshape]; exact hg.rounds)).1
    have hfn := (filter_prefix (f := (·.number)) pre (post ++ rest) o (by rw [← hreshape]; exact hg.numbers)).2
    simp only [Option.map_some, Option.getD_some, if_pos hr0]
    rw [countLeaders_eq _ _ hg.posRound hg.short]
    simp only [hbr, hbn]
    rw [hreshape, hfr, hfn]
    rw [List.flatMap_append, List.flatMap_cons, hpb, List.append_nil]
    have e1 : executeAll { slots := entry, leaders := [] } (pre ++ o :: (post ++ rest)) =
        (executeAll { slots := entry, leaders := [] } (pre ++ [o])).bind
          (fun a => executeAll a (post ++ rest)) := by
      have : pre ++ o :: (post ++ rest) = (pre ++ [o]) ++ (post ++ rest) := by simp
      rw [this]; unfold executeAll; rw [List.foldlM_append]; rfl
    rw [e1, executeAll_eq (pre ++ [o])]
    have e2 : (pre ++ [o]).flatMap (·.batches) = pre.flatMap (·.batches) ++ o.batches := by simp
    rw [e2]
    show (foldBlocks entry (pre.flatMap (·.batches) ++ o.batches)).bind _ = _
    cases foldBlocks entry (pre.flatMap (·.batches) ++ o.batches) with
    | none => rfl
    | some s => rfl

-- non-vacuity: an empty output in the middle and one lost before the crash
def exOut : List EngineOutput :=
  [⟨5, 2, 10, [(0, 100, 1000), (1, 50, 1000)]⟩, ⟨6, 4, 20, []⟩, ⟨7, 6, 10, [(1, 7, 1000)]⟩]

example : GoodOutputs exOut := by
  constructor <;> simp [exOut, u32]

example : restart [({} : Slot), ({} : Slot)] ((exOut.take 2).flatMap blocksOf) exOut =
    some { slots := [⟨1, 100, 1000, 7⟩, ⟨2, 57, 2000, 7⟩], leaders := [(10, 2), (20, 1)] } := by
  decide

/-! ## C29 -/

/-- Specification: the fee worker `w` pays in the next epoch, from its row and its final totals. -/
def nextFeeOf (row : Row) (slot : Slot) : Nat := nextBaseFee row.cfg slot.fee slot.gasUsed

/-- The slot of a worker, or a fresh one. -/
def slotOr (s : Slots) (w : Nat) : Slot := s[w]?.getD {}

theorem setNumWorkers_get (s : Slots) (n w : Nat) (hn : 0 < n) (hw : w < n) :
    (setNumWorkers s n)[w]? = some (slotOr s w) := by
  unfold setNumWorkers slotOr
  have hmax : max n 1 = n := by omega
  simp only [hmax]
  by_cases h : w < s.length
  · rw [List.getElem?_append_left (by rw [List.length_take]; omega), List.getElem?_take_of_lt hw]
    rw [List.getElem?_eq_getElem h]; rfl
  · rw [List.getElem?_append_right (by rw [List.length_take]; omega),
      List.getElem?_eq_none (show s.length ≤ w by omega), List.getElem?_replicate, if_pos]
    · rfl
    · rw [List.length_take]; omega

theorem setNumWorkers_length (s : Slots) (n : Nat) (hn : 0 < n) : (setNumWorkers s n).length = n := by
  unfold setNumWorkers
  have hmax : max n 1 = n := by omega
  simp only [hmax, List.length_append, List.length_take, List.length_replicate]; omega

/-- The live producer's fee after the close: from the row and the worker's final totals. -/
theorem closeTime_fee (rows : List Row) (s : Slots) (w : Nat) (row : Row) (h : rows[w]? = some row) :
    ((closeTimeUpdate rows s)[w]?).map (·.fee) = some (nextFeeOf row (slotOr s w)) := by
  have hw : w < rows.length := (List.getElem?_eq_some_iff.mp h).1
  unfold closeTimeUpdate
  rw [List.getElem?_mapIdx, setNumWorkers_get s rows.length w (by omega) hw, h]
  rfl

theorem closeTime_length (rows : List Row) (s : Slots) (h : rows ≠ []) :
    (closeTimeUpdate rows s).length = rows.length := by
  unfold closeTimeUpdate
  rw [List.length_mapIdx, setNumWorkers_length _ _ (List.length_pos_iff.mpr h)]

/-- C29 (a): the fee recorded on chain by the closing block, computed before its own gas is accumulated,
is the fee the live producer computes after accumulating it. For every accumulator, configuration,
closing worker and gas. -/
theorem recorded_eq_live (rows : List Row) (s s' : Slots) (own gas limit : Nat)
    (hinc : incBlock s own gas limit = some s')
    (hno : (slotOr s own).gasUsed + gas < u64)
    (w : Nat) (row : Row) (h : rows[w]? = some row) (hcfg : ∃ t, row.cfg = .eip1559 t) :
    ((recordFees rows s own gas)[w]?).map (·.data) =
      ((closeTimeUpdate rows s')[w]?).map (·.fee) := by
  obtain ⟨t, ht⟩ := hcfg
  rw [closeTime_fee rows s' w row h]
  unfold recordFees
  rw [List.getElem?_mapIdx, h]
  simp only [Option.map_some, ht, nextFeeOf]
  have hcur : feeAndGas s w = ((slotOr s w).fee, (slotOr s w).gasUsed) := by
    unfold slotOr feeAndGas; cases s[w]? <;> rfl
  simp only [hcur]
  unfold incBlock at hinc
  by_cases hg : gas = 0
  · rw [if_pos hg] at hinc
    simp only [Option.some.injEq] at hinc
    subst hinc; subst hg
    congr 2
    by_cases hwo : w = own
    · subst hwo
      rw [if_pos rfl]; simp only [Nat.add_zero] at hno ⊢
      have : (slotOr s w).gasUsed < 2 ^ 64 := hno
      unfold u64; omega
    · rw [if_neg hwo]
  · rw [if_neg hg] at hinc
    cases hs : s[own]? with
    | none => rw [hs] at hinc; cases hinc
    | some sl =>
      rw [hs] at hinc
      simp only [Option.some.injEq] at hinc
      have hso : slotOr s own = sl := by unfold slotOr; rw [hs]; rfl
      rw [hso] at hno
      by_cases hwo : w = own
      · subst hwo
        have hlt : w < s.length := (List.getElem?_eq_some_iff.mp hs).1
        have hs' : slotOr s' w = { sl with blocks := add64 sl.blocks 1
                                           gasUsed := add64 sl.gasUsed gas
                                           gasLimit := add64 sl.gasLimit limit } := by
          rw [← hinc]; unfold slotOr
          rw [List.getElem?_set_self hlt]; rfl
        rw [hs', hso, if_pos rfl]
        simp only [add64]
        rw [Nat.mod_eq_of_lt hno]
        congr 2
        unfold u64 at hno ⊢; omega
      · have hs' : slotOr s' w = slotOr s w := by
          rw [← hinc]; unfold slotOr
          rw [List.getElem?_set_ne (fun h => hwo h.symm)]
        rw [hs', if_neg hwo]

/-- Well-formed configuration rows: u64 words in the strategy. -/
def RowsOk (rows : List Row) : Prop := ∀ r ∈ rows, ∀ t, r.cfg = .eip1559 t → t < 2 ^ 64

theorem recordFees_cfg (rows : List Row) (s : Slots) (own gas w : Nat) (row : Row)
    (h : rows[w]? = some row) :
    ∃ row', (recordFees rows s own gas)[w]? = some row' ∧ row'.cfg = row.cfg := by
  unfold recordFees
  rw [List.getElem?_mapIdx, h]
  simp only [Option.map_some, Option.some.injEq]
  refine ⟨_, rfl, ?_⟩
  cases hc : row.cfg <;> simp [hc]

theorem mapM_some {α β : Type} (f : α → Option β) (g : α → β) (l : List α)
    (h : ∀ x ∈ l, f x = some (g x)) : l.mapM f = some (l.map g) := by
  induction l with
  | nil => rfl
  | cons x xs ih =>
    rw [List.mapM_cons, h x (by simp), ih (fun y hy => h y (List.mem_cons_of_mem _ hy))]; rfl

/-- C29 (b): a node entering the next epoch (restarted, or syncing from another node's chain) reads
from the closing block's state exactly the fees the live producer computed, one per worker, and
never halts on a word written by an honest close. -/
theorem entry_eq_live (rows : List Row) (s s' : Slots) (own gas limit : Nat)
    (hrows : rows ≠ []) (hok : RowsOk rows)
    (hfee : ∀ sl ∈ s, sl.fee < u64)
    (hinc : incBlock s own gas limit = some s')
    (hno : (slotOr s own).gasUsed + gas < u64) :
    readEntryFees (recordFees rows s own gas) =
      some ((closeTimeUpdate rows s').map (·.fee)) := by
  have hlen : (recordFees rows s own gas).length = rows.length := by simp [recordFees]
  have hpos : 0 < rows.length := List.length_pos_iff.mpr hrows
  -- the live fee is in range
  have hslot : ∀ w, (slotOr s' w).fee < 2 ^ 64 := by
    intro w
    have h0 : ∀ w, (slotOr s w).fee < 2 ^ 64 := by
      intro w; unfold slotOr
      cases hw : s[w]? with
      | none => simp [minProtocolBaseFee]
      | some sl => exact hfee sl (List.mem_of_getElem? hw)
    have : (slotOr s' w).fee = (slotOr s w).fee := by
      unfold incBlock at hinc
      by_cases hg : gas = 0
      · rw [if_pos hg] at hinc; simp only [Option.some.injEq] at hinc; rw [hinc]
      · rw [if_neg hg] at hinc
        cases hs : s[own]? with
        | none => rw [hs] at hinc; cases hinc
        | some sl =>
          rw [hs] at hinc
          simp only [Option.some.injEq] at hinc
          rw [← hinc]; unfold slotOr
          by_cases hwo : w = own
          · subst hwo
            rw [List.getElem?_set_self (List.getElem?_eq_some_iff.mp hs).1, hs]; rfl
          · rw [List.getElem?_set_ne (fun h => hwo h.symm)]
    rw [this]; exact h0 w
  unfold readEntryFees
  rw [if_neg (by rw [hlen]; omega)]
  -- pointwise
  have hpt : ∀ w (hw : w < rows.length), ∃ row', (recordFees rows s own gas)[w]? = some row' ∧
      entryFee row'.cfg row'.data = ((closeTimeUpdate rows s')[w]?).map (·.fee) := by
    intro w hw
    have hr : rows[w]? = some rows[w] := List.getElem?_eq_getElem hw
    obtain ⟨row', h1, h2⟩ := recordFees_cfg rows s own gas w _ hr
    refine ⟨row', h1, ?_⟩
    rw [h2]
    cases hc : rows[w].cfg with
    | static f =>
      rw [closeTime_fee rows s' w _ hr]
      simp [entryFee, nextFeeOf, hc, nextBaseFee]
    | eip1559 t =>
      have e := recorded_eq_live rows s s' own gas limit hinc hno w _ hr ⟨t, hc⟩
      rw [h1] at e
      simp only [Option.map_some] at e
      rw [← e]
      rw [closeTime_fee rows s' w _ hr] at e
      simp only [Option.some.injEq] at e
      have hrange := next_fee_range (slotOr s' w).fee (slotOr s' w).gasUsed t (hslot w)
        (hok rows[w] (List.getElem_mem hw) t hc)
      simp only [nextFeeOf, hc] at e
      simp only [entryFee]
      rw [if_pos (show row'.data < u64 by rw [e]; exact hrange.2)]
      congr 1
      rw [e]; simp only [minProtocolBaseFee]; omega
  rw [mapM_some _ (fun r => (entryFee r.cfg r.data).getD 0)]
  · congr 1
    apply List.ext_getElem?
    intro w
    by_cases hw : w < rows.length
    · obtain ⟨row', h1, h2⟩ := hpt w hw
      rw [List.getElem?_map, List.getElem?_map, h1]
      rw [closeTime_fee rows s' w _ (List.getElem?_eq_getElem hw)] at h2 ⊢
      simp only [Option.map_some, h2, Option.getD_some]
    · rw [List.getElem?_eq_none (by rw [List.length_map, hlen]; omega),
        List.getElem?_eq_none (by rw [List.length_map, closeTime_length _ _ hrows]; omega)]
  · intro r hr
    obtain ⟨w, hw, rfl⟩ := List.mem_iff_getElem.mp hr
    rw [hlen] at hw
    obtain ⟨row', h1, h2⟩ := hpt w hw
    have : row' = (recordFees rows s own gas)[w] := by
      rw [List.getElem?_eq_getElem (by omega)] at h1; simpa using h1.symm
    subst this
    rw [h2, closeTime_fee rows s' w _ (List.getElem?_eq_getElem hw)]; rfl

/-- C29 (c): applying the entry fees to whatever slots the restarted node has gives the live producer's
worker count and fees. -/
theorem applied_entry_fees (rows : List Row) (s s' any : Slots) (own gas limit : Nat)
    (hrows : rows ≠ []) (hok : RowsOk rows) (hfee : ∀ sl ∈ s, sl.fee < u64)
    (hinc : incBlock s own gas limit = some s') (hno : (slotOr s own).gasUsed + gas < u64) :
    ∃ fees, readEntryFees (recordFees rows s own gas) = some fees ∧
      (applyEntryFees fees any).map (·.fee) = (closeTimeUpdate rows s').map (·.fee) := by
  refine ⟨_, entry_eq_live rows s s' own gas limit hrows hok hfee hinc hno, ?_⟩
  generalize hf : (closeTimeUpdate rows s').map (·.fee) = fees
  have hlen : fees.length = rows.length := by rw [← hf, List.length_map, closeTime_length _ _ hrows]
  have hpos : 0 < fees.length := by rw [hlen]; exact List.length_pos_iff.mpr hrows
  apply List.ext_getElem?
  intro w
  unfold applyEntryFees
  by_cases hw : w < fees.length
  · rw [List.getElem?_map, List.getElem?_mapIdx, setNumWorkers_get any _ w hpos hw,
      List.getElem?_eq_getElem hw]; rfl
  · rw [List.getElem?_eq_none (by rw [List.length_map, List.length_mapIdx, setNumWorkers_length _ _ hpos]; omega),
      List.getElem?_eq_none (by omega)]

-- non-vacuity: worker 1 closes the epoch, worker 2 was added by governance mid-epoch
def exRows : List Row := [⟨.eip1559 1000, 800⟩, ⟨.eip1559 1000, 800⟩, ⟨.eip1559 5, 0⟩, ⟨.static 42, 9⟩]
def exSlots : Slots := [⟨1, 0, 10, 800⟩, ⟨3, 1500, 30, 800⟩]

example : recordFees exRows exSlots 1 500 = [⟨.eip1559 1000, 700⟩, ⟨.eip1559 1000, 900⟩, ⟨.eip1559 5, 7⟩, ⟨.static 42, 9⟩] ∧
    readEntryFees (recordFees exRows exSlots 1 500) = some [700, 900, 7, 42] := by decide

end Verif.Gas
