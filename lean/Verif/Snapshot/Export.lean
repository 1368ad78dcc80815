import Verif.Snapshot.PackProps

/-!
# Exporting a node's state

Models the export side of `crates/tn-reth/src/snapshot.rs`: the merge join over the two plain-state tables.
A cursor is the list of the rows it yields, `none` being a read that fails.
-/
namespace Verif.Snapshot

/-- A row of `PlainAccountState` (reth's `Account`). -/
structure Row where
  nonce : Nat
  balance : Nat
  codeHash : Option Nat
deriving DecidableEq, Repr

/-- A row of `PlainStorageState`: address, slot key, value. -/
structure SlotRow where
  addr : Nat
  key : Nat
  val : Nat
deriving DecidableEq, Repr

/-- What can end an export. -/
inductive ExportErr
  | read | code | order | pack (e : Err)
deriving DecidableEq, Repr

def liftErr {α : Type} : Except Err α → Except ExportErr α
  | .ok a => .ok a
  | .error e => .error (.pack e)

/-- `snapshot.rs:368-372`: what is left in the buffer goes into a last chunk. -/
def flush (w : Writer) (chunk : Slots) : Except ExportErr Writer :=
  if chunk.isEmpty then .ok w else liftErr (w.chunk chunk)

/-- `previous.is_none_or(|prev| prev < key)`, snapshot.rs:353. -/
def above : Option Nat → Nat → Bool
  | none, _ => true
  | some p, k => decide (p < k)

/-- `snapshot.rs:327-373` (`stream_account_slots`): drain every row that is not one of a later address; `chunk` and
`prev` are the fold's accumulator. The result is the rows left for the next account and the sink. -/
def streamSlots (addr : Nat) : List (Option SlotRow) → Slots → Option Nat → Writer →
    Except ExportErr (List (Option SlotRow) × Writer)
  | [], chunk, _, w => do
    let w ← flush w chunk
    return ([], w)
  | none :: _, _, _, _ => .error .read
  | some x :: rows, chunk, prev, w =>
    if x.addr > addr then do
      let w ← flush w chunk
      return (some x :: rows, w)
    else if x.addr = addr ∧ x.val ≠ 0 then
      if above prev x.key = true then
        let chunk := chunk ++ [(x.key, x.val)]
        if chunk.length = chunkSlots then do
          let w ← liftErr (w.chunk chunk)
          streamSlots addr rows [] (some x.key) w
        else streamSlots addr rows chunk (some x.key) w
      else .error .order
    else streamSlots addr rows chunk prev w

/-- `snapshot.rs:309-313`: the account's code, if its hash is set and is not that of the empty code. `none`: the code
is missing from the table. -/
def resolve (emptyHash : Nat) (codes : Nat → Option (List Nat)) (r : Row) : Except ExportErr (Option (List Nat)) :=
  match r.codeHash with
  | none => .ok none
  | some h =>
    if h = emptyHash then .ok none
    else match codes h with
      | some c => .ok (some c)
      | none => .error .code

/-- `snapshot.rs:294-317` (`export_plain_state`). -/
def exportRows (emptyHash : Nat) (codes : Nat → Option (List Nat)) : List (Option (Nat × Row)) →
    List (Option SlotRow) → Writer → Except ExportErr Writer
  | [], _, w => .ok w
  | none :: _, _, _ => .error .read
  | some (a, r) :: rows, slots, w => do
    let code ← resolve emptyHash codes r
    let w := w.accountHeader ⟨a, r.nonce, r.balance, code⟩
    let (slots, w) ← streamSlots a slots [] none w
    exportRows emptyHash codes rows slots w

/-- `snapshot.rs:172-237` (`export_state_pack`). -/
def exportPack (hash : Header → Nat) (emptyHash : Nat) (codes : Nat → Option (List Nat)) (root : Nat) (headers : List Header)
    (rows : List (Option (Nat × Row))) (slots : List (Option SlotRow)) : Except ExportErr (List Rec × Stats) := do
  let w ← liftErr (create hash root headers)
  let w ← exportRows emptyHash codes rows slots w
  return w.finish

/-! ## Specification -/

/-- The slots a table gives an account: its rows whose value is not zero. -/
def slotsAt (slots : List SlotRow) (a : Nat) : Slots :=
  (slots.filter (fun x : SlotRow => decide (x.addr = a ∧ x.val ≠ 0))).map (fun x => (x.key, x.val))

/-- The accounts of a state, with code and storage, in the order of the table. -/
def stateOf (emptyHash : Nat) (codes : Nat → Option (List Nat)) (rows : List (Nat × Row)) (slots : List SlotRow) : List Account :=
  rows.map (fun p : Nat × Row =>
    ⟨⟨p.1, p.2.nonce, p.2.balance, p.2.codeHash.bind (fun h => if h = emptyHash then none else codes h)⟩, slotsAt slots p.1⟩)

/-- The tables' keys are strictly ascending, as the database keeps them. -/
def RowsSorted (rows : List (Nat × Row)) : Prop := rows.Pairwise (fun x y => x.1 < y.1)
def SlotsSorted (slots : List SlotRow) : Prop :=
  slots.Pairwise (fun x y => x.addr < y.addr ∨ (x.addr = y.addr ∧ x.key < y.key))

/-- Every code hash a row names is that of the empty code or has its code. -/
def CodesThere (emptyHash : Nat) (codes : Nat → Option (List Nat)) (rows : List (Nat × Row)) : Prop :=
  ∀ p ∈ rows, ∀ h, p.2.codeHash = some h → h = emptyHash ∨ (codes h).isSome

/-! ## The stream of one account's slots -/

def Above (prev : Option Nat) (l : Slots) : Prop := ∀ p, prev = some p → ∀ x ∈ l, p < x.1

theorem flush_fill (w : Writer) (chunk : Slots) : flush w chunk = liftErr (w.fill chunk []) := by
  unfold flush Writer.fill Writer.chunk
  cases chunk <;> rfl

/-- Rows in order: the account's slots are written as `append_account` writes them, the rows of later addresses
are left. -/
theorem streamSlots_spec (addr : Nat) : ∀ (rows : List SlotRow) (chunk : Slots) (prev : Option Nat) (w : Writer),
    chunk.length < chunkSlots →
    Ascending (slotsAt (rows.takeWhile (fun x : SlotRow => decide (x.addr ≤ addr))) addr) →
    Above prev (slotsAt (rows.takeWhile (fun x : SlotRow => decide (x.addr ≤ addr))) addr) →
    streamSlots addr (rows.map some) chunk prev w =
      (liftErr (w.fill chunk (slotsAt (rows.takeWhile (fun x : SlotRow => decide (x.addr ≤ addr))) addr))).map
        (fun w => ((rows.dropWhile (fun x : SlotRow => decide (x.addr ≤ addr))).map some, w)) := by
  intro rows
  induction rows with
  | nil =>
    intro chunk prev w hc _ _
    simp only [List.map_nil, streamSlots, flush_fill, List.takeWhile_nil, List.dropWhile_nil, slotsAt, List.filter_nil]
    cases w.fill chunk [] <;> rfl
  | cons x rows ih =>
    intro chunk prev w hc hasc habove
    simp only [List.map_cons, streamSlots]
    by_cases h1 : x.addr > addr
    · have hn : ¬ x.addr ≤ addr := by omega
      simp only [if_pos h1, List.takeWhile_cons, List.dropWhile_cons, hn, decide_false, Bool.false_eq_true, if_false,
        slotsAt, List.filter_nil, List.map_nil, flush_fill, List.map_cons]
      cases w.fill chunk [] <;> rfl
    · have hy : x.addr ≤ addr := by omega
      simp only [List.takeWhile_cons, hy, decide_true, if_true] at hasc habove ⊢
      simp only [if_neg h1, List.dropWhile_cons, hy, decide_true, if_true]
      by_cases h2 : x.addr = addr ∧ x.val ≠ 0
      · have hs : slotsAt (x :: rows.takeWhile (fun x : SlotRow => decide (x.addr ≤ addr))) addr =
            (x.key, x.val) :: slotsAt (rows.takeWhile (fun x : SlotRow => decide (x.addr ≤ addr))) addr := by
          simp only [slotsAt, List.filter_cons, h2, decide_true, if_true, List.map_cons, ne_eq, not_false_eq_true, and_self]
        rw [hs] at hasc habove ⊢
        have hp : above prev x.key = true := by
          cases prev with
          | none => rfl
          | some p => exact decide_eq_true (habove p rfl (x.key, x.val) (by simp))
        rw [if_pos h2, if_pos hp, Writer.fill]
        have hasc' := (List.pairwise_cons.mp hasc)
        have habove' : Above (some x.key) (slotsAt (rows.takeWhile (fun x : SlotRow => decide (x.addr ≤ addr))) addr) := by
          intro p hpe y hy'
          cases hpe
          exact hasc'.1 y hy'
        by_cases h3 : (chunk ++ [(x.key, x.val)]).length = chunkSlots
        · rw [if_pos h3, if_pos h3, chunk_ok (by simp) (by omega)]
          show streamSlots addr (rows.map some) [] (some x.key) _ = _
          rw [ih [] _ _ (by decide) hasc'.2 habove']
          rfl
        · rw [if_neg h3, if_neg h3]
          exact ih _ _ _ (by simp only [List.length_append, List.length_singleton] at h3 ⊢; omega) hasc'.2 habove'
      · have hs : slotsAt (x :: rows.takeWhile (fun x : SlotRow => decide (x.addr ≤ addr))) addr =
            slotsAt (rows.takeWhile (fun x : SlotRow => decide (x.addr ≤ addr))) addr := by
          simp only [slotsAt, List.filter_cons, h2, decide_false, Bool.false_eq_true, if_false]
        rw [hs] at hasc habove ⊢
        rw [if_neg h2]
        exact ih _ _ _ hc hasc habove

theorem slotsAt_ascending {slots : List SlotRow} (h : SlotsSorted slots) (a : Nat) : Ascending (slotsAt slots a) := by
  unfold slotsAt Ascending
  rw [List.pairwise_map]
  refine List.Pairwise.imp_of_mem ?_ (List.Pairwise.sublist List.filter_sublist h)
  intro x y hx hy hxy
  simp only [List.mem_filter, decide_eq_true_eq] at hx hy
  rcases hxy with hxy | hxy
  · omega
  · exact hxy.2

theorem dropWhile_later {slots : List SlotRow} (h : SlotsSorted slots) (a : Nat) :
    ∀ x ∈ slots.dropWhile (fun x : SlotRow => decide (x.addr ≤ a)), a < x.addr := by
  induction slots with
  | nil => simp
  | cons y l ih =>
    have hp := List.pairwise_cons.mp h
    rw [List.dropWhile_cons]
    split
    · exact ih hp.2
    · rename_i hy
      simp only [decide_eq_true_eq] at hy
      intro x hx
      rcases List.mem_cons.mp hx with rfl | hx
      · omega
      · have := hp.1 x hx
        omega

theorem slotsAt_append (l m : List SlotRow) (a : Nat) : slotsAt (l ++ m) a = slotsAt l a ++ slotsAt m a := by
  simp [slotsAt]

theorem slotsAt_nil_of {l : List SlotRow} {a : Nat} (h : ∀ x ∈ l, x.addr ≠ a) : slotsAt l a = [] := by
  unfold slotsAt
  rw [List.map_eq_nil_iff, List.filter_eq_nil_iff]
  intro x hx
  simp [h x hx]

theorem slotsAt_take {slots : List SlotRow} (h : SlotsSorted slots) (a : Nat) :
    slotsAt (slots.takeWhile (fun x : SlotRow => decide (x.addr ≤ a))) a = slotsAt slots a := by
  conv_rhs => rw [← List.takeWhile_append_dropWhile (p := fun x : SlotRow => decide (x.addr ≤ a)) (l := slots), slotsAt_append]
  rw [slotsAt_nil_of (l := slots.dropWhile _) (fun x hx => by
    have := dropWhile_later h a x hx
    omega), List.append_nil]

theorem takeWhile_early (slots : List SlotRow) (a : Nat) :
    ∀ x ∈ slots.takeWhile (fun x : SlotRow => decide (x.addr ≤ a)), x.addr ≤ a := by
  induction slots with
  | nil => simp
  | cons y l ih =>
    rw [List.takeWhile_cons]
    split
    · rename_i hy
      intro x hx
      rcases List.mem_cons.mp hx with rfl | hx
      · exact of_decide_eq_true hy
      · exact ih x hx
    · simp

theorem slotsAt_drop (slots : List SlotRow) {a b : Nat} (hab : a < b) :
    slotsAt (slots.dropWhile (fun x : SlotRow => decide (x.addr ≤ a))) b = slotsAt slots b := by
  conv_rhs => rw [← List.takeWhile_append_dropWhile (p := fun x : SlotRow => decide (x.addr ≤ a)) (l := slots), slotsAt_append]
  rw [slotsAt_nil_of (l := slots.takeWhile _) (fun x hx => by
    have := takeWhile_early slots a x hx
    omega), List.nil_append]

theorem resolve_spec {emptyHash : Nat} {codes : Nat → Option (List Nat)} {r : Row}
    (h : ∀ k, r.codeHash = some k → k = emptyHash ∨ (codes k).isSome) :
    resolve emptyHash codes r = .ok (r.codeHash.bind (fun h => if h = emptyHash then none else codes h)) := by
  unfold resolve
  cases hc : r.codeHash with
  | none => rfl
  | some k =>
    dsimp only [Option.bind_some]
    by_cases he : k = emptyHash
    · simp [he]
    · rw [if_neg he, if_neg he]
      rcases h k hc with h | h
      · exact absurd h he
      · obtain ⟨c, hcc⟩ := Option.isSome_iff_exists.mp h
        rw [hcc]

theorem exportRows_spec {emptyHash : Nat} {codes : Nat → Option (List Nat)} : ∀ (rows : List (Nat × Row)) (slots : List SlotRow)
    (w : Writer), RowsSorted rows → SlotsSorted slots → CodesThere emptyHash codes rows →
    exportRows emptyHash codes (rows.map some) (slots.map some) w =
      liftErr (w.accounts (stateOf emptyHash codes rows slots)) := by
  intro rows
  induction rows with
  | nil => intro slots w _ _ _; rfl
  | cons p rows ih =>
    intro slots w hr hs hc
    obtain ⟨a, r⟩ := p
    have hp := List.pairwise_cons.mp hr
    have hasc := slotsAt_ascending hs a
    rw [← slotsAt_take hs a] at hasc
    simp only [List.map_cons, exportRows, resolve_spec (fun k hk => hc (a, r) (by simp) k hk), bind, Except.bind]
    rw [streamSlots_spec a slots [] none _ (by decide) hasc (by intro q hq; cases hq), slotsAt_take hs a]
    simp only [stateOf, List.map_cons, Writer.accounts, Writer.account, bind, Except.bind]
    rw [fill_spec _ _ _ (by decide)]
    simp only [liftErr, Except.map]
    rw [ih _ _ hp.2 (List.Pairwise.sublist (List.dropWhile_sublist _) hs) (fun q hq => hc q (by simp [hq]))]
    congr 2
    unfold stateOf
    apply List.map_congr_left
    intro q hq
    rw [slotsAt_drop slots (hp.1 q hq)]

/-- **Export.** For every content of the tables the database can hold, the export writes exactly the file that
`append_account` would write for the state's accounts: each with its code and all its non-zero slots, no others, in
ascending order. -/
theorem export_spec (hash : Header → Nat) {emptyHash : Nat} {codes : Nat → Option (List Nat)} {rows : List (Nat × Row)}
    {slots : List SlotRow} (root : Nat) (headers : List Header) (hr : RowsSorted rows) (hs : SlotsSorted slots)
    (hc : CodesThere emptyHash codes rows) :
    exportPack hash emptyHash codes root headers (rows.map some) (slots.map some) =
      liftErr (writePack hash root headers (stateOf emptyHash codes rows slots)) := by
  unfold exportPack writePack
  cases create hash root headers with
  | error e => rfl
  | ok w =>
    simp only [liftErr, bind, Except.bind]
    rw [exportRows_spec rows slots w hr hs hc, accounts_spec]
    rfl

/-- an export that succeeds found the code of every account -/
theorem exportRows_codes {emptyHash : Nat} {codes : Nat → Option (List Nat)} : ∀ (rows : List (Option (Nat × Row)))
    (slots : List (Option SlotRow)) (w w' : Writer), exportRows emptyHash codes rows slots w = .ok w' →
    ∀ a r, some (a, r) ∈ rows → ∀ k, r.codeHash = some k → k = emptyHash ∨ (codes k).isSome := by
  intro rows
  induction rows with
  | nil => intro slots w w' _ a r hm; cases hm
  | cons p rows ih =>
    intro slots w w' h a r hm k hk
    cases p with
    | none => cases h
    | some p =>
      obtain ⟨a0, r0⟩ := p
      simp only [exportRows, bind, Except.bind] at h
      split at h
      · cases h
      · rename_i code hres
        split at h
        · cases h
        · rcases List.mem_cons.mp hm with e | hm
          · obtain ⟨-, e2⟩ := Prod.mk.inj (Option.some.inj e)
            subst e2
            unfold resolve at hres
            rw [hk] at hres
            dsimp only at hres
            by_cases he : k = emptyHash
            · exact .inl he
            · rw [if_neg he] at hres
              right
              cases hc : codes k with
              | none => rw [hc] at hres; cases hres
              | some c => rfl
          · exact ih _ _ _ h a r hm k hk

/-- **A missing code is never exported as no code.** Whatever the tables hold: if the export succeeds, every account
whose row names a code had that code in the table. -/
theorem export_codes (hash : Header → Nat) {emptyHash : Nat} {codes : Nat → Option (List Nat)} {root : Nat}
    {headers : List Header} {rows : List (Option (Nat × Row))} {slots : List (Option SlotRow)} {out : List Rec × Stats}
    (h : exportPack hash emptyHash codes root headers rows slots = .ok out) :
    ∀ a r, some (a, r) ∈ rows → ∀ k, r.codeHash = some k → k = emptyHash ∨ (codes k).isSome := by
  unfold exportPack at h
  simp only [bind, Except.bind] at h
  split at h
  · cases h
  · split at h
    · cases h
    · rename_i w' hw
      exact exportRows_codes _ _ _ _ hw

/-! ## Rows that are not in order -/

/-- **Out of order.** Whatever rows the cursor yields, if the slots of an account are streamed without an error, what
has been written is chunks whose slots are in strictly ascending order of keys and have no zero among them. -/
theorem stream_ascending (addr : Nat) : ∀ (rows : List (Option SlotRow)) (chunk : Slots) (prev : Option Nat) (w w' : Writer)
    (rest : List (Option SlotRow)), chunk.length < chunkSlots →
    (∀ x ∈ chunk, ∃ p, prev = some p ∧ x.1 ≤ p) → Ascending chunk → (∀ x ∈ chunk, x.2 ≠ 0) →
    streamSlots addr rows chunk prev w = .ok (rest, w') →
    ∃ cs : List Slots, w'.out = w.out ++ cs.map .storage ∧ Ascending cs.flatten ∧ (∀ x ∈ cs.flatten, x.2 ≠ 0) ∧
      chunk <+: cs.flatten ∧ (∀ p, prev = some p → ∀ x ∈ cs.flatten.drop chunk.length, p < x.1) := by
  intro rows
  induction rows with
  | nil =>
    intro chunk prev w w' rest hc hp ha hz h
    simp only [streamSlots, flush, bind, Except.bind] at h
    cases chunk with
    | nil =>
      simp only [List.isEmpty_nil, if_true] at h
      have h' : Except.ok (([] : List (Option SlotRow)), w) = (Except.ok (rest, w') : Except ExportErr _) := h
      simp only [Except.ok.injEq, Prod.mk.injEq] at h'
      exact ⟨[], by simp [h'.2], List.Pairwise.nil, by simp, by simp, by simp⟩
    | cons y ys =>
      simp only [List.isEmpty_cons, Bool.false_eq_true, if_false] at h
      rw [chunk_ok (by simp) (by omega)] at h
      have h' : Except.ok (([] : List (Option SlotRow)), (⟨w.out ++ [.storage (y :: ys)],
        { w.stats with slots := w.stats.slots + (y :: ys).length }⟩ : Writer)) = (Except.ok (rest, w') : Except ExportErr _) := h
      simp only [Except.ok.injEq, Prod.mk.injEq] at h'
      exact ⟨[y :: ys], by rw [← h'.2]; simp, by simpa using ha, by simpa using hz, by simp, by simp⟩
  | cons r rows ih =>
    intro chunk prev w w' rest hc hp ha hz h
    cases r with
    | none => simp [streamSlots] at h
    | some x =>
      rw [streamSlots] at h
      split at h
      · simp only [flush, bind, Except.bind] at h
        cases chunk with
        | nil =>
          simp only [List.isEmpty_nil, if_true] at h
          have h' : Except.ok (some x :: rows, w) = (Except.ok (rest, w') : Except ExportErr _) := h
          simp only [Except.ok.injEq, Prod.mk.injEq] at h'
          exact ⟨[], by simp [h'.2], List.Pairwise.nil, by simp, by simp, by simp⟩
        | cons y ys =>
          simp only [List.isEmpty_cons, Bool.false_eq_true, if_false] at h
          rw [chunk_ok (by simp) (by omega)] at h
          have h' : Except.ok (some x :: rows, (⟨w.out ++ [.storage (y :: ys)],
            { w.stats with slots := w.stats.slots + (y :: ys).length }⟩ : Writer)) = (Except.ok (rest, w') : Except ExportErr _) := h
          simp only [Except.ok.injEq, Prod.mk.injEq] at h'
          exact ⟨[y :: ys], by rw [← h'.2]; simp, by simpa using ha, by simpa using hz, by simp, by simp⟩
      · split at h
        · rename_i hk
          split at h
          · rename_i hpk
            have hlt : ∀ y ∈ chunk, y.1 < x.key := by
              intro y hy
              obtain ⟨p, rfl, hyp⟩ := hp y hy
              have := of_decide_eq_true hpk
              omega
            have ha' : Ascending (chunk ++ [(x.key, x.val)]) := by
              refine List.pairwise_append.mpr ⟨ha, by simp, ?_⟩
              intro y hy z hz'
              simp only [List.mem_singleton] at hz'
              subst hz'
              exact hlt y hy
            have hz' : ∀ y ∈ chunk ++ [(x.key, x.val)], y.2 ≠ 0 := by
              intro y hy
              rcases List.mem_append.mp hy with hy | hy
              · exact hz y hy
              · simp only [List.mem_singleton] at hy
                subst hy
                exact hk.2
            dsimp only at h
            split at h
            · rename_i hfull
              rw [chunk_ok (by simp) (by omega)] at h
              have h' : streamSlots addr rows [] (some x.key) (⟨w.out ++ [.storage (chunk ++ [(x.key, x.val)])],
                { w.stats with slots := w.stats.slots + (chunk ++ [(x.key, x.val)]).length }⟩ : Writer) = .ok (rest, w') := h
              obtain ⟨cs, h1, h2, h3, _, h5⟩ := ih [] (some x.key) _ w' rest (by decide) (by simp) List.Pairwise.nil (by simp) h'
              have h5' : ∀ y ∈ cs.flatten, x.key < y.1 := by
                have := h5 x.key rfl
                simpa using this
              refine ⟨(chunk ++ [(x.key, x.val)]) :: cs, by rw [h1]; simp, ?_, ?_, ?_, ?_⟩
              · rw [List.flatten_cons]
                refine List.pairwise_append.mpr ⟨ha', h2, ?_⟩
                intro y hy z hz2
                have hz3 := h5' z hz2
                rcases List.mem_append.mp hy with hy | hy
                · exact Nat.lt_trans (hlt y hy) hz3
                · simp only [List.mem_singleton] at hy
                  subst hy
                  exact hz3
              · intro y hy
                rw [List.flatten_cons] at hy
                rcases List.mem_append.mp hy with hy | hy
                · exact hz' y hy
                · exact h3 y hy
              · rw [List.flatten_cons, List.append_assoc]; exact List.prefix_append _ _
              · intro p hpe y hy
                rw [List.flatten_cons, List.append_assoc, List.drop_left'] at hy
                · subst hpe
                  have hpk := of_decide_eq_true hpk
                  rcases List.mem_append.mp hy with hy | hy
                  · simp only [List.mem_singleton] at hy
                    subst hy
                    exact hpk
                  · exact Nat.lt_trans hpk (h5' y hy)
                · rfl
            · rename_i hfull
              obtain ⟨cs, h1, h2, h3, h4, h5⟩ := ih _ (some x.key) w w' rest
                (by simp only [List.length_append, List.length_singleton] at hfull ⊢; omega) (by
                  intro y hy
                  refine ⟨x.key, rfl, ?_⟩
                  rcases List.mem_append.mp hy with hy | hy
                  · exact Nat.le_of_lt (hlt y hy)
                  · simp only [List.mem_singleton] at hy
                    subst hy
                    exact Nat.le_refl _) ha' hz' h
              refine ⟨cs, h1, h2, h3, List.IsPrefix.trans (List.prefix_append _ _) h4, ?_⟩
              intro p hpe y hy
              subst hpe
              have hpk := of_decide_eq_true hpk
              obtain ⟨t, ht⟩ := h4
              rw [← ht, List.append_assoc, List.drop_left' rfl] at hy
              rcases List.mem_append.mp hy with hy | hy
              · simp only [List.mem_singleton] at hy
                subst hy
                exact hpk
              · have := h5 x.key rfl y (by rw [← ht, List.drop_left' rfl]; exact hy)
                omega
          · cases h
        · exact ih chunk prev w w' rest hc hp ha hz h

/-! ## A concrete case -/

/-- An orphan's slots (address 1), a zeroed slot and an account whose code hash is that of the empty code. -/
example : (exportPack (fun h => h.number) 77 (fun h => if h = 50 then some [96, 0] else none) 7 [⟨1, 0, 7, 0⟩]
      [some (2, ⟨1, 5, some 50⟩), some (4, ⟨0, 9, some 77⟩)]
      [some ⟨1, 3, 3⟩, some ⟨2, 1, 8⟩, some ⟨2, 2, 0⟩, some ⟨2, 6, 1⟩, some ⟨5, 1, 1⟩]).toOption =
    some ([.info ⟨7, 1, 1, 1⟩, .header (some ⟨1, 0, 7, 0⟩), .account ⟨2, 1, 5, some [96, 0]⟩, .storage [(1, 8), (6, 1)],
      .account ⟨4, 0, 9, none⟩, .fin ⟨2, 2, 1⟩], ⟨2, 2, 1⟩) := by decide +kernel

end Verif.Snapshot
