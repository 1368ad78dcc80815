import Verif.Snapshot.Import
import Mathlib.Logic.Encodable.Basic
import Mathlib.Logic.Equiv.List

/-!
# From one node to another

A state exported by one node and restored by another; and a whole bundle, certificates included.
-/
namespace Verif.Snapshot

/-! ## Specification -/

/-- The value of a slot in the table, zero if there is no row. -/
def slotValue (slots : List SlotRow) (a k : Nat) : Nat :=
  ((slots.find? (fun s => decide (s.addr = a ∧ s.key = k))).map SlotRow.val).getD 0

/-- The state of the exporting node, as read from its tables: slots under an address without an account are not part
of a state. -/
def sourceView (emptyHash : Nat) (rows : List (Nat × Row)) (slots : List SlotRow) : View :=
  (fun a => (rows.lookup a).map (viewRow emptyHash), fun a k => if (rows.lookup a).isSome then slotValue slots a k else 0)

/-- The code table of the exporting node is in order: codes are under their hashes and are codes. -/
def CodesOk (E : Env) (codes : Nat → Option (List Nat)) : Prop :=
  ∀ h c, codes h = some c → E.codeHash c = h ∧ E.codeOk c = true

/-- The state read from any tables is a proper one. -/
theorem source_proper (emptyHash : Nat) (rows : List (Nat × Row)) (slots : List SlotRow) : Proper (sourceView emptyHash rows slots) := by
  refine ⟨⟨rows.map (fun p => (p.1, viewRow emptyHash p.2)),
    (slots.filter (fun s => (rows.lookup s.addr).isSome)).map (fun s => ((s.addr, s.key), s.val)), ?_⟩, ?_⟩
  · unfold sourceView viewOf
    have h1 : (fun a => (rows.lookup a).map (viewRow emptyHash)) = fun a => (rows.map (fun p => (p.1, viewRow emptyHash p.2))).lookup a := by
      funext a
      induction rows with
      | nil => rfl
      | cons p rows ih =>
        rw [List.map_cons, List.lookup_cons, List.lookup_cons]
        by_cases h : a = p.1
        · subst h; simp
        · have hb : (a == p.1) = false := by simpa using h
          rw [hb]
          exact ih
    rw [h1]
    refine congrArg (Prod.mk _) ?_
    funext a k
    cases hr : (rows.lookup a).isSome with
    | true =>
      rw [if_pos rfl]
      unfold slotValue
      refine congrArg (fun o => Option.getD o 0) ?_
      induction slots with
      | nil => rfl
      | cons s l ih =>
        rw [List.find?_cons, List.filter_cons]
        by_cases h : s.addr = a ∧ s.key = k
        · obtain ⟨rfl, rfl⟩ := h
          rw [hr]
          simp
        · rw [decide_eq_false h]
          dsimp only
          rw [ih]
          split
          · have hb : (((a, k) : Nat × Nat) == (s.addr, s.key)) = false := by
              rw [beq_eq_false_iff_ne]; intro e; cases e; exact h ⟨rfl, rfl⟩
            rw [List.map_cons, List.lookup_cons, hb]
          · rfl
    | false =>
      rw [if_neg (by simp)]
      symm
      have : ((slots.filter (fun s => (rows.lookup s.addr).isSome)).map (fun s => ((s.addr, s.key), s.val))).lookup (a, k) = none := by
        rw [List.lookup_eq_none_iff]
        intro p hp
        obtain ⟨s, hs, rfl⟩ := List.mem_map.mp hp
        have := (List.mem_filter.mp hs).2
        simp only [bne_iff_ne, ne_eq]
        intro e
        cases e
        rw [hr] at this
        cases this
      rw [this]
      rfl
  · intro a k h
    unfold sourceView at h ⊢
    dsimp only at h ⊢
    rw [Option.map_eq_none_iff] at h
    rw [h]
    rfl

/-! ## One account -/

theorem repeats_false {T : List (Nat × Nat)} {a : Nat} {c : Slots} (h1 : (c.map Prod.fst).Nodup)
    (h2 : ∀ s ∈ c, (a, s.1) ∉ T) : repeats T a c = false := by
  unfold repeats
  rw [Bool.or_eq_false_iff]
  constructor
  · simp only [Bool.not_eq_eq_eq_not, Bool.not_false, decide_eq_true_eq]
    have : c.map (fun s => (a, s.1)) = (c.map Prod.fst).map (fun k => (a, k)) := by simp
    rw [this]
    exact h1.map (fun x y h => by cases h; rfl)
  · rw [List.any_eq_false]
    intro s hs
    simpa using h2 s hs

theorem import_chunks {E : Env} (hord : ∀ c, (E.ord c).Perm c) (a : Nat) (es : List Entry) : ∀ (cs : List Slots) (db : Db),
    (cs.flatten.map Prod.fst).Nodup → (∀ s ∈ cs.flatten, (a, s.1) ∉ db.touched) →
    ∃ T, (∀ p ∈ T, p.1 = a ∨ p ∈ db.touched) ∧ importAll E (cs.map .storage ++ es) (some a) db =
      importAll E es (some a) ⟨db.rows, writeSlots db.plain a cs.flatten, writeSlots db.hashed a cs.flatten, db.codes, T⟩ := by
  intro cs
  induction cs with
  | nil => intro db _ _; exact ⟨db.touched, fun p hp => .inr hp, rfl⟩
  | cons c cs ih =>
    intro db hn ht
    rw [List.flatten_cons, List.map_append, List.nodup_append] at hn
    obtain ⟨hn1, hn2, hn3⟩ := hn
    have hrep : repeats db.touched a c = false := repeats_false hn1 (fun s hs => ht s (by simp [hs]))
    have hw : writeChunk E db a c = .ok ⟨db.rows, writeSlots db.plain a c, writeSlots db.hashed a c, db.codes,
        c.map (fun s => (a, s.1)) ++ db.touched⟩ := by
      unfold writeChunk
      rw [hrep, Bool.and_false, if_neg (by simp), ← writeSlots_perm (hord c).symm hn1 db.plain a]
    obtain ⟨T, hT, hr⟩ := ih ⟨db.rows, writeSlots db.plain a c, writeSlots db.hashed a c, db.codes,
        c.map (fun s => (a, s.1)) ++ db.touched⟩ hn2 (by
      intro s hs hmem
      dsimp only at hmem
      rcases List.mem_append.mp hmem with hm | hm
      · obtain ⟨s', hs', he⟩ := List.mem_map.mp hm
        have he' : s'.1 = s.1 := by cases s; cases s'; simpa using he
        exact hn3 _ (List.mem_map_of_mem hs') _ (List.mem_map_of_mem hs) he'
      · exact ht s (by rw [List.flatten_cons]; simp only [List.mem_append]; exact .inr hs) hm)
    refine ⟨T, ?_, ?_⟩
    · intro p hp
      rcases hT p hp with h | h
      · exact .inl h
      · rcases List.mem_append.mp h with h | h
        · obtain ⟨s', _, he⟩ := List.mem_map.mp h
          exact .inl (by rw [← he])
        · exact .inr h
    · rw [List.map_cons, List.cons_append, importAll_storage, hw]
      dsimp only [Except.bind]
      rw [hr, List.flatten_cons, writeSlots_append, writeSlots_append]

/-- The row of an account. -/
def rowOf (E : Env) (a : Acct) : Row := ⟨a.nonce, a.balance, if hasCode a then a.code.map E.codeHash else none⟩

theorem write_account {E : Env} (db : Db) (a : Acct) (hc : ∀ c, a.code = some c → E.codeOk c = true) :
    ∃ codes, writeAccount E db a = .ok ⟨fun x => if x = a.addr then some (rowOf E a) else db.rows x, db.plain, db.hashed, codes, db.touched⟩ ∧
      (∀ h, codes h = db.codes h ∨ ∃ c, a.code = some c ∧ c ≠ [] ∧ E.codeHash c = h ∧ codes h = some c) ∧
      (∀ c, a.code = some c → c ≠ [] → codes (E.codeHash c) = some c) := by
  unfold writeAccount rowOf hasCode
  cases h : a.code with
  | none => exact ⟨db.codes, by simp, fun h => .inl rfl, by simp⟩
  | some c =>
    dsimp only
    cases c with
    | nil => exact ⟨db.codes, by simp, fun h => .inl rfl, by simp⟩
    | cons x l =>
      rw [if_neg (by simp), if_pos (hc _ h)]
      refine ⟨_, by simp; rfl, ?_, ?_⟩
      · intro k
        by_cases hk : k = E.codeHash (x :: l)
        · exact .inr ⟨x :: l, rfl, by simp, hk.symm, by simp [hk]⟩
        · exact .inl (by simp [hk])
      · intro c hc' hne
        cases hc'
        simp

/-- The account of an address among the exported. -/
def findAcct (l : List Account) (x : Nat) : Option Account := l.find? (fun a => decide (a.acct.addr = x))

theorem findAcct_cons (a : Account) (l : List Account) (x : Nat) :
    findAcct (a :: l) x = if a.acct.addr = x then some a else findAcct l x := by
  unfold findAcct
  rw [List.find?_cons]
  by_cases h : a.acct.addr = x
  · simp [h]
  · simp [h]

theorem findAcct_none {l : List Account} {x : Nat} (h : ∀ a ∈ l, a.acct.addr ≠ x) : findAcct l x = none := by
  unfold findAcct
  rw [List.find?_eq_none]
  intro a ha
  simpa using h a ha

/-! ## All accounts -/

theorem import_accounts {E : Env} (hord : ∀ c, (E.ord c).Perm c) {src : Nat → Option (List Nat)} : ∀ (l : List Account)
    (cur : Option Nat) (db : Db),
    l.Pairwise (fun x y => x.acct.addr < y.acct.addr) → (∀ p, cur = some p → ∀ a ∈ l, p < a.acct.addr) →
    (∀ a ∈ l, Ascending a.storage) → (∀ p ∈ db.touched, ∀ a ∈ l, p.1 < a.acct.addr) →
    (∀ a ∈ l, ∀ c, a.acct.code = some c → E.codeOk c = true ∧ src (E.codeHash c) = some c) →
    ∃ db', importAll E ((groupsOf l).flatMap groupEntries) cur db = .ok db' ∧
      (∀ x, db'.rows x = match findAcct l x with | some a => some (rowOf E a.acct) | none => db.rows x) ∧
      (∀ x k, db'.hashed x k = match findAcct l x with | some a => (a.storage.lookup k).getD (db.hashed x k) | none => db.hashed x k) ∧
      (∀ x k, db'.plain x k = match findAcct l x with | some a => (a.storage.lookup k).getD (db.plain x k) | none => db.plain x k) ∧
      (∀ h, (db.codes h = src h ∨ ∃ a ∈ l, ∃ c, a.acct.code = some c ∧ c ≠ [] ∧ E.codeHash c = h) → db'.codes h = src h) := by
  intro l
  induction l with
  | nil =>
    intro cur db _ _ _ _ _
    refine ⟨db, rfl, fun _ => rfl, fun _ _ => rfl, fun _ _ => rfl, ?_⟩
    intro h hh
    rcases hh with hh | ⟨a, ha, _⟩
    · exact hh
    · cases ha
  | cons a l ih =>
    intro cur db hp hcur hasc ht hc
    have hp' := List.pairwise_cons.mp hp
    have habove : above cur a.acct.addr = true := by
      cases cur with
      | none => rfl
      | some p => exact decide_eq_true (hcur p rfl a (by simp))
    obtain ⟨codes, hw, hcs, hcs2⟩ := write_account db a.acct (fun c hcc => (hc a (by simp) c hcc).1)
    have hnd := ascending_nodup (hasc a (by simp))
    have hflat : (chunksOf a.storage).flatten = a.storage := by simp [chunksOf, chunksFrom_flatten]
    obtain ⟨T, hT, hchunks⟩ := import_chunks (E := E) hord a.acct.addr ((groupsOf l).flatMap groupEntries) (chunksOf a.storage)
      ⟨fun x => if x = a.acct.addr then some (rowOf E a.acct) else db.rows x, db.plain, db.hashed, codes, db.touched⟩
      (by rw [hflat]; exact hnd) (by
        intro s _ hm
        have := ht _ hm a (by simp)
        dsimp only at this
        omega)
    rw [hflat] at hchunks
    obtain ⟨db', h1, h2, h3, h4, h5⟩ := ih (some a.acct.addr)
      ⟨fun x => if x = a.acct.addr then some (rowOf E a.acct) else db.rows x, writeSlots db.plain a.acct.addr a.storage,
        writeSlots db.hashed a.acct.addr a.storage, codes, T⟩ hp'.2 (by
          intro p hpe b hb
          cases hpe
          exact hp'.1 b hb) (fun b hb => hasc b (by simp [hb])) (by
          intro p hpm b hb
          dsimp only at hpm
          have := hp'.1 b hb
          rcases hT p hpm with h | h
          · omega
          · have := ht p h b (by simp [hb]); omega) (fun b hb => hc b (by simp [hb]))
    have hlater : ∀ x, x = a.acct.addr → findAcct l x = none := by
      intro x hx
      refine findAcct_none ?_
      intro b hb
      have := hp'.1 b hb
      omega
    refine ⟨db', ?_, ?_, ?_, ?_, ?_⟩
    · show importAll E (Entry.account a.acct :: ((chunksOf a.storage).map .storage ++ (groupsOf l).flatMap groupEntries)) cur db = _
      rw [importAll_account, if_neg (fun h => h habove), hw]
      dsimp only [Except.bind]
      rw [hchunks, h1]
    · intro x
      rw [h2, findAcct_cons]
      by_cases hx : a.acct.addr = x
      · rw [if_pos hx, hlater x hx.symm]
        simp [hx.symm]
      · rw [if_neg hx]
        have hx' : ¬ x = a.acct.addr := fun e => hx e.symm
        simp only [if_neg hx']
    · intro x k
      rw [h3, findAcct_cons]
      dsimp only
      by_cases hx : a.acct.addr = x
      · rw [if_pos hx, hlater x hx.symm]
        subst hx
        exact writeSlots_lookup _ _ _ k hnd
      · rw [if_neg hx, writeSlots_other a.acct.addr a.storage db.hashed x k (fun e => absurd e.symm hx)]
    · intro x k
      rw [h4, findAcct_cons]
      dsimp only
      by_cases hx : a.acct.addr = x
      · rw [if_pos hx, hlater x hx.symm]
        subst hx
        exact writeSlots_lookup _ _ _ k hnd
      · rw [if_neg hx, writeSlots_other a.acct.addr a.storage db.plain x k (fun e => absurd e.symm hx)]
    · intro h hh
      refine h5 h ?_
      dsimp only
      rcases hh with hh | ⟨b, hb, c, hb1, hb2, hb3⟩
      · rcases hcs h with he | ⟨c, hc1, hc2, hc3, hc4⟩
        · exact .inl (he.trans hh)
        · refine .inl (hc4.trans ?_)
          rw [← hc3]
          exact (hc a (by simp) c hc1).2.symm
      · rcases List.mem_cons.mp hb with rfl | hb
        · refine .inl ?_
          rw [← hb3, hcs2 c hb1 hb2]
          exact (hc b (by simp) c hb1).2.symm
        · exact .inr ⟨b, hb, c, hb1, hb2, hb3⟩

/-! ## The tables of the source -/

theorem findAcct_state (emptyHash : Nat) (codes : Nat → Option (List Nat)) (slots : List SlotRow) (x : Nat) :
    ∀ rows : List (Nat × Row), findAcct (stateOf emptyHash codes rows slots) x = (rows.lookup x).map (fun r =>
      ⟨⟨x, r.nonce, r.balance, r.codeHash.bind (fun h => if h = emptyHash then none else codes h)⟩, slotsAt slots x⟩) := by
  intro rows
  induction rows with
  | nil => rfl
  | cons p rows ih =>
    obtain ⟨a, r⟩ := p
    rw [List.lookup_cons]
    show findAcct (_ :: stateOf emptyHash codes rows slots) x = _
    rw [findAcct_cons, ih]
    dsimp only
    by_cases h : a = x
    · subst h
      simp
    · have hb : (x == a) = false := by simpa using fun e => h e.symm
      rw [if_neg h, hb]

theorem slotsAt_value {slots : List SlotRow} (hs : SlotsSorted slots) (a k : Nat) :
    ((slotsAt slots a).lookup k).getD 0 = slotValue slots a k := by
  induction slots with
  | nil => rfl
  | cons s l ih =>
    have hp := List.pairwise_cons.mp hs
    have ih := ih hp.2
    unfold slotValue at ih ⊢
    rw [List.find?_cons]
    by_cases hm : s.addr = a ∧ s.key = k
    · rw [decide_eq_true hm]
      obtain ⟨h1, h2⟩ := hm
      have hnone : (slotsAt l a).lookup k = none := by
        rw [List.lookup_eq_none_iff]
        intro p hpm
        unfold slotsAt at hpm
        obtain ⟨t, ht, rfl⟩ := List.mem_map.mp hpm
        have := (List.mem_filter.mp ht)
        have ha : t.addr = a := (of_decide_eq_true this.2).1
        have := hp.1 t this.1
        simp only [bne_iff_ne, ne_eq]
        omega
      unfold slotsAt at hnone ⊢
      rw [List.filter_cons]
      by_cases hv : s.val = 0
      · rw [if_neg (by simp [hv]), hnone]
        simp [hv]
      · rw [if_pos (by simp [hv, h1]), List.map_cons, List.lookup_cons]
        simp [h2]
    · rw [decide_eq_false hm]
      dsimp only
      rw [← ih]
      unfold slotsAt
      rw [List.filter_cons]
      split
      · rename_i hf
        have ha : s.addr = a := (of_decide_eq_true hf).1
        have hb : (k == s.key) = false := by
          rw [beq_eq_false_iff_ne]; intro e; exact hm ⟨ha, e.symm⟩
        rw [List.map_cons, List.lookup_cons, hb]
      · rfl

theorem resolved_row {E : Env} {emptyHash : Nat} {codes : Nat → Option (List Nat)} (he : emptyHash = E.codeHash [])
    (hok : CodesOk E codes) {r : Row} (hr : ∀ h, r.codeHash = some h → h = emptyHash ∨ (codes h).isSome) (x : Nat) :
    viewRow emptyHash (rowOf E ⟨x, r.nonce, r.balance, r.codeHash.bind (fun h => if h = emptyHash then none else codes h)⟩) =
      viewRow emptyHash r := by
  unfold viewRow rowOf hasCode
  cases hc : r.codeHash with
  | none => simp
  | some h =>
    simp only [Option.bind_some]
    by_cases hh : h = emptyHash
    · simp [hh]
    · rw [if_neg hh]
      rcases hr h hc with h' | h'
      · exact absurd h' hh
      · obtain ⟨c, hcc⟩ := Option.isSome_iff_exists.mp h'
        have hne : c ≠ [] := by
          rintro rfl
          exact hh (by rw [he]; exact (hok h [] hcc).1.symm)
        simp [hcc, hne, (hok h c hcc).1]

theorem stateOf_sorted {emptyHash : Nat} {codes : Nat → Option (List Nat)} {rows : List (Nat × Row)} {slots : List SlotRow}
    (h : RowsSorted rows) : (stateOf emptyHash codes rows slots).Pairwise (fun x y => x.acct.addr < y.acct.addr) := by
  unfold stateOf
  rw [List.pairwise_map]
  exact h

/-- **From one node to another.** For every content of the exporting node's tables and every block but the genesis
block: the export succeeds, and the restore of what was exported on an empty node succeeds, if the node finds the
state fit to start from, and leaves it with the same state, in the table it reads and in the one the root is
computed from, with every account's code, and with the headers down to 256 below the block. -/
theorem transfer {hash : Header → Nat} {chain : Nat → Header} (hc : Canonical hash chain)
    {E : Env} (hord : ∀ c, (E.ord c).Perm c) {emptyHash : Nat} (he : emptyHash = E.codeHash []) {rootOf : View → Nat}
    {ready : View → Nat → Bool} (gc : Nat → Option (List Nat)) {codes : Nat → Option (List Nat)} (hok : CodesOk E codes)
    {rows : List (Nat × Row)} {slots : List SlotRow} (hr : RowsSorted rows) (hs : SlotsSorted slots)
    (hcode : CodesThere emptyHash codes rows) {b : Nat} (hb : 1 ≤ b)
    (hroot : (chain b).root = rootOf (sourceView emptyHash rows slots))
    (hready : ready (sourceView emptyHash rows slots) b = true) :
    ∃ recs st db, exportPack hash emptyHash codes (chain b).root (gatherHeaders chain b) (rows.map some) (slots.map some) = .ok (recs, st) ∧
      restorePack hash E emptyHash rootOf ready 0 gc (File.of recs) =
        .ok ((b, hash (chain b)), stretch chain (max (b - 256) 1) b, db) ∧
      db.plainView emptyHash = sourceView emptyHash rows slots ∧ db.hashedView emptyHash = sourceView emptyHash rows slots ∧
      (∀ p ∈ rows, ∀ h, p.2.codeHash = some h → h ≠ emptyHash → db.codes h = codes h) := by
  obtain ⟨hwin, hf, hn⟩ := gathered_accepted hc hb
  rw [scaffold_gather hc hb] at hwin
  have hg : gatherHeaders chain b = chain b :: ((List.range' (max (b - ancestors) 1) (b - max (b - ancestors) 1)).reverse.map chain) := rfl
  have hlist := scaffold_gather hc hb
  rw [hg] at hf hn hlist
  rw [hg, export_spec hash _ _ hr hs hcode]
  generalize hgt : (List.range' (max (b - ancestors) 1) (b - max (b - ancestors) 1)).reverse.map chain = tl at *
  have hf' : min (chain b).number ancestors ≤ (chain b :: tl).length := by rw [hc.number]; exact hf
  have hlasc : ∀ a ∈ stateOf emptyHash codes rows slots, Ascending a.storage := by
    intro a ha
    unfold stateOf at ha
    obtain ⟨p, _, rfl⟩ := List.mem_map.mp ha
    exact slotsAt_ascending hs _
  -- the file
  have hm : (chain b :: tl).length % 2 ^ 32 = (chain b :: tl).length := by
    have : maxHeaders = 4096 := rfl
    omega
  have hw := writePack_spec hash (chain b).root (chain b) tl (stateOf emptyHash codes rows slots) rfl
  rw [hm] at hw
  generalize hl : stateOf emptyHash codes rows slots = l at *
  have ho := open_of ⟨(chain b).root, (chain b).number, hash (chain b), (chain b :: tl).length⟩ (chain b :: tl)
    (File.of (bodyOf (groupsOf l)) ++ some (.fin (tally l)) :: []) rfl (by simp) hn hf'
  have hfile : File.of (.info ⟨(chain b).root, (chain b).number, hash (chain b), (chain b :: tl).length⟩ ::
      ((chain b :: tl).map (fun x => Rec.header (some x)) ++ (bodyOf (groupsOf l) ++ [.fin (tally l)]))) =
      some (.info ⟨(chain b).root, (chain b).number, hash (chain b), (chain b :: tl).length⟩) ::
      ((chain b :: tl).map (fun x => some (Rec.header (some x))) ++ (File.of (bodyOf (groupsOf l)) ++ some (.fin (tally l)) :: [])) := by
    simp [File.of]
  -- what is read back
  have hdrain := drainEntries_spec (tally l) [] (groupsOf l)
      { info := ⟨(chain b).root, (chain b).number, hash (chain b), (chain b :: tl).length⟩, headers := chain b :: tl,
        rest := File.of (bodyOf (groupsOf l)) ++ some (.fin (tally l)) :: [] }
      (groupsOf_bounded l) rfl rfl rfl
  have hread := readAll_of hdrain
  -- what is imported
  obtain ⟨db, h1, h2, h3, h4, h5⟩ := import_accounts (E := E) hord (src := codes) l none (Db.cleared gc)
    (by rw [← hl]; exact stateOf_sorted hr) (by intro p hp; cases hp) hlasc (by intro p hp; cases hp) (by
      intro a ha c hac
      rw [← hl] at ha
      unfold stateOf at ha
      obtain ⟨p, hp, rfl⟩ := List.mem_map.mp ha
      dsimp only at hac
      cases hpc : p.2.codeHash with
      | none => rw [hpc] at hac; cases hac
      | some h =>
        rw [hpc] at hac
        simp only [Option.bind_some] at hac
        split at hac
        · cases hac
        · have := hok h c hac
          exact ⟨this.2, by rw [this.1]; exact hac⟩)
  have hrows : (fun a => (db.rows a).map (viewRow emptyHash)) = fun a => (rows.lookup a).map (viewRow emptyHash) := by
    funext a
    rw [h2 a, ← hl, findAcct_state]
    cases hla : rows.lookup a with
    | none => rfl
    | some r =>
      simp only [Option.map_some]
      refine congrArg some ?_
      have hmem : (a, r) ∈ rows := by
        clear * - hla
        induction rows with
        | nil => simp at hla
        | cons p rows ih =>
          obtain ⟨x, y⟩ := p
          rw [List.lookup_cons] at hla
          by_cases hx : a = x
          · subst hx; simp at hla; simp [hla]
          · have hb : (a == x) = false := by simpa using hx
            rw [hb] at hla
            exact List.mem_cons_of_mem _ (ih hla)
      exact resolved_row he hok (fun h hh => hcode (a, r) hmem h hh) a
  have hslot : ∀ a k, (match findAcct l a with | some x => (x.storage.lookup k).getD 0 | none => 0) =
      if (rows.lookup a).isSome then slotValue slots a k else 0 := by
    intro a k
    rw [← hl, findAcct_state]
    cases hla : rows.lookup a with
    | none => rfl
    | some r => simpa using slotsAt_value hs a k
  have hhv : db.hashedView emptyHash = sourceView emptyHash rows slots := by
    unfold Db.hashedView sourceView
    rw [hrows]
    refine congrArg (Prod.mk _) ?_
    funext a k
    rw [h3 a k, ← hslot a k]
    rfl
  have hpv : db.plainView emptyHash = sourceView emptyHash rows slots := by
    unfold Db.plainView sourceView
    rw [hrows]
    refine congrArg (Prod.mk _) ?_
    funext a k
    rw [h4 a k, ← hslot a k]
    rfl
  refine ⟨_, _, db, by rw [hw]; rfl, ?_, hpv, hhv, ?_⟩
  · unfold restorePack
    rw [hfile, ho]
    dsimp only [bind, Except.bind]
    rw [if_neg (by omega), hlist, hc.number, hwin]
    dsimp only
    have himp : importState E emptyHash rootOf
        { info := ⟨(chain b).root, b, hash (chain b), (chain b :: tl).length⟩, headers := chain b :: tl,
          rest := File.of (bodyOf (groupsOf l)) ++ some (.fin (tally l)) :: [] }
        (Option.map (fun h => h.root) (stretch chain (max (b - 256) 1) b).getLast?) (Db.cleared gc) = .ok db := by
      have hlast : (stretch chain (max (b - 256) 1) b).getLast? = some (chain b) := by
        have hle : max (b - 256) 1 ≤ b := by omega
        rw [List.getLast?_eq_getElem?]
        have hlen : (stretch chain (max (b - 256) 1) b).length - 1 = b - max (b - 256) 1 := by simp [stretch]; omega
        rw [hlen]
        exact stretch_getElem? hle (Nat.le_refl b)
      rw [hc.number] at hread
      unfold importState
      rw [hread, hlast]
      dsimp only [bind, Except.bind]
      rw [h1]
      dsimp only [Option.map_some]
      rw [hhv, if_neg (fun h => h hroot.symm), if_neg (fun h => h hroot)]
      rfl
    rw [himp]
    dsimp only
    rw [hpv, if_pos hready]
    rfl
  · intro p hp h hph hne
    refine h5 h (.inr ?_)
    rcases hcode p hp h hph with hh | hh
    · exact absurd hh hne
    · obtain ⟨c, hcc⟩ := Option.isSome_iff_exists.mp hh
      refine ⟨_, by rw [← hl]; unfold stateOf; exact List.mem_map_of_mem hp, c, ?_, ?_, (hok h c hcc).1⟩
      · dsimp only
        rw [hph]
        simp [hne, hcc]
      · rintro rfl
        exact hne (by rw [he]; exact (hok h [] hcc).1.symm)

/-! ## A bundle with its certificates -/

theorem verifyChain_true {B : Bls} {dig : Ep.Rec → Nat} (hdig : Function.Injective dig) {faulty : Finset Nat}
    {signed : Nat → Nat → Prop} (hB : Ep.SoundFor B faulty signed) {truth : Nat → Ep.Rec} (hepoch : ∀ e, (truth e).epoch = e)
    (honest : ∀ k d, k ∉ faulty → signed k d → ∃ e, d = dig (truth e))
    (hf : ∀ e, (faulty ∩ (truth e).next.toFinset).card ≤ ((truth e).next.toFinset.card - 1) / 3)
    {certs : Nat → Option Ep.Cert} : ∀ (rs : List Ep.Rec) (slot parent : Nat) (committee : Finset Nat) (prev : Option Ep.Rec) (r : Ep.Rec),
    (faulty ∩ committee).card ≤ (committee.card - 1) / 3 →
    verifyChain B dig certs rs slot parent committee prev = .ok r →
    rs = (List.range' slot rs.length).map truth ∧ (rs = [] → prev = some r) ∧ (rs ≠ [] → r = truth (slot + rs.length - 1)) := by
  intro rs
  induction rs with
  | nil =>
    intro slot parent committee prev r _ h
    cases prev with
    | none => cases h
    | some p =>
      simp only [verifyChain, Except.ok.injEq] at h
      exact ⟨rfl, fun _ => by rw [h], fun h => absurd rfl h⟩
  | cons x rs ih =>
    intro slot parent committee prev r hfc h
    rw [verifyChain] at h
    split at h
    · cases h
    · rename_i hx
      have hx := Classical.not_not.mp hx
      cases hce : certs (dig x) with
      | none => rw [hce] at h; cases h
      | some c =>
        rw [hce] at h
        dsimp only at h
        split at h
        · rename_i hv
          obtain ⟨k, _, _, hk, hsig⟩ := Ep.accepted_honest hB hv hfc
          obtain ⟨e, he⟩ := honest k _ hk hsig
          have hxe : x = truth e := hdig he
          have hes : e = slot := by rw [← hx, hxe, hepoch]
          subst hes
          obtain ⟨h1, h2, h3⟩ := ih _ _ _ _ _ (by rw [hxe]; exact hf e) h
          refine ⟨?_, by simp, fun _ => ?_⟩
          · rw [List.length_cons, List.range'_succ, List.map_cons, ← h1, ← hxe]
          · rw [List.length_cons]
            by_cases hn : rs = []
            · have := h2 hn
              cases this
              rw [hn, hxe]
              rfl
            · rw [h3 hn]
              congr 1
              omega
        · cases h

/-- **A certified snapshot.** The operator's only trust is in the genesis committee. Let at most a third of it and of
every later committee be faulty, and let the others sign only the one true record of an epoch. If `db load-state`
succeeds with a bundle, from whomever, then its records are the true ones from epoch 0 to some epoch after it, and
what is restored is the state and the headers at the block that ended that epoch. -/
theorem loaded_certified {B : Bls} {dig : Ep.Rec → Nat} (hdig : Function.Injective dig) {faulty : Finset Nat}
    {signed : Nat → Nat → Prop} (hB : Ep.SoundFor B faulty signed) {truth : Nat → Ep.Rec} (hepoch : ∀ e, (truth e).epoch = e)
    (honest : ∀ k d, k ∉ faulty → signed k d → ∃ e, d = dig (truth e)) {genesis : Finset Nat}
    (hf0 : (faulty ∩ genesis).card ≤ (genesis.card - 1) / 3)
    (hf : ∀ e, (faulty ∩ (truth e).next.toFinset).card ≤ ((truth e).next.toFinset.card - 1) / 3)
    {hash : Header → Nat} (hinj : Function.Injective hash) {chain : Nat → Header} (hc : Canonical hash chain)
    {stateAt : Nat → View} (hproper : ∀ b, Proper (stateAt b)) {rootOf : View → Nat} (hroot : NoCollision rootOf)
    (hroots : ∀ b, (chain b).root = rootOf (stateAt b))
    {ends : Nat → Nat} (hends : ∀ e, (truth e).finalState = (ends e, hash (chain (ends e))))
    {E : Env} (hord : ∀ c, (E.ord c).Perm c) {emptyHash : Nat} {ready : View → Nat → Bool} {tip : Nat}
    {gc : Nat → Option (List Nat)} {bundle : Bundle} {final : Nat × Nat} {window : List Header} {db : Db}
    (h : loadState B dig genesis hash E emptyHash rootOf ready tip gc bundle = .ok (final, window, db)) :
    ∃ n, 1 ≤ n ∧ bundle.records = some ((List.range (n + 1)).map truth) ∧ tip = 0 ∧
      final = (ends n, hash (chain (ends n))) ∧
      (∃ lo, 1 ≤ lo ∧ lo ≤ max (ends n - 255) 1 ∧ window = stretch chain lo (ends n)) ∧
      db.hashedView emptyHash = stateAt (ends n) ∧
      ((E.strict = true ∨ Clean bundle.pack) → db.plainView emptyHash = stateAt (ends n)) := by
  unfold loadState at h
  split at h
  · rename_i rs certs hb1 hb2 hb3
    split at h
    · cases h
    · rename_i hlast0
      dsimp only [bind, Except.bind] at h
      cases hv : verifyChain B dig certs rs 0 0 genesis none with
      | error e => rw [hv] at h; cases h
      | ok r =>
        rw [hv] at h
        dsimp only at h
        obtain ⟨v1, v2, v3⟩ := verifyChain_true hdig hB hepoch honest hf rs 0 0 genesis none r hf0 hv
        have hne : rs ≠ [] := by
          intro hn
          have := v2 hn
          cases this
        have v3 := v3 hne
        have hpos : 0 < rs.length := List.length_pos_iff.mpr hne
        obtain ⟨n, hn⟩ : ∃ n, rs.length = n + 1 := ⟨rs.length - 1, by omega⟩
        have hr : r = truth n := by rw [v3]; congr 1; omega
        have hn1 : 1 ≤ n := by
          rcases Nat.eq_zero_or_pos n with h0 | h0
          · exfalso
            subst h0
            apply hlast0
            rw [v1, hn]
            simp [List.range'_succ, hepoch]
          · exact h0
        cases ho : openPack bundle.pack with
        | error e => rw [ho] at h; cases h
        | ok rd =>
          rw [ho] at h
          dsimp only at h
          split at h
          · cases h
          · rename_i hm
            have hm := Classical.not_not.mp hm
            obtain ⟨rd', _, _, h1, _, h3, h4, _⟩ := restorePack_ok h
            rw [ho] at h1
            cases h1
            rw [hr, hends] at hm
            have hfin : final = (ends n, hash (chain (ends n))) := h3.trans hm
            rw [hfin] at h
            obtain ⟨s1, s2, s3, _⟩ := restored_state hinj hc hord hroot (hproper (ends n)) (hroots (ends n)) h
            refine ⟨n, hn1, ?_, h4, hfin, s1, s2, s3⟩
            rw [hb2, v1, hn, List.range_eq_range']
  · cases h

/-- The committee and the parent a record is checked against. -/
def expected (truth : Nat → Ep.Rec) (genesis : Finset Nat) : Nat → Finset Nat
  | 0 => genesis
  | e + 1 => (truth e).next.toFinset

def parentOf (dig : Ep.Rec → Nat) (truth : Nat → Ep.Rec) : Nat → Nat
  | 0 => 0
  | e + 1 => dig (truth e)

theorem verifyChain_complete {B : Bls} {dig : Ep.Rec → Nat} {truth : Nat → Ep.Rec} {genesis : Finset Nat} {cert : Nat → Ep.Cert}
    {certs : Nat → Option Ep.Cert} : ∀ (m s : Nat) (prev : Option Ep.Rec), 0 < m →
    (∀ e, s ≤ e → e < s + m → certs (dig (truth e)) = some (cert e) ∧
      Ep.validAgainst B dig e (truth e) (cert e) (parentOf dig truth e) (expected truth genesis e) = true) →
    verifyChain B dig certs ((List.range' s m).map truth) s (parentOf dig truth s) (expected truth genesis s) prev =
      .ok (truth (s + m - 1)) := by
  intro m
  induction m with
  | zero => intro s prev h; omega
  | succ m ih =>
    intro s prev _ h
    rw [List.range'_succ, List.map_cons, verifyChain]
    obtain ⟨h1, h2⟩ := h s (by omega) (by omega)
    rw [if_neg (fun hne => hne (Ep.valid_spec.mp h2).1), h1]
    dsimp only
    rw [if_pos h2]
    rcases Nat.eq_zero_or_pos m with rfl | hm
    · rfl
    · have := ih (s + 1) (some (truth s)) hm (fun e he1 he2 => h e (by omega) (by omega))
      rw [show s + (m + 1) - 1 = s + 1 + m - 1 by omega]
      exact this

/-- **An honest bundle loads.** If the records up to an epoch after the first have their certificates, the last one
names a block of the chain, and the pack is what an honest node exports at that block, then `db load-state` on an
empty node succeeds and restores that node's state. -/
theorem honest_bundle {B : Bls} {dig : Ep.Rec → Nat} {truth : Nat → Ep.Rec} {genesis : Finset Nat} {cert : Nat → Ep.Cert}
    {certs : Nat → Option Ep.Cert} {n : Nat} (hn : 1 ≤ n)
    (hv : ∀ e, e ≤ n → certs (dig (truth e)) = some (cert e) ∧
      Ep.validAgainst B dig e (truth e) (cert e) (parentOf dig truth e) (expected truth genesis e) = true)
    {hash : Header → Nat} {chain : Nat → Header} (hc : Canonical hash chain)
    {E : Env} (hord : ∀ c, (E.ord c).Perm c) {emptyHash : Nat} (he : emptyHash = E.codeHash []) {rootOf : View → Nat}
    {ready : View → Nat → Bool} (gc : Nat → Option (List Nat)) {codes : Nat → Option (List Nat)} (hok : CodesOk E codes)
    {rows : List (Nat × Row)} {slots : List SlotRow} (hr : RowsSorted rows) (hs : SlotsSorted slots)
    (hcode : CodesThere emptyHash codes rows) {b : Nat} (hb : 1 ≤ b) (hfin : (truth n).finalState = (b, hash (chain b)))
    (hroot : (chain b).root = rootOf (sourceView emptyHash rows slots))
    (hready : ready (sourceView emptyHash rows slots) b = true) :
    ∃ recs st db, exportPack hash emptyHash codes (chain b).root (gatherHeaders chain b) (rows.map some) (slots.map some) = .ok (recs, st) ∧
      loadState B dig genesis hash E emptyHash rootOf ready 0 gc
        ⟨File.of recs, true, some ((List.range (n + 1)).map truth), some certs⟩ =
        .ok ((b, hash (chain b)), stretch chain (max (b - 256) 1) b, db) ∧
      db.plainView emptyHash = sourceView emptyHash rows slots := by
  obtain ⟨recs, st, db, h1, h2, h3, _, _⟩ := transfer hc hord he gc hok hr hs hcode hb hroot hready
  refine ⟨recs, st, db, h1, ?_, h3⟩
  obtain ⟨r, _, _, ho, _, hf, _⟩ := restorePack_ok h2
  unfold loadState
  have hlast : ((List.range (n + 1)).map truth).getLast? = some (truth n) := by
    rw [List.range_succ, List.map_append]
    exact List.getLast?_concat
  have hchain := verifyChain_complete (B := B) (dig := dig) (truth := truth) (genesis := genesis) (cert := cert) (certs := certs)
    (n + 1) 0 none (by omega) (fun e _ he2 => hv e (by omega))
  rw [← List.range_eq_range', show 0 + (n + 1) - 1 = n by omega] at hchain
  have hep : (truth n).epoch = n := (Ep.valid_spec.mp (hv n (Nat.le_refl n)).2).1
  dsimp only
  rw [hlast, if_neg (by simp [hep]; omega)]
  dsimp only [bind, Except.bind]
  have hchain' : verifyChain B dig certs ((List.range (n + 1)).map truth) 0 0 genesis none = .ok (truth n) := hchain
  rw [hchain', ho]
  dsimp only
  rw [if_neg (fun h => h (by rw [hfin]; exact hf.symm)), h2]

/-! ## Concrete cases -/

/-- An environment: a code's hash is its length, every code is a code, the plain rows are written in their order. -/
def plainEnv : Env := ⟨List.length, fun _ => true, id, true⟩

/-- Tables with an orphan's slots, a zero row, a contract and an account with the hash of the empty code. -/
def demoRows : List (Nat × Row) := [(2, ⟨1, 5, some 3⟩), (4, ⟨0, 9, some 0⟩)]
def demoSlots : List SlotRow := [⟨1, 3, 3⟩, ⟨2, 1, 8⟩, ⟨2, 2, 0⟩, ⟨2, 6, 1⟩, ⟨5, 1, 1⟩]
def demoCodes : Nat → Option (List Nat) := fun h => if h = 3 then some [96, 0, 0] else none

/-- A node holding them exports at block 300 of a chain; another restores that. -/
example (rootOf : View → Nat) : ∃ recs st db,
    exportPack pairHash 0 demoCodes (rootOf (sourceView 0 demoRows demoSlots))
      (gatherHeaders (pairChain (fun _ => rootOf (sourceView 0 demoRows demoSlots))) 300) (demoRows.map some) (demoSlots.map some) = .ok (recs, st) ∧
    restorePack pairHash plainEnv 0 rootOf (fun _ _ => true) 0 (fun _ => none) (File.of recs) =
      .ok ((300, pairHash (pairChain (fun _ => rootOf (sourceView 0 demoRows demoSlots)) 300)),
        stretch (pairChain (fun _ => rootOf (sourceView 0 demoRows demoSlots))) 44 300, db) ∧
    db.plain 2 6 = 1 ∧ db.plain 1 3 = 0 ∧ db.codes 3 = some [96, 0, 0] := by
  have hroots : ∀ n, (pairChain (fun _ => rootOf (sourceView 0 demoRows demoSlots)) n).root = rootOf (sourceView 0 demoRows demoSlots) := by
    intro n; cases n <;> rfl
  obtain ⟨recs, st, db, h1, h2, h3, _, h5⟩ := transfer (E := plainEnv) (rootOf := rootOf) (ready := fun _ _ => true)
    (pairChain_canonical (fun _ => rootOf (sourceView 0 demoRows demoSlots))) (fun c => .refl c) (emptyHash := 0) rfl (fun _ => none)
    (codes := demoCodes) (by
      intro h c hc
      unfold demoCodes at hc
      split at hc
      · cases hc; exact ⟨by simp [plainEnv, *], rfl⟩
      · cases hc) (rows := demoRows) (slots := demoSlots) (by unfold RowsSorted demoRows; decide)
    (by unfold SlotsSorted demoSlots; decide) (by
      intro p hp h hh
      simp only [demoRows, List.mem_cons, List.not_mem_nil, or_false] at hp
      rcases hp with rfl | rfl
      · cases hh; right; rfl
      · cases hh; left; rfl) (b := 300) (by decide) (hroots 300) rfl
  rw [hroots] at h1
  refine ⟨recs, st, db, h1, h2, ?_, ?_, ?_⟩
  · have := congrFun (congrFun (congrArg Prod.snd h3) 2) 6
    exact this.trans (by decide)
  · have := congrFun (congrFun (congrArg Prod.snd h3) 1) 3
    exact this.trans (by decide)
  · rw [h5 (2, ⟨1, 5, some 3⟩) (by simp [demoRows]) 3 rfl (by decide)]
    rfl

/-- A digest without collisions. -/
def pairDig (r : Ep.Rec) : Nat :=
  Encodable.encode (r.epoch, r.committee, r.next, r.parent, r.finalState, r.finalNum, r.finalHash)

theorem pairDig_injective : Function.Injective pairDig := by
  intro x y h
  have := Encodable.encode_injective h
  cases x
  cases y
  simp only [Prod.mk.injEq] at this
  obtain ⟨h1, h2, h3, h4, h5, h6, h7⟩ := this
  subst h1 h2 h3 h4 h5 h6 h7
  rfl

/-- Records of four validators for a chain whose every epoch ends with block 300. -/
def demoTruth (final : Nat × Nat) : Nat → Ep.Rec
  | 0 => ⟨0, [1, 2, 3, 4], [1, 2, 3, 4], 0, final, 0, 0⟩
  | e + 1 => ⟨e + 1, [1, 2, 3, 4], [1, 2, 3, 4], pairDig (demoTruth final e), final, 0, 0⟩

open Classical in
/-- Signatures that verify for true records only. -/
noncomputable def demoBls (final : Nat × Nat) : Bls :=
  ⟨fun _ _ _ => true, fun _ => some 0, fun _ d _ => decide (∃ e, d = pairDig (demoTruth final e))⟩

/-- The hypotheses of `honest_bundle` and of `loaded_certified` are met together: a bundle of three epochs loads, and what
it restores is the state it was made from. -/
example (rootOf : View → Nat) (hroot : NoCollision rootOf) :
    ∃ bundle db, ∃ window : List Header, ∃ final : Nat × Nat,
      loadState (demoBls final) pairDig {1, 2, 3, 4} pairHash plainEnv 0 rootOf (fun _ _ => true) 0 (fun _ => none) bundle =
        .ok (final, window, db) ∧ bundle.records = some ((List.range 3).map (demoTruth final)) ∧
      db.plainView 0 = sourceView 0 demoRows demoSlots := by
  have hroots : ∀ n, (pairChain (fun _ => rootOf (sourceView 0 demoRows demoSlots)) n).root = rootOf (sourceView 0 demoRows demoSlots) := by
    intro n; cases n <;> rfl
  generalize hch : pairChain (fun _ => rootOf (sourceView 0 demoRows demoSlots)) = chain at hroots
  have hc : Canonical pairHash chain := hch ▸ pairChain_canonical _
  generalize hfin : ((300, pairHash (chain 300)) : Nat × Nat) = final
  have hepoch : ∀ e, (demoTruth final e).epoch = e := by intro e; cases e <;> rfl
  have hcom : ∀ e, (demoTruth final e).committee = [1, 2, 3, 4] := by intro e; cases e <;> rfl
  have hnext : ∀ e, (demoTruth final e).next = [1, 2, 3, 4] := by intro e; cases e <;> rfl
  have hfs : ∀ e, (demoTruth final e).finalState = (300, pairHash (chain 300)) := by intro e; rw [hfin]; cases e <;> rfl
  have hexp : ∀ e, expected (demoTruth final) {1, 2, 3, 4} e = {1, 2, 3, 4} := by
    intro e
    cases e with
    | zero => rfl
    | succ e => show (demoTruth final e).next.toFinset = _; rw [hnext]; rfl
  have hpar : ∀ e, (demoTruth final e).parent = parentOf pairDig (demoTruth final) e := by intro e; cases e <;> rfl
  have hcomp : ∀ e, Ep.compatible (demoTruth final e) {1, 2, 3, 4} = true := by
    intro e; unfold Ep.compatible; rw [hcom]; decide
  have hcert : ∀ e, Ep.verifyWithCert (demoBls final) pairDig (demoTruth final e) ⟨pairDig (demoTruth final e), 0, [0, 1, 2]⟩ = true := by
    intro e
    unfold Ep.verifyWithCert
    rw [if_neg (fun h => h rfl), hcom]
    dsimp only
    rw [if_neg (by decide)]
    exact @decide_eq_true _ (Classical.propDecidable _) ⟨e, rfl⟩
  obtain ⟨recs, st, db, h1, h2, h3⟩ := honest_bundle (B := demoBls final) (dig := pairDig) (truth := demoTruth final)
    (genesis := {1, 2, 3, 4}) (cert := fun e => ⟨pairDig (demoTruth final e), 0, [0, 1, 2]⟩)
    (certs := fun d => some ⟨d, 0, [0, 1, 2]⟩) (n := 2) (by decide) (fun e _ => ⟨rfl, Ep.valid_spec.mpr
      ⟨hepoch e, hpar e, by rw [hexp]; exact hcomp e, hcert e⟩⟩) hc (E := plainEnv) (rootOf := rootOf) (ready := fun _ _ => true)
    (fun c => .refl c) (emptyHash := 0) rfl (fun _ => none)
    (codes := demoCodes) (by
      intro h c hc
      unfold demoCodes at hc
      split at hc
      · cases hc; exact ⟨by simp [plainEnv, *], rfl⟩
      · cases hc) (rows := demoRows) (slots := demoSlots) (by unfold RowsSorted demoRows; decide)
    (by unfold SlotsSorted demoSlots; decide) (by
      intro p hp h hh
      simp only [demoRows, List.mem_cons, List.not_mem_nil, or_false] at hp
      rcases hp with rfl | rfl
      · cases hh; right; rfl
      · cases hh; left; rfl) (b := 300) (by decide) (hfs 2) (hroots 300) rfl
  rw [hfin] at h2
  obtain ⟨n, _, hrec, _, _, _, _, hplain⟩ := loaded_certified pairDig_injective (faulty := ∅)
    (signed := fun _ d => ∃ e, d = pairDig (demoTruth final e)) (B := demoBls final)
    (by
      intro s d ks h k _
      exact .inr (@of_decide_eq_true _ (Classical.propDecidable _) h)) hepoch (fun k d _ h => h) (genesis := {1, 2, 3, 4}) (by simp)
    (fun e => by simp) pairHash_injective hc (stateAt := fun _ => sourceView 0 demoRows demoSlots) (fun _ => source_proper _ _ _) hroot
    hroots (ends := fun _ => 300) hfs (fun c => .refl c) h2
  exact ⟨_, db, _, final, h2, rfl, hplain (.inl rfl)⟩

/-! ## Where the check of the root does not reach -/

/-- A pack with a record that repeats a slot. -/
def twicePack : File := File.of [.info ⟨7, 1, 11, 1⟩, .header (some ⟨1, 0, 7, 0⟩), .account ⟨2, 0, 0, none⟩,
  .storage [(5, 7), (5, 9)], .account ⟨3, 0, 0, none⟩, .storage [(1, 7)], .fin {}]

/-- **A repeated slot.** Nothing in this code refuses a record in which a slot occurs twice. If reth's history index
does not refuse it either, and its sort puts the two rows the other way round than the map of the hashed table, a pack is
accepted whose root is right while the table the node reads holds another value. -/
theorem plain_diverges : ∃ (E : Env) (rootOf : View → Nat) (db : Db), (∀ c, (E.ord c).Perm c) ∧ E.strict = false ∧
    restorePack (fun h => h.number + 10) E 0 rootOf (fun _ _ => true) 0 (fun _ => none) twicePack =
      .ok ((1, 11), [⟨1, 0, 7, 0⟩], db) ∧ rootOf (db.hashedView 0) = 7 ∧ db.hashed 2 5 = 9 ∧ db.plain 2 5 = 7 := by
  refine ⟨⟨List.length, fun _ => true, List.reverse, false⟩, fun v => v.2 3 1, _, fun c => List.reverse_perm c, rfl, rfl, ?_, ?_, ?_⟩ <;>
    decide +kernel

end Verif.Snapshot
