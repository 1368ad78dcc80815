import Verif.Snapshot.Pack
import Mathlib.Logic.Function.Iterate

/-!
# What the execution-state pack guarantees
-/
namespace Verif.Snapshot

/-! ## Specification: what a well-formed body says -/

/-- A body is a list of groups: an account and the chunks of its storage. -/
abbrev Groups := List (Acct × List Slots)

/-- The records of a list of groups, in the documented order `N x (Account -> Storage*)`. -/
def bodyOf (gs : Groups) : List Rec := gs.flatMap (fun g => .account g.1 :: g.2.map .storage)

/-- The account a group stands for. -/
def groupAccount (g : Acct × List Slots) : Account := ⟨g.1, collect g.2.flatten⟩

/-- The entries a group is read as, chunk by chunk. -/
def groupEntries (g : Acct × List Slots) : List Entry := .account g.1 :: g.2.map .storage

/-- Every chunk is within the bound. -/
def Bounded (gs : Groups) : Prop := ∀ g ∈ gs, ∀ c ∈ g.2, c.length ≤ chunkSlots

/-- The tallies of a list of accounts, read off it directly. -/
def tally (l : List Account) : Stats :=
  ⟨l.length, (l.map (fun a : Account => a.storage.length)).sum, (l.filter (fun a : Account => hasCode a.acct)).length⟩

/-- The entries of a map: keys strictly ascending. -/
def Ascending (s : Slots) : Prop := s.Pairwise (fun x y => x.1 < y.1)

/-! ## Collecting slots -/

/-- `BTreeMap::from_iter`: the value of a key is that of its last entry -/
theorem insertSlot_lookup (k v k' : Nat) : ∀ m : Slots, List.lookup k' (insertSlot k v m) = if k' = k then some v else List.lookup k' m := by
  intro m
  induction m with
  | nil =>
    by_cases h : k' = k
    · simp [insertSlot, h]
    · simp [insertSlot, h, List.lookup, beq_eq_false_iff_ne.mpr h]
  | cons x m ih =>
    obtain ⟨a, b⟩ := x
    by_cases h1 : k < a
    · rw [insertSlot, if_pos h1]
      by_cases h : k' = k
      · simp [h]
      · simp [List.lookup, beq_eq_false_iff_ne.mpr h, h]
    · by_cases h2 : k = a
      · rw [insertSlot, if_neg h1, if_pos h2]
        by_cases h : k' = k
        · simp [h]
        · have : k' ≠ a := h2 ▸ h
          simp [List.lookup, beq_eq_false_iff_ne.mpr h, beq_eq_false_iff_ne.mpr this, h]
      · rw [insertSlot, if_neg h1, if_neg h2]
        by_cases h3 : k' = a
        · subst h3
          have : ¬ k' = k := fun e => h2 e.symm
          simp [List.lookup, this]
        · rw [List.lookup_cons, List.lookup_cons, beq_eq_false_iff_ne.mpr h3]
          exact ih

/-- **Repeated keys.** Whatever slots a file gives an account, the account read from it has for each key the value of
the key's last entry. -/
theorem collect_last (l : Slots) (k : Nat) : List.lookup k (collect l) = List.lookup k l.reverse := by
  unfold collect
  have gen : ∀ (l m : Slots), List.lookup k (l.foldl (fun m s => insertSlot s.1 s.2 m) m) =
      (List.lookup k l.reverse).or (List.lookup k m) := by
    intro l
    induction l with
    | nil => intro m; simp
    | cons x l ih =>
      intro m
      rw [List.foldl_cons, ih, insertSlot_lookup, List.reverse_cons, List.lookup_append, Option.or_assoc]
      obtain ⟨a, b⟩ := x
      by_cases h : k = a
      · simp [h]
      · simp [List.lookup, beq_eq_false_iff_ne.mpr h, h]
  rw [gen l []]
  simp

theorem insertSlot_append {k v : Nat} : ∀ {m : Slots}, (∀ x ∈ m, x.1 < k) → insertSlot k v m = m ++ [(k, v)] := by
  intro m
  induction m with
  | nil => intro _; rfl
  | cons x l ih =>
    intro h
    have hx := h x (by simp)
    have : ¬ k < x.1 := by omega
    have h2 : ¬ k = x.1 := by omega
    obtain ⟨a, b⟩ := x
    simp only [insertSlot, if_neg this, if_neg h2, ih (fun y hy => h y (by simp [hy])), List.cons_append]

theorem collect_foldl : ∀ (l m : Slots), Ascending (m ++ l) →
    l.foldl (fun m s => insertSlot s.1 s.2 m) m = m ++ l := by
  intro l
  induction l with
  | nil => intro m _; simp
  | cons x l ih =>
    intro m h
    have hx : ∀ y ∈ m, y.1 < x.1 := by
      intro y hy
      exact (List.pairwise_append.mp h).2.2 y hy x (by simp)
    rw [List.foldl_cons, insertSlot_append hx]
    have e : m ++ [(x.1, x.2)] ++ l = m ++ x :: l := by simp
    rw [ih _ (by rw [e]; exact h), e]

theorem collect_of_ascending {l : Slots} (h : Ascending l) : collect l = l := by
  have := collect_foldl l [] (by simpa using h)
  simpa [collect] using this

/-! ## Writing -/

/-- The chunks the writer cuts a run of slots into. -/
def chunksFrom (buf : Slots) : Slots → List Slots
  | [] => if buf.isEmpty then [] else [buf]
  | s :: l => if (buf ++ [s]).length = chunkSlots then (buf ++ [s]) :: chunksFrom [] l else chunksFrom (buf ++ [s]) l

def chunksOf (l : Slots) : List Slots := chunksFrom [] l

theorem chunksFrom_flatten : ∀ (l buf : Slots), (chunksFrom buf l).flatten = buf ++ l := by
  intro l
  induction l with
  | nil => intro buf; unfold chunksFrom; cases buf <;> simp
  | cons s l ih =>
    intro buf
    rw [chunksFrom]
    split
    · simp [ih]
    · rw [ih]; simp

theorem chunksFrom_bounds : ∀ (l buf : Slots), buf.length < chunkSlots →
    ∀ c ∈ chunksFrom buf l, 0 < c.length ∧ c.length ≤ chunkSlots := by
  intro l
  induction l with
  | nil =>
    intro buf h c hc
    unfold chunksFrom at hc
    split at hc
    · simp at hc
    · rename_i hb
      simp only [List.mem_singleton] at hc
      subst hc
      cases c with
      | nil => simp at hb
      | cons x y => exact ⟨by simp, by omega⟩
  | cons s l ih =>
    intro buf h c hc
    rw [chunksFrom] at hc
    split at hc
    · rename_i e
      rcases List.mem_cons.mp hc with hc | hc
      · subst hc; rw [e]; exact ⟨by decide, Nat.le_refl _⟩
      · exact ih [] (by decide) c hc
    · rename_i e
      have : (buf ++ [s]).length < chunkSlots := by
        simp only [List.length_append, List.length_singleton] at e ⊢; omega
      exact ih _ this c hc

/-- Every chunk but the last is full. -/
theorem chunksFrom_full : ∀ (l buf : Slots), ∀ c ∈ (chunksFrom buf l).dropLast, c.length = chunkSlots := by
  intro l
  induction l with
  | nil => intro buf c hc; unfold chunksFrom at hc; split at hc <;> simp at hc
  | cons s l ih =>
    intro buf c hc
    rw [chunksFrom] at hc
    split at hc
    · rename_i e
      cases hr : chunksFrom [] l with
      | nil => rw [hr] at hc; simp at hc
      | cons y ys =>
        rw [hr, List.dropLast_cons_cons] at hc
        rcases List.mem_cons.mp hc with hc | hc
        · rw [hc, e]
        · exact ih [] c (by rw [hr]; exact hc)
    · exact ih _ c hc

theorem chunk_ok {w : Writer} {c : Slots} (h : 0 < c.length) (h2 : c.length ≤ chunkSlots) :
    w.chunk c = .ok ⟨w.out ++ [.storage c], { w.stats with slots := w.stats.slots + c.length }⟩ := by
  unfold Writer.chunk
  have : c.isEmpty = false := by cases c with
    | nil => simp at h
    | cons x y => rfl
  simp [this, h2]

theorem fill_spec : ∀ (l buf : Slots) (w : Writer), buf.length < chunkSlots →
    w.fill buf l = .ok ⟨w.out ++ (chunksFrom buf l).map .storage,
      { w.stats with slots := w.stats.slots + (buf.length + l.length) }⟩ := by
  intro l
  induction l with
  | nil =>
    intro buf w h
    unfold Writer.fill chunksFrom
    cases buf with
    | nil => simp [Writer.chunk]
    | cons x y => rw [chunk_ok (by simp) (by omega)]; simp
  | cons s l ih =>
    intro buf w h
    rw [Writer.fill, chunksFrom]
    dsimp only
    by_cases e : (buf ++ [s]).length = chunkSlots
    · rw [if_pos e, if_pos e, chunk_ok (by simp) (by omega)]
      show Writer.fill _ [] l = _
      rw [ih [] _ (by decide)]
      simp only [List.length_append, List.length_nil, List.length_cons, List.map_cons,
        List.append_assoc, List.singleton_append]
      congr 3
      omega
    · rw [if_neg e, if_neg e, ih _ w (by simp only [List.length_append, List.length_singleton] at e ⊢; omega)]
      have e2 : (buf ++ [s]).length + l.length = buf.length + (s :: l).length := by simp; omega
      rw [e2]

/-- The groups an account list is written as. -/
def groupsOf (l : List Account) : Groups := l.map (fun a : Account => (a.acct, chunksOf a.storage))

theorem groupsOf_bounded (l : List Account) : Bounded (groupsOf l) := by
  intro g hg c hc
  unfold groupsOf at hg
  rcases List.mem_map.mp hg with ⟨a, _, rfl⟩
  exact (chunksFrom_bounds a.storage [] (by decide) c hc).2

def addStats (s t : Stats) : Stats := ⟨s.accounts + t.accounts, s.slots + t.slots, s.codes + t.codes⟩

theorem accounts_spec : ∀ (l : List Account) (w : Writer),
    w.accounts l = .ok ⟨w.out ++ bodyOf (groupsOf l), addStats w.stats (tally l)⟩ := by
  intro l
  induction l with
  | nil => intro w; simp [Writer.accounts, bodyOf, groupsOf, tally, addStats]
  | cons a l ih =>
    intro w
    rw [Writer.accounts, Writer.account, fill_spec _ _ _ (by decide)]
    show Writer.accounts _ l = _
    rw [ih]
    simp only [Writer.accountHeader, bodyOf, groupsOf, tally, addStats, chunksOf, List.map_cons, List.flatMap_cons,
      List.append_assoc, List.cons_append, List.nil_append, List.length_cons, List.sum_cons, List.filter_cons]
    cases hc : hasCode a.acct <;> simp <;> omega

/-- The file an export writes: the description, the headers, the groups of the accounts, the tallies. -/
theorem writePack_spec (hash : Header → Nat) (root : Nat) (h : Header) (hs : List Header) (l : List Account)
    (e : h.root = root) :
    writePack hash root (h :: hs) l = .ok
      (.info ⟨root, h.number, hash h, (h :: hs).length % 2 ^ 32⟩ :: ((h :: hs).map (fun x => Rec.header (some x)) ++
        (bodyOf (groupsOf l) ++ [.fin (tally l)])), tally l) := by
  unfold writePack create
  simp only [e, ne_eq, not_true, if_false]
  show (do
    let w ← Writer.accounts _ l
    return w.finish) = _
  rw [accounts_spec]
  show Except.ok (Writer.finish _) = _
  have : addStats {} (tally l) = tally l := by simp [addStats]
  simp only [Writer.finish, this, List.append_assoc, List.cons_append]

/-! ## Reading -/

/-- What is still to be read: the record looked ahead at, then the rest of the file. -/
def Reader.stream (r : Reader) : File := (match r.pending with | some x => [some x] | none => []) ++ r.rest

theorem gather_chunks (r : Reader) (x : Rec) (tail : File) (hx : ∀ c, x ≠ .storage c) :
    ∀ (cs : List Slots) (acc : Slots), (∀ c ∈ cs, c.length ≤ chunkSlots) →
    gather r (File.of (cs.map .storage) ++ some x :: tail) acc =
      (.ok (acc ++ cs.flatten), { r with rest := tail, pending := some x }) := by
  intro cs
  induction cs with
  | nil =>
    intro acc _
    cases x <;> simp_all [File.of, gather]
  | cons c cs ih =>
    intro acc h
    have hc := h c (by simp)
    have := ih (acc ++ c) (fun y hy => h y (by simp [hy]))
    simp only [File.of, List.map_cons, List.cons_append, gather, if_pos hc]
    simp only [File.of] at this
    rw [this]
    simp

/-- The first record of what follows a group is not a storage chunk. -/
theorem body_head (gs : Groups) (s : Stats) (tail : File) :
    ∃ x t, File.of (bodyOf gs) ++ some (.fin s) :: tail = some x :: t ∧ (∀ c, x ≠ .storage c) ∧
      ((gs = [] ∧ x = .fin s ∧ t = tail) ∨ (∃ g gs', gs = g :: gs' ∧ x = .account g.1 ∧
        t = File.of (g.2.map .storage) ++ (File.of (bodyOf gs') ++ some (.fin s) :: tail))) := by
  cases gs with
  | nil => exact ⟨_, _, rfl, by simp, Or.inl ⟨rfl, rfl, rfl⟩⟩
  | cons g gs =>
    refine ⟨.account g.1, File.of (g.2.map .storage) ++ (File.of (bodyOf gs) ++ some (.fin s) :: tail), ?_, by simp,
      Or.inr ⟨g, gs, rfl, rfl, rfl⟩⟩
    simp [bodyOf, File.of]

theorem pull_of_stream {r : Reader} {x : Rec} {t : File} (h : r.stream = some x :: t) (hx : ∀ c, x ≠ .storage c) :
    r.pull = (some (.ok x), { r with rest := t, pending := none }) := by
  unfold Reader.stream at h
  unfold Reader.pull
  cases hp : r.pending with
  | some y =>
    rw [hp] at h
    simp only [List.singleton_append, List.cons.injEq, Option.some.injEq] at h
    obtain ⟨rfl, rfl⟩ := h
    rfl
  | none =>
    rw [hp] at h
    simp only [List.nil_append] at h
    rw [h]
    cases x <;> simp_all

theorem drainAccounts_spec (s : Stats) (tail : File) : ∀ (gs : Groups) (r : Reader), Bounded gs → r.done = false →
    r.stream = File.of (bodyOf gs) ++ some (.fin s) :: tail →
    drainAccounts (gs.length + 1) r = some (.ok (gs.map groupAccount)) := by
  intro gs
  induction gs with
  | nil =>
    intro r _ hd hs
    have hp := pull_of_stream (r := r) (x := .fin s) (t := tail) (by rw [hs]; rfl) (by simp)
    simp [drainAccounts, Reader.nextAccount, hd, hp]
  | cons g gs ih =>
    intro r hb hd hs
    obtain ⟨x, t, e, hx, _⟩ := body_head gs s tail
    have hp := pull_of_stream (r := r) (x := .account g.1)
      (t := File.of (g.2.map .storage) ++ some x :: t) (by
        rw [hs, ← e]; simp [bodyOf, File.of]) (by simp)
    rw [List.length_cons, drainAccounts]
    simp only [Reader.nextAccount, hd, Bool.false_eq_true, if_false, hp]
    rw [gather_chunks _ x t hx _ _ (hb g (by simp))]
    dsimp only
    have := ih { r with rest := t, pending := some x } (fun g' hg' => hb g' (by simp [hg'])) hd (by
      simp only [Reader.stream, List.singleton_append]; exact e.symm)
    simp only [hd] at this
    rw [this]
    simp [groupAccount]

theorem drainEntries_spec (s : Stats) (tail : File) : ∀ (gs : Groups) (r : Reader), Bounded gs → r.done = false →
    r.pending = none → r.rest = File.of (bodyOf gs) ++ some (.fin s) :: tail →
    drainEntries ((gs.flatMap groupEntries).length + 1) r = some (.ok (gs.flatMap groupEntries)) := by
  -- over the records one by one
  have key : ∀ (es : List Entry) (r : Reader),
      (∀ c, Entry.storage c ∈ es → c.length ≤ chunkSlots) → r.done = false → r.pending = none →
      r.rest = File.of (es.map (fun e => match e with | .account a => Rec.account a | .storage c => Rec.storage c))
        ++ some (.fin s) :: tail →
      drainEntries (es.length + 1) r = some (.ok es) := by
    intro es
    induction es with
    | nil =>
      intro r _ hd hp hr
      simp [drainEntries, Reader.nextEntry, hd, Reader.pull, hp, hr, File.of]
    | cons e es ih =>
      intro r hb hd hp hr
      have hn : r.nextEntry = (some (.ok e), { r with rest := File.of (es.map (fun e => match e with
          | .account a => Rec.account a | .storage c => Rec.storage c)) ++ some (.fin s) :: tail }) := by
        unfold Reader.nextEntry Reader.pull
        simp only [hd, Bool.false_eq_true, if_false, hp, hr, List.map_cons, File.of, List.cons_append]
        cases e with
        | account a => rfl
        | storage c =>
          have hc := hb c (by simp)
          simp [hc]
      rw [List.length_cons, drainEntries, hn]
      dsimp only
      have := ih { r with rest := File.of (es.map (fun e => match e with
          | .account a => Rec.account a | .storage c => Rec.storage c)) ++ some (.fin s) :: tail }
        (fun c hc => hb c (by simp [hc])) hd hp rfl
      rw [this]
  intro gs r hb hd hp hr
  refine key _ r ?_ hd hp ?_
  · intro c hc
    rcases List.mem_flatMap.mp hc with ⟨g, hg, hm⟩
    unfold groupEntries at hm
    rcases List.mem_cons.mp hm with hm | hm
    · cases hm
    · rcases List.mem_map.mp hm with ⟨d, hc', h⟩
      have : d = c := by cases h; rfl
      exact hb g hg c (this ▸ hc')
  · rw [hr]
    congr 2
    unfold bodyOf
    rw [List.map_flatMap]
    congr 1
    funext g
    simp [groupEntries, Function.comp_def]

theorem readHeaders_of (tail : File) : ∀ (hs : List Header),
    readHeaders hs.length (hs.map (fun x => some (Rec.header (some x))) ++ tail) = .ok (hs, tail) := by
  intro hs
  induction hs with
  | nil => rfl
  | cons h hs ih =>
    simp only [List.length_cons, List.map_cons, List.cons_append, readHeaders, ih]
    rfl

theorem readHeaders_ok : ∀ (n : Nat) (f tail : File) (hs : List Header), readHeaders n f = .ok (hs, tail) →
    hs.length = n ∧ f = hs.map (fun x => some (Rec.header (some x))) ++ tail := by
  intro n
  induction n with
  | zero => intro f tail hs h; simp only [readHeaders, Except.ok.injEq, Prod.mk.injEq] at h; simp [← h.1, h.2]
  | succ n ih =>
    intro f tail hs h
    match f, h with
    | some (.header (some x)) :: f, h =>
      simp only [readHeaders] at h
      cases e : readHeaders n f with
      | error _ => rw [e] at h; cases h
      | ok p =>
        obtain ⟨l, f'⟩ := p
        rw [e] at h
        have h' : Except.ok (x :: l, f') = (Except.ok (hs, tail) : Except Err _) := h
        simp only [Except.ok.injEq, Prod.mk.injEq] at h'
        obtain ⟨rfl, rfl⟩ := h'
        obtain ⟨h1, h2⟩ := ih f f' l e
        exact ⟨by simp [h1], by rw [h2]; simp⟩
    | some (.header none) :: _, h => simp [readHeaders] at h
    | some (.info _) :: _, h => simp [readHeaders] at h
    | some (.account _) :: _, h => simp [readHeaders] at h
    | some (.storage _) :: _, h => simp [readHeaders] at h
    | some (.fin _) :: _, h => simp [readHeaders] at h
    | none :: _, h => simp [readHeaders] at h
    | [], h => simp [readHeaders] at h

/-- What a successful `open` has established, and what is left to read. -/
theorem open_ok {f : File} {r : Reader} (h : openPack f = .ok r) :
    f = some (.info r.info) :: (r.headers.map (fun x => some (Rec.header (some x))) ++ r.rest) ∧
    r.headers.length = r.info.count ∧ 1 ≤ r.info.count ∧ r.info.count ≤ maxHeaders ∧
    min r.info.number ancestors ≤ r.info.count ∧ r.pending = none ∧ r.done = false := by
  match f, h with
  | some (.info m) :: f, h =>
    unfold openPack at h
    dsimp only at h
    split at h
    · cases h
    · split at h
      · cases h
      · split at h
        · cases h
        · rename_i h1 h2 h3
          cases e : readHeaders m.count f with
          | error _ => rw [e] at h; cases h
          | ok p =>
            obtain ⟨hs, f'⟩ := p
            rw [e] at h
            have h' : Except.ok ({ info := m, headers := hs, rest := f' } : Reader) = (Except.ok r : Except Err _) := h
            simp only [Except.ok.injEq] at h'
            subst h'
            obtain ⟨e1, e2⟩ := readHeaders_ok _ _ _ _ e
            refine ⟨by rw [e2], e1, by dsimp only; omega, by dsimp only; omega, by dsimp only; omega, rfl, rfl⟩
  | none :: _, h => simp [openPack] at h
  | some (.header _) :: _, h => simp [openPack] at h
  | some (.account _) :: _, h => simp [openPack] at h
  | some (.storage _) :: _, h => simp [openPack] at h
  | some (.fin _) :: _, h => simp [openPack] at h
  | [], h => simp [openPack] at h

theorem open_of (m : Meta) (hs : List Header) (tail : File) (h1 : hs.length = m.count) (h2 : 1 ≤ m.count)
    (h3 : m.count ≤ maxHeaders) (h4 : min m.number ancestors ≤ m.count) :
    openPack (some (.info m) :: (hs.map (fun x => some (Rec.header (some x))) ++ tail)) =
      .ok { info := m, headers := hs, rest := tail } := by
  unfold openPack
  dsimp only
  rw [if_neg (by omega), if_neg (by omega), if_neg (by omega), ← h1, readHeaders_of]
  rfl

/-! ## The walk of `verify` -/

theorem walk_ok : ∀ (f : File) (t foot cnt : Stats), walk f true t = .ok (foot, cnt) →
    ∃ (cs : List Slots) (gs : Groups) (tail : File), f = File.of (cs.map .storage) ++ (File.of (bodyOf gs) ++ some (.fin foot) :: tail) ∧
      (∀ c ∈ cs, c.length ≤ chunkSlots) ∧ Bounded gs ∧ cnt.accounts = t.accounts + gs.length ∧
      cnt.slots = t.slots + cs.flatten.length + (gs.map (fun g : Acct × List Slots => g.2.flatten.length)).sum ∧
      cnt.codes = t.codes + (gs.filter (fun g : Acct × List Slots => hasCode g.1)).length := by
  intro f
  induction f with
  | nil => intro t foot cnt h; simp [walk] at h
  | cons x f ih =>
    intro t foot cnt h
    match x, h with
    | some (.account a), h =>
      rw [walk] at h
      obtain ⟨cs, gs, tail, e, h1, h2, h3, h4, h5⟩ := ih _ _ _ h
      dsimp only at h3 h4 h5
      refine ⟨[], (a, cs) :: gs, tail, by rw [e]; simp [File.of, bodyOf], by simp, ?_, ?_, ?_, ?_⟩
      · intro g hg
        rcases List.mem_cons.mp hg with rfl | hg
        · exact h1
        · exact h2 g hg
      · simp only [List.length_cons]; omega
      · simp only [List.flatten_nil, List.length_nil, List.map_cons, List.sum_cons]; omega
      · simp only [List.filter_cons]
        cases hc : hasCode a with
        | true => simp only [hc, if_true] at h5; simp only [if_true, List.length_cons]; omega
        | false => simp only [hc, Bool.false_eq_true, if_false] at h5 ⊢; omega
    | some (.storage c), h =>
      rw [walk] at h
      split at h
      · rename_i hc
        simp only [if_true] at h
        obtain ⟨cs, gs, tail, e, h1, h2, h3, h4, h5⟩ := ih _ _ _ h
        dsimp only at h3 h4 h5
        refine ⟨c :: cs, gs, tail, by rw [e]; simp [File.of], ?_, h2, h3, ?_, h5⟩
        · intro y hy
          rcases List.mem_cons.mp hy with rfl | hy
          · exact hc
          · exact h1 y hy
        · simp only [List.flatten_cons, List.length_append]; omega
      · cases h
    | some (.fin s), h =>
      rw [walk] at h
      simp only [Except.ok.injEq, Prod.mk.injEq] at h
      obtain ⟨rfl, rfl⟩ := h
      exact ⟨[], [], f, rfl, by simp, by intro g hg; simp at hg, rfl, by simp, rfl⟩
    | some (.info _), h => simp [walk] at h
    | some (.header _), h => simp [walk] at h
    | none, h => simp [walk] at h

theorem walk_false_ok {f : File} {foot cnt : Stats} (h : walk f false {} = .ok (foot, cnt)) :
    ∃ (gs : Groups) (tail : File), f = File.of (bodyOf gs) ++ some (.fin foot) :: tail ∧
      Bounded gs ∧ cnt.accounts = gs.length ∧
      cnt.slots = (gs.map (fun g : Acct × List Slots => g.2.flatten.length)).sum ∧
      cnt.codes = (gs.filter (fun g : Acct × List Slots => hasCode g.1)).length := by
  match f, h with
  | [], h => simp [walk] at h
  | some (.account a) :: f, h =>
    have h' : walk (some (.account a) :: f) true {} = .ok (foot, cnt) := by rw [walk] at h ⊢; exact h
    obtain ⟨cs, gs, tail, e, h1, h2, h3, h4, h5⟩ := walk_ok _ _ _ _ h'
    have hcs : cs = [] := by
      cases cs with
      | nil => rfl
      | cons c cs => simp [File.of] at e
    subst hcs
    refine ⟨gs, tail, by rw [e]; simp [File.of], h2, by simpa using h3, by simpa using h4, by simpa using h5⟩
  | some (.storage c) :: f, h =>
    rw [walk] at h
    split at h
    · simp at h
    · cases h
  | some (.fin s) :: f, h =>
    rw [walk] at h
    simp only [Except.ok.injEq, Prod.mk.injEq] at h
    obtain ⟨rfl, rfl⟩ := h
    exact ⟨[], f, rfl, by intro g hg; simp at hg, rfl, rfl, rfl⟩
  | some (.info _) :: _, h => simp [walk] at h
  | some (.header _) :: _, h => simp [walk] at h
  | none :: _, h => simp [walk] at h

theorem walk_of_chunks (f : File) : ∀ (cs : List Slots) (t : Stats), (∀ c ∈ cs, c.length ≤ chunkSlots) →
    walk (File.of (cs.map .storage) ++ f) true t = walk f true { t with slots := t.slots + cs.flatten.length } := by
  intro cs
  induction cs with
  | nil => intro t _; simp [File.of]
  | cons c cs ih =>
    intro t h
    simp only [File.of, List.map_cons, List.cons_append, walk, if_pos (h c (by simp)), if_true]
    have := ih { t with slots := t.slots + c.length } (fun y hy => h y (by simp [hy]))
    simp only [File.of] at this
    rw [this]
    simp only [List.flatten_cons, List.length_append, Nat.add_assoc]

theorem walk_of (foot : Stats) (tail : File) : ∀ (gs : Groups) (saw : Bool) (t : Stats), Bounded gs →
    walk (File.of (bodyOf gs) ++ some (.fin foot) :: tail) saw t = .ok (foot,
      ⟨t.accounts + gs.length, t.slots + (gs.map (fun g : Acct × List Slots => g.2.flatten.length)).sum,
       t.codes + (gs.filter (fun g : Acct × List Slots => hasCode g.1)).length⟩) := by
  intro gs
  induction gs with
  | nil => intro saw t _; simp [bodyOf, File.of, walk]
  | cons g gs ih =>
    intro saw t hb
    have e : File.of (bodyOf (g :: gs)) ++ some (.fin foot) :: tail =
        some (.account g.1) :: (File.of (g.2.map .storage) ++ (File.of (bodyOf gs) ++ some (.fin foot) :: tail)) := by
      simp [bodyOf, File.of]
    rw [e, walk, walk_of_chunks _ _ _ (hb g (by simp)), ih _ _ (fun g' hg' => hb g' (by simp [hg']))]
    simp only [List.length_cons, List.map_cons, List.sum_cons, List.filter_cons]
    cases hc : hasCode g.1 <;> simp <;> omega

/-! ## Files without a footer -/

/-- No footer comes before the end of the file or the first record that cannot be read. -/
def noFin : File → Bool
  | [] => true
  | none :: _ => true
  | some (.fin _) :: _ => false
  | some (.info _) :: f => noFin f
  | some (.header _) :: f => noFin f
  | some (.account _) :: f => noFin f
  | some (.storage _) :: f => noFin f

theorem walk_noFin : ∀ (f : File) (saw : Bool) (t : Stats) (p : Stats × Stats), noFin f = true →
    walk f saw t ≠ .ok p := by
  intro f
  induction f with
  | nil => intro saw t p _ h; simp [walk] at h
  | cons x f ih =>
    intro saw t p hn h
    match x, hn, h with
    | some (.account a), hn, h => rw [walk] at h; exact ih _ _ _ (by simpa [noFin] using hn) h
    | some (.storage c), hn, h =>
      rw [walk] at h
      split at h
      · split at h
        · exact ih _ _ _ (by simpa [noFin] using hn) h
        · cases h
      · cases h
    | some (.fin s), hn, h => simp [noFin] at hn
    | some (.info _), _, h => simp [walk] at h
    | some (.header _), _, h => simp [walk] at h
    | none, _, h => simp [walk] at h

theorem gather_noFin (r : Reader) : ∀ (f : File) (acc s : Slots) (r' : Reader), noFin f = true →
    gather r f acc = (.ok s, r') → noFin r'.stream = true ∧ r'.done = r.done := by
  intro f
  induction f with
  | nil => intro acc s r' _ h; simp [gather] at h
  | cons x f ih =>
    intro acc s r' hn h
    match x, hn, h with
    | some (.storage c), hn, h =>
      rw [gather] at h
      split at h
      · exact ih _ _ _ (by simpa [noFin] using hn) h
      · simp at h
    | some (.account a), hn, h =>
      simp only [gather, Prod.mk.injEq] at h
      obtain ⟨_, rfl⟩ := h
      exact ⟨by simpa [Reader.stream] using hn, rfl⟩
    | some (.fin s), hn, h => simp [noFin] at hn
    | some (.info a), hn, h =>
      simp only [gather, Prod.mk.injEq] at h
      obtain ⟨_, rfl⟩ := h
      exact ⟨by simpa [Reader.stream] using hn, rfl⟩
    | some (.header a), hn, h =>
      simp only [gather, Prod.mk.injEq] at h
      obtain ⟨_, rfl⟩ := h
      exact ⟨by simpa [Reader.stream] using hn, rfl⟩
    | none, _, h => simp [gather] at h

theorem pull_noFin {r r' : Reader} {x : Rec} (hn : noFin r.stream = true) (h : r.pull = (some (.ok x), r')) :
    (∀ s, x ≠ .fin s) ∧ noFin r'.stream = true ∧ noFin r'.rest = true ∧ r'.done = r.done := by
  unfold Reader.pull at h
  unfold Reader.stream at hn
  cases hp : r.pending with
  | some y =>
    rw [hp] at h hn
    simp only [Prod.mk.injEq, Option.some.injEq, Except.ok.injEq] at h
    obtain ⟨rfl, rfl⟩ := h
    cases y <;> simp_all [noFin, Reader.stream]
  | none =>
    rw [hp] at h hn
    dsimp only at h
    match hr : r.rest, h with
    | [], h => simp at h
    | none :: f, h => simp at h
    | some (.storage c) :: f, h =>
      rw [hr] at hn
      simp only [Prod.mk.injEq, Option.some.injEq] at h
      obtain ⟨h1, rfl⟩ := h
      have hx : x = .storage c := by
        split at h1
        · cases h1; rfl
        · cases h1
      subst hx
      simp_all [noFin, Reader.stream]
    | some (.account a) :: f, h =>
      rw [hr] at hn
      simp only [Prod.mk.injEq, Option.some.injEq, Except.ok.injEq] at h
      obtain ⟨rfl, rfl⟩ := h
      simp_all [noFin, Reader.stream]
    | some (.info a) :: f, h =>
      rw [hr] at hn
      simp only [Prod.mk.injEq, Option.some.injEq, Except.ok.injEq] at h
      obtain ⟨rfl, rfl⟩ := h
      simp_all [noFin, Reader.stream]
    | some (.header a) :: f, h =>
      rw [hr] at hn
      simp only [Prod.mk.injEq, Option.some.injEq, Except.ok.injEq] at h
      obtain ⟨rfl, rfl⟩ := h
      simp_all [noFin, Reader.stream]
    | some (.fin a) :: f, h =>
      rw [hr] at hn
      simp [noFin] at hn

theorem drainAccounts_noFin : ∀ (n : Nat) (r : Reader) (l : List Account), r.done = false → noFin r.stream = true →
    drainAccounts n r ≠ some (.ok l) := by
  intro n
  induction n with
  | zero => intro r l _ _ h; simp [drainAccounts] at h
  | succ n ih =>
    intro r l hd hn h
    rw [drainAccounts] at h
    unfold Reader.nextAccount at h
    simp only [hd, Bool.false_eq_true, if_false] at h
    match hp : r.pull, h with
    | (none, r'), h => simp at h
    | (some (.error e), r'), h => simp at h
    | (some (.ok x), r'), h =>
      obtain ⟨h1, h2, h3, h4⟩ := pull_noFin hn hp
      match x, h1, h with
      | .account a, h1, h =>
        dsimp only at h
        match hg : gather r' r'.rest [], h with
        | (.error e, r''), h => simp at h
        | (.ok s, r''), h =>
          dsimp only at h
          obtain ⟨g1, g2⟩ := gather_noFin r' _ _ _ _ h3 hg
          cases hdr : drainAccounts n r'' with
          | none => rw [hdr] at h; simp at h
          | some y =>
            cases y with
            | error e => rw [hdr] at h; simp at h
            | ok l' => exact ih r'' l' (by rw [g2, h4, hd]) g1 hdr
      | .fin s, h1, _ => exact h1 s rfl
      | .info _, _, h => simp at h
      | .header _, _, h => simp at h
      | .storage _, _, h => simp at h

theorem drainEntries_noFin : ∀ (n : Nat) (r : Reader) (l : List Entry), r.done = false → noFin r.stream = true →
    drainEntries n r ≠ some (.ok l) := by
  intro n
  induction n with
  | zero => intro r l _ _ h; simp [drainEntries] at h
  | succ n ih =>
    intro r l hd hn h
    rw [drainEntries] at h
    unfold Reader.nextEntry at h
    simp only [hd, Bool.false_eq_true, if_false] at h
    match hp : r.pull, h with
    | (none, r'), h => simp at h
    | (some (.error e), r'), h => simp at h
    | (some (.ok x), r'), h =>
      obtain ⟨h1, h2, h3, h4⟩ := pull_noFin hn hp
      have next : ∀ e : Entry, (match drainEntries n r' with
          | some (.ok l) => some (.ok (e :: l))
          | x => x) ≠ some (.ok l) := by
        intro e h
        cases hdr : drainEntries n r' with
        | none => rw [hdr] at h; simp at h
        | some y =>
          cases y with
          | error e => rw [hdr] at h; simp at h
          | ok l' => exact ih r' l' (by rw [h4, hd]) h2 hdr
      match x, h1, h with
      | .account a, h1, h => exact next _ h
      | .fin s, h1, _ => exact h1 s rfl
      | .info _, _, h => simp at h
      | .header _, _, h => simp at h
      | .storage c, _, h => exact next _ h

theorem noFin_of : ∀ (l : List Rec) (tail : File), (∀ s, Rec.fin s ∉ l) → tail.head?.getD none = none →
    noFin (File.of l ++ tail) = true := by
  intro l
  induction l with
  | nil =>
    intro tail _ h
    match tail, h with
    | [], _ => rfl
    | none :: _, _ => rfl
  | cons x l ih =>
    intro tail hl h
    have := ih tail (fun s hs => hl s (by simp [hs])) h
    have hx := hl
    cases x with
    | fin s => exact absurd (by simp) (hl s)
    | _ => simpa [File.of, noFin] using this

theorem noFin_append_headers (hs : List Header) (f : File) :
    noFin (hs.map (fun x => some (Rec.header (some x))) ++ f) = noFin f := by
  induction hs with
  | nil => rfl
  | cons h hs ih => simpa [noFin] using ih

/-- A file in which no footer comes before the end or an unreadable record is refused by `verify`, and reading it
in either way does not come to an end without an error. -/
theorem noFin_refused {hash : Header → Nat} {f : File} (h : noFin f = true) :
    (∀ rep, verify hash f ≠ .ok rep) ∧
    ∀ r, openPack f = .ok r → (∀ n l, drainAccounts n r ≠ some (.ok l)) ∧ (∀ n l, drainEntries n r ≠ some (.ok l)) := by
  constructor
  · intro rep hv
    unfold verify at hv
    cases e : openPack f with
    | error _ => rw [e] at hv; cases hv
    | ok r =>
      rw [e] at hv
      dsimp only [bind, Except.bind] at hv
      have ho := (open_ok e).1
      have hr : noFin r.rest = true := by
        rw [ho] at h
        simpa [noFin, noFin_append_headers] using h
      cases hh : r.headers with
      | nil => rw [hh] at hv; cases hv
      | cons h0 hs =>
        rw [hh] at hv
        dsimp only at hv
        split at hv
        · cases hv
        · split at hv
          · cases hv
          · cases w : walk r.rest false {} with
            | error _ => rw [w] at hv; cases hv
            | ok p => exact walk_noFin _ _ _ _ hr w
  · intro r e
    obtain ⟨ho, _, _, _, _, hp, hd⟩ := open_ok e
    have hr : noFin r.stream = true := by
      rw [ho] at h
      simpa [noFin, noFin_append_headers, Reader.stream, hp] using h
    exact ⟨fun n l => drainAccounts_noFin n r l hd hr, fun n l => drainEntries_noFin n r l hd hr⟩

/-! ## The guarantees -/

/-- What a successful `verify` has established. -/
theorem verify_ok {hash : Header → Nat} {f : File} {rep : Report} (h : verify hash f = .ok rep) :
    ∃ (r : Reader) (h0 : Header) (hs : List Header) (gs : Groups) (foot : Stats) (tail : File),
      openPack f = .ok r ∧ r.headers = h0 :: hs ∧ h0.root = r.info.root ∧ h0.number = r.info.number ∧
      hash h0 = r.info.hash ∧ r.rest = File.of (bodyOf gs) ++ some (.fin foot) :: tail ∧ Bounded gs ∧
      foot.accounts = gs.length ∧ rep.headers = r.info.count ∧
      rep.stats = ⟨gs.length, (gs.map (fun g : Acct × List Slots => g.2.flatten.length)).sum,
        (gs.filter (fun g : Acct × List Slots => hasCode g.1)).length⟩ := by
  unfold verify at h
  cases e : openPack f with
  | error _ => rw [e] at h; cases h
  | ok r =>
    rw [e] at h
    dsimp only [bind, Except.bind] at h
    cases hh : r.headers with
    | nil => rw [hh] at h; cases h
    | cons h0 hs =>
      rw [hh] at h
      dsimp only at h
      split at h
      · cases h
      · split at h
        · cases h
        · rename_i h1 h2
          cases w : walk r.rest false {} with
          | error _ => rw [w] at h; cases h
          | ok p =>
            obtain ⟨foot, cnt⟩ := p
            rw [w] at h
            dsimp only at h
            split at h
            · cases h
            · rename_i h3
              have h' : Except.ok (⟨r.info.count, cnt⟩ : Report) = (Except.ok rep : Except Err _) := h
              simp only [Except.ok.injEq] at h'
              subst h'
              obtain ⟨gs, tail, e1, e2, e3, e4, e5⟩ := walk_false_ok w
              refine ⟨r, h0, hs, gs, foot, tail, rfl, hh, by simpa using h1, ?_, ?_, e1, e2, ?_, rfl, ?_⟩
              · exact Classical.not_not.mp (fun hn => h2 (Or.inl hn))
              · exact Classical.not_not.mp (fun hn => h2 (Or.inr hn))
              · have : foot.accounts = cnt.accounts := Classical.not_not.mp h3
                omega
              · cases cnt
                dsimp only at e3 e4 e5 ⊢
                subst e3 e4 e5
                rfl

/-- **Round trip.** Whatever headers and accounts are exported, the file written can be opened, passes `verify`
with the tallies `finish` returned, and is read back, account by account, as exactly the accounts written. -/
theorem roundtrip (hash : Header → Nat) (root : Nat) (h : Header) (hs : List Header) (l : List Account)
    (e : h.root = root) (hn : (h :: hs).length ≤ maxHeaders) (hf : min h.number ancestors ≤ (h :: hs).length)
    (hl : ∀ a ∈ l, Ascending a.storage) :
    ∃ recs st r, writePack hash root (h :: hs) l = .ok (recs, st) ∧ openPack (File.of recs) = .ok r ∧
      r.info = ⟨root, h.number, hash h, (h :: hs).length⟩ ∧ r.headers = h :: hs ∧
      drainAccounts (l.length + 1) r = some (.ok l) ∧
      verify hash (File.of recs) = .ok ⟨(h :: hs).length, st⟩ ∧ st = tally l := by
  have hm : (h :: hs).length % 2 ^ 32 = (h :: hs).length := by
    have : maxHeaders = 4096 := rfl
    omega
  have hw := writePack_spec hash root h hs l e
  rw [hm] at hw
  have ho := open_of ⟨root, h.number, hash h, (h :: hs).length⟩ (h :: hs)
    (File.of (bodyOf (groupsOf l)) ++ some (.fin (tally l)) :: []) rfl (by simp) hn hf
  have hfile : File.of (.info ⟨root, h.number, hash h, (h :: hs).length⟩ :: ((h :: hs).map (fun x => Rec.header (some x)) ++
      (bodyOf (groupsOf l) ++ [.fin (tally l)]))) = some (.info ⟨root, h.number, hash h, (h :: hs).length⟩) ::
      ((h :: hs).map (fun x => some (Rec.header (some x))) ++ (File.of (bodyOf (groupsOf l)) ++ some (.fin (tally l)) :: [])) := by
    simp [File.of]
  have hga : (groupsOf l).map groupAccount = l := by
    unfold groupsOf
    rw [List.map_map]
    conv_rhs => rw [← List.map_id l]
    apply List.map_congr_left
    intro a ha
    simp only [Function.comp_apply, groupAccount, chunksOf, chunksFrom_flatten, List.nil_append, id_eq]
    rw [collect_of_ascending (hl a ha)]
  have ht : (⟨(groupsOf l).length, ((groupsOf l).map (fun g : Acct × List Slots => g.2.flatten.length)).sum,
      ((groupsOf l).filter (fun g : Acct × List Slots => hasCode g.1)).length⟩ : Stats) = tally l := by
    simp only [groupsOf, tally, chunksOf, Function.comp_def, List.filter_map, List.map_map, List.length_map,
      chunksFrom_flatten, List.nil_append]
  refine ⟨_, _, _, hw, (by rw [hfile]; exact ho), rfl, rfl, ?_, ?_, rfl⟩
  · have := drainAccounts_spec (tally l) [] (groupsOf l)
      { info := ⟨root, h.number, hash h, (h :: hs).length⟩, headers := h :: hs,
        rest := File.of (bodyOf (groupsOf l)) ++ some (.fin (tally l)) :: [] }
      (groupsOf_bounded l) rfl rfl
    rw [hga] at this
    simpa [groupsOf] using this
  · unfold verify
    rw [hfile, ho]
    dsimp only [bind, Except.bind]
    rw [if_neg (by simp [e]), if_neg (by simp), walk_of _ _ _ _ _ (groupsOf_bounded l)]
    have ht2 : (⟨({} : Stats).accounts + (groupsOf l).length,
        ({} : Stats).slots + ((groupsOf l).map (fun g : Acct × List Slots => g.2.flatten.length)).sum,
        ({} : Stats).codes + ((groupsOf l).filter (fun g : Acct × List Slots => hasCode g.1)).length⟩ : Stats) = tally l := by
      rw [← ht]; simp only [Nat.zero_add]
    rw [ht2]
    simp [pure, Except.pure]

/-- **Chunks.** Read chunk by chunk, the file gives each account in turn and behind it its storage, in order, in
chunks of at most the bound, none empty and all but the last full. -/
theorem roundtrip_chunks (hash : Header → Nat) (root : Nat) (h : Header) (hs : List Header) (l : List Account)
    (e : h.root = root) (hn : (h :: hs).length ≤ maxHeaders) (hf : min h.number ancestors ≤ (h :: hs).length) :
    ∃ recs st r cs, writePack hash root (h :: hs) l = .ok (recs, st) ∧ openPack (File.of recs) = .ok r ∧
      cs.length = l.length ∧
      (∃ n, drainEntries n r = some (.ok ((l.zip cs).flatMap
        (fun p : Account × List Slots => Entry.account p.1.acct :: p.2.map .storage)))) ∧
      ∀ p ∈ l.zip cs, p.2.flatten = p.1.storage ∧ (∀ c ∈ p.2, 0 < c.length ∧ c.length ≤ chunkSlots) ∧
        ∀ c ∈ p.2.dropLast, c.length = chunkSlots := by
  have hm : (h :: hs).length % 2 ^ 32 = (h :: hs).length := by
    have : maxHeaders = 4096 := rfl
    omega
  have hw := writePack_spec hash root h hs l e
  rw [hm] at hw
  have ho := open_of ⟨root, h.number, hash h, (h :: hs).length⟩ (h :: hs)
    (File.of (bodyOf (groupsOf l)) ++ some (.fin (tally l)) :: []) rfl (by simp) hn hf
  have hfile : File.of (.info ⟨root, h.number, hash h, (h :: hs).length⟩ :: ((h :: hs).map (fun x => Rec.header (some x)) ++
      (bodyOf (groupsOf l) ++ [.fin (tally l)]))) = some (.info ⟨root, h.number, hash h, (h :: hs).length⟩) ::
      ((h :: hs).map (fun x => some (Rec.header (some x))) ++ (File.of (bodyOf (groupsOf l)) ++ some (.fin (tally l)) :: [])) := by
    simp [File.of]
  refine ⟨_, _, _, l.map (fun a : Account => chunksOf a.storage), hw, (by rw [hfile]; exact ho), by simp, ⟨((groupsOf l).flatMap groupEntries).length + 1, ?_⟩, ?_⟩
  · have hz : (l.zip (l.map (fun a : Account => chunksOf a.storage))).flatMap
        (fun p : Account × List Slots => Entry.account p.1.acct :: p.2.map .storage) = (groupsOf l).flatMap groupEntries := by
      unfold groupsOf
      clear hw ho hfile
      induction l with
      | nil => rfl
      | cons a l ih => simp only [List.map_cons, List.zip_cons_cons, List.flatMap_cons, ih]; rfl
    rw [hz]
    exact drainEntries_spec (tally l) [] (groupsOf l)
      { info := ⟨root, h.number, hash h, (h :: hs).length⟩, headers := h :: hs,
        rest := File.of (bodyOf (groupsOf l)) ++ some (.fin (tally l)) :: [] }
      (groupsOf_bounded l) rfl rfl rfl
  · intro p hp
    have : p.2 = chunksOf p.1.storage := by
      have := List.mem_iff_getElem?.mp hp
      obtain ⟨i, hi⟩ := this
      simp only [List.getElem?_zip_eq_some, List.getElem?_map, Option.map_eq_some_iff] at hi
      obtain ⟨h1, a, h2, h3⟩ := hi
      rw [h1] at h2
      cases h2
      exact h3.symm
    rw [this]
    exact ⟨by simp [chunksOf, chunksFrom_flatten], chunksFrom_bounds _ [] (by decide), chunksFrom_full _ []⟩

/-- **What `verify` accepts can be read.** If any file, written by whomever, passes `verify`, both ways of reading
it succeed, agree with each other and with the report, and give no chunk above the bound. -/
theorem verify_readable {hash : Header → Nat} {f : File} {rep : Report} (h : verify hash f = .ok rep) :
    ∃ r as es, openPack f = .ok r ∧ r.headers.head?.map (fun x : Header => (x.root, x.number, hash x)) =
        some (r.info.root, r.info.number, r.info.hash) ∧
      (∃ n, drainAccounts n r = some (.ok as)) ∧ (∃ n, drainEntries n r = some (.ok es)) ∧
      (∃ gs : Groups, as = gs.map groupAccount ∧ es = gs.flatMap groupEntries ∧ Bounded gs ∧
        rep.stats.accounts = gs.length ∧
        rep.stats.slots = (gs.map (fun g : Acct × List Slots => g.2.flatten.length)).sum) := by
  obtain ⟨r, h0, hs, gs, foot, tail, h1, h2, h3, h4, h5, h6, h7, h8, h9, h10⟩ := verify_ok h
  obtain ⟨_, _, _, _, _, hp, hd⟩ := open_ok h1
  refine ⟨r, _, _, h1, by simp [h2, h3, h4, h5], ⟨_, drainAccounts_spec foot tail gs r h7 hd (by
    simp [Reader.stream, hp, h6])⟩, ⟨_, drainEntries_spec foot tail gs r h7 hd hp h6⟩, gs, rfl, rfl, h7, ?_, ?_⟩ <;>
    rw [h10]

/-- **Truncation.** Cut the file of any export off anywhere before its last record, or damage any record so that it
cannot be read, whatever follows: `verify` refuses it, and no way of reading it comes to an end without an error. -/
theorem truncated (hash : Header → Nat) (root : Nat) (hs : List Header) (l : List Account) {recs : List Rec} {st : Stats}
    (hw : writePack hash root hs l = .ok (recs, st)) (k : Nat) (hk : k < recs.length) (tail : File)
    (ht : tail = [] ∨ ∃ t, tail = none :: t) :
    (∀ rep, verify hash (File.of (recs.take k) ++ tail) ≠ .ok rep) ∧
    ∀ r, openPack (File.of (recs.take k) ++ tail) = .ok r →
      (∀ n as, drainAccounts n r ≠ some (.ok as)) ∧ (∀ n es, drainEntries n r ≠ some (.ok es)) := by
  apply noFin_refused
  apply noFin_of
  · intro s hm
    cases hs with
    | nil => simp [writePack, create, bind, Except.bind] at hw
    | cons h hs =>
      by_cases e : h.root = root
      · rw [writePack_spec hash root h hs l e] at hw
        simp only [Except.ok.injEq, Prod.mk.injEq] at hw
        obtain ⟨hw, _⟩ := hw
        have hlast : recs = (.info ⟨root, h.number, hash h, (h :: hs).length % 2 ^ 32⟩ ::
            ((h :: hs).map (fun x => Rec.header (some x)) ++ bodyOf (groupsOf l))) ++ [.fin (tally l)] := by
          rw [← hw]; simp
        have hk' : k ≤ (.info ⟨root, h.number, hash h, (h :: hs).length % 2 ^ 32⟩ ::
            ((h :: hs).map (fun x => Rec.header (some x)) ++ bodyOf (groupsOf l))).length := by
          rw [hlast, List.length_append, List.length_singleton] at hk
          omega
        rw [hlast, List.take_append_of_le_length hk'] at hm
        have hm := List.mem_of_mem_take hm
        simp only [bodyOf, List.mem_cons, List.mem_append, List.mem_map, List.mem_flatMap, reduceCtorEq,
          and_false, exists_false, or_self] at hm
      · simp [writePack, create, bind, Except.bind, e] at hw
  · rcases ht with rfl | ⟨t, rfl⟩ <;> rfl

/-- **Bounds.** Whatever a file holds, opening it keeps at most 4096 headers, at least one and as many as the 256
youngest ancestors of the block after it need; and no call yields more slots than the bound. -/
theorem bounded {f : File} {r : Reader} (h : openPack f = .ok r) :
    1 ≤ r.headers.length ∧ r.headers.length ≤ 4096 ∧ min r.info.number 256 ≤ r.headers.length ∧
    ∀ n es, drainEntries n r = some (.ok es) → ∀ c, Entry.storage c ∈ es → c.length ≤ chunkSlots := by
  obtain ⟨_, h1, h2, h3, h4, hp, hd⟩ := open_ok h
  refine ⟨by omega, by rw [h1]; exact h3, by rw [h1]; exact h4, ?_⟩
  have key : ∀ n (r : Reader) es, r.pending = none → drainEntries n r = some (.ok es) →
      ∀ c, Entry.storage c ∈ es → c.length ≤ chunkSlots := by
    intro n
    induction n with
    | zero => intro r es _ h; simp [drainEntries] at h
    | succ n ih =>
      intro r es hp h c hc
      have hpl : r.nextEntry.2.pending = none := by
        unfold Reader.nextEntry Reader.pull
        rw [hp]
        split
        · exact hp
        · dsimp only
          match r.rest with
          | [] => exact hp
          | none :: f => rfl
          | some (.storage c) :: f => by_cases hl : c.length ≤ chunkSlots <;> simp [hl]
          | some (.account c) :: f => rfl
          | some (.info c) :: f => rfl
          | some (.header c) :: f => rfl
          | some (.fin c) :: f => rfl
      have hne : ∀ c, r.nextEntry.1 = some (.ok (.storage c)) → c.length ≤ chunkSlots := by
        intro c
        unfold Reader.nextEntry Reader.pull
        rw [hp]
        split
        · simp
        · dsimp only
          match r.rest with
          | [] => simp
          | none :: f => simp
          | some (.storage d) :: f =>
            by_cases hl : d.length ≤ chunkSlots
            · simp only [hl, if_true]
              intro he
              simp only [Option.some.injEq, Except.ok.injEq, Entry.storage.injEq] at he
              rw [← he]; exact hl
            · simp [hl]
          | some (.account c) :: f => simp
          | some (.info c) :: f => simp
          | some (.header c) :: f => simp
          | some (.fin c) :: f => simp
      rw [drainEntries] at h
      match hn : r.nextEntry, h with
      | (none, r'), h =>
        simp only [Option.some.injEq, Except.ok.injEq] at h
        subst h
        simp at hc
      | (some (.error e), r'), h => simp at h
      | (some (.ok a), r'), h =>
        dsimp only at h
        cases hdr : drainEntries n r' with
        | none => rw [hdr] at h; simp at h
        | some y =>
          cases y with
          | error e => rw [hdr] at h; simp at h
          | ok l =>
            rw [hdr] at h
            simp only [Option.some.injEq, Except.ok.injEq] at h
            subst h
            rcases List.mem_cons.mp hc with hc | hc
            · exact hne c (by rw [hn, ← hc])
            · exact ih r' l (by rw [hn] at hpl; exact hpl) hdr c hc
  intro n es he
  exact key n r es hp he

/-- **The end is final.** After the end of the accounts, or an error, every further call returns `None`. -/
theorem latched (r : Reader) :
    ((∀ a, r.nextAccount.1 ≠ some (.ok a)) → ∀ n, ((fun x : Reader => x.nextAccount.2)^[n] r.nextAccount.2).nextAccount.1 = none) ∧
    ((∀ e, r.nextEntry.1 ≠ some (.ok e)) → ∀ n, ((fun x : Reader => x.nextEntry.2)^[n] r.nextEntry.2).nextEntry.1 = none) := by
  have fixA : ∀ r : Reader, r.done = true → r.nextAccount = (none, r) := by
    intro r h; simp [Reader.nextAccount, h]
  have fixE : ∀ r : Reader, r.done = true → r.nextEntry = (none, r) := by
    intro r h; simp [Reader.nextEntry, h]
  have gd : ∀ (r : Reader) (f : File) (acc : Slots) (e : Err) (r' : Reader), gather r f acc = (.error e, r') → r'.done = true := by
    intro r f
    induction f with
    | nil => intro acc e r' h; simp only [gather, Prod.mk.injEq] at h; rw [← h.2]
    | cons x f ih =>
      intro acc e r' h
      match x, h with
      | some (.storage c), h =>
        rw [gather] at h
        split at h
        · exact ih _ _ _ h
        · simp only [Prod.mk.injEq] at h; rw [← h.2]
      | some (.account _), h => simp [gather] at h
      | some (.info _), h => simp [gather] at h
      | some (.header _), h => simp [gather] at h
      | some (.fin _), h => simp [gather] at h
      | none, h => simp only [gather, Prod.mk.injEq] at h; rw [← h.2]
  constructor
  · intro h
    have hd : r.nextAccount.2.done = true := by
      unfold Reader.nextAccount at h ⊢
      by_cases hr : r.done = true
      · simp [hr]
      · simp only [hr, Bool.false_eq_true, if_false] at h ⊢
        match hp : r.pull, h with
        | (none, r'), _ => rfl
        | (some (.error e), r'), _ => rfl
        | (some (.ok (.fin _)), r'), _ => rfl
        | (some (.ok (.info _)), r'), _ => rfl
        | (some (.ok (.header _)), r'), _ => rfl
        | (some (.ok (.storage _)), r'), _ => rfl
        | (some (.ok (.account a)), r'), h =>
          dsimp only at h ⊢
          match hg : gather r' r'.rest [], h with
          | (.ok s, r''), h => exact absurd rfl (h _)
          | (.error e, r''), h => exact gd _ _ _ _ _ hg
    generalize r.nextAccount.2 = x at hd
    intro n
    have : (fun x : Reader => x.nextAccount.2)^[n] x = x := by
      induction n with
      | zero => rfl
      | succ n ih => rw [Function.iterate_succ_apply]; simp only [fixA x hd]; exact ih
    rw [this, fixA x hd]
  · intro h
    have hd : r.nextEntry.2.done = true := by
      unfold Reader.nextEntry at h ⊢
      by_cases hr : r.done = true
      · simp [hr]
      · simp only [hr, Bool.false_eq_true, if_false] at h ⊢
        match hp : r.pull, h with
        | (none, r'), _ => rfl
        | (some (.error e), r'), _ => rfl
        | (some (.ok (.fin _)), r'), _ => rfl
        | (some (.ok (.info _)), r'), _ => rfl
        | (some (.ok (.header _)), r'), _ => rfl
        | (some (.ok (.storage _)), r'), h => exact absurd rfl (h _)
        | (some (.ok (.account a)), r'), h => exact absurd rfl (h _)
    generalize r.nextEntry.2 = x at hd
    intro n
    have : (fun x : Reader => x.nextEntry.2)^[n] x = x := by
      induction n with
      | zero => rfl
      | succ n ih => rw [Function.iterate_succ_apply]; simp only [fixE x hd]; exact ih
    rw [this, fixE x hd]

/-! ## What `verify` does not look at -/

/-- **Finding.** What follows the footer is not looked at: a file that passes still passes, with the same report,
with anything behind it (a second export into the same directory, for one). -/
theorem tail_ignored {hash : Header → Nat} {f : File} {rep : Report} (h : verify hash f = .ok rep) (tail : File) :
    verify hash (f ++ tail) = .ok rep := by
  obtain ⟨r, h0, hs, gs, foot, tl, h1, h2, h3, h4, h5, h6, h7, h8, h9, h10⟩ := verify_ok h
  obtain ⟨e1, e2, e3, e4, e5, hp, hd⟩ := open_ok h1
  have hf : f ++ tail = some (.info r.info) :: (r.headers.map (fun x => some (Rec.header (some x))) ++
      (File.of (bodyOf gs) ++ some (.fin foot) :: (tl ++ tail))) := by
    rw [e1, h6]; simp
  unfold verify
  rw [hf, open_of _ _ _ e2 e3 e4 e5]
  dsimp only [bind, Except.bind]
  rw [h2]
  dsimp only
  rw [if_neg (by simp [h3]), if_neg (by simp [h4, h5]), walk_of _ _ _ _ _ h7]
  dsimp only
  rw [if_neg (by simp [h8])]
  obtain ⟨a, b⟩ := rep
  dsimp only at h9 h10
  subst h9 h10
  simp [pure, Except.pure]

/-- **Finding.** Of the footer's three tallies only the number of accounts is compared: any well-formed file
passes whatever tallies of slots and bytecodes its footer states. -/
theorem footer_tallies_ignored (hash : Header → Nat) (h0 : Header) (hs : List Header) (gs : Groups) (a b : Nat)
    (h1 : (h0 :: hs).length ≤ maxHeaders) (h2 : min h0.number ancestors ≤ (h0 :: hs).length) (hb : Bounded gs) :
    verify hash (some (.info ⟨h0.root, h0.number, hash h0, (h0 :: hs).length⟩) ::
      ((h0 :: hs).map (fun x => some (Rec.header (some x))) ++
        (File.of (bodyOf gs) ++ [some (.fin ⟨gs.length, a, b⟩)]))) =
      .ok ⟨(h0 :: hs).length, ⟨gs.length, (gs.map (fun g : Acct × List Slots => g.2.flatten.length)).sum,
        (gs.filter (fun g : Acct × List Slots => hasCode g.1)).length⟩⟩ := by
  unfold verify
  rw [open_of _ _ _ rfl (by simp) h1 h2]
  dsimp only [bind, Except.bind]
  rw [if_neg (by simp), if_neg (by simp), walk_of _ _ _ _ _ hb]
  simp [pure, Except.pure]

/-! ## A concrete case -/

/-- Two accounts, one with code and two slots, one without; a block with its one ancestor. -/
example : (match writePack (fun h => h.number + 100) 7 [⟨2, 101, 7, 0⟩, ⟨1, 100, 6, 0⟩]
      [⟨⟨5, 1, 10, some [96]⟩, [(1, 4), (3, 9)]⟩, ⟨⟨8, 0, 20, none⟩, []⟩] with
    | .ok (recs, st) => (st, verify (fun h => h.number + 100) (File.of recs) |>.toOption,
        (openPack (File.of recs)).toOption.bind (drainAccounts 3) |>.bind Except.toOption,
        (verify (fun h => h.number + 100) (File.of recs.dropLast) |>.toOption))
    | .error _ => ({}, none, none, none)) =
    (⟨2, 2, 1⟩, some ⟨2, ⟨2, 2, 1⟩⟩,
      some [⟨⟨5, 1, 10, some [96]⟩, [(1, 4), (3, 9)]⟩, ⟨⟨8, 0, 20, none⟩, []⟩], none) := by decide +kernel

end Verif.Snapshot
