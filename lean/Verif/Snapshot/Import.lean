import Verif.Snapshot.Window
import Mathlib.Data.Set.Countable

/-!
# The restored state

What the state is that a restore leaves, for a pack of any origin and for one an honest node has exported.
-/
namespace Verif.Snapshot

/-! ## Specification -/

/-- The view given by two finite tables. -/
def viewOf (L : List (Nat × (Nat × Nat × Nat))) (S : List ((Nat × Nat) × Nat)) : View :=
  (fun a => L.lookup a, fun a k => (S.lookup (a, k)).getD 0)

/-- A view that can be a state: finitely many accounts and slots, and slots only under accounts. -/
structure Proper (v : View) : Prop where
  fin : ∃ L S, v = viewOf L S
  owned : ∀ a k, v.1 a = none → v.2 a k = 0

/-- No two states have the same root. -/
def NoCollision (rootOf : View → Nat) : Prop := ∀ v w, Proper v → Proper w → rootOf v = rootOf w → v = w

/-- There are such roots, so the hypothesis is not void. -/
theorem noCollision_exists : ∃ rootOf, NoCollision rootOf := by
  have hc : Set.Countable {v : View | Proper v} := by
    have hr : (Set.range (fun p : List (Nat × (Nat × Nat × Nat)) × List ((Nat × Nat) × Nat) => viewOf p.1 p.2)).Countable :=
      Set.countable_range _
    refine hr.mono ?_
    intro v hv
    obtain ⟨L, S, h⟩ := hv.fin
    exact ⟨(L, S), h.symm⟩
  obtain ⟨f, hf⟩ := Set.countable_iff_exists_injOn.mp hc
  exact ⟨f, fun v w hv hw h => hf hv hw h⟩

/-- No slot occurs twice in a record. -/
def Clean (f : File) : Prop := ∀ c, some (Rec.storage c) ∈ f → (c.map Prod.fst).Nodup

/-! ## Reading to the end -/

theorem pull_stream {r r' : Reader} {x : Rec} (h : r.pull = (some (.ok x), r')) :
    r.stream.length = r'.stream.length + 1 ∧ (∀ c, x = .storage c → some (Rec.storage c) ∈ r.stream) ∧
      (∀ y ∈ r'.stream, y ∈ r.stream) := by
  unfold Reader.pull at h
  cases hp : r.pending with
  | some y =>
    rw [hp] at h
    simp only [Prod.mk.injEq, Option.some.injEq, Except.ok.injEq] at h
    obtain ⟨rfl, rfl⟩ := h
    simp only [Reader.stream, hp, List.nil_append, List.length_cons, List.singleton_append]
    exact ⟨trivial, fun c hc => by simp [hc], fun y hy => by simp [hy]⟩
  | none =>
    rw [hp] at h
    dsimp only at h
    cases hr : r.rest with
    | nil => rw [hr] at h; simp at h
    | cons z f =>
      rw [hr] at h
      have main : ∀ q : Reader, q = { r with rest := f, pending := none } → r.stream.length = q.stream.length + 1 ∧
          (∀ y ∈ q.stream, y ∈ r.stream) ∧ r.stream = z :: f := by
        intro q hq
        subst hq
        simp only [Reader.stream, hp, hr, List.nil_append, List.length_cons]
        exact ⟨trivial, fun y hy => by simp [hy], trivial⟩
      cases z with
      | none => simp at h
      | some z =>
        cases z with
        | storage c =>
          dsimp only at h
          split at h
          · simp only [Prod.mk.injEq, Option.some.injEq, Except.ok.injEq] at h
            obtain ⟨rfl, h⟩ := h
            obtain ⟨h1, h2, h3⟩ := main r' (h.symm.trans (by rfl))
            refine ⟨h1, ?_, h2⟩
            intro c' hc
            rw [h3]; cases hc; simp
          · simp at h
        | info _ =>
          simp only [Prod.mk.injEq, Option.some.injEq, Except.ok.injEq] at h
          obtain ⟨rfl, h⟩ := h
          obtain ⟨h1, h2, _⟩ := main r' (h.symm.trans (by rfl))
          exact ⟨h1, fun c hc => (by cases hc), h2⟩
        | header _ =>
          simp only [Prod.mk.injEq, Option.some.injEq, Except.ok.injEq] at h
          obtain ⟨rfl, h⟩ := h
          obtain ⟨h1, h2, _⟩ := main r' (h.symm.trans (by rfl))
          exact ⟨h1, fun c hc => (by cases hc), h2⟩
        | account _ =>
          simp only [Prod.mk.injEq, Option.some.injEq, Except.ok.injEq] at h
          obtain ⟨rfl, h⟩ := h
          obtain ⟨h1, h2, _⟩ := main r' (h.symm.trans (by rfl))
          exact ⟨h1, fun c hc => (by cases hc), h2⟩
        | fin _ =>
          simp only [Prod.mk.injEq, Option.some.injEq, Except.ok.injEq] at h
          obtain ⟨rfl, h⟩ := h
          obtain ⟨h1, h2, _⟩ := main r' (h.symm.trans (by rfl))
          exact ⟨h1, fun c hc => (by cases hc), h2⟩

theorem nextEntry_stream {r r' : Reader} {e : Entry} (h : r.nextEntry = (some (.ok e), r')) :
    r.stream.length = r'.stream.length + 1 ∧ (∀ c, e = .storage c → some (Rec.storage c) ∈ r.stream) ∧
      (∀ y ∈ r'.stream, y ∈ r.stream) := by
  unfold Reader.nextEntry at h
  split at h
  · simp at h
  · split at h <;> simp only [Prod.mk.injEq, Option.some.injEq, Except.ok.injEq, reduceCtorEq, false_and] at h
    · rename_i hp
      obtain ⟨rfl, rfl⟩ := h
      obtain ⟨h1, _, h3⟩ := pull_stream hp
      exact ⟨h1, fun c hc => (by cases hc), h3⟩
    · rename_i hp
      obtain ⟨rfl, rfl⟩ := h
      obtain ⟨h1, h2, h3⟩ := pull_stream hp
      exact ⟨h1, fun c hc => h2 c (by cases hc; rfl), h3⟩

/-- Reading always comes to an end. -/
theorem drainEntries_total : ∀ (n : Nat) (r : Reader), r.stream.length < n → (drainEntries n r).isSome := by
  intro n
  induction n with
  | zero => intro r h; omega
  | succ n ih =>
    intro r h
    rw [drainEntries]
    split
    · rfl
    · rfl
    · rename_i e r' hn
      have := (nextEntry_stream hn).1
      have := ih r' (by omega)
      cases hd : drainEntries n r' with
      | none => rw [hd] at this; cases this
      | some x => cases x <;> rfl

theorem drainEntries_mem : ∀ (n : Nat) (r : Reader) (es : List Entry), drainEntries n r = some (.ok es) →
    ∀ c, Entry.storage c ∈ es → some (Rec.storage c) ∈ r.stream := by
  intro n
  induction n with
  | zero => intro r es h; simp [drainEntries] at h
  | succ n ih =>
    intro r es h c hc
    rw [drainEntries] at h
    split at h
    · simp only [Option.some.injEq, Except.ok.injEq] at h
      subst h
      cases hc
    · simp at h
    · rename_i e r' hn
      obtain ⟨_, h2, h3⟩ := nextEntry_stream hn
      split at h
      · rename_i l hl
        simp only [Option.some.injEq, Except.ok.injEq] at h
        subst h
        rcases List.mem_cons.mp hc with hc | hc
        · exact h2 c hc.symm
        · exact h3 _ (ih r' l hl c hc)
      · rename_i hne
        exact absurd h (hne es)

/-- More calls change nothing. -/
theorem drainEntries_mono : ∀ (n m : Nat) (r : Reader) (x : Except Err (List Entry)), n ≤ m → drainEntries n r = some x →
    drainEntries m r = some x := by
  intro n
  induction n with
  | zero => intro m r x _ h; simp [drainEntries] at h
  | succ n ih =>
    intro m r x hm h
    obtain ⟨m, rfl⟩ : ∃ k, m = k + 1 := ⟨m - 1, by omega⟩
    rw [drainEntries] at h ⊢
    split at h
    · exact h
    · exact h
    · rename_i e r' hn
      cases hd : drainEntries n r' with
      | none => rw [hd] at h; simp at h
      | some y =>
        rw [hd] at h
        rw [ih m r' y (by omega) hd]
        exact h

theorem readAll_of {r : Reader} {n : Nat} {es : List Entry} (h : drainEntries n r = some (.ok es)) : readAll r = .ok es := by
  unfold readAll
  have ht := drainEntries_total (r.stream.length + 1) r (by omega)
  obtain ⟨x, hx⟩ := Option.isSome_iff_exists.mp ht
  have h1 := drainEntries_mono n (max n (r.stream.length + 1)) r _ (by omega) h
  have h2 := drainEntries_mono _ (max n (r.stream.length + 1)) r _ (by omega) hx
  rw [h1] at h2
  cases h2
  rw [hx]

theorem readAll_mem {r : Reader} {es : List Entry} (h : readAll r = .ok es) :
    ∀ c, Entry.storage c ∈ es → some (Rec.storage c) ∈ r.stream := by
  unfold readAll at h
  split at h
  · rename_i es' hd
    simp only [Except.ok.injEq] at h
    subst h
    exact drainEntries_mem _ _ _ hd
  · cases h
  · rename_i hd
    have := drainEntries_total (r.stream.length + 1) r (by omega)
    rw [hd] at this
    cases this

/-! ## Slots -/

theorem writeSlots_append (m : Nat → Nat → Nat) (a : Nat) (c d : Slots) :
    writeSlots m a (c ++ d) = writeSlots (writeSlots m a c) a d := by
  unfold writeSlots
  rw [List.foldl_append]

theorem setSlot_comm (m : Nat → Nat → Nat) (a k v k' v' : Nat) (h : k ≠ k') :
    setSlot (setSlot m a k v) a k' v' = setSlot (setSlot m a k' v') a k v := by
  funext x y
  unfold setSlot
  by_cases h1 : x = a ∧ y = k
  · by_cases h2 : x = a ∧ y = k'
    · omega
    · rw [if_neg h2, if_pos h1, if_pos h1]
  · by_cases h2 : x = a ∧ y = k'
    · rw [if_pos h2, if_neg h1, if_pos h2]
    · rw [if_neg h2, if_neg h1, if_neg h1, if_neg h2]

theorem keys_ne {c : Slots} (h : (c.map Prod.fst).Nodup) : ∀ x ∈ c, ∀ y ∈ c, x = y ∨ x.1 ≠ y.1 := by
  induction c with
  | nil => simp
  | cons z c ih =>
    rw [List.map_cons, List.nodup_cons] at h
    have hz : ∀ y ∈ c, z.1 ≠ y.1 := fun y hy e => h.1 (e ▸ List.mem_map_of_mem hy)
    intro x hx y hy
    rcases List.mem_cons.mp hx with ex | hx
    · rcases List.mem_cons.mp hy with ey | hy
      · exact .inl (ex.trans ey.symm)
      · exact .inr (ex ▸ hz y hy)
    · rcases List.mem_cons.mp hy with ey | hy
      · exact .inr (fun e => hz x hx (ey ▸ e.symm))
      · exact ih h.2 x hx y hy

theorem writeSlots_perm {c d : Slots} (h : c.Perm d) (hn : (c.map Prod.fst).Nodup) (m : Nat → Nat → Nat) (a : Nat) :
    writeSlots m a c = writeSlots m a d := by
  unfold writeSlots
  refine h.foldl_eq' ?_ m
  intro x hx y hy z
  rcases keys_ne hn x hx y hy with rfl | hne
  · rfl
  · exact setSlot_comm z a x.1 x.2 y.1 y.2 hne

theorem writeSlots_other (a : Nat) : ∀ (c : Slots) (m : Nat → Nat → Nat) (x k : Nat), (x = a → ∀ s ∈ c, s.1 ≠ k) →
    writeSlots m a c x k = m x k := by
  intro c
  induction c with
  | nil => intro m x k _; rfl
  | cons s c ih =>
    intro m x k h
    show writeSlots (setSlot m a s.1 s.2) a c x k = _
    rw [ih _ x k (fun e t ht => h e t (by simp [ht]))]
    unfold setSlot
    rw [if_neg]
    intro ⟨h1, h2⟩
    exact h h1 s (by simp) h2.symm

theorem writeSlots_lookup (a : Nat) : ∀ (c : Slots) (m : Nat → Nat → Nat) (k : Nat), (c.map Prod.fst).Nodup →
    writeSlots m a c a k = (c.lookup k).getD (m a k) := by
  intro c
  induction c with
  | nil => intro m k _; rfl
  | cons s c ih =>
    intro m k h
    rw [List.map_cons, List.nodup_cons] at h
    show writeSlots (setSlot m a s.1 s.2) a c a k = _
    obtain ⟨k0, v0⟩ := s
    dsimp only at h
    rw [List.lookup_cons]
    by_cases hk : k = k0
    · subst hk
      rw [writeSlots_other a c _ a k (fun _ t ht e => h.1 (e ▸ List.mem_map_of_mem ht))]
      simp [setSlot]
    · have hb : (k == k0) = false := by simpa using hk
      rw [hb, ih _ k h.2]
      simp [setSlot, hk]

theorem ascending_nodup {c : Slots} (h : Ascending c) : (c.map Prod.fst).Nodup := by
  have : (c.map Prod.fst).Pairwise (· < ·) := List.pairwise_map.mpr h
  exact this.imp (fun h => Nat.ne_of_lt h)

/-! ## What holds while a pack is imported -/

/-- What holds of the tables between two entries; `cur` is the account whose slots may follow. -/
structure Inv (E : Env) (emptyHash : Nat) (cur : Option Nat) (db : Db) : Prop where
  proper : Proper (db.hashedView emptyHash)
  cur : ∀ a, cur = some a → (db.rows a).isSome
  code : ∀ a r h, db.rows a = some r → r.codeHash = some h → ∃ c, db.codes h = some c ∧ E.codeHash c = h ∧ c ≠ []

theorem proper_row {emptyHash : Nat} {db : Db} (h : Proper (db.hashedView emptyHash)) (a : Nat) (r : Row) {db' : Db}
    (h1 : db'.rows = fun x => if x = a then some r else db.rows x) (h2 : db'.hashed = db.hashed) :
    Proper (db'.hashedView emptyHash) := by
  obtain ⟨⟨L, S, hLS⟩, ho⟩ := h
  have e1 : (fun x => (db.rows x).map (viewRow emptyHash)) = fun x => L.lookup x := congrArg Prod.fst hLS
  have e2 : db.hashed = fun a k => (S.lookup (a, k)).getD 0 := congrArg Prod.snd hLS
  refine ⟨⟨(a, viewRow emptyHash r) :: L, S, ?_⟩, ?_⟩
  · unfold Db.hashedView viewOf
    rw [h1, h2, e2]
    congr 1
    funext x
    rw [List.lookup_cons, ← congrFun e1 x]
    by_cases hx : x = a
    · subst hx; simp
    · have hb : (x == a) = false := by simpa using hx
      simp [hx, hb]
  · intro x k hx
    unfold Db.hashedView at hx ⊢
    dsimp only at hx ⊢
    rw [h1] at hx
    dsimp only at hx
    rw [h2]
    split at hx
    · cases hx
    · exact ho x k hx

theorem writeSlots_finite (a : Nat) : ∀ (c : Slots) (S : List ((Nat × Nat) × Nat)),
    ∃ S' : List ((Nat × Nat) × Nat), writeSlots (fun a k => (S.lookup (a, k)).getD 0) a c = fun a k => (S'.lookup (a, k)).getD 0 := by
  intro c
  induction c with
  | nil => intro S; exact ⟨S, rfl⟩
  | cons s c ih =>
    intro S
    obtain ⟨S', h⟩ := ih (((a, s.1), s.2) :: S)
    refine ⟨S', ?_⟩
    rw [← h]
    show writeSlots (setSlot _ a s.1 s.2) a c = _
    congr 1
    funext x k
    unfold setSlot
    rw [List.lookup_cons]
    by_cases hx : x = a ∧ k = s.1
    · obtain ⟨rfl, rfl⟩ := hx; simp
    · have hb : (((x, k) : Nat × Nat) == (a, s.1)) = false := by
        rw [beq_eq_false_iff_ne]; intro e; cases e; exact hx ⟨rfl, rfl⟩
      simp only [hb, if_neg hx]

theorem proper_chunk {emptyHash : Nat} {db : Db} (h : Proper (db.hashedView emptyHash)) (a : Nat) (c : Slots) {db' : Db}
    (ha : (db.rows a).isSome) (h1 : db'.rows = db.rows) (h2 : db'.hashed = writeSlots db.hashed a c) :
    Proper (db'.hashedView emptyHash) := by
  obtain ⟨⟨L, S, hLS⟩, ho⟩ := h
  have e1 : (fun x => (db.rows x).map (viewRow emptyHash)) = fun x => L.lookup x := congrArg Prod.fst hLS
  have e2 : db.hashed = fun a k => (S.lookup (a, k)).getD 0 := congrArg Prod.snd hLS
  obtain ⟨S', hS⟩ := writeSlots_finite a c S
  refine ⟨⟨L, S', ?_⟩, ?_⟩
  · unfold Db.hashedView viewOf
    rw [h1, h2, e1, e2, hS]
  · intro x k hx
    unfold Db.hashedView at hx ⊢
    dsimp only at hx ⊢
    rw [h1] at hx
    rw [h2, writeSlots_other]
    · exact ho x k hx
    · intro e
      subst e
      rw [Option.map_eq_none_iff] at hx
      rw [hx] at ha
      cases ha

theorem writeAccount_ok {E : Env} {emptyHash : Nat} {cur : Option Nat} {db db' : Db} {a : Acct}
    (hi : Inv E emptyHash cur db) (h : writeAccount E db a = .ok db') :
    Inv E emptyHash (some a.addr) db' ∧ db'.plain = db.plain ∧ db'.hashed = db.hashed := by
  have none_case : ∀ q : Db, q = { db with rows := fun x => if x = a.addr then some ⟨a.nonce, a.balance, none⟩ else db.rows x } →
      Inv E emptyHash (some a.addr) q ∧ q.plain = db.plain ∧ q.hashed = db.hashed := by
    intro q hq
    subst hq
    refine ⟨⟨proper_row hi.proper _ _ rfl rfl, ?_, ?_⟩, rfl, rfl⟩
    · intro x hx; cases hx; simp
    · intro x r h' hr hh
      dsimp only at hr ⊢
      split at hr
      · cases hr; cases hh
      · exact hi.code x r h' hr hh
  unfold writeAccount at h
  cases hc : a.code with
  | none =>
    rw [hc] at h
    simp only [Except.ok.injEq] at h
    exact none_case _ h.symm
  | some c =>
    rw [hc] at h
    dsimp only at h
    split at h
    · simp only [Except.ok.injEq] at h
      exact none_case _ h.symm
    · rename_i hne
      split at h
      · simp only [Except.ok.injEq] at h
        subst h
        refine ⟨⟨proper_row hi.proper _ _ rfl rfl, ?_, ?_⟩, rfl, rfl⟩
        · intro x hx; cases hx; simp
        · intro x r h' hr hh
          dsimp only at hr ⊢
          by_cases he : h' = E.codeHash c
          · rw [if_pos he]
            exact ⟨c, rfl, he.symm, by rintro rfl; exact hne rfl⟩
          · rw [if_neg he]
            split at hr
            · cases hr
              dsimp only at hh
              cases hh
              exact absurd rfl he
            · exact hi.code x r h' hr hh
      · cases h

theorem repeats_nodup {T : List (Nat × Nat)} {a : Nat} {c : Slots} (h : repeats T a c = false) : (c.map Prod.fst).Nodup := by
  unfold repeats at h
  rw [Bool.or_eq_false_iff] at h
  have h1 := h.1
  simp only [Bool.not_eq_eq_eq_not, Bool.not_false, decide_eq_true_eq] at h1
  have : c.map (fun s => (a, s.1)) = (c.map Prod.fst).map (fun k => (a, k)) := by simp
  rw [this] at h1
  exact h1.of_map

theorem importAll_account (E : Env) (a : Acct) (es : List Entry) (cur : Option Nat) (db : Db) :
    importAll E (.account a :: es) cur db =
      if ¬ above cur a.addr = true then .error .order
      else (writeAccount E db a).bind (fun db => importAll E es (some a.addr) db) := rfl

theorem importAll_storage (E : Env) (c : Slots) (es : List Entry) (a : Nat) (db : Db) :
    importAll E (.storage c :: es) (some a) db = (writeChunk E db a c).bind (fun db => importAll E es (some a) db) := rfl

/-- Whatever entries are imported, what is left is a proper state with its codes; and the table the node reads holds the
same as the one the root is computed from, if no record repeats a slot or the index refuses that. -/
theorem importAll_inv {E : Env} {emptyHash : Nat} (hord : ∀ c, (E.ord c).Perm c) : ∀ (es : List Entry) (cur : Option Nat) (db db' : Db),
    Inv E emptyHash cur db → importAll E es cur db = .ok db' → ∃ cur', Inv E emptyHash cur' db' ∧
      ((E.strict = true ∨ ∀ c, Entry.storage c ∈ es → (c.map Prod.fst).Nodup) → db.plain = db.hashed → db'.plain = db'.hashed) := by
  intro es
  induction es with
  | nil =>
    intro cur db db' hi h
    simp only [importAll, Except.ok.injEq] at h
    subst h
    exact ⟨cur, hi, fun _ h => h⟩
  | cons e es ih =>
    intro cur db db' hi h
    cases e with
    | account a =>
      rw [importAll_account] at h
      split at h
      · cases h
      · dsimp only [Except.bind] at h
        cases hw : writeAccount E db a with
        | error e => rw [hw] at h; cases h
        | ok d =>
          rw [hw] at h
          obtain ⟨h1, h2, h3⟩ := writeAccount_ok hi hw
          obtain ⟨cur', h4, h5⟩ := ih _ _ _ h1 h
          refine ⟨cur', h4, fun hs hp => h5 ?_ (by rw [h2, h3, hp])⟩
          rcases hs with hs | hs
          · exact .inl hs
          · exact .inr (fun c hc => hs c (by simp [hc]))
    | storage c =>
      cases cur with
      | none => cases h
      | some a =>
        rw [importAll_storage] at h
        dsimp only [Except.bind] at h
        cases hw : writeChunk E db a c with
        | error e => rw [hw] at h; cases h
        | ok d =>
          rw [hw] at h
          dsimp only at h
          unfold writeChunk at hw
          split at hw
          · cases hw
          · rename_i hrep
            simp only [Except.ok.injEq] at hw
            have d1 : d.rows = db.rows := by rw [← hw]
            have d2 : d.hashed = writeSlots db.hashed a c := by rw [← hw]
            have d3 : d.codes = db.codes := by rw [← hw]
            have d4 : d.plain = writeSlots db.plain a (E.ord c) := by rw [← hw]
            have hi' : Inv E emptyHash (some a) d := by
              refine ⟨proper_chunk hi.proper a c (hi.cur a rfl) d1 d2, ?_, ?_⟩
              · rw [d1]; exact hi.cur
              · rw [d1, d3]; exact hi.code
            obtain ⟨cur', h4, h5⟩ := ih _ _ _ hi' h
            refine ⟨cur', h4, fun hs hp => h5 ?_ ?_⟩
            · rcases hs with hs | hs
              · exact .inl hs
              · exact .inr (fun c hc => hs c (by simp [hc]))
            · have hn : (c.map Prod.fst).Nodup := by
                rcases hs with hs | hs
                · rw [hs, Bool.true_and] at hrep
                  exact repeats_nodup (by simpa using hrep)
                · exact hs c (by simp)
              rw [d4, d2, hp]
              exact (writeSlots_perm (hord c).symm hn _ _).symm

theorem cleared_inv (E : Env) (emptyHash : Nat) (codes : Nat → Option (List Nat)) : Inv E emptyHash none (Db.cleared codes) where
  proper := ⟨⟨[], [], rfl⟩, fun _ _ _ => rfl⟩
  cur := by intro a h; cases h
  code := by intro a r h hr; cases hr

/-- What an accepted import is. -/
theorem restorePack_ok {hash : Header → Nat} {E : Env} {emptyHash : Nat} {rootOf : View → Nat} {ready : View → Nat → Bool} {tip : Nat}
    {gc : Nat → Option (List Nat)} {f : File} {final : Nat × Nat} {window : List Header} {db : Db}
    (h : restorePack hash E emptyHash rootOf ready tip gc f = .ok (final, window, db)) :
    ∃ r es last, openPack f = .ok r ∧ readAll r = .ok es ∧ final = (r.info.number, r.info.hash) ∧ tip = 0 ∧
      window = scaffoldWindow r.headers ∧ checkWindow hash window final = .ok () ∧
      importAll E es none (Db.cleared gc) = .ok db ∧ window.getLast? = some last ∧
      rootOf (db.hashedView emptyHash) = r.info.root ∧ last.root = r.info.root ∧
      ready (db.plainView emptyHash) final.1 = true := by
  unfold restorePack at h
  cases ho : openPack f with
  | error e => rw [ho] at h; cases h
  | ok r =>
    rw [ho] at h
    dsimp only [bind, Except.bind] at h
    split at h
    · cases h
    · rename_i htip
      cases hw : checkWindow hash (scaffoldWindow r.headers) (r.info.number, r.info.hash) with
      | error e => rw [hw] at h; cases h
      | ok u =>
        rw [hw] at h
        dsimp only at h
        cases hi : importState E emptyHash rootOf r ((scaffoldWindow r.headers).getLast?.map (fun h => h.root)) (Db.cleared gc) with
        | error e => rw [hi] at h; cases h
        | ok d =>
          rw [hi] at h
          dsimp only at h
          split at h
          · rename_i hready
            have h' : Except.ok ((r.info.number, r.info.hash), scaffoldWindow r.headers, d) = (Except.ok (final, window, db) : Except RErr _) := h
            simp only [Except.ok.injEq, Prod.mk.injEq] at h'
            obtain ⟨rfl, rfl, rfl⟩ := h'
            unfold importState at hi
            dsimp only [bind, Except.bind] at hi
            cases hes : readAll r with
            | error e => rw [hes] at hi; cases hi
            | ok es =>
              rw [hes] at hi
              dsimp only at hi
              cases hia : importAll E es none (Db.cleared gc) with
              | error e => rw [hia] at hi; cases hi
              | ok d' =>
                rw [hia] at hi
                dsimp only at hi
                split at hi
                · cases hi
                · rename_i hroot
                  have hroot := Classical.not_not.mp hroot
                  cases hl : (scaffoldWindow r.headers).getLast? with
                  | none => rw [hl] at hi; cases hi
                  | some last =>
                    rw [hl] at hi
                    dsimp only [Option.map_some] at hi
                    split at hi
                    · cases hi
                    · rename_i hhr
                      have hhr := Classical.not_not.mp hhr
                      have hd : d' = d := by
                        have : Except.ok d' = (Except.ok d : Except RErr Db) := hi
                        simpa using this
                      subst hd
                      exact ⟨r, es, last, rfl, hes, rfl, by omega, rfl, hw, hia, rfl, hroot, hhr.trans hroot, hready⟩
          · cases h

theorem open_stream {f : File} {r : Reader} (h : openPack f = .ok r) : ∀ y ∈ r.stream, y ∈ f := by
  obtain ⟨h1, _, _, _, _, hp, _⟩ := open_ok h
  intro y hy
  simp only [Reader.stream, hp, List.nil_append] at hy
  rw [h1]
  simp [hy]

/-- **What is restored.** Whoever made the pack: if a restore succeeds for the block `b` of a chain, whose header
commits to the state `v`, then, hashes not colliding, the headers it has written are those of the chain, the state
the root was computed from is `v`, every code an account names is there, and the state the node will read is `v` as
well, provided no record of the pack repeats a slot or reth's history index refuses that. -/
theorem restored_state {hash : Header → Nat} (hinj : Function.Injective hash) {chain : Nat → Header} (hc : Canonical hash chain)
    {E : Env} (hord : ∀ c, (E.ord c).Perm c) {emptyHash : Nat} {rootOf : View → Nat} (hroot : NoCollision rootOf)
    {ready : View → Nat → Bool} {tip : Nat} {gc : Nat → Option (List Nat)} {f : File} {b : Nat} {window : List Header} {db : Db}
    {v : View} (hv : Proper v) (hb : (chain b).root = rootOf v)
    (h : restorePack hash E emptyHash rootOf ready tip gc f = .ok ((b, hash (chain b)), window, db)) :
    (∃ lo, 1 ≤ lo ∧ lo ≤ max (b - 255) 1 ∧ window = stretch chain lo b) ∧
    db.hashedView emptyHash = v ∧
    ((E.strict = true ∨ Clean f) → db.plainView emptyHash = v) ∧
    (∀ a r k, db.rows a = some r → r.codeHash = some k → ∃ c, db.codes k = some c ∧ E.codeHash c = k ∧ c ≠ []) := by
  obtain ⟨r, es, last, h1, h2, h3, h4, h5, h6, h7, h8, h9, h10, h11⟩ := restorePack_ok h
  obtain ⟨lo, w1, w2, w3, w4⟩ := window_canonical hinj hc h6
  obtain ⟨cur', hi, hp⟩ := importAll_inv hord es none _ db (cleared_inv E emptyHash gc) h7
  have hlast : last = chain b := by
    have hg := stretch_getElem? (chain := chain) w2 (Nat.le_refl b)
    rw [w4, List.getLast?_eq_getElem?] at h8
    have hlen : (stretch chain lo b).length - 1 = b - lo := by simp [stretch]; omega
    rw [hlen, hg] at h8
    cases h8
    rfl
  have hvw : db.hashedView emptyHash = v := by
    refine hroot _ _ hi.proper hv ?_
    rw [h9, ← h10, hlast, hb]
  refine ⟨⟨lo, w1, w3, w4⟩, hvw, ?_, hi.code⟩
  intro hcl
  rw [← hvw]
  unfold Db.plainView Db.hashedView
  rw [hp ?_ rfl]
  rcases hcl with hcl | hcl
  · exact .inl hcl
  · exact .inr (fun c hc' => hcl c (open_stream h1 _ (readAll_mem h2 c hc')))

end Verif.Snapshot
