import Verif.Storage.CompositeProps
/-
C116: the database of the node: reads, durability, answers of `persist`, and all or nothing for transactions.
-/
namespace Verif
namespace Comp
open Layered (KV Op DB Ev depth applyOps)
variable {V : Type}

theorem inUse_iff {hs : List (Option Handle)} {h : Hint} {id : Nat} :
    inUse hs h id = true ↔ ∃ (i : Nat) (x : Handle), hs[i]? = some (some x) ∧ x.tx h = some id := by
  unfold inUse
  rw [List.any_eq_true]
  constructor
  · rintro ⟨y, hy, he⟩
    obtain ⟨i, hi⟩ := List.mem_iff_getElem?.mp hy
    cases y with
    | none => cases he
    | some x => exact ⟨i, x, hi, eq_of_beq he⟩
  · rintro ⟨i, x, hi, he⟩
    exact ⟨some x, List.mem_iff_getElem?.mpr ⟨i, hi⟩, beq_iff_eq.mpr he⟩

/-- Every transaction not ended has a handle. -/
def Held (s : State V) : Prop :=
  ∀ (h : Hint) (id : Nat), (s.begun h)[id]? = some false → inUse s.handles h id = true

theorem end_begun (s : State V) (h h' : Hint) (id : Nat) :
    (endTx s h id).begun h' = if h' = h then (s.begun h).set id true else s.begun h' := rfl

theorem commitOne_begun (x : Handle) (s : State V) (h h' : Hint) (id : Nat)
    (hf : ((commitOne x s h).begun h')[id]? = some false) :
    (s.begun h')[id]? = some false ∧ ¬ (h' = h ∧ x.tx h = some id) := by
  unfold commitOne at hf
  cases hx : x.tx h with
  | none => rw [hx] at hf; exact ⟨hf, fun c => (nomatch c.2)⟩
  | some k =>
    rw [hx] at hf
    dsimp only at hf
    by_cases hk : (s.begun h)[k]? = some false
    · rw [if_pos hk, end_begun] at hf
      by_cases hh : h' = h
      · subst hh
        rw [if_pos rfl, List.getElem?_set] at hf
        split at hf
        · split at hf <;> cases hf
        · rename_i hne
          exact ⟨hf, fun c => hne (Option.some.inj c.2)⟩
      · rw [if_neg hh] at hf
        exact ⟨hf, fun c => hh c.1⟩
    · rw [if_neg hk] at hf
      refine ⟨hf, fun c => ?_⟩
      obtain ⟨rfl, h2⟩ := c
      cases h2
      exact hk hf

theorem dropOne_begun (x : Handle) (s : State V) (h h' : Hint) (id : Nat)
    (hf : ((dropOne x s h).begun h')[id]? = some false) :
    (s.begun h')[id]? = some false ∧ ((h' = h ∧ x.tx h = some id) → inUse s.handles h id = true) := by
  unfold dropOne at hf
  cases hx : x.tx h with
  | none => rw [hx] at hf; exact ⟨hf, fun c => (nomatch c.2)⟩
  | some k =>
    rw [hx] at hf
    dsimp only at hf
    by_cases hk : (s.begun h)[k]? = some false ∧ inUse s.handles h k = false
    · rw [if_pos hk, end_begun] at hf
      by_cases hh : h' = h
      · subst hh
        rw [if_pos rfl, List.getElem?_set] at hf
        split at hf
        · split at hf <;> cases hf
        · rename_i hne
          exact ⟨hf, fun c => absurd (Option.some.inj c.2) hne⟩
      · rw [if_neg hh] at hf
        exact ⟨hf, fun c => absurd c.1 hh⟩
    · rw [if_neg hk] at hf
      refine ⟨hf, fun c => ?_⟩
      obtain ⟨rfl, h2⟩ := c
      cases h2
      cases hu : inUse s.handles h' id with
      | true => rfl
      | false => exact absurd ⟨hf, hu⟩ hk

theorem commitOne_handles (x : Handle) (s : State V) (h : Hint) : (commitOne x s h).handles = s.handles := by
  unfold commitOne
  split
  · rfl
  · split <;> rfl

theorem dropOne_handles (x : Handle) (s : State V) (h : Hint) : (dropOne x s h).handles = s.handles := by
  unfold dropOne
  split
  · rfl
  · split <;> rfl

/-- A handle is taken away: the transactions that lose their only handle are its own. -/
theorem inUse_set {s : State V} {i : Nat} {x : Handle} {h : Hint} {id : Nat} (hu : inUse s.handles h id = true)
    (hi : live s i = some x) (hx : x.tx h ≠ some id) : inUse (s.handles.set i none) h id = true := by
  obtain ⟨j, y, hj, hy⟩ := inUse_iff.mp hu
  refine inUse_iff.mpr ⟨j, y, ?_, hy⟩
  rw [List.getElem?_set]
  split
  · rename_i he
    subst he
    rw [live_eq.mp hi] at hj
    cases hj
    exact absurd hy hx
  · exact hj

theorem held_commit {s : State V} (hd : Held s) {i : Nat} {x : Handle} (hi : live s i = some x) :
    Held (commitOne x (commitOne x (commitOne x { s with handles := s.handles.set i none } .epoch) .kad) .cache) := by
  intro h id hf
  rw [commitOne_handles, commitOne_handles, commitOne_handles]
  obtain ⟨hf, n3⟩ := commitOne_begun _ _ _ _ _ hf
  obtain ⟨hf, n2⟩ := commitOne_begun _ _ _ _ _ hf
  obtain ⟨hf, n1⟩ := commitOne_begun _ _ _ _ _ hf
  refine inUse_set (hd h id hf) hi (fun c => ?_)
  cases h with
  | epoch => exact n1 ⟨rfl, c⟩
  | kad => exact n2 ⟨rfl, c⟩
  | cache => exact n3 ⟨rfl, c⟩

theorem held_drop {s : State V} (hd : Held s) {i : Nat} {x : Handle} (hi : live s i = some x) :
    Held (dropOne x (dropOne x (dropOne x { s with handles := s.handles.set i none } .epoch) .kad) .cache) := by
  intro h id hf
  rw [dropOne_handles, dropOne_handles, dropOne_handles]
  obtain ⟨hf, n3⟩ := dropOne_begun _ _ _ _ _ hf
  obtain ⟨hf, n2⟩ := dropOne_begun _ _ _ _ _ hf
  obtain ⟨hf, n1⟩ := dropOne_begun _ _ _ _ _ hf
  rw [dropOne_handles, dropOne_handles] at n3
  rw [dropOne_handles] at n2
  by_cases hx : x.tx h = some id
  · cases h with
    | epoch => exact n1 ⟨rfl, hx⟩
    | kad => exact n2 ⟨rfl, hx⟩
    | cache => exact n3 ⟨rfl, hx⟩
  · exact inUse_set (hd h id hf) hi hx

theorem step_held {s : State V} (hd : Held s) (e : Event V) : Held (step s e) := by
  have more : ∀ hs, Held { s with handles := s.handles ++ hs } := by
    intro hs h id hf
    obtain ⟨j, y, hj, hy⟩ := inUse_iff.mp (hd h id hf)
    refine inUse_iff.mpr ⟨j, y, ?_, hy⟩
    have hl : j < s.handles.length := (List.getElem?_eq_some_iff.mp hj).1
    exact (List.getElem?_append_left hl).trans hj
  cases e with
  | begin_ => exact more _
  | clone k =>
    dsimp only [step]
    cases live s k with
    | none => exact hd
    | some y => exact more _
  | put k h o =>
    dsimp only [step]
    cases hk : live s k with
    | none => exact hd
    | some y =>
      dsimp only [put]
      cases hy : y.tx h with
      | some _ => exact hd
      | none =>
        intro h' id hf
        have hlen : k < s.handles.length := (List.getElem?_eq_some_iff.mp (live_eq.mp hk)).1
        change (upd s.begun h (s.begun h ++ [false]) h')[id]? = some false at hf
        show inUse (s.handles.set k (some ⟨upd y.tx h (some (s.begun h).length)⟩)) h' id = true
        have old : (s.begun h')[id]? = some false →
            inUse (s.handles.set k (some ⟨upd y.tx h (some (s.begun h).length)⟩)) h' id = true := by
          intro hf
          obtain ⟨j, z, hj, hz⟩ := inUse_iff.mp (hd h' id hf)
          by_cases hjk : k = j
          · subst hjk
            rw [live_eq.mp hk] at hj
            cases hj
            refine inUse_iff.mpr ⟨k, _, by rw [List.getElem?_set, if_pos rfl, if_pos hlen], ?_⟩
            have hh : h' ≠ h := fun c => by subst c; rw [hy] at hz; cases hz
            exact (upd_other _ _ hh).trans hz
          · exact inUse_iff.mpr ⟨j, z, by rw [List.getElem?_set, if_neg hjk]; exact hj, hz⟩
        by_cases hh : h' = h
        · subst hh
          rw [upd_same, List.getElem?_append] at hf
          split at hf
          · exact old hf
          · rename_i hge
            have : id = (s.begun h').length := by
              cases hd2 : id - (s.begun h').length with
              | zero => omega
              | succ n => rw [hd2] at hf; cases hf
            subst this
            exact inUse_iff.mpr ⟨k, _, by rw [List.getElem?_set, if_pos rfl, if_pos hlen], upd_same _ _ _⟩
        · rw [upd_other _ _ hh] at hf
          exact old hf
  | commit k =>
    dsimp only [step]
    cases hk : live s k with
    | none => exact hd
    | some y => exact held_commit hd hk
  | drop k =>
    dsimp only [step]
    cases hk : live s k with
    | none => exact hd
    | some y => exact held_drop hd hk
  | write h o => exact hd
  | persist h => exact hd
  | run h ok => exact hd

theorem exec_held (d0 : Hint → KV V) (evs : List (Event V)) : Held (exec (openDb d0) evs) := by
  induction evs using List.reverseRecOn with
  | nil => intro h id hf; cases hf
  | append_singleton evs e ih => rw [exec_snoc']; exact step_held ih e

/-- No transaction is open exactly if no handle has one that was not ended. -/
theorem quiet_iff (d0 : Hint → KV V) (evs : List (Event V)) (h : Hint) :
    Quiet (exec (openDb d0) evs) h ↔ depth ((exec (openDb d0) evs).log h) = 0 := by
  rw [(exec_inv d0 evs).dep h]
  unfold openTx
  rw [List.count_eq_zero]
  constructor
  · intro hq hm
    obtain ⟨id, hid⟩ := List.mem_iff_getElem?.mp hm
    obtain ⟨i, x, hi, hx⟩ := inUse_iff.mp (exec_held d0 evs h id hid)
    have := hq i x id (live_eq.mpr hi) hx
    rw [hid] at this
    cases this
  · intro hn i x id hi hx
    have hl := (exec_inv d0 evs).known i x h id hi hx
    have e := List.getElem?_eq_getElem hl
    cases hb : ((exec (openDb d0) evs).begun h)[id] with
    | true => rw [e, hb]
    | false => exact absurd (List.mem_iff_getElem?.mpr ⟨id, by rw [e, hb]⟩) hn

/-- **C116, reads.** Tables of the two databases kept in memory: a key last written with `v`, in whatever
transaction or directly, reads as `v` at any moment, from the database as from any transaction, whatever the thread
has done and whatever failed. -/
theorem reads_latest (d0 : Hint → KV V) (evs : List (Event V)) (h : Hint) (hm : h ≠ .cache) (t k : Nat) (v : V)
    (hv : applyOps (d0 h) (issued (openDb d0) h evs) t k = some v) (x : Handle) :
    (exec (openDb d0) evs).get h t k = some v ∧ (exec (openDb d0) evs).txGet x h t k = some v := by
  have hfull : fullMemory h = true := by
    cases h with
    | epoch => rfl
    | kad => rfl
    | cache => exact absurd rfl hm
  have e := (exec_inv d0 evs).db h
  rw [hfull] at e
  rw [← log_written] at hv
  have hr := (Layered.get_full_written (d0 h) ((exec (openDb d0) evs).log h) t k v hv).1
  rw [← e] at hr
  refine ⟨hr, ?_⟩
  unfold State.txGet
  cases x.tx h <;> exact hr

/-- **C116, durability.** A `persist` of a table that was answered with success: all writes to the tables of that
database issued before it, in whatever transactions and directly, are on disk, then some of the later ones in order. -/
theorem persist_disk (d0 : Hint → KV V) (pre post : List (Event V)) (h : Hint)
    (ha : (persists h pre, true) ∈ ((exec (openDb d0) (pre ++ .persist h :: post)).db h).acks) :
    ∃ l : List (Op V), l.Sublist (issued (exec (openDb d0) (pre ++ [.persist h])) h post) ∧
      ((exec (openDb d0) (pre ++ .persist h :: post)).db h).disk =
        applyOps (d0 h) (issued (openDb d0) h pre ++ l) := by
  have e := (exec_inv d0 (pre ++ .persist h :: post)).db h
  -- the log: that of `pre`, the call, and the rest
  have hp : (exec (openDb d0) (pre ++ [.persist h])).log h = (exec (openDb d0) pre).log h ++ [.persist] := by
    rw [exec_snoc']; exact upd_same _ _ _
  have grow : ∀ (es : List (Event V)) (s : State V), ∃ l, (exec s es).log h = s.log h ++ l ∧
      Layered.written l = issued s h es := by
    intro es
    induction es with
    | nil => exact fun s => ⟨[], (List.append_nil _).symm, rfl⟩
    | cons ev es ih =>
      intro s
      obtain ⟨l1, h1, h2⟩ := step_log s h ev
      obtain ⟨l2, h3, h4⟩ := ih (step s ev)
      refine ⟨l1 ++ l2, ?_, ?_⟩
      · show (exec (step s ev) es).log h = _
        rw [h3, h1, List.append_assoc]
      · rw [Layered.written_append, h4, h2.written, issued_cons]
  obtain ⟨l2, h3, h4⟩ := grow post (exec (openDb d0) (pre ++ [.persist h]))
  rw [← exec_append, List.append_assoc, hp, List.append_assoc] at h3
  change (exec (openDb d0) (pre ++ .persist h :: post)).log h = (exec (openDb d0) pre).log h ++ .persist :: l2 at h3
  rw [e, h3] at ha ⊢
  rw [← log_persists d0] at ha
  obtain ⟨l, h5, h6⟩ := Layered.persist_durable _ _ _ _ ha
  rw [h4] at h5
  rw [log_written] at h6
  exact ⟨l, h5, h6⟩

/-- **C116, answers.** When no handle is left with a transaction on that database that was not committed (each was
committed or dropped, on success or error paths, with whatever clones), and the thread has handled its queue, every
`persist` has its answer. -/
theorem persist_answers (d0 : Hint → KV V) (evs : List (Event V)) (h : Hint) (hq : Quiet (exec (openDb d0) evs) h)
    (he : ((exec (openDb d0) evs).db h).queue = []) :
    ∀ b < persists h evs, ∃ r, (b, r) ∈ ((exec (openDb d0) evs).db h).acks := by
  have i := exec_inv d0 evs
  have hz := (quiet_iff d0 evs h).mp hq
  rw [i.dep h] at hz
  have hb := i.bal h
  rw [hz, Nat.add_zero] at hb
  rw [← log_persists d0]
  rw [i.db h] at he ⊢
  exact Layered.persist_answered _ _ _ (i.balanced h) hb.symm he

theorem gone_quiet {s : State V} (hg : AllGone s) (h : Hint) : Quiet s h := by
  intro i x id hi _
  rw [hg i] at hi
  cases hi

/-- **C116, all or nothing.** At every moment of a run in which no physical operation on that database failed, the
disk, and after a crash every read, is the result of all the writes of a first part of the run at whose end no
transaction on that database is open: of a transaction all writes are there, or none. -/
theorem all_or_nothing (d0 : Hint → KV V) (evs : List (Event V)) (h : Hint) (hf : NoFailure h evs) :
    ∃ pre post, evs = pre ++ post ∧ Quiet (exec (openDb d0) pre) h ∧
      ((exec (openDb d0) evs).db h).disk = applyOps (d0 h) (issued (openDb d0) h pre) ∧
      ∀ t k, (exec (openDb d0) evs).crash.get h t k = applyOps (d0 h) (issued (openDb d0) h pre) t k := by
  have i := exec_inv d0 evs
  obtain ⟨l1, l2, h1, h2, h3⟩ := Layered.disk_whole (fullMemory h) (d0 h) _ (log_noFailure d0 evs h hf)
  obtain ⟨pre, post, h4, h5⟩ := log_prefix d0 evs h l1 l2 h1 h2
  rw [← i.db h, ← h5, log_written] at h3
  refine ⟨pre, post, h4, (quiet_iff d0 pre h).mpr (by rw [h5]; exact h2), h3, fun t k => ?_⟩
  have : (exec (openDb d0) evs).crash.get h t k = ((exec (openDb d0) evs).db h).disk t k := by
    have hfl : ((exec (openDb d0) evs).db h).full = fullMemory h := by rw [i.db h]; exact Layered.exec_full _ _ _
    have := Layered.get_crash ((exec (openDb d0) evs).db h) t k
    unfold Layered.DB.crash at this
    rw [hfl] at this
    exact this
  rw [this, h3]

/-! ### The three databases do not disturb each other -/

/-- The same call, or a step of another database's thread with whatever outcome. -/
def SameFor (h : Hint) (e e' : Event V) : Prop :=
  e = e' ∨ ∃ h' ok ok', h' ≠ h ∧ e = .run h' ok ∧ e' = .run h' ok'

/-- What two such runs have in common. -/
structure Twin (h : Hint) (s s' : State V) : Prop where
  db : s.db h = s'.db h
  begun : s.begun = s'.begun
  handles : s.handles = s'.handles

theorem twin_live {h : Hint} {s s' : State V} (t : Twin h s s') (i : Nat) : live s i = live s' i := by
  unfold live; rw [t.handles]

theorem twin_call {h : Hint} {s s' : State V} (t : Twin h s s') (h' : Hint) (e : Ev V) :
    Twin h (call s h' e) (call s' h' e) := by
  refine ⟨?_, t.begun, t.handles⟩
  dsimp only [call]
  by_cases hh : h = h'
  · subst hh; rw [upd_same, upd_same, t.db]
  · rw [upd_other _ _ hh, upd_other _ _ hh, t.db]

theorem twin_end {h : Hint} {s s' : State V} (t : Twin h s s') (h' : Hint) (id : Nat) :
    Twin h (endTx s h' id) (endTx s' h' id) := by
  refine twin_call (s := { s with begun := upd s.begun h' ((s.begun h').set id true) })
    (s' := { s' with begun := upd s'.begun h' ((s'.begun h').set id true) }) ⟨t.db, ?_, t.handles⟩ h' .finish
  show upd s.begun h' _ = upd s'.begun h' _
  rw [t.begun]

theorem twin_commitOne {h : Hint} {s s' : State V} (t : Twin h s s') (x : Handle) (h' : Hint) :
    Twin h (commitOne x s h') (commitOne x s' h') := by
  unfold commitOne
  cases x.tx h' with
  | none => exact t
  | some id =>
    dsimp only
    by_cases hc : (s.begun h')[id]? = some false
    · rw [if_pos hc, if_pos (t.begun ▸ hc)]; exact twin_end t _ _
    · rw [if_neg hc, if_neg (t.begun ▸ hc)]; exact t

theorem twin_dropOne {h : Hint} {s s' : State V} (t : Twin h s s') (x : Handle) (h' : Hint) :
    Twin h (dropOne x s h') (dropOne x s' h') := by
  unfold dropOne
  cases x.tx h' with
  | none => exact t
  | some id =>
    dsimp only
    by_cases hc : (s.begun h')[id]? = some false ∧ inUse s.handles h' id = false
    · rw [if_pos hc, if_pos (t.begun ▸ t.handles ▸ hc)]; exact twin_end t _ _
    · rw [if_neg hc, if_neg (t.begun ▸ t.handles ▸ hc)]; exact t

theorem twin_handles {h : Hint} {s s' : State V} (t : Twin h s s') (f : List (Option Handle) → List (Option Handle)) :
    Twin h { s with handles := f s.handles } { s' with handles := f s'.handles } :=
  ⟨t.db, t.begun, congrArg f t.handles⟩

/-- The state with a transaction begun. -/
def begunTx (s : State V) (i : Nat) (x : Handle) (h : Hint) : State V :=
  { s with begun := upd s.begun h (s.begun h ++ [false]),
           handles := s.handles.set i (some ⟨upd x.tx h (some (s.begun h).length)⟩) }

theorem twin_put {h : Hint} {s s' : State V} (t : Twin h s s') (i : Nat) (x : Handle) (h' : Hint) (o : Op V) :
    Twin h (put s i x h' o) (put s' i x h' o) := by
  unfold put
  cases x.tx h' with
  | some _ => exact twin_call t _ _
  | none =>
    refine twin_call (twin_call (s := begunTx s i x h') (s' := begunTx s' i x h') ⟨t.db, ?_, ?_⟩ h' .start) h' (.write o)
    · show upd s.begun h' _ = upd s'.begun h' _; rw [t.begun]
    · show s.handles.set i _ = s'.handles.set i _; rw [t.begun, t.handles]

theorem twin_step {h : Hint} {s s' : State V} (t : Twin h s s') (e : Event V) : Twin h (step s e) (step s' e) := by
  cases e with
  | begin_ => exact twin_handles t (· ++ [some ⟨fun _ => none⟩])
  | clone k =>
    dsimp only [step]
    rw [← twin_live t k]
    cases live s k with
    | none => exact t
    | some y => exact twin_handles t (· ++ [some y])
  | put k h' o =>
    dsimp only [step]
    rw [← twin_live t k]
    cases live s k with
    | none => exact t
    | some y => exact twin_put t k y h' o
  | commit k =>
    dsimp only [step]
    rw [← twin_live t k]
    cases live s k with
    | none => exact t
    | some y =>
      exact twin_commitOne (twin_commitOne (twin_commitOne (twin_handles t (·.set k none)) _ _) _ _) _ _
  | drop k =>
    dsimp only [step]
    rw [← twin_live t k]
    cases live s k with
    | none => exact t
    | some y =>
      exact twin_dropOne (twin_dropOne (twin_dropOne (twin_handles t (·.set k none)) _ _) _ _) _ _
  | write h' o => exact twin_call t _ _
  | persist h' => exact twin_call t _ _
  | run h' ok => exact twin_call t _ _

/-- **C116, isolation.** Whether and when physical operations of the other two databases fail makes no difference to
this one: its content, its queue and the answers its callers get are the same. -/
theorem failures_stay (d0 : Hint → KV V) (h : Hint) {evs evs' : List (Event V)}
    (hs : List.Forall₂ (SameFor h) evs evs') :
    (exec (openDb d0) evs).db h = (exec (openDb d0) evs').db h := by
  have key : ∀ {evs evs' : List (Event V)}, List.Forall₂ (SameFor h) evs evs' → ∀ s s' : State V, Twin h s s' →
      Twin h (exec s evs) (exec s' evs') := by
    intro evs evs' hs
    induction hs with
    | nil => exact fun _ _ t => t
    | cons he _ ih =>
      intro s s' t
      refine ih _ _ ?_
      rcases he with rfl | ⟨h', ok, ok', hn, rfl, rfl⟩
      · exact twin_step t _
      · exact ⟨(upd_other _ _ hn.symm).trans (t.db.trans (upd_other _ _ hn.symm).symm), t.begun, t.handles⟩
  exact (key hs _ _ ⟨rfl, rfl, rfl⟩).db

/-! ### What does not hold, and examples -/
namespace Ex

/-- Nothing stored. -/
def empty : Hint → KV Nat := fun _ _ _ => none

/-- A transaction over tables of two databases, committed; the thread of the first has handled it. -/
def cross : List (Event Nat) :=
  [.begin_, .put 0 .epoch (.ins 0 0 1), .put 0 .cache (.ins 9 0 2), .commit 0,
   .run .epoch true, .run .epoch true, .run .epoch true]

/-- Over several databases a transaction is not all or nothing: after a crash the one has its write, the other not
(no transaction of the repository does this). -/
theorem cross_torn : (exec (openDb empty) cross).crash.get .epoch 0 0 = some 1 ∧
    (exec (openDb empty) cross).crash.get .cache 9 0 = none := ⟨rfl, rfl⟩

/-- A transaction dropped on an error path. -/
def abandoned : List (Event Nat) :=
  [.begin_, .put 0 .cache (.ins 9 0 2), .drop 0, .run .cache true, .run .cache true, .run .cache true]

/-- A transaction that is abandoned is stored all the same, all of it. -/
theorem abandoned_stored : (exec (openDb empty) abandoned).crash.get .cache 9 0 = some 2 := rfl

/-- A transaction cloned before its first write; one of the two is committed, all messages are handled. -/
def twoClones : List (Event Nat) :=
  [.begin_, .clone 0, .put 0 .epoch (.ins 0 0 1), .put 1 .epoch (.ins 0 1 1), .commit 0, .persist .epoch,
   .run .epoch true, .run .epoch true, .run .epoch true, .run .epoch true, .run .epoch true, .run .epoch true]

/-- Clones made before the first write are transactions of their own: the commit of one stores nothing, and a `persist`
waits for the other. -/
theorem clones_apart : ((exec (openDb empty) twoClones).db .epoch).queue.length = 0 ∧
    (exec (openDb empty) twoClones).crash.get .epoch 0 0 = none ∧
    ((exec (openDb empty) twoClones).db .epoch).acks = [] ∧
    (((exec (openDb empty) (twoClones ++ [.drop 1, .run .epoch true])).db .epoch).acks = [(0, true)] ∧
      (exec (openDb empty) (twoClones ++ [.drop 1, .run .epoch true])).crash.get .epoch 0 0 = some 1) :=
  ⟨rfl, rfl, rfl, rfl, rfl⟩

/-- A transaction with two writes, the first of which fails. -/
def failing : List (Event Nat) :=
  [.begin_, .put 0 .epoch (.ins 0 0 1), .put 0 .epoch (.ins 0 1 2), .commit 0, .persist .epoch,
   .run .epoch true, .run .epoch false, .run .epoch true, .run .epoch true, .run .epoch true]

/-- With a failure all or nothing is lost: the rest of the transaction is committed without the failed write; `persist`
says so. -/
theorem failing_torn : (exec (openDb empty) failing).crash.get .epoch 0 0 = none ∧
    (exec (openDb empty) failing).crash.get .epoch 0 1 = some 2 ∧
    ((exec (openDb empty) failing).db .epoch).acks = [(0, false)] := ⟨rfl, rfl, rfl⟩

/-- Two overlapping transactions and a direct write, a cloned handle, a `persist`; nothing fails. -/
def busy : List (Event Nat) :=
  [.begin_, .begin_, .put 0 .epoch (.ins 0 0 1), .put 1 .epoch (.ins 0 1 2), .clone 0, .write .epoch (.ins 0 2 3),
   .commit 0, .persist .epoch, .put 2 .epoch (.ins 0 3 4), .drop 1, .drop 2,
   .run .epoch true, .run .epoch true, .run .epoch true, .run .epoch true, .run .epoch true, .run .epoch true,
   .run .epoch true, .run .epoch true, .run .epoch true]

/-- The hypotheses of the theorems are met. -/
theorem busy_hyps : NoFailure .epoch busy ∧ AllGone (exec (openDb empty) busy) ∧
    ((exec (openDb empty) busy).db .epoch).queue.length = 0 ∧
    ((exec (openDb empty) busy).db .epoch).acks = [(0, true)] ∧
    (exec (openDb empty) busy).crash.get .epoch 0 0 = some 1 ∧
    (exec (openDb empty) busy).crash.get .epoch 0 3 = some 4 ∧
    applyOps (empty .epoch) (issued (openDb empty) .epoch busy) 0 2 = some 3 := by
  refine ⟨?_, ?_, rfl, rfl, rfl, rfl, rfl⟩
  · intro h
    simp [busy] at h
  · intro i
    show (match [none, none, none][i]? with | some x => x | none => none) = (none : Option Handle)
    match i with
    | 0 => rfl
    | 1 => rfl
    | 2 => rfl
    | _ + 3 => rfl

/-- Runs that differ in a failure of another database. -/
theorem twins : List.Forall₂ (SameFor .epoch)
    [Event.write .epoch (.ins 0 0 1), .write .cache (.ins 9 0 1), .run .cache true]
    [Event.write .epoch (.ins 0 0 1), .write .cache (.ins 9 0 1), .run .cache false] :=
  .cons (.inl rfl) (.cons (.inl rfl) (.cons (.inr ⟨.cache, true, false, (nomatch ·), rfl, rfl⟩) .nil))

end Ex
end Comp
end Verif
