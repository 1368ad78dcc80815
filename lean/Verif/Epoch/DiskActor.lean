import Verif.Epoch.DiskMain
/-
Property C104: the background thread of the database of epoch records, its queue and its error slot.
crates/storage/src/epoch_records.rs: `run_db_loop` (115-226), `get_error` (455-462), `save_record`, `save`,
`save_certificate` (501-541), `persist` (803-812); error_latch.rs:17-25.

A call to `save_record`, `save`, `save_certificate` or `persist` first takes the error out of the slot: if there is one, the
call returns it and does nothing else. Otherwise the message is queued; between the two anything may happen (`sample` and
`push` are separate acts, and a `push` may come without a `sample`). Simplifications: the queue's capacity is left out
(senders wait); reads are left out; the thread does not end.
-/
namespace Verif
namespace EDisk

/-- A write that can be queued. -/
inductive Job where
  | record (r : Rec)
  | cert (c : Rec)
  | both (r c : Rec)
deriving DecidableEq

/-- `EpochDbMessage`, the writes and the flush. -/
inductive Msg where
  | save (j : Job)
  | persist (id : Nat)
deriving DecidableEq

/-- What the disk does during one message. -/
structure Outs where
  ro : RecOut
  co : CertPack.SaveOut
  po : PersistOut

def Job.ev (o : Outs) : Job → Ev
  | .record r => .record r o.ro
  | .cert c => .cert c o.co
  | .both r c => .both r c o.ro o.co

def Job.record? : Job → Option Rec
  | .record r => some r
  | .cert _ => none
  | .both r _ => some r

/-- What can be observed, in order: a message was queued; a queued write was done or failed; an error was returned by a call
that did nothing else; a flush was answered. -/
inductive Obs where
  | queued (m : Msg)
  | done (j : Job)
  | failed (j : Job) (e : Err)
  | reported (e : Err)
  | replied (id : Nat) (res : Option Err)
deriving DecidableEq

/-- The database, the queue, the error slot; `hist`: what the disk went through. -/
structure Sys where
  disk : Disk
  q : List Msg
  err : Option Err
  trace : List Obs
  hist : List Ev

inductive Act where
  | sample
  | push (m : Msg)
  | work (o : Outs)

/-- `latch_first_error`, error_latch.rs:17-25. -/
def latch (slot : Option Err) (e : Err) : Option Err := some (slot.getD e)

/-- One message, `run_db_loop`, epoch_records.rs:118-222. -/
def handle (ep : Rec → Nat) (s : Sys) (o : Outs) : Msg → Sys
  | .save j =>
    match step ep s.disk (j.ev o) with
    | (d, none) => { s with disk := d, trace := s.trace ++ [.done j], hist := s.hist ++ [j.ev o] }
    | (d, some e) =>
      { s with disk := d, err := latch s.err e, trace := s.trace ++ [.failed j e], hist := s.hist ++ [j.ev o] }
  | .persist id =>
    match s.disk.persist o.po with
    | (d, res) =>
      { s with disk := d, err := none, trace := s.trace ++ [.replied id (s.err.or res)], hist := s.hist ++ [.persist o.po] }

def act (ep : Rec → Nat) (s : Sys) : Act → Sys
  | .sample => match s.err with
    | some e => { s with err := none, trace := s.trace ++ [.reported e] }
    | none => s
  | .push m => { s with q := s.q ++ [m], trace := s.trace ++ [.queued m] }
  | .work o => match s.q with
    | [] => s
    | m :: q => handle ep { s with q := q } o m

def runActs (ep : Rec → Nat) (s : Sys) : List Act → Sys
  | [] => s
  | a :: as => runActs ep (act ep s a) as

/-- The thread just started on a new database. -/
def Sys.new : Sys := ⟨Disk.new, [], none, [], []⟩

/-- Somebody was told of an error. -/
def Obs.tells : Obs → Bool
  | .reported _ => true
  | .replied _ (some _) => true
  | _ => false

def Obs.fails : Obs → Bool
  | .failed _ _ => true
  | _ => false

def Obs.queued? : Obs → Option Msg
  | .queued m => some m
  | _ => none

/-- The message a step of the thread took off the queue. -/
def Obs.handled? : Obs → Option Msg
  | .done j => some (.save j)
  | .failed j _ => some (.save j)
  | .replied id _ => some (.persist id)
  | _ => none

/-! ### The invariant -/

/-- After every failure somebody is told of an error before a flush is answered with success. -/
def Told (tr : List Obs) : Prop :=
  ∀ a b id, tr = a ++ Obs.replied id none :: b → ∀ x y, ∀ f : Obs, f.fails = true → a = x ++ f :: y → ∃ o ∈ y, o.tells = true

/-- The slot is empty only if somebody was told of an error after every failure. -/
def Clear (s : Sys) : Prop :=
  s.err = none → ∀ x y, ∀ f : Obs, f.fails = true → s.trace = x ++ f :: y → ∃ o ∈ y, o.tells = true

/-- Only what was queued is handled. -/
def Ordered (tr : List Obs) : Prop :=
  ∀ a b, ∀ w : Obs, ∀ m, tr = a ++ w :: b → w.handled? = some m → Obs.queued m ∈ a

structure AInv (ep : Rec → Nat) (s : Sys) : Prop where
  told : Told s.trace
  clear : Clear s
  fifo : s.trace.filterMap Obs.queued? = s.trace.filterMap Obs.handled? ++ s.q
  ord : Ordered s.trace
  hist : Steps ep Disk.new s.hist s.disk
  stored : ∀ j r, Obs.done j ∈ s.trace → j.record? = some r → ∃ r', s.disk.recordByEpoch (ep r) = some r'

/-- A list cut at an element that is not its last. -/
theorem snoc_split {α : Type} {l a b : List α} {o x : α} (h : l ++ [o] = a ++ x :: b) :
    (b = [] ∧ x = o ∧ l = a) ∨ (∃ b', b = b' ++ [o] ∧ l = a ++ x :: b') := by
  rcases List.eq_nil_or_concat b with hb | ⟨b', y, hb⟩
  · subst hb
    have h1 := List.append_inj' h rfl
    exact Or.inl ⟨rfl, by cases h1.2; rfl, h1.1⟩
  · subst hb
    right
    have h' : l ++ [o] = (a ++ x :: b') ++ [y] := by rw [h]; simp
    have h1 := List.append_inj' h' rfl
    cases h1.2
    exact ⟨b', List.concat_eq_append, h1.1⟩

theorem ordered_snoc {tr : List Obs} {o : Obs} (h : Ordered tr) (ho : ∀ m, o.handled? = some m → Obs.queued m ∈ tr) :
    Ordered (tr ++ [o]) := by
  intro a b w m hab hw
  rcases snoc_split hab with ⟨_, h1, h2⟩ | ⟨b', _, h1⟩
  · subst h1; subst h2; exact ho m hw
  · exact h a b' w m h1 hw

theorem queued_mem {l : List Obs} {m : Msg} (h : m ∈ l.filterMap Obs.queued?) : Obs.queued m ∈ l := by
  obtain ⟨o, ho, ho'⟩ := List.mem_filterMap.mp h
  cases o <;> simp only [Obs.queued?, Option.some.injEq, reduceCtorEq] at ho'
  subst ho'
  exact ho

/-- An observation that is no successful flush keeps `Told`. -/
theorem told_snoc {tr : List Obs} {o : Obs} (h : Told tr) (ho : ∀ id, o ≠ .replied id none) : Told (tr ++ [o]) := by
  intro a b id hab x y f hf hxy
  rcases snoc_split hab with ⟨_, h1, _⟩ | ⟨b', _, h1⟩
  · exact absurd h1.symm (ho id)
  · exact h a b' id h1 x y f hf hxy

/-- A successful flush keeps it if nothing is unreported. -/
theorem told_reply {tr : List Obs} {id : Nat} (h : Told tr)
    (hc : ∀ x y, ∀ f : Obs, f.fails = true → tr = x ++ f :: y → ∃ o ∈ y, o.tells = true) :
    Told (tr ++ [.replied id none]) := by
  intro a b id' hab x y f hf hxy
  rcases snoc_split hab with ⟨_, _, h1⟩ | ⟨b', _, h1⟩
  · subst h1; exact hc x y f hf hxy
  · exact h a b' id' h1 x y f hf hxy

/-- After an observation that tells, everything is reported. -/
theorem clear_tells {tr : List Obs} {o : Obs} (ho : o.tells = true) :
    ∀ x y, ∀ f : Obs, f.fails = true → tr ++ [o] = x ++ f :: y → ∃ o ∈ y, o.tells = true := by
  intro x y f hf h
  rcases snoc_split h with ⟨_, h1, _⟩ | ⟨b', h1, _⟩
  · subst h1
    cases f with
    | failed j e => simp [Obs.tells] at ho
    | _ => cases hf
  · exact ⟨o, by rw [h1]; simp, ho⟩

/-- An observation that is no failure leaves everything reported. -/
theorem clear_snoc {tr : List Obs} {o : Obs} (hn : o.fails = false)
    (hc : ∀ x y, ∀ f : Obs, f.fails = true → tr = x ++ f :: y → ∃ o ∈ y, o.tells = true) :
    ∀ x y, ∀ f : Obs, f.fails = true → tr ++ [o] = x ++ f :: y → ∃ o ∈ y, o.tells = true := by
  intro x y f hf h
  rcases snoc_split h with ⟨_, h1, _⟩ | ⟨b', h1, h2⟩
  · subst h1; rw [hn] at hf; cases hf
  · obtain ⟨p, hp, ht⟩ := hc x b' f hf h2
    exact ⟨p, by rw [h1]; exact List.mem_append_left _ hp, ht⟩

theorem AInv.new (ep : Rec → Nat) : AInv ep Sys.new := by
  refine ⟨?_, ?_, rfl, (by intro a b w m h; simp [Sys.new] at h), .nil _, ?_⟩
  · intro a b id h; simp [Sys.new] at h
  · intro _ x y f _ h; simp [Sys.new] at h
  · intro j r h; cases h

theorem steps_snoc {ep : Rec → Nat} {a b : Disk} {xs : List Ev} (h : Steps ep a xs b) (e : Ev) (he : e.Legal b) :
    Steps ep a (xs ++ [e]) (step ep b e).1 := steps_trans h (.cons he (.nil _))

theorem job_live (j : Job) (o : Outs) : (j.ev o).live := by cases j <;> exact trivial

theorem job_legal (j : Job) (o : Outs) (d : Disk) : (j.ev o).Legal d := by cases j <;> exact trivial

/-- A record that can be read still can after a write. -/
theorem still {ep : Rec → Nat} {d : Disk} {hist : List Ev} (h : Steps ep Disk.new hist d) {e : Ev} (hl : e.live)
    (he : e.Legal d) {n : Nat} {r : Rec} (hr : d.recordByEpoch n = some r) : (step ep d e).1.recordByEpoch n = some r := by
  refine stays h (.cons he (.nil _)) ?_ hr
  intro x hx
  rw [List.mem_singleton.1 hx]
  exact hl

/-- A write that succeeded: its epoch has a record. -/
theorem done_stored {ep : Rec → Nat} {d : Disk} {hist : List Ev} (h : Steps ep Disk.new hist d) {j : Job} {o : Outs}
    (hn : (step ep d (j.ev o)).2 = none) {r : Rec} (hr : j.record? = some r) :
    ∃ r', (step ep d (j.ev o)).1.recordByEpoch (ep r) = some r' := by
  cases j with
  | record x =>
    cases hr
    change (d.saveRecord ep r o.ro).2 = none at hn
    rcases saved_is_stored h hn with ⟨r', h'⟩ | ⟨_, h'⟩
    · exact ⟨r', still h (e := .record r o.ro) trivial trivial h'⟩
    · exact ⟨r, h'⟩
  | cert c => cases hr
  | both x c =>
    cases hr
    obtain ⟨r', h', _⟩ := both_certified h (c := c) (o := o.ro) (oc := o.co) hn
    exact ⟨r', h'⟩

theorem act_inv {ep : Rec → Nat} {s : Sys} (h : AInv ep s) (a : Act) : AInv ep (act ep s a) := by
  cases a with
  | sample =>
    unfold act
    cases he : s.err with
    | none => exact h
    | some e =>
      refine ⟨told_snoc h.told (by intro id hx; cases hx), fun _ => clear_tells rfl, ?_,
        ordered_snoc h.ord (by intro m hm; cases hm), h.hist, ?_⟩
      · have := h.fifo
        show (s.trace ++ [Obs.reported e]).filterMap Obs.queued? = (s.trace ++ [Obs.reported e]).filterMap Obs.handled? ++ s.q
        rw [List.filterMap_append, List.filterMap_append,
          show [Obs.reported e].filterMap Obs.queued? = [] from rfl, show [Obs.reported e].filterMap Obs.handled? = [] from rfl,
          List.append_nil, List.append_nil]
        exact this
      · intro j r hj hr
        rcases List.mem_append.1 hj with hj | hj
        · exact h.stored j r hj hr
        · cases List.mem_singleton.1 hj
  | push m =>
    unfold act
    refine ⟨told_snoc h.told (by intro id hx; cases hx), fun he => clear_snoc rfl (h.clear he), ?_,
      ordered_snoc h.ord (by intro m hm; cases hm), h.hist, ?_⟩
    · show (s.trace ++ [Obs.queued m]).filterMap Obs.queued? = (s.trace ++ [Obs.queued m]).filterMap Obs.handled? ++ (s.q ++ [m])
      have := h.fifo
      simp only [List.filterMap_append, List.filterMap_cons, List.filterMap_nil, Obs.queued?, Obs.handled?, List.append_nil]
      rw [this, List.append_assoc]
    · intro j r hj hr
      rcases List.mem_append.1 hj with hj | hj
      · exact h.stored j r hj hr
      · cases List.mem_singleton.1 hj
  | work o =>
    unfold act
    cases hq : s.q with
    | nil => exact h
    | cons m q =>
      dsimp only
      have hhead : Obs.queued m ∈ s.trace := by
        refine queued_mem ?_
        rw [h.fifo, hq]
        simp
      cases m with
      | save j =>
        unfold handle
        dsimp only
        cases hx : step ep s.disk (j.ev o) with
        | mk d x =>
          have hd : (step ep s.disk (j.ev o)).1 = d := by rw [hx]
          have hh : Steps ep Disk.new (s.hist ++ [j.ev o]) d := by
            rw [← hd]; exact steps_snoc h.hist _ (job_legal j o _)
          have hold : ∀ (j' : Job) (r : Rec), Obs.done j' ∈ s.trace → j'.record? = some r →
              ∃ r', d.recordByEpoch (ep r) = some r' := by
            intro j' r hj hr
            obtain ⟨r', h'⟩ := h.stored j' r hj hr
            exact ⟨r', by rw [← hd]; exact still h.hist (job_live j o) (job_legal j o _) h'⟩
          cases x with
          | none =>
            refine ⟨told_snoc h.told (by intro id hx; cases hx), fun he => clear_snoc rfl (h.clear he), ?_,
              ordered_snoc h.ord (by intro m hm; cases hm; exact hhead), hh, ?_⟩
            · show (s.trace ++ [Obs.done j]).filterMap Obs.queued? = (s.trace ++ [Obs.done j]).filterMap Obs.handled? ++ q
              have := h.fifo
              rw [hq] at this
              simp only [List.filterMap_append, List.filterMap_cons, List.filterMap_nil, Obs.queued?, Obs.handled?,
                List.append_nil]
              rw [this]
              simp
            · intro j' r hj hr
              rcases List.mem_append.1 hj with hj | hj
              · exact hold j' r hj hr
              · cases List.mem_singleton.1 hj
                show ∃ r', d.recordByEpoch (ep r) = some r'
                rw [← hd]
                exact done_stored h.hist (by rw [hx]) hr
          | some e =>
            refine ⟨told_snoc h.told (by intro id hx; cases hx), fun he => by (cases he), ?_,
              ordered_snoc h.ord (by intro m hm; cases hm; exact hhead), hh, ?_⟩
            · show (s.trace ++ [Obs.failed j e]).filterMap Obs.queued? =
                (s.trace ++ [Obs.failed j e]).filterMap Obs.handled? ++ q
              have := h.fifo
              rw [hq] at this
              simp only [List.filterMap_append, List.filterMap_cons, List.filterMap_nil, Obs.queued?, Obs.handled?,
                List.append_nil]
              rw [this]
              simp
            · intro j' r hj hr
              rcases List.mem_append.1 hj with hj | hj
              · exact hold j' r hj hr
              · cases List.mem_singleton.1 hj
      | persist id =>
        unfold handle
        dsimp only
        cases hx : s.disk.persist o.po with
        | mk d x =>
          have hd : (step ep s.disk (.persist o.po)).1 = d := by
            show (s.disk.persist o.po).1 = d
            rw [hx]
          refine ⟨?_, ?_, ?_, ordered_snoc h.ord (by intro m hm; cases hm; exact hhead), ?_, ?_⟩
          · show Told (s.trace ++ [Obs.replied id (s.err.or x)])
            cases hr : s.err.or x with
            | none =>
              have he : s.err = none := by
                cases hs : s.err with
                | none => rfl
                | some e => rw [hs] at hr; cases hr
              exact told_reply h.told (h.clear he)
            | some e => exact told_snoc h.told (by intro id hx; cases hx)
          · intro _
            show ∀ x' y, ∀ f : Obs, f.fails = true → s.trace ++ [Obs.replied id (s.err.or x)] = x' ++ f :: y → _
            cases hs : s.err with
            | none => exact clear_snoc rfl (h.clear hs)
            | some e => exact clear_tells rfl
          · show (s.trace ++ [Obs.replied id (s.err.or x)]).filterMap Obs.queued? =
              (s.trace ++ [Obs.replied id (s.err.or x)]).filterMap Obs.handled? ++ q
            have := h.fifo
            rw [hq] at this
            simp only [List.filterMap_append, List.filterMap_cons, List.filterMap_nil, Obs.queued?, Obs.handled?,
              List.append_nil]
            rw [this]
            simp
          · show Steps ep Disk.new (s.hist ++ [.persist o.po]) d
            rw [← hd]
            exact steps_snoc h.hist _ trivial
          · intro j' r hj hr
            rcases List.mem_append.1 hj with hj | hj
            · obtain ⟨r', h'⟩ := h.stored j' r hj hr
              refine ⟨r', ?_⟩
              show d.recordByEpoch (ep r) = some r'
              rw [← hd]
              exact still h.hist (e := .persist o.po) trivial trivial h'
            · cases List.mem_singleton.1 hj

theorem run_inv {ep : Rec → Nat} (as : List Act) : ∀ {s : Sys}, AInv ep s → AInv ep (runActs ep s as) := by
  induction as with
  | nil => intro s h; exact h
  | cons a as ih => intro s h; exact ih (act_inv h a)

/-! ### The theorems -/

/-- A flush that reports success: after every write that failed before, a call or a flush returned an error. -/
theorem flush_ok_told (ep : Rec → Nat) (as : List Act) {a b : List Obs} {id : Nat}
    (ht : (runActs ep Sys.new as).trace = a ++ .replied id none :: b) {x y : List Obs} {j : Job} {e : Err}
    (hf : a = x ++ .failed j e :: y) : ∃ o ∈ y, o.tells = true :=
  (run_inv as (AInv.new ep)).told a b id ht x y _ rfl hf

/-- What was queued before a flush is handled before it is answered. -/
theorem queued_before (ep : Rec → Nat) (as : List Act) {a b : List Obs} {id : Nat} {res : Option Err}
    (ht : (runActs ep Sys.new as).trace = a ++ .replied id res :: b)
    (hone : (runActs ep Sys.new as).trace.count (.queued (.persist id)) = 1) {x y : List Obs} {m : Msg}
    (hq : (runActs ep Sys.new as).trace = x ++ .queued m :: y) (hp : Obs.queued (.persist id) ∈ y) :
    ∃ o ∈ a, o.handled? = some m := by
  have hfifo := (run_inv as (AInv.new ep)).fifo
  generalize runActs ep Sys.new as = s at *
  -- the queue up to the flush
  obtain ⟨y1, y2, hy⟩ := List.append_of_mem hp
  have hx0 : Obs.queued (.persist id) ∉ x ++ .queued m :: y1 := by
    intro hmem
    have h1 : s.trace = (x ++ .queued m :: y1) ++ .queued (.persist id) :: y2 := by rw [hq, hy]; simp
    rw [h1, List.count_append, List.count_cons_self] at hone
    have := List.count_pos_iff.mpr hmem
    omega
  have hcnt : ∀ l : List Obs, Msg.persist id ∈ l.filterMap Obs.queued? → Obs.queued (.persist id) ∈ l := by
    intro l hl
    obtain ⟨o, ho, ho'⟩ := List.mem_filterMap.mp hl
    cases o <;> simp only [Obs.queued?, Option.some.injEq, reduceCtorEq] at ho'
    subst ho'
    exact ho
  have hQ : s.trace.filterMap Obs.queued? =
      (x ++ .queued m :: y1).filterMap Obs.queued? ++ .persist id :: y2.filterMap Obs.queued? := by
    have h1 : s.trace = (x ++ .queued m :: y1) ++ .queued (.persist id) :: y2 := by rw [hq, hy]; simp
    rw [h1, List.filterMap_append]
    rfl
  have hH : s.trace.filterMap Obs.handled? =
      a.filterMap Obs.handled? ++ .persist id :: b.filterMap Obs.handled? := by
    rw [ht, List.filterMap_append]
    rfl
  have hmQ : m ∈ (x ++ .queued m :: y1).filterMap Obs.queued? :=
    List.mem_filterMap.mpr ⟨.queued m, by simp, rfl⟩
  have hnQ : Msg.persist id ∉ (x ++ .queued m :: y1).filterMap Obs.queued? := fun hm => hx0 (hcnt _ hm)
  rw [hQ, hH] at hfifo
  -- the flush is not among what was handled before
  have hmem : m ∈ a.filterMap Obs.handled? := by
    generalize (x ++ .queued m :: y1).filterMap Obs.queued? = L at *
    generalize a.filterMap Obs.handled? = A at *
    have h2 : L ++ .persist id :: y2.filterMap Obs.queued? =
        A ++ .persist id :: (b.filterMap Obs.handled? ++ s.q) := by rw [hfifo]; simp
    rcases List.append_eq_append_iff.mp h2 with ⟨c, h3, h4⟩ | ⟨c, h3, h4⟩
    · rw [h3]; exact List.mem_append_left _ hmQ
    · cases c with
      | nil => rw [List.append_nil] at h3; rw [← h3]; exact hmQ
      | cons z c =>
        simp only [List.cons_append, List.cons.injEq] at h4
        exact absurd (by rw [h3, ← h4.1]; simp) hnQ
  exact List.mem_filterMap.mp hmem

/-- The guarantee the close of an epoch relies on: if the flush is answered with success, and nobody was told of an error
since the record was queued, then the epoch of the record has a record, and it has it ever after, whatever happens. -/
theorem flush_durable (ep : Rec → Nat) (as : List Act) (o : Outs) {a : List Obs} {id : Nat}
    (ht : (runActs ep Sys.new (as ++ [.work o])).trace = a ++ [.replied id none])
    (hprev : (runActs ep Sys.new as).trace = a)
    (hone : (runActs ep Sys.new (as ++ [.work o])).trace.count (.queued (.persist id)) = 1) {x y : List Obs} {j : Job}
    (hq : a = x ++ .queued (.save j) :: y) (hp : Obs.queued (.persist id) ∈ y)
    (honej : (runActs ep Sys.new (as ++ [.work o])).trace.count (.queued (.save j)) = 1)
    (hnt : ∀ p ∈ y, p.tells = false) {r : Rec} (hr : j.record? = some r) :
    ∃ r', (runActs ep Sys.new (as ++ [.work o])).disk.recordByEpoch (ep r) = some r' ∧
      ∀ bs t, Steps ep (runActs ep Sys.new (as ++ [.work o])).disk bs t → t.recordByEpoch (ep r) = some r' := by
  have hdone : Obs.done j ∈ a := by
    obtain ⟨w, hw, hw'⟩ := queued_before ep (as ++ [.work o]) ht hone (m := .save j) (x := x) (y := y ++ [.replied id none])
      (by rw [ht, hq]; simp) (List.mem_append_left _ hp)
    cases w with
    | queued _ => cases hw'
    | done j' => cases hw'; exact hw
    | failed j' e =>
      obtain ⟨a1, a2, h2⟩ := List.append_of_mem hw
      obtain ⟨p, hp1, hp2⟩ := flush_ok_told ep (as ++ [.work o]) ht h2
      cases hw'
      have hord : Obs.queued (.save j) ∈ a1 := by
        refine (run_inv (as ++ [.work o]) (AInv.new ep)).ord a1 (a2 ++ [.replied id none]) (.failed j e) _ ?_ rfl
        rw [ht, h2]; simp
      have hy : p ∈ y := by
        -- the failure comes after the record was queued
        obtain ⟨b1, b2, h3⟩ := List.append_of_mem hord
        have h4 : x ++ .queued (.save j) :: y = b1 ++ .queued (.save j) :: (b2 ++ .failed j e :: a2) := by
          rw [← hq, h2, h3]; simp
        have hc : (x ++ .queued (.save j) :: y).count (.queued (.save j)) = 1 := by
          rw [← hq]
          rw [ht, List.count_append] at honej
          have h0 : [Obs.replied id none].count (.queued (.save j)) = 0 := by
            rw [List.count_eq_zero]; simp
          omega
        have hx0 : Obs.queued (.save j) ∉ x := by
          intro hm
          rw [List.count_append, List.count_cons_self] at hc
          have := List.count_pos_iff.mpr hm
          omega
        have hb0 : Obs.queued (.save j) ∉ b1 := by
          intro hm
          rw [h4, List.count_append, List.count_cons_self] at hc
          have := List.count_pos_iff.mpr hm
          omega
        rcases List.append_eq_append_iff.mp h4 with ⟨c, h5, h6⟩ | ⟨c, h5, h6⟩
        · cases c with
          | nil =>
            simp only [List.nil_append, List.cons.injEq] at h6
            rw [h6.2]; simp [hp1]
          | cons z c =>
            simp only [List.cons_append, List.cons.injEq] at h6
            exact absurd (by rw [h5, ← h6.1]; simp) hb0
        · cases c with
          | nil =>
            simp only [List.nil_append, List.cons.injEq] at h6
            rw [← h6.2]; simp [hp1]
          | cons z c =>
            simp only [List.cons_append, List.cons.injEq] at h6
            exact absurd (by rw [h5, ← h6.1]; simp) hx0
      rw [hnt p hy] at hp2
      cases hp2
    | reported _ => cases hw'
    | replied id' res => cases hw'
  have hsplit : runActs ep Sys.new (as ++ [.work o]) = act ep (runActs ep Sys.new as) (.work o) := by
    have : ∀ (as : List Act) (s : Sys), runActs ep s (as ++ [.work o]) = act ep (runActs ep s as) (.work o) := by
      intro as
      induction as with
      | nil => intro s; rfl
      | cons a as ih => intro s; exact ih _
    exact this as _
  have hinv := run_inv as (AInv.new ep)
  rw [hsplit] at ht ⊢
  generalize runActs ep Sys.new as = s at *
  subst hprev
  -- the act was the flush
  unfold act at ht ⊢
  cases hsq : s.q with
  | nil =>
    rw [hsq] at ht
    have := congrArg List.length ht
    simp at this
  | cons m q =>
    rw [hsq] at ht
    dsimp only at ht ⊢
    cases m with
    | save j' =>
      unfold handle at ht
      dsimp only at ht
      cases hx : step ep s.disk (j'.ev o) with
      | mk d x' =>
        rw [hx] at ht
        cases x' with
        | none => cases List.append_cancel_left ht
        | some e => cases List.append_cancel_left ht
    | persist id' =>
      unfold handle at ht ⊢
      dsimp only at ht ⊢
      cases hx : s.disk.persist o.po with
      | mk d x' =>
        rw [hx] at ht
        have h5 := List.append_cancel_left ht
        have hx' : x' = none := by
          cases x' with
          | none => rfl
          | some e =>
            cases hs : s.err with
            | none => rw [hs] at h5; cases h5
            | some e' => rw [hs] at h5; cases h5
        subst hx'
        have hres : (s.disk.persist o.po).2 = none := by rw [hx]
        have hd : (s.disk.persist o.po).1 = d := by rw [hx]
        obtain ⟨r', h'⟩ := hinv.stored j r hdone hr
        refine ⟨r', ?_, ?_⟩
        · exact persisted_stays hinv.hist hres (bs := []) (t := d) (by rw [hd]; exact .nil _) h'
        · intro bs t hb
          exact persisted_stays hinv.hist hres (by rw [hd]; exact hb) h'

/-! ### Examples -/

def okOuts : Outs := ⟨.low (.fine noExtra), .fine noExtra, .fine⟩

/-- The close of an epoch: the record is queued, the flush is queued, the thread does both. -/
def closeActs : List Act := [.sample, .push (.save (.record r0)), .sample, .push (.persist 1), .work okOuts]

/-- The hypotheses of `flush_durable` are met. -/
theorem flush_durable_example :
    (runActs exEp Sys.new (closeActs ++ [.work okOuts])).trace =
      (runActs exEp Sys.new closeActs).trace ++ [.replied 1 none] ∧
    (runActs exEp Sys.new (closeActs ++ [.work okOuts])).trace.count (.queued (.persist 1)) = 1 ∧
    (runActs exEp Sys.new closeActs).trace = [] ++ .queued (.save (.record r0)) :: [.queued (.persist 1), .done (.record r0)] ∧
    (runActs exEp Sys.new (closeActs ++ [.work okOuts])).trace.count (.queued (.save (.record r0))) = 1 ∧
    ∀ p ∈ [Obs.queued (.persist 1), .done (.record r0)], p.tells = false := by
  refine ⟨by rfl, by rfl, by rfl, by rfl, ?_⟩
  intro p hp
  simp only [List.mem_cons, List.not_mem_nil, or_false] at hp
  rcases hp with rfl | rfl <;> rfl

/-- The record's write fails: the disk is full. -/
def fullOuts : Outs := ⟨.low (.index 28), .fine noExtra, .fine⟩

/-- Between the failure and the flush, another task's call (the vote collector's `save_certificate`) takes the error. -/
def stolenActs : List Act :=
  [.sample, .push (.save (.record r0)), .work fullOuts, .sample, .sample, .push (.persist 1), .work okOuts]

/-- The flush reports success, although the write queued before it failed and the epoch has no record: the error went to a
call of another task, against the documentation of `persist`. -/
theorem error_stolen :
    (runActs exEp Sys.new stolenActs).trace =
      [.queued (.save (.record r0)), .failed (.record r0) (.indexAppend 28), .reported (.indexAppend 28),
       .queued (.persist 1), .replied 1 none] ∧
    (runActs exEp Sys.new stolenActs).disk.recordByEpoch 0 = none := ⟨by rfl, by rfl⟩

end EDisk
end Verif
