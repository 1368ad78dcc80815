import Mathlib.Tactic.Common
/-
Model of waiting for a certificate: `crates/tn-utils/src/notify_read.rs` and its use in
`crates/storage/src/stores/certificate_store.rs` (`save_cert`, `notify_read`). Every lock acquisition, atomic
operation and store access is a separate step; any number of waiters, writers and deletions interleave.
-/
namespace Verif.Ntf

/-- Where a call of `notify_read` (certificate_store.rs:251-269) for key `d` is. `counted`: between the increment
of the counter and the insertion of the sender (notify_read.rs:44-46); `registered`: before the read of the store;
`waiting`: the read found nothing, the receiver is awaited; `finishing v`: the read found `v` and the other
waiters are being notified; `closing r`: the receiver is dropped, the clean-up has not run (notify_read.rs:131-137);
`gone r`: the call returned `r`, or was dropped if `r` is `none`. -/
inductive Phase where
  | counted
  | registered
  | waiting
  | finishing (v : Nat)
  | closing (r : Option Nat)
  | gone (r : Option Nat)
deriving DecidableEq, Repr

/-- A call; `slot` is the value sent to its one-shot channel. -/
structure Waiter where
  d : Nat
  phase : Phase
  slot : Option Nat := none
deriving DecidableEq, Repr

/-- Where a call of `NotifyRead::notify` (notify_read.rs:32-42) is: not begun; the senders removed from the map,
the counter not yet reduced; the counter reduced, these senders left to serve; returned. -/
inductive NPhase where
  | todo
  | took (rs : List Nat)
  | sending (rs : List Nat)
  | finished
deriving DecidableEq, Repr

/-- A call of `notify` for key `d` with value `v`; `who` is the waiter that makes it, if any. -/
structure Note where
  d : Nat
  v : Nat
  who : Option Nat := none
  phase : NPhase := .todo
deriving DecidableEq, Repr

/-- The state: what the store shows, the pending senders (key and waiter, in order of registration), the counter,
the calls. Ghost `hist`: every (key, value) the store ever showed. -/
structure S where
  vis : Nat → Option Nat
  pend : List (Nat × Nat) := []
  count : Int := 0
  ws : List Waiter := []
  notes : List Note := []
  hist : List (Nat × Nat) := []

/-- Events. -/
inductive Ev where
  /-- the store shows `v` under `d` (the first insert of `save_cert`, visible at once in the memory layer:
  certificate_store.rs:132, layered_db.rs:97-98); the notification follows (144) -/
  | insert (d v : Nat)
  /-- a certificate is deleted (garbage collection or `delete`) -/
  | remove (d : Nat)
  /-- `register_one`, first half -/
  | begin_ (d : Nat)
  /-- `register_one`, second half -/
  | push (w : Nat)
  /-- the read of the store (certificate_store.rs:257) -/
  | read (w : Nat)
  /-- the receiver is polled and has a value -/
  | poll (w : Nat)
  /-- the waiting call is dropped -/
  | cancel (w : Nat)
  /-- the clean-up of a dropped registration (notify_read.rs:79-98) -/
  | cleanup (w : Nat)
  /-- `notify` removes the senders -/
  | take (n : Nat)
  /-- `notify` reduces the counter -/
  | sub (n : Nat)
  /-- `notify` serves one sender -/
  | send (n : Nat)
  /-- `notify` returns -/
  | finish (n : Nat)
deriving DecidableEq, Repr

/-- The receiver of waiter `w` is dropped (`is_closed`, notify_read.rs:87). -/
def closed (ws : List Waiter) (w : Nat) : Bool :=
  match ws[w]? with
  | some x => match x.phase with
    | .closing _ | .gone _ => true
    | _ => false
  | none => true

/-- Stores the value in the channel of `w` unless its receiver is dropped (notify_read.rs:39). -/
def deliver (ws : List Waiter) (w v : Nat) : List Waiter :=
  if closed ws w then ws
  else match ws[w]? with
    | some x => ws.set w { x with slot := some v }
    | none => ws

/-- The senders registered for `d`. -/
def regs (pend : List (Nat × Nat)) (d : Nat) : List Nat := (pend.filter (fun p => p.1 == d)).map (·.2)

/-- Sets the phase of waiter `w`. -/
def setPhase (s : S) (w : Nat) (x : Waiter) (p : Phase) : S := { s with ws := s.ws.set w { x with phase := p } }

/-- One step; `none` if the event is not possible. -/
def step (s : S) : Ev → Option S
  | .insert d v =>
    some { s with vis := fun k => if k = d then some v else s.vis k, notes := s.notes ++ [{ d, v }],
                  hist := (d, v) :: s.hist }
  | .remove d => some { s with vis := fun k => if k = d then none else s.vis k }
  | .begin_ d => some { s with count := s.count + 1, ws := s.ws ++ [{ d, phase := .counted }] }
  | .push w =>
    match s.ws[w]? with
    | some x =>
      if x.phase = .counted then
        some { setPhase s w x .registered with pend := s.pend ++ [(x.d, w)] }
      else none
    | none => none
  | .read w =>
    match s.ws[w]? with
    | some x =>
      if x.phase = .registered then
        match s.vis x.d with
        | none => some (setPhase s w x .waiting)
        | some v =>
          some { setPhase s w x (.finishing v) with notes := s.notes ++ [{ d := x.d, v, who := some w }] }
      else none
    | none => none
  | .poll w =>
    match s.ws[w]? with
    | some x =>
      if x.phase = .waiting then
        match x.slot with
        | some v => some (setPhase s w x (.gone (some v)))
        | none => none
      else none
    | none => none
  | .cancel w =>
    match s.ws[w]? with
    | some x => if x.phase = .waiting then some (setPhase s w x (.closing none)) else none
    | none => none
  | .cleanup w =>
    match s.ws[w]? with
    | some x =>
      match x.phase with
      | .closing r =>
        let dead := s.pend.filter (fun p => p.1 == x.d && closed s.ws p.2)
        some { setPhase s w x (.gone r) with
                 pend := s.pend.filter (fun p => !(p.1 == x.d && closed s.ws p.2)),
                 count := s.count - dead.length }
      | _ => none
    | none => none
  | .take n =>
    match s.notes[n]? with
    | some o =>
      if o.phase = .todo then
        some { s with notes := s.notes.set n { o with phase := .took (regs s.pend o.d) },
                      pend := s.pend.filter (fun p => !(p.1 == o.d)) }
      else none
    | none => none
  | .sub n =>
    match s.notes[n]? with
    | some o =>
      match o.phase with
      | .took rs =>
        some { s with notes := s.notes.set n { o with phase := .sending rs }, count := s.count - rs.length }
      | _ => none
    | none => none
  | .send n =>
    match s.notes[n]? with
    | some o =>
      match o.phase with
      | .sending (r :: rs) =>
        some { s with notes := s.notes.set n { o with phase := .sending rs }, ws := deliver s.ws r o.v }
      | _ => none
    | none => none
  | .finish n =>
    match s.notes[n]? with
    | some o =>
      if o.phase = .sending [] then
        match o.who with
        | none => some { s with notes := s.notes.set n { o with phase := .finished } }
        | some w =>
          match s.ws[w]? with
          | some x =>
            match x.phase with
            | .finishing v => some { setPhase s w x (.closing (some v)) with notes := s.notes.set n { o with phase := .finished } }
            | _ => none
          | none => none
      else none
    | none => none

/-- A sequence of events. -/
def runs : S → List Ev → Option S
  | s, [] => some s
  | s, e :: es => (step s e).bind (fun s' => runs s' es)

/-- Nobody waits, nothing is being notified; the store shows what it shows. -/
structure Init (s : S) : Prop where
  pend : s.pend = []
  count : s.count = 0
  ws : s.ws = []
  notes : s.notes = []
  hist : ∀ d v, s.vis d = some v ↔ (d, v) ∈ s.hist

/-- Reachable states. -/
def Reach (s : S) : Prop := ∃ s0 es, Init s0 ∧ runs s0 es = some s

end Verif.Ntf
