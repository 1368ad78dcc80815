/-
The hand-over of consensus outputs from the subscriber's broadcast channel to the engine, in the detail that
`Verif/Exec/Pipeline.lean` leaves out: the receiver's buffer, the output that has been received and waits for room in the
channel to the engine, and the cancellation of that wait.

Models `crates/node/src/manager/node/run_epoch.rs`: the `select!` of `run_epoch` 434-488 (dropping the future of
`wait_for_epoch_boundary` when another branch wins), 490-530 (shutdown of the epoch's tasks, leftovers), `process_output` 577-599,
`wait_for_epoch_boundary` 608-660, `check_output_continuity` 961-970; `close_epoch.rs`
`send_leftover_consensus_output_to_engine` 228-290 in its two phases; `crates/types/src/sync.rs` 199-228 (a lagging receiver).

Simplifications: as in `Pipeline.lean`. Tasks of an epoch end between the cancellation and the leftovers. Outputs are named by
their numbers, their content is the archive's entry (an output is saved before it is broadcast, `subscriber.rs` 296-333).
-/
import Verif.Exec.PipelineProps

namespace Verif
namespace Handoff

open Pipe

/-- Where the forwarding is: `live`: in `wait_for_epoch_boundary`; `stopping`: another branch of the `select!` won, the tasks of the
epoch are still ending; `one`, `two`: the phases of `send_leftover_consensus_output_to_engine`. -/
inductive Mode where
  | live
  | stopping
  | one
  | two
deriving DecidableEq

/-- `bc`: what waits in the broadcast receiver; `lag`: it overflowed since the last receive; `held`: the output that
`wait_for_epoch_boundary` has received and is sending to the engine (run_epoch.rs:595, waiting for room). -/
structure St where
  p : Pipe.St
  bc : List Nat
  lag : Bool
  held : Option Nat
  mode : Mode
deriving DecidableEq

/-- What can happen. -/
inductive Act where
  /-- the subscriber saves an output and broadcasts it, or is aborted in between -/
  | commit (o : O) (told : Bool)
  /-- the broadcast buffer overflows: its oldest entry is lost -/
  | overflow
  /-- `recv` of `wait_for_epoch_boundary`, with the check of continuity (run_epoch.rs:615-641) -/
  | take
  /-- the engine's channel takes the output (run_epoch.rs:595-598) -/
  | deliver
  /-- another branch of the `select!` wins (node shutdown, end of a task: change of mode): the future is dropped -/
  | cancel
  /-- the tasks have ended (run_epoch.rs:490-503) -/
  | stopped
  /-- one turn of phase 1 (close_epoch.rs:234-252) -/
  | one
  /-- phase 1 ends: the channel is empty or reports a lag -/
  | oneEnds
  /-- one turn of phase 2 (close_epoch.rs:259-286) -/
  | two
  /-- phase 2 ends; no boundary was found and the epoch is entered again without replay -/
  | twoEnds
  | exec
  | persist (k : Nat)
  | closed
  | replay
  | replayed
  | restart

/-- A new subscription (run_epoch.rs:282): empty. -/
def fresh (p : Pipe.St) : St := ⟨p, [], false, none, .live⟩

/-- `wait_for_epoch_boundary` receives output `n` (run_epoch.rs:615-641): already forwarded, a gap, or next. -/
def take (s : St) (n : Nat) (r : List Nat) : St :=
  if n ≤ s.p.fwd then { s with bc := r, lag := false }
  else if n = s.p.fwd + 1 then { s with bc := r, lag := false, held := some n }
  else { s with p := { s.p with ph := .down }, bc := r }

/-- The leftover output `n` is forwarded (close_epoch.rs:235-252 and 264-281). There is no check that `n` is the next one.
After the boundary output the epoch is closed. -/
def push (s : St) (n : Nat) (o : O) (r : List Nat) : St :=
  if o.close then fresh { s.p.forward n o with ph := .closing }
  else { s with p := s.p.forward n o, bc := r }

def next (s : St) : Act → Option St
  | .commit o told =>
    if s.p.ph = .live ∧ (s.mode = .live ∨ s.mode = .stopping) ∧ s.p.done = false ∧ o.epoch = s.p.epoch then
      some { s with p := { s.p with pack := s.p.pack ++ [o], done := o.close || !told }
                    bc := if told then s.bc ++ [s.p.pack.length + 1] else s.bc }
    else none
  | .overflow =>
    match s.bc with
    | [] => none
    | _ :: r => some { s with bc := r, lag := true }
  | .take =>
    if s.p.ph = .live ∧ s.mode = .live ∧ s.held = none then
      match s.bc with
      | [] => none
      | n :: r => some (take s n r)
    else none
  | .deliver =>
    match s.held with
    | none => none
    | some n => if s.p.ph = .live ∧ s.mode = .live then
        (if (s.p.receive n).ph = .closing then some (fresh (s.p.receive n))
         else some { s with p := s.p.receive n, held := none }) else none
  | .cancel => if s.p.ph = .live ∧ s.mode = .live then some { s with held := none, mode := .stopping } else none
  | .stopped => if s.p.ph = .live ∧ s.mode = .stopping then some { s with mode := .one } else none
  | .one =>
    if s.p.ph = .live ∧ s.mode = .one ∧ s.lag = false then
      match s.bc with
      | [] => none
      | n :: r => (s.p.pack[n - 1]?).map (fun o => push s n o r)
    else none
  | .oneEnds => if s.p.ph = .live ∧ s.mode = .one ∧ (s.lag = true ∨ s.bc = []) then some { s with mode := .two } else none
  | .two =>
    if s.p.ph = .live ∧ s.mode = .two then (s.p.pack[s.p.fwd]?).map (fun o => push s (s.p.fwd + 1) o s.bc) else none
  | .twoEnds => if s.p.ph = .live ∧ s.mode = .two then some (fresh { s.p with done := false }) else none
  | .exec => match s.p.q with
    | [] => none
    | x :: q => some { s with p := { s.p with mem := s.p.mem ++ effect x.num x.out x.close, q := q } }
  | .persist k => some { s with p := { s.p with dur := s.p.dur ++ s.p.mem.take k, mem := s.p.mem.drop k } }
  | .closed => if s.p.ph = .closing ∧ s.p.q = [] then some (fresh s.p.enter) else none
  | .replay => match s.p.ph with
    | .replay r => (s.p.pack[r - 1]?).map (fun o => fresh (s.p.replayOne r o))
    | _ => none
  | .replayed => match s.p.ph with
    | .replay r => if s.p.pack.length < r ∧ s.p.q = [] then some (fresh { s.p with ph := .live }) else none
    | _ => none
  | .restart => some (fresh s.p.restart)

/-- The node at its first start. -/
def init : St := fresh Pipe.init

inductive Reach : St → Prop
  | init : Reach init
  | step {s t : St} (a : Act) : Reach s → next s a = some t → Reach t

/-- Phase 1 forwards an output that is not the next one. -/
def Skips (s : St) (a : Act) : Prop :=
  match a with
  | .one => ∃ n r, s.bc = n :: r ∧ n ≠ s.p.fwd + 1
  | _ => False

/-- Histories in which phase 1 never skips. -/
inductive Good : St → Prop
  | init : Good init
  | step {s t : St} (a : Act) : Good s → ¬ Skips s a → next s a = some t → Good t

/-- The wait for room in the channel to the engine is cancelled. -/
def Drops (s : St) (a : Act) : Prop :=
  match a with
  | .cancel => s.held ≠ none
  | _ => False

/-- Phase 2 ends although the archive holds more (an entry could not be read, or the head was not up to date). -/
def Early (s : St) (a : Act) : Prop :=
  match a with
  | .twoEnds => s.p.fwd < s.p.pack.length
  | _ => False

/-- Histories in which neither happens. -/
inductive Smooth : St → Prop
  | init : Smooth init
  | step {s t : St} (a : Act) : Smooth s → ¬ Drops s a → ¬ Early s a → next s a = some t → Smooth t

end Handoff
end Verif
