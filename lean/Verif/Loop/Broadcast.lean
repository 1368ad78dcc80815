import Mathlib.Tactic.Common
import Mathlib.Data.List.Count
/-
C121: receiving from a broadcast channel, `TnReceiver for broadcast::Receiver` and `TnSender for broadcast::Sender`
(`crates/types/src/sync.rs` 172-230) over tokio's broadcast channel, which keeps the `cap` newest messages.

One receiver's view from its subscription on: others have positions of their own and no effect on it. `cap` is the capacity
tokio makes of the one asked for (the next power of two).
-/
namespace Verif
namespace Cast

variable {α : Type}

structure St (α : Type) where
  sent : List α
  pos : Nat
  closed : Bool

/-- The receiver has subscribed. -/
def St.init : St α := ⟨[], 0, false⟩

inductive Out (α : Type) where
  | value (v : α)
  | lagged (n : Nat)
  | closed
  | pending
deriving DecidableEq, Repr

/-- tokio's `recv` and `try_recv`: a receiver that is more than `cap` behind is moved to the oldest message kept. -/
def poll (cap : Nat) (s : St α) : St α × Out α :=
  if s.pos + cap < s.sent.length then
    ({ s with pos := s.sent.length - cap }, .lagged (s.sent.length - cap - s.pos))
  else
    match s.sent[s.pos]? with
    | some v => ({ s with pos := s.pos + 1 }, .value v)
    | none => (s, if s.closed then .closed else .pending)

/-- What `recv` returns after a poll, sync.rs:200-222: after a lag, and when nothing is there, it goes on. -/
def returned : Out α → Option (Option α)
  | .value v => some (some v)
  | .closed => some none
  | .lagged _ => none
  | .pending => none

/-- What `try_recv` returns, sync.rs:49-58 and 224-226. -/
inductive TryError where
  | empty
  | disconnected
  | lagged
deriving DecidableEq, Repr

def tryReturned : Out α → Except TryError α
  | .value v => .ok v
  | .closed => .error .disconnected
  | .lagged _ => .error .lagged
  | .pending => .error .empty

inductive Ev (α : Type) where
  | send (v : α)
  | poll
  | close
deriving Repr

/-- A message sent (sync.rs:173-187: never an error and never a wait), a poll by the receiver, the end of the last sender. -/
def step (cap : Nat) (s : St α) : Ev α → St α × List (Out α)
  | .send v => (if s.closed then s else { s with sent := s.sent ++ [v] }, [])
  | .poll => ((poll cap s).1, [(poll cap s).2])
  | .close => ({ s with closed := true }, [])

/-- The state after a history and what its polls gave. -/
def run (cap : Nat) : St α → List (Ev α) → St α × List (Out α)
  | s, [] => (s, [])
  | s, e :: es => ((run cap (step cap s e).1 es).1, (step cap s e).2 ++ (run cap (step cap s e).1 es).2)

/-! ### Specification -/

/-- The messages the receiver was given. -/
def values (os : List (Out α)) : List α := (os.filterMap returned).filterMap id

/-- The number of messages reported as lost. -/
def lost (os : List (Out α)) : Nat := (os.map (fun o => match o with | .lagged n => n | _ => 0)).sum

/-- The messages sent, from the events: what is sent after the last sender's end is nothing. -/
def sentOf (es : List (Ev α)) : List α :=
  (es.takeWhile (fun e => match e with | .close => false | _ => true)).filterMap
    (fun e => match e with | .send v => some v | _ => none)

end Cast
end Verif
