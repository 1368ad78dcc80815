import Mathlib.Tactic.Common
/-
Model of the loop of the batch builder, `crates/batch-builder/src/lib.rs` 66-90 (`RefusalBackoff`,
`REFUSAL_BACKOFF_CAP`), 285-345 (`refusal_backoff_holds`, `note_refusal`, `note_recovery`) and 347-470 (`run`).

Time is in any unit. One turn of the loop: the gate, then one event. The pool is an input (empty or not); what a
build consists of is in `Build.lean`, what becomes of its transactions in `Life.lean`. Errors that end the loop end a
history. `max_delay_interval` ticks in tokio's default way: a tick that was missed comes at once, the next one is due a
period after the time this one was due.
-/
namespace Verif
namespace Tx
namespace Loop

/-- the period of the interval (the configured batch delay) and `REFUSAL_BACKOFF_CAP` -/
structure Cfg where
  base : Nat
  cap : Nat
deriving DecidableEq, Repr

/-- `RefusalBackoff`, lib.rs:79-90. -/
structure Back where
  till : Nat
  delay : Nat
  refusals : Nat
deriving DecidableEq, Repr

/-- `BatchBuilder`, the part the loop uses, and its local `defer_build`. -/
structure St where
  pending : Bool := false
  defer : Bool := false
  back : Option Back := none
  /-- when the interval is due (its first tick is at once) -/
  due : Nat := 0
deriving DecidableEq, Repr

/-- `BuildOutcome`, lib.rs:51-65; `mined` with the transactions to prune, `emptied` without any. -/
inductive Res
  | mined
  | emptied
  | refused
  | failed
deriving DecidableEq, Repr

/-- what ends the wait of a turn -/
inductive Wake
  | canon
  | result (r : Res)
  | tick
deriving DecidableEq, Repr

/-- A turn of the loop, as seen from outside: when the gate was checked, whether the pool was empty, whether a build was
started, what happened next and when. -/
structure Turn where
  time : Nat
  empty : Bool
  started : Bool
  wake : Wake
  wakeAt : Nat
deriving DecidableEq, Repr

/-- `refusal_backoff_holds`, lib.rs:293-295. -/
def St.holds (s : St) (now : Nat) : Bool :=
  match s.back with
  | some b => decide (now < b.till)
  | none => false

/-- `note_refusal`, lib.rs:305-340. -/
def St.noteRefusal (c : Cfg) (s : St) (now : Nat) : St :=
  match s.back with
  | some b =>
    if now - b.till ≤ c.cap then
      { s with back := some ⟨now + min (b.delay * 2) c.cap, min (b.delay * 2) c.cap, b.refusals + 1⟩ }
    else { s with back := some ⟨now + c.base, c.base, 1⟩ }
  | none => { s with back := some ⟨now + c.base, c.base, 1⟩ }

/-- The gate, lib.rs:366-384: whether a build starts. -/
def St.opens (s : St) (now : Nat) (empty : Bool) : Bool := !s.pending && !s.defer && !s.holds now && !empty

/-- The state after the gate, lib.rs:366-390. -/
def St.gate (c : Cfg) (s : St) (now : Nat) (empty : Bool) : St :=
  if !s.pending && !s.defer && !s.holds now then
    if empty then { s with defer := false, due := now + c.base } else { s with defer := false, pending := true }
  else { s with defer := false }

/-- The event, lib.rs:392-470. -/
def St.wake (c : Cfg) (s : St) (now : Nat) : Wake → St
  | .canon => s
  | .tick => { s with due := s.due + c.base }
  | .result r =>
    let s := { s with pending := false }
    match r with
    | .mined => { s with back := none }
    | .emptied => { s with due := now + c.base, defer := true }
    | .refused => { s.noteRefusal c now with due := now + c.base, defer := true }
    | .failed => { s with due := now + c.base, defer := true }

/-- Whether an event can occur: a result only of a build under way, a tick only when none is under way and the interval
is due. -/
def St.can (s : St) (now : Nat) : Wake → Prop
  | .canon => True
  | .tick => s.pending = false ∧ s.due ≤ now
  | .result _ => s.pending = true

/-- The state after a turn. -/
def St.after (c : Cfg) (s : St) (t : Turn) : St := (s.gate c t.time t.empty).wake c t.wakeAt t.wake

/-- A history of the loop, from time `now` on. -/
def History (c : Cfg) : St → Nat → List Turn → Prop
  | _, _, [] => True
  | s, now, t :: l => now ≤ t.time ∧ t.time ≤ t.wakeAt ∧ t.started = s.opens t.time t.empty ∧
      (s.gate c t.time t.empty).can t.wakeAt t.wake ∧ History c (s.after c t) t.wakeAt l

/-! ## Specification -/

/-- a turn that ended with a result -/
def Turn.ended (t : Turn) : Bool := match t.wake with | .result _ => true | _ => false

/-- a turn that ended with a refusal -/
def Turn.refused (t : Turn) : Bool := decide (t.wake = .result .refused)

/-- a turn that ended with a batch whose transactions were pruned -/
def Turn.mined (t : Turn) : Bool := decide (t.wake = .result .mined)

/-- The delay after the `k`-th refusal in a row: the configured delay, doubled every time, at most the cap (the first
is not capped). -/
def delay (c : Cfg) : Nat → Nat
  | 0 => 0
  | 1 => c.base
  | k + 1 => min (c.base * 2 ^ k) c.cap

/-- The times of the refusals in a list of turns. -/
def refusals (l : List Turn) : List Nat := (l.filter Turn.refused).map Turn.wakeAt

/-- The refusals in a list of turns follow one another within the delay and a cap. -/
def Close (c : Cfg) (l : List Turn) : Prop :=
  (refusals l).IsChain fun a b => b ≤ a + min c.base c.cap + c.cap

end Loop
end Tx
end Verif
