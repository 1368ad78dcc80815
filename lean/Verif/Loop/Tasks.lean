import Mathlib.Data.List.Basic
import Mathlib.Tactic

/-!
# Shutdown notices and the task manager

`crates/types/src/notifier.rs` and `crates/types/src/task_manager.rs`.
-/
namespace Verif.Tasks

/-! ## Notifiers -/

/-- One `Noticer` (notifier.rs:16-19): the flag, whether a waker is stored (the last poll returned
`Pending`), whether that waker was woken, and (ghost) whether the last poll returned `Pending`. -/
structure Noticer where
  flag : Bool := false
  waker : Bool := false
  woken : Bool := false
  pending : Bool := false
deriving DecidableEq, Repr

/-- A notifier with the noticers it handed out (by number) and those still in its list. `sticky` is
the flag of `ShutdownNotifier`; the re-arming `Notifier` never sets it. -/
structure Bell where
  sticky : Bool := false
  all : List Noticer := []
  listed : List Nat := []
deriving DecidableEq, Repr

/-- What is done with a notifier and its noticers. -/
inductive BellOp where
  | subscribe
  | notify
  | poll (i : Nat)
deriving DecidableEq, Repr

/-- The effect of `notify` on one listed noticer, notifier.rs:44-54, 96-110: set the flag, take and
wake the waker. -/
def Noticer.ring (n : Noticer) : Noticer :=
  { n with flag := true, waker := false, woken := n.woken || n.waker }

/-- `poll_int`, notifier.rs:128-137: ready if the flag is set (the waker is dropped), otherwise the
waker is stored (and is waiting again). -/
def Noticer.poll (n : Noticer) : Noticer :=
  if n.flag then { n with waker := false, pending := false }
  else { n with waker := true, woken := false, pending := true }

/-- Ring the noticers whose numbers are listed. -/
def ringAll (l : List Nat) (all : List Noticer) : List Noticer :=
  all.mapIdx (fun i n => if i ∈ l then n.ring else n)

/-- `ShutdownNotifier`, notifier.rs:75-117: a subscriber that comes after the notice is born noticed
and not listed. -/
def Bell.shut (b : Bell) : BellOp → Bell
  | .subscribe =>
    { b with all := b.all ++ [{ flag := b.sticky }]
             listed := if b.sticky then b.listed else b.listed ++ [b.all.length] }
  | .notify => { sticky := true, all := ringAll b.listed b.all, listed := [] }
  | .poll i => { b with all := b.all.modify i Noticer.poll }

/-- The re-arming `Notifier`, notifier.rs:25-59. -/
def Bell.rearm (b : Bell) : BellOp → Bell
  | .subscribe => { b with all := b.all ++ [{}], listed := b.listed ++ [b.all.length] }
  | .notify => { b with all := ringAll b.listed b.all, listed := [] }
  | .poll i => { b with all := b.all.modify i Noticer.poll }

/-! ## Tasks -/

/-- How a task ended. -/
inductive Outcome where
  | ok
  | err
  | panicked
  | cancelled
deriving DecidableEq, Repr

/-- A spawned task: whether it is critical, whether it runs on the blocking pool without the local
shutdown notice (`spawn_blocking_task`, task_manager.rs:201-217), and how it ended. -/
structure Task where
  critical : Bool
  blocking : Bool
  status : Option Outcome := none
deriving DecidableEq, Repr

/-- `mpsc::channel(1000)`, task_manager.rs:287. -/
def queueCap : Nat := 1000

/-- The task manager together with the tasks of the runtime (numbered), while `until_exit` is awaited.
`down` is the shutdown notifier given to `until_exit` (sticky); `localDown` the manager's own, which
`Drop` rings.  `armed`: the exit-signal listener of the current iteration exists (the `exit` future
has been polled); `got`: it has received a signal. -/
structure M where
  tasks : List Task := []
  tracked : List Nat := []
  queue : List Nat := []
  localDown : Bool := false
  down : Bool := false
  armed : Bool := false
  got : Bool := false
  result : Option (Except (Nat × Outcome) Unit) := none

/-- What can happen. -/
inductive Ev where
  /-- `TaskManager::create_task`, task_manager.rs:336-350. -/
  | spawn (critical : Bool)
  /-- `TaskSpawner::create_task` / `spawn_blocking_task`, 176-217. -/
  | spawnVia (critical blocking : Bool)
  /-- a task's future resolves (ok, error or panic) -/
  | finish (i : Nat) (o : Outcome)
  /-- a task's wrapper sees the local shutdown notice (187-195) -/
  | stop (i : Nat)
  /-- the shutdown notifier is rung by somebody -/
  | notify
  /-- the process receives SIGTERM or ctrl-c -/
  | signal
  /-- the loop's select polls the `exit` future, which creates its listeners -/
  | arm
  /-- branch: a task comes out of the channel (428-431) -/
  | recv
  /-- branch: a tracked task has ended (432-462) -/
  | done (i : Nat)
  /-- branch: shutdown noticed (424-427) -/
  | shut
  /-- branch: exit signal (420-423) -/
  | sig
  /-- `abort_all_tasks`, 389-402 -/
  | abort
  /-- `update_tasks`, 404-413 -/
  | update
  /-- `Drop`, 139-143 -/
  | drop
deriving DecidableEq, Repr

/-- The status of a task changes if it is still running. -/
def settle (o : Outcome) (t : Task) : Task :=
  match t.status with
  | none => { t with status := some o }
  | some _ => t

/-- `JoinHandle::abort`: a task on the blocking pool that runs is not affected. -/
def abortTask (t : Task) : Task := if t.blocking then t else settle .cancelled t

/-- A branch that ends the loop: the shutdown notifier is rung (task_manager.rs:466-468). -/
def M.finishLoop (m : M) (r : Except (Nat × Outcome) Unit) : M :=
  { m with result := some r, down := true, armed := false, got := false }

/-- A branch that continues the loop: the other futures of the select, among them the exit-signal
listener, are dropped. -/
def M.again (m : M) : M := { m with armed := false, got := false }

/-- One event.  The branches of `until_exit_internal` (task_manager.rs:415-470) happen only while it
has not returned; `doExit`: `until_exit` rather than `until_task_ends`.  An event that is not enabled
changes nothing. -/
def step (doExit : Bool) (m : M) : Ev → M
  | .spawn c =>
    { m with tasks := m.tasks ++ [⟨c, false, none⟩], tracked := m.tracked ++ [m.tasks.length] }
  | .spawnVia c b =>
    { m with tasks := m.tasks ++ [⟨c, b, none⟩]
             queue := if m.queue.length < queueCap then m.queue ++ [m.tasks.length] else m.queue }
  | .finish i o => { m with tasks := m.tasks.modify i (settle o) }
  | .stop i =>
    if m.localDown then
      { m with tasks := m.tasks.modify i (fun t => if t.blocking then t else settle .ok t) }
    else m
  | .notify => { m with down := true }
  | .signal => if m.armed then { m with got := true } else m
  | .arm => if doExit ∧ m.result.isNone then { m with armed := true } else m
  | .recv =>
    if m.result.isSome then m
    else match m.queue with
      | [] => m
      | i :: q => M.again { m with queue := q, tracked := m.tracked ++ [i] }
  | .done i =>
    if m.result.isSome ∨ i ∉ m.tracked then m
    else match m.tasks[i]? with
      | none => m
      | some t =>
        match t.status with
        | none => m
        | some o =>
          let m' := { m with tracked := m.tracked.erase i }
          if t.critical then
            if m.down then m'.finishLoop (.ok ()) else m'.finishLoop (.error (i, o))
          else m'.again
  | .shut => if m.result.isNone ∧ m.down then m.finishLoop (.ok ()) else m
  | .sig => if m.result.isNone ∧ m.got then m.finishLoop (.ok ()) else m
  | .abort =>
    { m with tasks := m.tasks.mapIdx (fun i t => if i ∈ m.tracked then abortTask t else t) }
  | .update => { m with tracked := m.tracked ++ m.queue, queue := [] }
  | .drop => { m with localDown := true }

/-- A history. -/
def run (doExit : Bool) (m : M) (evs : List Ev) : M := evs.foldl (step doExit) m

end Verif.Tasks
