/-
Model of the engine's loop: `crates/engine/src/lib.rs`, `ExecutorEngine::run` 215-310 and `spawn_execution_task` 132-172,
with the channel from the epoch manager (`crates/node/src/manager/node.rs` 65-70, 683: capacity 64).

Every turn of the loop is three steps, because the shutdown signal can come between any two of them: the checks at the top
(`top`), the evaluation of the branch conditions of `select!` (`enter`), and a branch that fires. The order in which ready branches are
tried (`biased`) is not modelled: any ready one may fire, which covers every timing. What executing an output gives is any
header or a failure; `execute_consensus_output` is C41, C42. The test-only `max_round` is left out.
-/
namespace Verif
namespace Loop
namespace Engine

variable {O H : Type}

/-- `MAX_QUEUED_OUTPUTS`, lib.rs:53. -/
def maxQueued : Nat := 8

/-- `TO_ENGINE_CAPACITY`, node.rs:65-70. -/
def toEngine : Nat := 64

/-- Where the loop is; in `select` with the conditions of its branches as they were evaluated on entry:
`watch`: the shutdown branch is armed (lib.rs:258); `gate`: the stream branch is armed (lib.rs:265). -/
inductive At where
  | top
  | checked
  | select (watch gate : Bool)
deriving DecidableEq

/-- How `run` ended: `Ok`, `ConsensusOutputStreamClosed`, or the error of an execution. -/
inductive Ret where
  | ok
  | streamClosed
  | execError
deriving DecidableEq

/-- The task that executes an output: the output, the parent header it was given, and what it has reported
(`none`: still running; `some none`: an error). -/
structure Task (O H : Type) where
  out : O
  parent : H
  result : Option (Option H)

/-- `chan`: the channel from the manager; `closed`: its sender is gone. `queued`, `task`, `parent`: the fields of
`ExecutorEngine` (lib.rs:66-95); `ended`: `consensus_closed`. `sent` and `finished` are histories: everything sent, and every
output executed with the parent header it was given and the header it gave. -/
structure St (O H : Type) where
  chan : List O
  closed : Bool
  queued : List O
  task : Option (Task O H)
  parent : H
  ended : Bool
  notice : Bool
  pos : At
  ret : Option Ret
  sent : List O
  finished : List (O × H × H)

def start (h : H) : St O H := ⟨[], false, [], none, h, false, false, .top, none, [], []⟩

inductive Act (O H : Type) where
  /-- the manager sends an output; it waits while the channel is full -/
  | send (o : O)
  /-- the manager is gone -/
  | close
  /-- the shutdown signal -/
  | notify
  /-- the execution task reports -/
  | work (r : Option H)
  | top
  | enter
  /-- the branches of `select!` -/
  | wake
  | stream
  | result

/-- `spawn_execution_task`, lib.rs:132-172, if there is no task and the queue is not empty (lib.rs:243-246). -/
def spawn (s : St O H) : St O H :=
  match s.task, s.queued with
  | none, o :: q => { s with task := some ⟨o, s.parent, none⟩, queued := q }
  | _, _ => s

/-- No task and an empty queue. -/
def idle (s : St O H) : Bool := s.task.isNone && s.queued.isEmpty

/-- The checks at the top of the loop, lib.rs:222-246. -/
def atTop (s : St O H) : St O H :=
  if s.notice && idle s then { s with ret := some .ok }
  else if s.ended && idle s then { s with ret := some .streamClosed }
  else { spawn s with pos := .checked }

/-- The branch of the stream, lib.rs:265-281. -/
def onStream (s : St O H) : Option (St O H) :=
  match s.chan with
  | o :: r => some { s with chan := r, queued := s.queued ++ [o], pos := .top }
  | [] => if s.closed then some { s with ended := true, pos := .top } else none

/-- The branch of the execution task, lib.rs:284-305. -/
def onResult (s : St O H) : Option (St O H) :=
  match s.task with
  | none => none
  | some t =>
    match t.result with
    | none => none
    | some none => some { s with ret := some .execError }
    | some (some h) =>
      some { s with task := none, parent := h, pos := .top, finished := s.finished ++ [(t.out, t.parent, h)] }

def next (s : St O H) : Act O H → Option (St O H)
  | .send o => if s.closed = false ∧ s.chan.length < toEngine ∧ s.ret.isNone then
      some { s with chan := s.chan ++ [o], sent := s.sent ++ [o] } else none
  | .close => some { s with closed := true }
  | .notify => some { s with notice := true }
  | .work r =>
    match s.task with
    | none => none
    | some t => if t.result.isNone then some { s with task := some { t with result := some r } } else none
  | .top => if s.ret.isNone ∧ s.pos = .top then some (atTop s) else none
  | .enter => if s.ret.isNone ∧ s.pos = .checked then
      some { s with pos := .select (!s.notice) (!s.ended && decide (s.queued.length < maxQueued)) } else none
  | .wake =>
    match s.pos with
    | .select true _ => if s.ret.isNone ∧ s.notice then some { s with pos := .top } else none
    | _ => none
  | .stream =>
    match s.pos with
    | .select _ true => if s.ret.isNone then onStream s else none
    | _ => none
  | .result =>
    match s.pos with
    | .select _ _ => if s.ret.isNone then onResult s else none
    | _ => none

inductive Reach (h0 : H) : St O H → Prop
  | start : Reach h0 (start h0)
  | step {s t : St O H} (a : Act O H) : Reach h0 s → next s a = some t → Reach h0 t

/-! ## Specification -/

/-- Each output was executed on the header the one before it gave, the first on `h`; the last header is `g`. -/
def Chained : H → List (O × H × H) → H → Prop
  | h, [], g => h = g
  | h, (_, p, r) :: xs, g => p = h ∧ Chained r xs g

/-- The output being executed. -/
def running (s : St O H) : List O := match s.task with
  | none => []
  | some t => [t.out]

end Engine
end Loop
end Verif
