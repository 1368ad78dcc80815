/-
Model of the loop that turns committed sub-dags into consensus outputs: `crates/consensus/executor/src/subscriber.rs`, `Subscriber::run`
335-406, `handle_consensus_output` 286-333, `drain_pending_on_shutdown` 596-642.

Batches are fetched concurrently and finish in any order (`fetched`); `FuturesOrdered` gives them out in the order they were pushed. Saving an
output and broadcasting it are two steps, and each may fail; the task may be aborted between any two steps. What fetching a sub-dag's batches gives is
C40, what saving does C44 - C49. The order in which ready branches are tried is not modelled: any ready one may fire.
-/
import Mathlib.Tactic.Common

namespace Verif
namespace Loop
namespace Seq

/-- What the loop is given: the digest of a header (`ConsensusHeader::digest_from_parts`), the commit time of a sub-dag, the end of the epoch. -/
structure Env (D P : Type) where
  digest : P → D → Nat → P
  time : D → Nat
  boundary : Nat

/-- An output: number, parent, sub-dag. -/
structure Out (D P : Type) where
  num : Nat
  parent : P
  dag : D
deriving DecidableEq

/-- A pending fetch: `done = none`: still running; `some false`: it failed. -/
structure Fetch (D P : Type) where
  out : Out D P
  done : Option Bool

/-- `save`: an output has been dequeued; `send`: it has been saved. -/
inductive Busy (D P : Type) where
  | no
  | save (o : Out D P)
  | send (o : Out D P)

/-- How the task ended: by the shutdown signal, by an error, or aborted. -/
inductive Ret where
  | ok
  | fetchError
  | saveError
  | sendError
  | aborted
deriving DecidableEq

/-- `chan`: committed sub-dags not yet received (`rx_sequence`). `drain`: the shutdown branch has been taken; `late`: its deadline has passed.
`received`, `saved`, `sent` are histories. -/
structure St (D P : Type) where
  chan : List D
  num : Nat
  parent : P
  done : Bool
  waiting : List (Fetch D P)
  busy : Busy D P
  notice : Bool
  drain : Bool
  late : Bool
  ret : Option Ret
  received : List D
  saved : List (Out D P)
  sent : List (Out D P)

/-- Start behind the last executed output, subscriber.rs:351 (`get_last_executed_consensus`, C49). -/
def start {D P : Type} (n : Nat) (p : P) : St D P := ⟨[], n, p, false, [], .no, false, false, false, none, [], [], []⟩

/-- `MAX_PENDING_PAYLOADS`, subscriber.rs:134. -/
def maxPending : Nat := 1000

inductive Act (D : Type) where
  /-- consensus commits a sub-dag -/
  | commit (d : D)
  | notify
  /-- a pending fetch ends -/
  | fetched (i : Nat) (ok : Bool)
  /-- the first branch -/
  | recv
  /-- the second branch: the oldest fetch has ended -/
  | next
  /-- saving the dequeued output succeeds or fails -/
  | save (ok : Bool)
  /-- broadcasting the saved output succeeds or fails -/
  | send (ok : Bool)
  /-- the third branch -/
  | shutdown
  | deadline
  /-- the drain is over -/
  | finish
  | abort

variable {D P : Type}

/-- The first branch, subscriber.rs:366-378. -/
def receive (e : Env D P) (s : St D P) : Option (St D P) :=
  match s.chan with
  | [] => none
  | d :: r => some { s with
      chan := r
      done := if e.boundary ≤ e.time d then true else s.done
      num := s.num + 1
      parent := e.digest s.parent d (s.num + 1)
      waiting := s.waiting ++ [⟨⟨s.num + 1, s.parent, d⟩, none⟩]
      received := s.received ++ [d] }

/-- The oldest fetch has ended: subscriber.rs:384-393, and 611-620 while draining, where an error ends the task without being reported. -/
def yield_ (s : St D P) : Option (St D P) :=
  match s.waiting with
  | ⟨o, some true⟩ :: w => some { s with waiting := w, busy := .save o }
  | ⟨_, some false⟩ :: w => some { s with waiting := w, ret := some (if s.drain then .ok else .fetchError) }
  | _ => none

/-- The end of `fetched i`. -/
def setDone (l : List (Fetch D P)) (i : Nat) (ok : Bool) : List (Fetch D P) :=
  l.modify i (fun f => { f with done := match f.done with | none => some ok | some b => some b })

def next (e : Env D P) (s : St D P) : Act D → Option (St D P)
  | .commit d => some { s with chan := s.chan ++ [d] }
  | .notify => some { s with notice := true }
  | .fetched i ok => if i < s.waiting.length ∧ s.ret = none then some { s with waiting := setDone s.waiting i ok } else none
  | .recv =>
    match s.busy with
    | .no => if s.ret = none ∧ s.drain = false ∧ s.done = false ∧ s.waiting.length < maxPending then receive e s else none
    | _ => none
  | .next =>
    match s.busy with
    | .no => if s.ret = none ∧ (s.drain = true → s.late = false) then yield_ s else none
    | _ => none
  | .save ok =>
    match s.busy with
    | .save o => if s.ret = none then
        (if ok then some { s with busy := .send o, saved := s.saved ++ [o] }
         else some { s with busy := .no, ret := some (if s.drain then .ok else .saveError) }) else none
    | _ => none
  | .send ok =>
    match s.busy with
    | .send o => if s.ret = none then
        (if ok then some { s with busy := .no, sent := s.sent ++ [o] }
         else if s.drain then some { s with busy := .no } else some { s with busy := .no, ret := some .sendError }) else none
    | _ => none
  | .shutdown =>
    match s.busy with
    | .no => if s.ret = none ∧ s.drain = false ∧ s.notice = true then some { s with drain := true } else none
    | _ => none
  | .deadline => if s.drain then some { s with late := true } else none
  | .finish =>
    match s.busy with
    | .no => if s.ret = none ∧ s.drain = true ∧ (s.late = true ∨ s.waiting = []) then some { s with ret := some .ok } else none
    | _ => none
  | .abort => if s.ret = none then some { s with ret := some .aborted } else none

inductive Reach (e : Env D P) (n : Nat) (p : P) : St D P → Prop
  | start : Reach e n p (start n p)
  | step {s t : St D P} (a : Act D) : Reach e n p s → next e s a = some t → Reach e n p t

/-! ## Specification -/

/-- The outputs of a list of sub-dags: consecutive numbers from `n + 1`, each naming the one before as its parent. -/
def chain (e : Env D P) : Nat → P → List D → List (Out D P)
  | _, _, [] => []
  | n, p, d :: r => ⟨n + 1, p, d⟩ :: chain e (n + 1) (e.digest p d (n + 1)) r

/-- The outputs under way, oldest first: the one being saved, then those whose batches are being fetched. -/
def pending (s : St D P) : List (Out D P) :=
  (match s.busy with | .save o => [o] | _ => []) ++ s.waiting.map (·.out)

theorem chain_append (e : Env D P) (n : Nat) (p : P) (a b : List D) :
    chain e n p (a ++ b) = chain e n p a ++ chain e (n + a.length) (a.foldl (fun (x : P × Nat) d => (e.digest x.1 d (x.2 + 1), x.2 + 1)) (p, n)).1 b := by
  induction a generalizing n p with
  | nil => rfl
  | cons d r ih =>
    show _ :: chain e (n + 1) _ (r ++ b) = _ :: _ ++ _
    rw [ih]
    show _ = _ :: (_ ++ _)
    rw [List.length_cons, show n + (r.length + 1) = n + 1 + r.length by omega]
    rfl

/-- The digest of the last header after the sub-dags `l`. -/
def tip (e : Env D P) (n : Nat) (p : P) (l : List D) : P :=
  (l.foldl (fun (x : P × Nat) d => (e.digest x.1 d (x.2 + 1), x.2 + 1)) (p, n)).1

theorem tip_num (e : Env D P) (n : Nat) (p : P) (l : List D) :
    (l.foldl (fun (x : P × Nat) d => (e.digest x.1 d (x.2 + 1), x.2 + 1)) (p, n)).2 = n + l.length := by
  induction l generalizing n p with
  | nil => rfl
  | cons d r ih => rw [List.foldl_cons, ih, List.length_cons]; omega

theorem chain_concat (e : Env D P) (n : Nat) (p : P) (a : List D) (d : D) :
    chain e n p (a ++ [d]) = chain e n p a ++ [⟨n + a.length + 1, tip e n p a, d⟩] := chain_append e n p a [d]

theorem tip_concat (e : Env D P) (n : Nat) (p : P) (a : List D) (d : D) :
    tip e n p (a ++ [d]) = e.digest (tip e n p a) d (n + a.length + 1) := by
  unfold tip
  rw [List.foldl_append, List.foldl_cons, List.foldl_nil, tip_num]

theorem chain_length (e : Env D P) (n : Nat) (p : P) (l : List D) : (chain e n p l).length = l.length := by
  induction l generalizing n p with
  | nil => rfl
  | cons d r ih => rw [chain, List.length_cons, ih, List.length_cons]

/-! ## Invariant -/

structure Inv (e : Env D P) (n : Nat) (p : P) (s : St D P) : Prop where
  numEq : s.num = n + s.received.length
  parentEq : s.parent = tip e n p s.received
  /-- an error drops the output that failed and everything behind it -/
  line : s.ret = none → s.saved ++ pending s = chain e n p s.received
  pre : s.saved <+: chain e n p s.received
  sentSub : s.sent.Sublist s.saved
  sentAll : s.drain = false → s.ret = none → s.saved = s.sent ++ (match s.busy with | .send o => [o] | _ => [])
  sentTail : ∀ o, s.busy = .send o → ∃ l, s.saved = l ++ [o] ∧ s.sent.Sublist l
  bound : s.waiting.length ≤ maxPending
  edge : (∀ d ∈ s.received.dropLast, e.time d < e.boundary) ∧
    (s.done = true ↔ ∃ d, s.received.getLast? = some d ∧ e.boundary ≤ e.time d)
  drained : s.ret = some .ok → s.drain = true
  noSave : s.ret = some .ok → ∀ o, s.busy ≠ .save o

end Seq
end Loop
end Verif
