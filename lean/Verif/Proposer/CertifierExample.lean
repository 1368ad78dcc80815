import Verif.Proposer.CertifierSpec
import Verif.Proposer.CertifierVotes
/-
C98: concrete runs. Committee `four` (ids 30, 10, 40, 20 with keys 1..4, quorum 3), this node is 10.
-/
namespace Verif.Crt.Example

open Verif

/-- The environment of the examples. -/
def env : Env :=
  { B := Certificate.toyBls, c := Committee.four, me := 10, sig := (· + 2),
    roundOf := fun d => if d = 100 then 1 else if d = 200 then 2 else 0, epochOf := fun d => if d = 55 then 0 else 1 }

/-- The header of round 1. -/
def h1 : Header := { author := 10, round := 1, epoch := 1, digest := 100, parents := [7, 8, 9] }

/-- The header of round 2. -/
def h2 : Header := { author := 10, round := 2, epoch := 1, digest := 200 }

/-- An empty database. -/
def s0 : S := { log := [], durable := 0, round := 0, primary := 0 }

theorem init0 : Init env s0 :=
  ⟨by simp [s0], by simp [s0, certKeys], rfl, rfl, rfl, rfl, rfl, rfl, rfl⟩

/-- A vote of a member for a header. -/
def v (h : Header) (a k : Nat) : Vote :=
  { headerDigest := h.digest, round := h.round, epoch := h.epoch, origin := 10, author := a,
    signature := h.digest + k }

/-- Votes of 30 and 20 besides the own one; the certificate is processed and published. -/
def normal : List Ev :=
  [.propose h1, .flush 1, .stored true, .send, .recv, .start 0, .acquire 0 true, .vote 0 (v h1 30 1) true,
   .vote 0 (v h1 20 4) true, .flush 2, .ack 0 true, .process 0 true, .publish 0]

/-- The certificate of 10, 20 and 30. -/
def x1 : Certificate := { header := h1, state := .verifiedDirectly 307, bitmap := [0, 1, 3] }

/-- The certificate of 10, 20 and 40. -/
def x2 : Certificate := { header := h1, state := .verifiedDirectly 309, bitmap := [1, 2, 3] }

theorem normal_run : (runs env s0 normal).map (fun s => (s.ext, s.handed, s.early, s.log.length, s.durable)) =
    some ([(.gossip, x1), (.own, x1)], [h1], false, 2, 2) := by decide +kernel

/-- The header is proposed again on expiry of the maximum delay while its votes are still being collected; the
proposer's barrier is acknowledged; then the certificate is completed and recorded in memory; the second task for
the header finds the record and publishes the certificate before it is on disk; the node crashes; the record is
lost; the header is proposed again, other votes arrive first, and a different certificate is formed and
published. -/
def twice : List Ev :=
  [.propose h1, .flush 1, .stored true, .send, .recv, .start 0, .acquire 0 true, .vote 0 (v h1 30 1) true,
   .repropose, .flush 2, .stored true, .send,
   .vote 0 (v h1 20 4) true, .recv, .start 1, .acquire 1 true, .publish 1,
   .crash 2 0,
   .propose h1, .flush 3, .stored true, .send, .recv, .start 0, .acquire 0 true, .vote 0 (v h1 40 3) true,
   .vote 0 (v h1 20 4) true, .flush 4, .ack 0 true, .process 0 true, .publish 0]

theorem twice_run : (runs env s0 twice).map (fun s => (s.ext, s.early)) =
    some ([(.gossip, x2), (.own, x2), (.again, x1)], true) := by decide +kernel

/-- FINDING: two different certificates for the same header leave the node. The argument in the comment
at proposer.rs:368-377 – a re-proposed header reaches the certifier only after a barrier that also covers the
certifier's earlier insert – does not cover an insert that happens after that barrier and before the second task
looks. -/
theorem two_certificates : ∃ s x y, Reach env s ∧ (How.again, x) ∈ s.ext ∧ (How.own, y) ∈ s.ext ∧
    x.header.digest = y.header.digest ∧ x ≠ y := by
  have h := twice_run
  cases hr : runs env s0 twice with
  | none => rw [hr] at h; cases h
  | some s =>
    rw [hr] at h
    have he : s.ext = [(.gossip, x2), (.own, x2), (.again, x1)] := by
      have := Option.some.inj h
      exact congrArg Prod.fst this
    exact ⟨s, x1, x2, ⟨s0, twice, init0, hr⟩, by rw [he]; simp, by rw [he]; simp, rfl, by decide⟩

/-- FINDING: a task that has not been polled when the next header arrives subscribes too late: it is not
cancelled, and holds the lock while the newer proposal waits. -/
def late : List Ev :=
  [.propose h1, .flush 1, .stored true, .send, .recv,
   .propose h2, .flush 2, .stored true, .send, .recv,
   .start 0, .start 1, .acquire 0 true]

theorem late_subscriber_blocks : (runs env s0 late).map (fun s =>
      (s.tasks.map (fun t => (t.h.round, t.noticed)), (step env s (.cancel 0)).isSome,
        (step env s (.acquire 1 true)).isSome)) =
    some ([(1, false), (2, false)], false, false) := by decide +kernel

/-- Had it been polled before, it would have been cancelled and the newer proposal would have gone ahead. -/
def early : List Ev :=
  [.propose h1, .flush 1, .stored true, .send, .recv, .start 0, .acquire 0 true,
   .propose h2, .flush 2, .stored true, .send, .recv, .start 1, .cancel 0, .acquire 1 true]

theorem early_subscriber_cancelled : (runs env s0 early).map (fun s =>
      s.tasks.map (fun t => (t.h.round, t.noticed, t.stage.locked))) =
    some [(1, true, false), (2, false, true)] := by decide +kernel

/-- FINDING: a crash after the record is on disk and before the certificate is processed: it is published
again after the restart, but never handed to the node's own consensus. -/
def orphan : List Ev :=
  [.propose h1, .flush 1, .stored true, .send, .recv, .start 0, .acquire 0 true, .vote 0 (v h1 30 1) true,
   .vote 0 (v h1 20 4) true, .flush 2, .ack 0 true,
   .crash 2 0,
   .propose h1, .flush 3, .stored true, .send, .recv, .start 0, .acquire 0 true, .publish 0]

theorem orphan_run : (runs env s0 orphan).map (fun s => (s.ext, s.early)) =
    some ([(.again, x1)], false) := by decide +kernel

/-- `orphan` has no `repropose`: `one_certificate_without_reproposal` applies to it. -/
theorem orphan_no_repropose : Ev.repropose ∉ orphan := by decide

/-- An in-process restart with the record in memory only: the proposer's barrier makes it durable before the
header reaches the certifier again. -/
def restarted : List Ev :=
  [.propose h1, .flush 1, .stored true, .send, .recv, .start 0, .acquire 0 true, .vote 0 (v h1 30 1) true,
   .vote 0 (v h1 20 4) true, .restart 0, .propose h1]

theorem restart_waits : (runs env s0 restarted).map (fun s =>
      (s.log.length, s.durable, (step env s (.stored true)).isSome)) = some (3, 1, false) ∧
    (runs env s0 (restarted ++ [.flush 3, .stored true, .send, .recv, .start 0, .acquire 0 true, .publish 0])).map
      (fun s => (s.ext, s.early)) = some ([(.again, x1)], false) := by
  constructor <;> decide +kernel

-- the failure branches: insert fails, barrier fails, no quorum, a wrong and a repeated vote
example : (runs env s0 [.propose h1, .flush 1, .stored true, .send, .recv, .start 0, .acquire 0 true,
      .vote 0 (v h1 30 1) true, .vote 0 (v h1 20 4) false]).map (fun s => (s.tasks.map (·.stage), s.log.length)) =
    some ([Stage.done], 1) := by decide +kernel
example : (runs env s0 [.propose h1, .flush 1, .stored true, .send, .recv, .start 0, .acquire 0 true,
      .vote 0 (v h1 30 9) true, .vote 0 (v h1 30 1) true, .exhausted 0]).map (fun s => (s.tasks.map (·.stage), s.ext)) =
    some ([Stage.done], []) := by decide +kernel
example : (runs env s0 [.propose h1, .stored false]).map (fun s => (s.phase, (step env s .send).isSome)) =
    some (Phase.failed, false) := by decide +kernel

/-- A left-over of an earlier epoch, with its certificate. -/
def old : Header := { author := 10, round := 9, epoch := 0, digest := 55 }

/-- A database that was not cleared. -/
def s9 : S :=
  { log := [.last old, .cert 55 { header := old, state := .verifiedDirectly 5, bitmap := [] }], durable := 2,
    round := 0, primary := 0 }

theorem init9 : Init env s9 := by
  refine ⟨?_, by decide, rfl, rfl, rfl, rfl, rfl, rfl, rfl⟩
  intro r hr
  rcases List.mem_cons.mp hr with rfl | hr
  · exact ⟨by decide, rfl⟩
  · rw [List.mem_singleton.mp hr]; exact ⟨rfl, by decide, rfl⟩

-- it does not stop the first proposal of this epoch
example : (runs env s9 [.propose h1, .flush 3, .stored true, .send]).map (·.handed) = some [h1] := by
  decide +kernel

/-- FINDING: a stored header of an earlier epoch is not filtered when the maximum delay expires
(proposer.rs:953): it is handed to the certifier, which publishes the old certificate again. -/
theorem old_header_reproposed : (runs env s9 [.repropose, .flush 3, .stored true, .send, .recv, .start 0,
      .acquire 0 true, .publish 0]).map (fun s => (s.handed.map (·.epoch), s.ext.map (fun p => (p.1, p.2.header.epoch)))) =
    some ([0], [(.again, 0)]) := by decide +kernel

-- vote requests
example : requestVote Committee.four (fun _ => true) h1 30
      [.netError, .missing [7, 9], .vote (v h1 30 1)] =
    ([(1, []), (2, []), (3, [7, 9])], some (.ok (v h1 30 1))) := by rfl
example : requestVote Committee.four (fun _ => true) h1 30 [.missing [7, 5], .vote (v h1 30 1)] =
    ([(1, [])], some (.error .missingCertificates)) := by rfl
example : (requestVote Committee.four (fun _ => true) h1 30 [.vote (v h1 20 4)]).2 =
    some (.error .unexpectedVote) := by rfl
example : (requestVote Committee.four (fun _ => true) h1 30 [.rpcError, .vote (v h1 30 1)]).2 =
    some (.error .network) := by rfl

end Verif.Crt.Example
