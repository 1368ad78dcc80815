import Verif.Proposer.Props
/-
Concrete runs of the proposer: a crash with an identical re-proposal, and the two ways the property
fails when an assumption does.
-/
namespace Verif
namespace Proposer
namespace Example

open Layered

/-- A header of round 1 with one batch. -/
def h1 : Header := { author := 7, round := 1, epoch := 1, payload := [(50, 0)], parents := [1, 2, 3], digest := 100 }
/-- The next one. -/
def h2 : Header := { author := 7, round := 2, epoch := 1, parents := [11, 12, 13], digest := 101 }
/-- The next one. -/
def h3 : Header := { author := 7, round := 3, epoch := 1, parents := [21, 22, 23], digest := 102 }
/-- Another header for round 1. -/
def h1' : Header := { h1 with payload := [], createdAt := 9, digest := 110 }
/-- Another header for round 2. -/
def h2' : Header := { h2 with createdAt := 9, digest := 111 }

theorem _root_.Verif.Proposer.Reachable.other {mb : Nat} {n n' : Node} (h : Reachable mb n)
    (s : Step mb n .other n') : Reachable mb n' := h.step (a := .other) trivial s

/-- A header is proposed, sent and acknowledged as in the code, the process crashes, and the restarted
proposer sends the identical header for the round again. -/
theorem crash_and_repropose : ∃ n, Reachable 10 n ∧ n.sent = [h1, h1] ∧ n.stored = some h1 := by
  have s := Reachable.init (maxBatches := 10) 7 1
  have s := s.step (a := .start true) rfl (.start _ true 0 [1, 2, 3] rfl)
  have s := s.other (.digest _ _ (50, 0) rfl)
  have s := s.other (.fresh _ _ h1 rfl rfl (by decide) (by intro w hw; cases hw) rfl rfl rfl
    rfl (fun d => Iff.rfl))
  have s := s.other (.store _ _ h1 rfl rfl rfl)
  have s := s.other (.env _ (.run true) trivial)
  have s := s.other (.env _ (.run true) trivial)
  have s := s.other (.persisted _ _ h1 0 rfl rfl (List.mem_singleton.mpr rfl))
  have s := s.other (.send _ _ h1 rfl rfl)
  have s := s.other (.crash _ 1 (Nat.le_refl _))
  have s := s.step (a := .start true) rfl (.start _ true 0 [1, 2, 3] rfl)
  have s := s.other (.reuse _ _ h1 rfl rfl (by decide) rfl rfl rfl)
  have s := s.other (.store _ _ h1 rfl rfl rfl)
  have s := s.other (.env _ (.run true) trivial)
  have s := s.other (.env _ (.run true) trivial)
  have s := s.other (.persisted _ _ h1 0 rfl rfl (List.mem_singleton.mpr rfl))
  have s := s.other (.send _ _ h1 rfl rfl)
  exact ⟨_, s, rfl, rfl⟩

/-- An outstanding header is skipped by a commit of a later one: its batch waits again, before a newer
one. -/
theorem requeued : ∃ n r, Reachable 10 n ∧ n.run = some r ∧ r.acked = [51, 50] ∧
    r.digests = [(50, 0), (51, 0)] ∧ r.proposed = [] := by
  have s := Reachable.init (maxBatches := 10) 7 1
  have s := s.step (a := .start true) rfl (.start _ true 0 [1, 2, 3] rfl)
  have s := s.other (.digest _ _ (50, 0) rfl)
  have s := s.other (.fresh _ _ h1 rfl rfl (by decide) (by intro w hw; cases hw) rfl rfl rfl
    rfl (fun d => Iff.rfl))
  have s := s.other (.store _ _ h1 rfl rfl rfl)
  have s := s.other (.env _ (.run true) trivial)
  have s := s.other (.env _ (.run true) trivial)
  have s := s.other (.persisted _ _ h1 0 rfl rfl (List.mem_singleton.mpr rfl))
  have s := s.other (.send _ _ h1 rfl rfl)
  have s := s.other (.result _ _ h1 rfl rfl)
  have s := s.other (.digest _ _ (51, 0) rfl)
  have s := s.other (.committed _ _ [2] rfl)
  exact ⟨_, _, s, rfl, rfl, rfl, rfl⟩

/-- Header `h1` was sent in round 1, `h2` in round 2 and `h3` in round 3; then the process crashed. -/
theorem three_sent : ∃ n, Reachable 10 n ∧ n.self = 7 ∧ n.epoch = 1 ∧ n.run = none ∧
    n.sent = [h3, h2, h1] ∧ n.stored = some h3 := by
  have s := Reachable.init (maxBatches := 10) 7 1
  have s := s.step (a := .start true) rfl (.start _ true 0 [1, 2, 3] rfl)
  have s := s.other (.digest _ _ (50, 0) rfl)
  have s := s.other (.fresh _ _ h1 rfl rfl (by decide) (by intro w hw; cases hw) rfl rfl rfl
    rfl (fun d => Iff.rfl))
  have s := s.other (.store _ _ h1 rfl rfl rfl)
  have s := s.other (.env _ (.run true) trivial)
  have s := s.other (.env _ (.run true) trivial)
  have s := s.other (.persisted _ _ h1 0 rfl rfl (List.mem_singleton.mpr rfl))
  have s := s.other (.send _ _ h1 rfl rfl)
  have s := s.other (.result _ _ h1 rfl rfl)
  have s := s.step (a := .parents 1)
    (by intro r w hr hlt; cases hr; exact absurd hlt (by decide)) (.parents _ _ [11, 12, 13] 1 rfl)
  have s := s.other (.fresh _ _ h2 rfl rfl (by decide) (by
    intro w hw; cases hw; decide) rfl rfl rfl rfl (fun d => Iff.rfl))
  have s := s.other (.store _ _ h2 rfl rfl rfl)
  have s := s.other (.env _ (.run true) trivial)
  have s := s.other (.env _ (.run true) trivial)
  have s := s.other (.persisted _ _ h2 1 rfl rfl (by decide))
  have s := s.other (.send _ _ h2 rfl rfl)
  have s := s.other (.result _ _ h2 rfl rfl)
  have s := s.step (a := .parents 2)
    (by intro r w hr hlt; cases hr; exact absurd hlt (by decide)) (.parents _ _ [21, 22, 23] 2 rfl)
  have s := s.other (.fresh _ _ h3 rfl rfl (by decide) (by
    intro w hw; cases hw; decide) rfl rfl rfl rfl (fun d => Iff.rfl))
  have s := s.other (.store _ _ h3 rfl rfl rfl)
  have s := s.other (.env _ (.run true) trivial)
  have s := s.other (.env _ (.run true) trivial)
  have s := s.other (.persisted _ _ h3 2 rfl rfl (by decide))
  have s := s.other (.send _ _ h3 rfl rfl)
  have s := s.other (.crash _ 1 (Nat.le_refl _))
  exact ⟨_, s, rfl, rfl, rfl, rfl, rfl⟩

theorem any {mb : Nat} {n : Node} (h : Reachable mb n) : ReachableAny mb n := by
  induction h with
  | init self e => exact .init self e
  | step _ _ hs ih => exact .step ih hs

/-- If the stored header cannot be read when the proposer is created, the proposer starts at round 0
(the comment at proposer.rs:193 calls this harmless) and hands out a second header for round 1. -/
theorem startup_read_failure_equivocates : ∃ n, ReachableAny 10 n ∧ h1 ∈ n.sent ∧ h1' ∈ n.sent ∧
    h1.epoch = h1'.epoch ∧ h1.round = h1'.round ∧ h1 ≠ h1' := by
  obtain ⟨n, s, hself, he, hrun, hsent, hst⟩ := three_sent
  have s := any s
  have s := s.step (.start _ false 0 [1, 2, 3] hrun)
  have hnew : newRun false n.stored n.epoch 0 [1, 2, 3] = { round := 0, pr := 0, parents := [1, 2, 3] } := rfl
  rw [hnew] at s
  have s := s.step (.fresh _ _ h1' rfl rfl (by decide)
    (fun w hw => by have h3w : w = h3 := Option.some.inj (hw.symm.trans hst)
                    rw [h3w]; exact fun h => absurd h.1 (by decide))
    rfl he.symm hself.symm rfl (fun d => Iff.rfl))
  have s := s.step (.skipStore _ _ h1' rfl rfl ((congrArg (supersedes · _) hst).trans rfl))
  have s := s.step (.send _ _ h1' rfl rfl)
  refine ⟨_, s, ?_, List.mem_cons_self .., rfl, rfl, by decide⟩
  show h1 ∈ h1' :: n.sent
  rw [hsent]; decide

/-- The proposer does not check parents against its stored proposal: if it starts with the watch past its
last proposal (round 0 recovered) and is then given parents of round 1, it goes back and hands out a second
header for round 2. -/
theorem stale_parents_equivocate : ∃ n, ReachableAny 10 n ∧ h2 ∈ n.sent ∧ h2' ∈ n.sent ∧
    h2.epoch = h2'.epoch ∧ h2.round = h2'.round ∧ h2 ≠ h2' := by
  obtain ⟨n, s, hself, he, hrun, hsent, hst⟩ := three_sent
  have s := any s
  have s := s.step (.start _ true 4 [1, 2, 3] hrun)
  have hrec : recoveredRound true n.stored n.epoch 4 = 0 := by rw [hst, he]; rfl
  have hnew : newRun true n.stored n.epoch 4 [1, 2, 3] = { round := 0, pr := 4, parents := [1, 2, 3] } := by
    unfold newRun; rw [hrec]
  rw [hnew] at s
  have s := s.step (.parents _ _ [11, 12, 13] 1 rfl)
  have s := s.step (.fresh _ _ h2' rfl rfl (by decide)
    (fun w hw => by have h3w : w = h3 := Option.some.inj (hw.symm.trans hst)
                    rw [h3w]; exact fun h => absurd h.1 (by decide))
    rfl he.symm hself.symm rfl (fun d => Iff.rfl))
  have s := s.step (.skipStore _ _ h2' rfl rfl ((congrArg (supersedes · _) hst).trans rfl))
  have s := s.step (.send _ _ h2' rfl rfl)
  refine ⟨_, s, ?_, List.mem_cons_self .., rfl, rfl, by decide⟩
  show h2 ∈ h2' :: n.sent
  rw [hsent]; decide

/-- The maximal-delay re-proposal puts a header that was already reported committed back among the
outstanding ones; the next commit report queues its batches again, so they are proposed a second time. -/
theorem committed_batch_requeued : ∃ n r, Reachable 10 n ∧ n.run = some r ∧ 50 ∈ r.committed ∧
    (50, 0) ∈ r.digests := by
  have s := Reachable.init (maxBatches := 10) 7 1
  have s := s.step (a := .start true) rfl (.start _ true 0 [1, 2, 3] rfl)
  have s := s.other (.digest _ _ (50, 0) rfl)
  have s := s.other (.fresh _ _ h1 rfl rfl (by decide) (by intro w hw; cases hw) rfl rfl rfl
    rfl (fun d => Iff.rfl))
  have s := s.other (.store _ _ h1 rfl rfl rfl)
  have s := s.other (.env _ (.run true) trivial)
  have s := s.other (.env _ (.run true) trivial)
  have s := s.other (.persisted _ _ h1 0 rfl rfl (List.mem_singleton.mpr rfl))
  have s := s.other (.send _ _ h1 rfl rfl)
  have s := s.other (.result _ _ h1 rfl rfl)
  have s := s.other (.committed _ _ [1] rfl)
  have s := s.other (.again _ _ h1 rfl rfl rfl)
  have s := s.other (.store _ _ h1 rfl rfl rfl)
  have s := s.other (.env _ (.run true) trivial)
  have s := s.other (.env _ (.run true) trivial)
  have s := s.other (.persisted _ _ h1 1 rfl rfl (by decide))
  have s := s.other (.send _ _ h1 rfl rfl)
  have s := s.other (.result _ _ h1 rfl rfl)
  have s := s.other (.committed _ _ [2] rfl)
  exact ⟨_, _, s, rfl, by decide, by decide⟩

end Example
end Proposer
end Verif
