/- Concrete runs for C50, and the run that ends in an archive no restart gets past. -/
import Verif.Exec.PipelineProps

namespace Verif
namespace Pipe
namespace Ex50

/-- An executable step, for concrete runs. -/
inductive Act where
  | commit (o : O)
  | receive (n : Nat)
  | leftover (k : Nat)
  | exec
  | persist (k : Nat)
  | closed
  | replay
  | replayed
  | restart

def act (s : St) : Act → Option St
  | .commit o => if s.ph = .live ∧ s.done = false ∧ o.epoch = s.epoch then
      some { s with pack := s.pack ++ [o], done := o.close } else none
  | .receive n => if s.ph = .live ∧ 1 ≤ n then some (s.receive n) else none
  | .leftover k => if s.ph = .live then some (s.leftover k) else none
  | .exec => match s.q with
    | [] => none
    | x :: q => some { s with mem := s.mem ++ effect x.num x.out x.close, q := q }
  | .persist k => some { s with dur := s.dur ++ s.mem.take k, mem := s.mem.drop k }
  | .closed => if s.ph = .closing ∧ s.q = [] then some s.enter else none
  | .replay => match s.ph with
    | .replay r => (s.pack[r - 1]?).map (fun o => s.replayOne r o)
    | _ => none
  | .replayed => match s.ph with
    | .replay r => if s.pack.length < r ∧ s.q = [] then some { s with ph := .live } else none
    | _ => none
  | .restart => some s.restart

theorem act_step {s t : St} {a : Act} (h : act s a = some t) : Step s t := by
  cases a with
  | commit o =>
    simp only [act] at h
    split at h
    · rename_i hc
      cases h
      exact .commit o hc.1 hc.2.1 hc.2.2
    · cases h
  | receive n =>
    simp only [act] at h
    split at h
    · rename_i hc
      cases h
      exact .receive n hc.1 hc.2
    · cases h
  | leftover k =>
    simp only [act] at h
    split at h
    · rename_i hc
      cases h
      exact .leftover k hc
    · cases h
  | exec =>
    simp only [act] at h
    split at h
    · cases h
    · rename_i x q hq
      cases h
      exact .exec x q hq
  | persist k =>
    cases h
    exact .persist k
  | closed =>
    simp only [act] at h
    split at h
    · rename_i hc
      cases h
      exact .closed hc.1 hc.2
    · cases h
  | replay =>
    simp only [act] at h
    split at h
    · rename_i r hr
      cases hp : s.pack[r - 1]? with
      | none => rw [hp] at h; cases h
      | some o =>
        rw [hp] at h
        cases h
        exact .replay r o hr hp
    · cases h
  | replayed =>
    simp only [act] at h
    split at h
    · rename_i r hr
      split at h
      · rename_i hc
        cases h
        exact .replayed r hr hc.1 hc.2
      · cases h
    · cases h
  | restart =>
    cases h
    exact .restart

def run : St → List Act → Option St
  | s, [] => some s
  | s, a :: as => (act s a).bind (fun t => run t as)

theorem run_reach {s t : St} {as : List Act} (hs : Reach s) (h : run s as = some t) : Reach t := by
  induction as generalizing s with
  | nil => cases h; exact hs
  | cons a as ih =>
    simp only [run] at h
    cases ha : act s a with
    | none => rw [ha] at h; cases h
    | some u => rw [ha] at h; exact ih (hs.step (act_step ha)) h

/-- Two plain outputs of epoch 0 (the second without batches), its boundary, and one of epoch 1. -/
def o1 : O := ⟨0, false, true, 1⟩
def o2 : O := ⟨0, false, false, 2⟩
def o3 : O := ⟨0, true, false, 3⟩
def o4 : O := ⟨1, false, true, 4⟩

/-- Epoch 0 is executed and closed, epoch 1 begins, the node crashes with only output 1 durable, and the
restart replays output 2, output 3, closes the epoch again and replays output 4. -/
def good : List Act :=
  [.replayed, .commit o1, .receive 1, .exec, .persist 1, .commit o2, .receive 2, .exec, .commit o3,
   .leftover 5, .exec, .closed, .replayed, .commit o4, .restart,
   .replay, .exec, .replay, .exec, .closed, .replay, .exec, .replayed]

theorem good_ends : (run init good).map (fun s => decide (s.ph = .live ∧ s.epoch = 1 ∧
    s.chain = [⟨1, o1, false⟩, ⟨3, o3, true⟩, ⟨4, o4, false⟩])) = some true := by decide +kernel

theorem good_reach : ∃ s, run init good = some s ∧ Reach s ∧ s.pack = [o1, o2, o3, o4] ∧ EpochsOk s.pack s.pack.length := by
  have hsome : ∃ s, run init good = some s ∧ s.pack = [o1, o2, o3, o4] := ⟨_, rfl, rfl⟩
  obtain ⟨s, hs, hp⟩ := hsome
  refine ⟨s, hs, run_reach .init hs, hp, ?_⟩
  rw [hp]
  intro i o hi ho
  have : i = 0 ∨ i = 1 ∨ i = 2 ∨ i = 3 := by
    simp only [List.length_cons, List.length_nil] at hi
    omega
  rcases this with rfl | rfl | rfl | rfl <;> cases ho <;> rfl

/-- The same run meets the condition of `recovers_clean`. -/
def cleanRun : St → List Act → Option St
  | s, [] => some s
  | s, a :: as => (act s a).bind (fun t =>
      if s.ph = .live → t.ph = .live → s.done = true → t.done = true then cleanRun t as else none)

theorem cleanRun_reach {s t : St} {as : List Act} (hs : CleanReach s) (h : cleanRun s as = some t) :
    CleanReach t := by
  induction as generalizing s with
  | nil => cases h; exact hs
  | cons a as ih =>
    simp only [cleanRun] at h
    cases ha : act s a with
    | none => rw [ha] at h; cases h
    | some u =>
      rw [ha] at h
      simp only [Option.bind_some] at h
      split at h
      · rename_i hc
        exact ih (hs.step (act_step ha) hc) h
      · cases h

theorem good_clean : ∃ s, CleanReach s ∧ s.pack = [o1, o2, o3, o4] := by
  have hsome : ∃ s, cleanRun init good = some s ∧ s.pack = [o1, o2, o3, o4] := ⟨_, rfl, rfl⟩
  obtain ⟨s, hs, hp⟩ := hsome
  exact ⟨s, cleanRun_reach .init hs, hp⟩

/-- The boundary output is in the archive, but the re-entry reads an archive head that lags behind
(`leftover 0`): the subscriber starts over and commits one more output of epoch 0. -/
def late : O := ⟨0, false, true, 5⟩

def bad : List Act := [.replayed, .commit o1, .receive 1, .exec, .persist 1, .commit o3, .leftover 0, .commit late]

/-- **Finding.** After this run no sequence of steps, restarts included, ever executes output 3. -/
theorem boundary_missed_stuck : ∃ s, run init bad = some s ∧ s.pack = [o1, o3, late] ∧
    ∀ t, Steps s t → ∃ m, m ≤ 2 ∧ t.chain = expected t.pack m := by
  have hsome : ∃ s, run init bad = some s ∧ s.pack = [o1, o3, late] := ⟨_, rfl, rfl⟩
  obtain ⟨s, hs, hp⟩ := hsome
  refine ⟨s, hs, hp, fun t ht => stuck_forever (run_reach .init hs) ⟨late, ?_, ?_⟩ ht⟩
  · rw [hp]; rfl
  · rw [hp]; decide

/-- And each restart ends in the error of `replay_missed_consensus`. -/
theorem boundary_missed_down : (run init (bad ++ [.restart, .replay, .exec, .persist 1, .closed, .replay])).map
    (fun s => decide (s.ph = .down)) = some true := by decide +kernel

theorem boundary_missed_down_again : (run init (bad ++ [.restart, .replay, .exec, .persist 1, .closed, .replay,
    .restart, .replay])).map (fun s => decide (s.ph = .down)) = some true := by decide +kernel

end Ex50
end Pipe
end Verif
