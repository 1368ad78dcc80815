import Verif.Bullshark.Legacy
/-
A concrete epoch: four members, seven full rounds. It meets the hypotheses of the theorems of C10-C14,
C18, C31, C32 and commits several sub-dags.
-/
namespace Verif
namespace Bull

/-- Deliver certificates one after the other (`agg`: this node's aggregate signatures). -/
def run (p : Params) (agg : Header → Sig) : List Header → Node → Option Node
  | [], n => some n
  | h :: hs, n =>
    match processCertificate p agg n.st h with
    | .error _ => none
    | .ok (_, st', subs) => run p agg hs ⟨st', n.log ++ subs⟩

theorem run_reachable {p : Params} {U : Header → Prop} {agg : Header → Sig} {hs : List Header}
    {n m : Node} (hn : Reachable p U n) (hU : ∀ h ∈ hs, U h) (h : run p agg hs n = some m) :
    Reachable p U m := by
  induction hs generalizing n with
  | nil => cases h; exact hn
  | cons x xs ih =>
    simp only [run] at h
    split at h
    · cases h
    · rename_i he
      exact ih (.deliver hn (hU x (by simp)) he) (fun y hy => hU y (by simp [hy])) h

/-- A finite list of certificates is a universe if this (decidable) check passes. -/
def checkUniverse (c : Committee) (l : List Header) : Bool :=
  l.all (fun a => l.all (fun b => (a.digest != b.digest || decide (a = b)) &&
    (a.author != b.author || a.round != b.round || decide (a = b)))) &&
  l.all (fun x => decide (1 ≤ x.round) && c.isAuthority x.author &&
    (decide (x.round < 2) ||
      (decide (((l.filter (fun q => q.round + 1 == x.round && x.parents.contains q.digest)).map
        (·.author)).Nodup) &&
      c.reachedQuorum (c.power ((l.filter (fun q => q.round + 1 == x.round &&
        x.parents.contains q.digest)).map (·.author))))))

theorem universe_of_check {c : Committee} {l : List Header} (h : checkUniverse c l = true) :
    Universe c (· ∈ l) := by
  unfold checkUniverse at h
  rw [Bool.and_eq_true, List.all_eq_true, List.all_eq_true] at h
  obtain ⟨h1, h2⟩ := h
  have h1' : ∀ a ∈ l, ∀ b ∈ l, (a.digest = b.digest → a = b) ∧
      (a.author = b.author → a.round = b.round → a = b) := by
    intro a ha b hb
    have := List.all_eq_true.mp (h1 a ha) b hb
    simp at this
    refine ⟨fun e => this.1.resolve_left (by simpa using e), fun e1 e2 => ?_⟩
    rcases this.2 with (h | h) | h
    · exact absurd e1 h
    · exact absurd e2 h
    · exact h
  refine ⟨fun {a b} ha hb => (h1' a ha b hb).1, fun {a b} ha hb => (h1' a ha b hb).2, ?_, ?_, ?_⟩
  · intro x hx hr
    refine ⟨l.filter (fun q => q.round + 1 == x.round && x.parents.contains q.digest), ?_⟩
    have := h2 x hx
    simp only [Bool.and_eq_true, Bool.or_eq_true, decide_eq_true_eq] at this
    refine ⟨?_, (this.2.resolve_left (by omega)).1, (this.2.resolve_left (by omega)).2⟩
    intro q hq
    rw [List.mem_filter] at hq
    simp at hq
    exact ⟨hq.1, hq.2.1, hq.2.2⟩
  · intro x hx
    have := h2 x hx
    simp only [Bool.and_eq_true, decide_eq_true_eq] at this
    exact this.1.1
  · intro x hx
    have := h2 x hx
    simp only [Bool.and_eq_true, decide_eq_true_eq] at this
    exact this.1.2

namespace Ex

/-- Four members. -/
def com : Committee := ⟨0, [⟨1, 11, 0⟩, ⟨2, 12, 0⟩, ⟨3, 13, 0⟩, ⟨4, 14, 0⟩]⟩

/-- The header of author `a` in round `r`: creation times are not monotone on purpose. Author 4 does
not take part in round 3, and nobody links to its certificate of round 2. -/
def hdr (r a : Nat) : Header :=
  { author := a, round := r, epoch := 0, createdAt := 100 + (r * 7 + a * 3) % 11, seedSig := r + a
    parents := if r = 1 then [] else ([1, 2, 3, 4].filter (fun b => ! (b == 4 && (r == 3 || r == 4)))).map
      (fun b => (r - 1) * 10 + b)
    digest := r * 10 + a }

/-- All certificates of the epoch. -/
def certs : List Header :=
  [1, 2, 3, 4, 5, 6, 7].flatMap (fun r => ([1, 2, 3, 4].filter (fun a => ! (a == 4 && r == 3))).map (hdr r))

def U (h : Header) : Prop := h ∈ certs

def p : Params :=
  { committee := com, gcDepth := 4, schedLen := 2, seedActive := true, lcWindow := 2, finalWindow := 2
    fold := fun s r g => s * 31 + r * 7 + g + 1, root := fun e => e + 5 }

theorem setup : Setup p U where
  committee := ⟨by decide, by decide, by decide⟩
  certs := universe_of_check (by decide +kernel)
  gcPos := by decide
  window := by decide
  gcWindow := by decide

/-- The state at the start of the epoch. -/
def st0 : State := { seed := 5 }

theorem start : Reachable p U ⟨st0, []⟩ := .start rfl

/-- What one order of delivery leads to: three commits. -/
theorem some_run : ∃ m, Reachable p U m ∧ m.log.map (·.leaderRound) = [2, 4, 6] ∧
    m.log.map (fun s => s.headers.length) = [5, 6, 8] ∧
    m.log.map (fun s => s.commitTimestamp) = [106, 106, 107] := by
  have : ((run p (fun _ => 0) certs ⟨st0, []⟩).map (fun m => (m.log.map (·.leaderRound),
      m.log.map (fun s => s.headers.length), m.log.map (fun s => s.commitTimestamp)))) =
      some ([2, 4, 6], [5, 6, 8], [106, 106, 107]) := by decide +kernel
  cases h : run p (fun _ => 0) certs ⟨st0, []⟩ with
  | none => rw [h] at this; cases this
  | some m =>
    rw [h] at this
    simp at this
    exact ⟨m, run_reachable start (fun _ h => h) h, this.1, this.2.1, this.2.2⟩

end Ex

/-! ### the limit of recovery is real -/
namespace Fork

def com : Committee := Ex.com

/-- Three of four members take part. -/
def hdr (r a : Nat) : Header :=
  { author := a, round := r, epoch := 0, createdAt := r
    parents := if r = 1 then [] else [1, 2, 3].map (fun b => (r - 1) * 10 + b), digest := r * 10 + a }

def certs (lo hi : Nat) : List Header :=
  ((List.range (hi + 1)).filter (fun r => decide (lo ≤ r))).flatMap (fun r => [1, 2, 3].map (hdr r))

def U (h : Header) : Prop := h ∈ certs 1 27

/-- As `Params` but scaled down: schedule changes every 5 leaders, recovery looks for final scores in
the last sub-dag only. -/
def p : Params := { committee := com, gcDepth := 4, schedLen := 5, lcWindow := 2, finalWindow := 1 }

theorem setup : Setup p U where
  committee := ⟨by decide, by decide, by decide⟩
  certs := universe_of_check (by decide +kernel)
  gcPos := by decide
  window := by decide
  gcWindow := by decide

/-- A node that commits up to round 20 is stopped and started again; then it and its copy that was not
stopped get the same certificates. Returns the three logs. -/
def both : Option (List SubDag × List SubDag × List SubDag) :=
  match run p (fun _ => 0) (certs 1 21) ⟨{}, []⟩ with
  | none => none
  | some n =>
    match recover p n.log (certs 1 21) with
    | .error _ => none
    | .ok st =>
      match run p (fun _ => 0) (certs 22 27) n, run p (fun _ => 0) (certs 22 27) ⟨st, n.log⟩ with
      | some a, some b => some (n.log, a.log, b.log)
      | _, _ => none

/-- Without `FinalInWindow` a restart can fork the chain: the sequences of the two nodes are not
prefixes of each other. (In the code the window is 1000 sub-dags, see `restart_forgets_table`.) -/
theorem restart_can_fork : ∃ n st a b, Reachable p U n ∧ StoreOk U (gcOf p (roundOf n.log)) (certs 1 21) ∧
    recover p n.log (certs 1 21) = .ok st ∧ run p (fun _ => 0) (certs 22 27) n = some a ∧
    run p (fun _ => 0) (certs 22 27) ⟨st, n.log⟩ = some b ∧ ¬ a.log <+: b.log ∧ ¬ b.log <+: a.log := by
  have hb : both.map (fun x => (x.1.length, decide (x.2.1 <+: x.2.2), decide (x.2.2 <+: x.2.1))) =
      some (8, false, false) := by decide +kernel
  cases h : both with
  | none => rw [h] at hb; cases hb
  | some x =>
    obtain ⟨l0, l1, l2⟩ := x
    rw [h] at hb
    simp at hb
    unfold both at h
    split at h
    · cases h
    · rename_i n hn
      split at h
      · cases h
      · rename_i st hst
        split at h
        · rename_i a b ha hb'
          cases h
          refine ⟨n, st, a, b, ?_, ?_, hst, ha, hb', hb.2.1, hb.2.2⟩
          · refine run_reachable (U := U) (n := ⟨{}, []⟩) (.start rfl) ?_ hn
            have : ∀ h ∈ certs 1 21, h ∈ certs 1 27 := by decide +kernel
            exact this
          · constructor
            · have : ∀ h ∈ certs 1 21, h ∈ certs 1 27 := by decide +kernel
              exact this
            · have : ∀ h ∈ certs 1 21, ∀ d ∈ h.parents, ∃ q ∈ certs 1 21, q.round + 1 = h.round ∧
                  q.digest = d := by decide +kernel
              exact fun h hh _ => this h hh
        · cases h

end Fork
end Bull
end Verif
