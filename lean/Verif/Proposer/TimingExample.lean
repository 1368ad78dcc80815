import Verif.Proposer.TimingProps

/-!
# When the proposer proposes: runs, and what does not hold (C109)
-/

namespace Verif.Ptm

/-- Four members; the leaders of rounds 2, 4, 6, 8 are 1, 2, 3, 0; this node is 0. -/
def ex : Cfg :=
  { me := 0, members := [0, 1, 2, 3], leader := fun _ r => (r / 2) % 4, threshold := 3,
    maxBatches := 10, minD := 2, maxD := 10 }

def cert (o r : Nat) (ps : List Nat) : Cert := ⟨o, 10 * r + o, ps⟩

def genesis : List Cert := [cert 0 0 [], cert 1 0 [], cert 2 0 [], cert 3 0 []]

/-- Rounds one and two; the certificates of round two come without the leader's. -/
def opening : List Ev :=
  [.tickMin, .done, .parents [cert 0 1 [], cert 2 1 [], cert 3 1 []] 1, .pass 2, .tickMin,
   .done, .parents [cert 0 2 [], cert 2 2 [], cert 3 2 []] 2]

def waiting : Sys := ex.exec (ex.start genesis 0 0 0 none) opening

theorem waiting_reach : ex.Reach waiting := ⟨genesis, 0, 0, 0, none, opening, rfl⟩

/-- The node waits for the leader of round two, whose certificate then comes: the header holds it. -/
theorem waits : waiting.pending = none ∧ waiting.round = 2 ∧ waiting.advance = false ∧
    waiting.parents ≠ [] ∧ waiting.now = 2 ∧ waiting.nextMax = 12 ∧
    (ex.exec waiting [.pass 2, .tickMin, .pass 1, .parents [cert 1 2 []] 2]).log.map
      (fun m => (m.kind, m.round, m.at', m.timeout, m.parents.length)) =
      [(.create, 1, 0, false, 4), (.create, 2, 2, false, 3), (.create, 3, 5, false, 4)] := by
  decide

/-- The leader's certificate does not come: after the maximal delay the header is made without it. -/
theorem gives_up :
    (ex.exec waiting [.pass 2, .tickMin, .pass 2, .tickMin, .pass 2, .tickMin, .pass 2, .tickMin,
      .pass 2, .tickMin, .tickMax]).log.map
      (fun m => (m.kind, m.round, m.at', m.timeout, m.parents.length)) =
      [(.create, 1, 0, false, 4), (.create, 2, 2, false, 3), (.create, 3, 12, true, 3)] := by
  decide

/-- Votes for the leader of round two in round three: two of four are enough, and so are three without. -/
theorem votes_count :
    let s : Sys := { waiting with round := 3, lastLeader := some 21, parents :=
      [cert 1 3 [21], cert 2 3 [21]] }
    ex.enoughVotes s = true ∧ ex.enoughVotes { s with parents := [cert 1 3 [21], cert 2 3 []] } = false ∧
    ex.enoughVotes { s with parents := [cert 1 3 [], cert 2 3 [], cert 3 3 []] } = true := by
  decide

/-- Ready and waiting for the minimal delay: the hypotheses of `in_time_ready`. -/
theorem ready_case :
    let s := ex.exec waiting [.parents [cert 1 2 []] 2]
    s.pending = none ∧ s.parents ≠ [] ∧ s.advance = true ∧ s.eval = some s.ver ∧ s.nextMin = 4 ∧
    s.log.length = 2 ∧ (ex.exec s [.pass 2, .tickMin]).log.length = 3 := by
  decide

/-- A jump from round two to round four with the leader's certificate: a header of round five at once. -/
theorem jump_case :
    (ex.exec waiting [.parents [cert 1 4 [], cert 2 4 [], cert 3 4 []] 4, .tickMin]).log.map
      (fun m => (m.kind, m.round, m.at', m.timeout, m.parents.length)) =
      [(.create, 1, 0, false, 4), (.create, 2, 2, false, 3), (.create, 5, 2, false, 3)] := by
  decide

/-- Nothing to build on: the last header is sent again after the maximal delay. -/
theorem again_case :
    (ex.exec (ex.start genesis 0 0 0 none) [.tickMax, .done, .tickMin, .pass 2, .tickMin, .pass 2, .tickMin,
      .pass 2, .tickMin, .pass 2, .tickMin, .pass 2, .tickMax]).log.map
      (fun m => (m.kind, m.round, m.at', m.timeout)) =
      [(.create, 1, 0, true), (.again, 1, 10, true)] := by
  decide

/-! ## What does not hold -/

/-- A header in hand, all certificates of whose round, the leader's among them, arrive before its task
has ended: the node was ready, and forgets it. -/
def early : List Ev :=
  [.tickMin, .done, .parents [cert 0 1 [], cert 2 1 [], cert 3 1 []] 1, .pass 2, .tickMin,
   .parents [cert 0 2 [], cert 1 2 [], cert 2 2 [], cert 3 2 []] 2, .done]

/-- `in_time_ready` is not true of parents that are ready: it needs the flag, which the end of the task
clears. With the certificates of all members at hand the node waits for the maximal delay. -/
theorem forgotten :
    let s := ex.exec (ex.start genesis 0 0 0 none) early
    s.pending = none ∧ ex.Ready s.ver s.round s.parents s.lastLeader ∧ s.advance = false ∧
    (ex.exec s [.digest, .digest, .digest, .digest, .pass 2, .tickMin, .pass 2, .tickMin, .pass 2, .tickMin,
      .pass 2, .tickMin, .pass 2, .tickMin]).log.length = s.log.length ∧
    -- another certificate, or the empty list sent with each, makes it look again
    (ex.exec s [.pass 2, .tickMin, .parents [] 1]).log.length = s.log.length + 1 := by
  refine ⟨by decide, ?_, by decide, by decide, by decide⟩
  unfold Cfg.Ready
  rw [if_pos (by decide)]
  exact ⟨cert 1 2 [], by decide, by decide, by decide⟩

/-- The maximal delay that ends while the header's task is under way is charged to the next round: the
parents of round two, without the leader's certificate, are taken at once, although the delay started
anew. -/
theorem stale_timeout :
    let s := ex.exec (ex.start genesis 0 0 0 none)
      [.tickMin, .done, .parents [cert 0 1 [], cert 2 1 [], cert 3 1 []] 1,
       .pass 2, .tickMin, .pass 2, .tickMin, .pass 2, .tickMin, .pass 2, .tickMin, .pass 2, .tickMin,
       .tickMax, .parents [cert 0 2 [], cert 2 2 [], cert 3 2 []] 2]
    s.pending = some 2 ∧ (ex.exec s [.done]).log.map
      (fun m => (m.kind, m.round, m.at', m.timeout, m.parents.length)) =
      [(.create, 1, 0, false, 4), (.create, 2, 2, false, 3), (.create, 3, 10, true, 3)] ∧
    (ex.exec s [.done]).nextMax = 20 := by
  decide

/-- The minimal delay is not kept between two headers: it is not when its end fell in the task of the
first. -/
theorem min_not_kept :
    let s := ex.exec (ex.start genesis 0 0 0 none)
      [.tickMin, .tickMax, .pass 2, .tickMin, .done]
    s.pending = some 1 ∧ s.log.length = 2 ∧
    let s := ex.exec (ex.start genesis 0 0 0 none)
      [.tickMax, .tickMin, .done, .parents [cert 0 1 [], cert 2 1 [], cert 3 1 []] 1]
    s.log.map (fun m => (m.kind, m.round, m.at', m.timeout)) =
      [(.create, 1, 0, true), (.create, 2, 0, false)] := by
  decide

/-- A node that starts in the middle of an epoch, at round 40 by the consensus output it has, makes its
first header over the genesis certificates, for round 41. -/
theorem genesis_over_old :
    (ex.exec (ex.start genesis 0 0 40 none) [.tickMin]).log.map
      (fun m => (m.kind, m.round, m.base, m.parents.length, m.eval)) =
      [(.create, 41, 0, 4, none)] := by
  decide

end Verif.Ptm
