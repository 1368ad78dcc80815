import Verif.Committee.Model
import Verif.Util.SMap
/-
Model of `crates/types/src/primary/reputation.rs` and
`crates/consensus/primary/src/consensus/leader_schedule.rs`.
-/
namespace Verif

/-- `ReputationScores`, reputation.rs:9-19. `scores` is the `BTreeMap<AuthorityIdentifier, u64>`.
u64 additions are modelled in `Nat` (one point per committed certificate cannot overflow). -/
structure Scores where
  scores : List (Nat × Nat) := []
  final : Bool := false
deriving DecidableEq, Repr

namespace Scores

/-- `ReputationScores::new`, reputation.rs:24-29: every committee member at zero. -/
def new (c : Committee) : Scores :=
  { scores := SMap.ofList (c.authoritiesById.map (fun a => (a.id, 0))), final := false }

/-- Score of an authority; an absent one counts as zero (reputation.rs:12-13). -/
def scoreOf (s : Scores) (a : AuthorityId) : Nat := (SMap.get? a s.scores).getD 0

/-- `ReputationScores::add_score`, reputation.rs:31-37. -/
def addScore (s : Scores) (a : AuthorityId) (n : Nat) : Scores :=
  match SMap.get? a s.scores with
  | some v => { s with scores := SMap.insert a (v + n) s.scores }
  | none => { s with scores := SMap.insert a n s.scores }

/-- `ReputationScores::total_authorities`, reputation.rs:40-42. -/
def totalAuthorities (s : Scores) : Nat := s.scores.length

/-- The comparison of `authorities_by_score_desc`: higher score first, ties by higher identifier
first. -/
def descLe (a b : Nat × Nat) : Bool :=
  decide (b.2 < a.2) || (decide (a.2 = b.2) && decide (b.1 ≤ a.1))

/-- `ReputationScores::authorities_by_score_desc`, reputation.rs:50-69. -/
def byScoreDesc (s : Scores) : List (Nat × Nat) := stableSort descLe s.scores

end Scores

/-- Largest `k ≤ fuel` with `k * k ≤ n`. -/
def isqrtAux : Nat → Nat → Nat
  | 0, _ => 0
  | k + 1, n => if (k + 1) * (k + 1) ≤ n then k + 1 else isqrtAux k n

/-- `(x as f64).sqrt() as u64`, leader_schedule.rs:98. Modelled as the integer square root, which
is what the float expression gives for every value below 2^52. -/
def isqrt (n : Nat) : Nat := isqrtAux n n

/-- `LeaderSwapTable`, leader_schedule.rs:23-34. The `round` field is only used in log messages and
is left out. `bad` is the key set of the `HashMap`. -/
structure SwapTable where
  good : List Authority := []
  bad : List Authority := []
deriving DecidableEq, Repr

namespace SwapTable

/-- The `filter_map` collecting the bad nodes, leader_schedule.rs:114-125 (worst first). -/
def badAt (c : Committee) (auths : List (Nat × Nat)) (ceil : Nat) : List Authority :=
  auths.reverse.filterMap (fun x => if x.2 ≤ ceil then c.authority x.1 else none)

/-- The `filter_map` collecting the good nodes, leader_schedule.rs:144-155 (best first). -/
def goodAt (c : Committee) (auths : List (Nat × Nat)) (floor : Nat) : List Authority :=
  auths.filterMap (fun x => if x.2 ≥ floor then c.authority x.1 else none)

/-- The loop computing the bad nodes, leader_schedule.rs:110-136; returns the list and the final
ceiling. The first argument bounds the number of iterations; the ceiling goes down in each one, so
`ceil + 1` is always enough (`badLoop_unfold`). -/
def badLoop (c : Committee) (auths : List (Nat × Nat)) (thr sd : Nat) :
    Nat → Nat → List Authority × Nat
  | 0, ceil => (badAt c auths ceil, ceil)
  | fuel + 1, ceil =>
    if (badAt c auths ceil).length ≤ thr then (badAt c auths ceil, ceil)
    else if ceil - sd = ceil then (badAt c auths ceil, ceil)
    else badLoop c auths thr sd fuel (ceil - sd)

/-- The loop computing the good nodes, leader_schedule.rs:137-165. `lo` is `bad_ceil + 1`. The first
argument bounds the iterations as in `badLoop`. -/
def goodLoop (c : Committee) (auths : List (Nat × Nat)) (thr sd lo : Nat) :
    Nat → Nat → List Authority
  | 0, floor => goodAt c auths floor
  | fuel + 1, floor =>
    if (goodAt c auths floor).length ≥ thr then goodAt c auths floor
    else if max (floor - sd) lo = floor then goodAt c auths floor
    else goodLoop c auths thr sd lo fuel (max (floor - sd) lo)

/-- `highest_rep`, leader_schedule.rs:78. -/
def highest (auths : List (Nat × Nat)) : Nat := (auths.head?.map (·.2)).getD 0
/-- `lowest_rep`, leader_schedule.rs:81. -/
def lowest (auths : List (Nat × Nat)) : Nat := (auths.getLast?.map (·.2)).getD 0
/-- `mean_rep`, leader_schedule.rs:82-87. -/
def mean (auths : List (Nat × Nat)) : Nat := (auths.map (·.2)).sum / auths.length
/-- Square of the signed difference, leader_schedule.rs:91-94. -/
def sqDiff (a b : Nat) : Nat := (a - b + (b - a)) * (a - b + (b - a))
/-- `standard_dev`, leader_schedule.rs:88-98. -/
def stdDev (auths : List (Nat × Nat)) : Nat :=
  isqrt ((auths.map (fun x => sqDiff x.2 (mean auths))).sum / auths.length)
/-- `list_threshold`, leader_schedule.rs:74-75. -/
def listThreshold (n pct : Nat) : Nat := max (n * pct / 100) 1

/-- `LeaderSwapTable::new`, leader_schedule.rs:63-195. The asserts on the percentage and on
`final_of_schedule` are preconditions of every caller; that the assert on the good list cannot
fire is a theorem. -/
def new (c : Committee) (scores : Scores) (pct : Nat) : SwapTable :=
  let auths := scores.byScoreDesc
  let thr := listThreshold auths.length pct
  let hi := highest auths
  let sd := stdDev auths
  if sd = 0 ∨ lowest auths > hi - 2 * sd then {}
  else
    let b := badLoop c auths thr sd (hi - 2 * sd + 1) (hi - 2 * sd)
    let floor := max (hi - sd) (b.2 + 1)
    { good := goodLoop c auths thr sd (b.2 + 1) (floor + 1) floor, bad := b.1 }

/-- `LeaderSwapTable::swap`, leader_schedule.rs:205-237. `rng round len` stands for the ChaCha12
draw seeded with the round: any function of the round and the length, reduced into range. The
`expect` on an empty good list is the `none` of the indexing; a theorem shows it is unreachable. -/
def swap (rng : Nat → Nat → Nat) (t : SwapTable) (leader : AuthorityId) (round : Round) :
    Option Authority :=
  if t.bad.any (fun a => a.id == leader) then t.good[rng round t.good.length % t.good.length]?
  else none

end SwapTable

/-- `LeaderSchedule::leader`, leader_schedule.rs:296-317. `none` only for the `expect` on an out of
range index, which a theorem shows unreachable. The assert on odd rounds is a precondition. -/
def scheduleLeader (c : Committee) (rng : Nat → Nat → Nat) (t : SwapTable) (round : Round) :
    Option Authority :=
  match c.authoritiesById[(round / 2 - 1) % c.size]? with
  | none => none
  | some a => some ((t.swap rng a.id round).getD a)

end Verif
