import Verif.Types
import Verif.Util.Sort
/-
Model of `crates/types/src/committee.rs`: thresholds and voting power.
-/
namespace Verif

namespace Committee

/-- `Committee::size` / `CommitteeInner::total_voting_power`, committee.rs:261-263, 502-504. -/
def size (c : Committee) : Nat := c.authorities.length

/-- `CommitteeInner::calculate_quorum_threshold`, committee.rs:247-252:
`2 * total_votes / 3 + 1`. The u64 multiplication cannot overflow for a map that fits in memory. -/
def quorumThreshold (c : Committee) : Nat := 2 * c.size / 3 + 1

/-- `CommitteeInner::calculate_validity_threshold`, committee.rs:254-259:
`total_votes.div_ceil(3)`, replaced by 1 when that is 0. -/
def validityThreshold (c : Committee) : Nat :=
  let v := (c.size + 2) / 3
  if v = 0 then 1 else v

/-- `Committee::authority`, committee.rs:482-484 (lookup in `authorities_by_id`). -/
def authority (c : Committee) (id : AuthorityId) : Option Authority :=
  c.authorities.find? (fun a => a.id == id)

/-- `Committee::authority_by_key`, committee.rs:486-488. -/
def authorityByKey (c : Committee) (k : Key) : Option Authority :=
  c.authorities.find? (fun a => a.key == k)

/-- `Committee::is_authority`, committee.rs:496-499. -/
def isAuthority (c : Committee) (id : AuthorityId) : Bool := (c.authority id).isSome

/-- `Committee::voting_power_by_id`, committee.rs:511-513. -/
def votingPowerById (c : Committee) (id : AuthorityId) : Nat :=
  match c.authority id with
  | none => 0
  | some _ => 1

/-- `Committee::reached_quorum`, committee.rs:526-528. -/
def reachedQuorum (c : Committee) (power : Nat) : Bool := decide (c.quorumThreshold ≤ power)

/-- `Committee::reached_validity`, committee.rs:531-533. -/
def reachedValidity (c : Committee) (power : Nat) : Bool := decide (c.validityThreshold ≤ power)

/-- `Committee::bls_keys`, committee.rs:577-579 (a `BTreeSet`: ascending). -/
def blsKeys (c : Committee) : List Key := c.authorities.map (·.key)

/-- `Committee::authorities`, committee.rs:490-493: values of the map keyed by id, i.e. in
ascending id order. -/
def authoritiesById (c : Committee) : List Authority :=
  stableSort (fun a b => decide (a.id ≤ b.id)) c.authorities

/-- Summed voting power of a list of authority identifiers, as every caller computes it
(`iter().map(|x| committee.voting_power_by_id(x)).sum()`). -/
def power (c : Committee) (ids : List AuthorityId) : Nat :=
  (ids.map c.votingPowerById).sum

/-- What `CommitteeInner::load` and the `BTreeMap` types guarantee (committee.rs:232-245): keys
strictly ascending, at least two members (asserted), and distinct identifiers. The last is
collision-freeness of the hash that derives identifiers from keys. -/
structure WF (c : Committee) : Prop where
  keysSorted : (c.authorities.map (·.key)).Pairwise (· < ·)
  idsNodup : (c.authorities.map (·.id)).Nodup
  two : 1 < c.size

end Committee

/-- The free function `quorum_threshold`, committee.rs:686-688, used when only the set of keys of a
past committee is known. -/
def quorumThresholdOf (members : Nat) : Nat := (2 * members) / 3 + 1

end Verif
