import Verif.Schedule.Model
/-
Model of `crates/consensus/primary/src/consensus/{bullshark,state,utils}.rs` and of the part of
`crates/types/src/primary/output.rs` and `crates/storage/src/consensus_pack.rs` that consensus and its
recovery use.

A certificate is modelled by its header: every comparison, lookup and output of consensus uses header
data only. The one exception is the aggregate signature of a leader in epochs before the
seed-signature fork; it is a separate argument (`agg`) below.
-/
namespace Verif
namespace Bull

/-- Constants of an epoch. `gcDepth`: parameter `gc_depth`; `schedLen`:
`CONSENSUS_SCHEDULE_CHANGE_SUB_DAGS` (60, node/src/primary.rs:33); `badPct`: bad nodes threshold;
`seedActive`: `seed_signature_active(epoch)`; `rng`: the leader swap draw; `fold`/`root`/`hashSig`:
the keccak constructions of seed_chain.rs:53-90 and output.rs:424; `lcWindow`/`finalWindow`: the
number of sub-dags that recovery reads back (50 and 1000, consensus_pack.rs:1252, 1272). -/
structure Params where
  committee : Committee
  gcDepth : Nat
  schedLen : Nat := 60
  badPct : Nat := 33
  seedActive : Bool := true
  rng : Nat → Nat → Nat := fun _ _ => 0
  fold : Nat → Round → Sig → Nat := fun _ _ _ => 0
  root : Epoch → Nat := fun _ => 0
  hashSig : Sig → Nat := fun _ => 0
  lcWindow : Nat := 50
  finalWindow : Nat := 1000

/-- `Dag`, state.rs:29: a map round → author → certificate. Modelled as the list of its
certificates; a (round, author) key occurs at most once (`dagInsert`). A round is present in the map
iff it has a certificate. The iteration order of the hash map is the order in the list; the code never
depends on it. -/
abbrev Dag := List Header

/-- `dag.get(&r)`, values of one round. -/
def atRound (dag : Dag) (r : Round) : List Header := dag.filter (fun h => h.round == r)

/-- `CommittedSubDag`, output.rs:303-327. -/
structure SubDag where
  headers : List Header
  scores : Scores
  timestamp : Nat
  randomness : Nat
deriving DecidableEq, Repr

/-- `CommittedSubDag::leader`, output.rs:498-500: the last header (`expect` if there is none). -/
def SubDag.leader? (s : SubDag) : Option Header := s.headers.getLast?

/-- `CommittedSubDag::leader_round`, output.rs:503-505 (0 stands for the unreachable panic). -/
def SubDag.leaderRound (s : SubDag) : Round := (s.leader?.map (·.round)).getD 0

/-- `CommittedSubDag::commit_timestamp`, output.rs:513-521. -/
def SubDag.commitTimestamp (s : SubDag) : Nat :=
  if s.timestamp = 0 then (s.leader?.map (·.createdAt)).getD 0 else s.timestamp

/-- `ConsensusState`, state.rs:33-55, together with the swap table of `Bullshark::leader_schedule`. -/
structure State where
  committedRound : Round := 0
  gcRound : Round := 0
  lastCommitted : List (Nat × Nat) := []
  lastSub : Option SubDag := none
  dag : Dag := []
  seed : Nat := 0
  table : SwapTable := {}
deriving Repr

/-- The errors that end the consensus task. -/
inductive Err
  | missingParent | missingParentRound | equivocation
  | missingLeaderChildRound | leaderRoundNotEven | reputationCount
  | leaderNotLast
deriving DecidableEq, Repr

/-- `Outcome`, consensus/mod.rs. -/
inductive Outcome
  | certificateBelowCommitRound | noLeaderElectedForOddRound | leaderBelowCommitRound
  | leaderNotFound | notEnoughSupport | scheduleChanged | commit
deriving DecidableEq, Repr

/-! ### state.rs -/

/-- `HashMap::insert` of the DAG, state.rs:160-165: replaces an entry of the same round and author. -/
def dagInsert (dag : Dag) (h : Header) : Dag :=
  dag.filter (fun x => !(x.round == h.round && x.author == h.author)) ++ [h]

/-- `check_parents`, state.rs:209-239. -/
def checkParents (dag : Dag) (gcRound : Round) (h : Header) : Except Err Unit :=
  if h.round ≤ gcRound + 1 then .ok ()
  else if (atRound dag (h.round - 1)).isEmpty then .error .missingParentRound
  else if h.parents.all (fun d => (atRound dag (h.round - 1)).any (fun x => x.digest == d)) then
    .ok ()
  else .error .missingParent

/-- Whether the DAG has another certificate for the round and author of `h`. -/
def hasOther (dag : Dag) (h : Header) : Bool :=
  dag.any (fun x => x.round == h.round && x.author == h.author && !(x.digest == h.digest))

/-- `last_committed.get(origin)` with default 0. -/
def lcGet (lc : List (Nat × Nat)) (a : AuthorityId) : Round := (SMap.get? a lc).getD 0

/-- `try_insert_in_dag`, state.rs:139-180. Returns the new DAG and the flag. -/
def tryInsert (dag : Dag) (lc : List (Nat × Nat)) (gcRound : Round) (h : Header) (check : Bool) :
    Except Err (Dag × Bool) :=
  if h.round ≤ gcRound then .ok (dag, false)
  else
    match (if check then checkParents dag gcRound h else .ok ()) with
    | .error e => .error e
    | .ok () =>
      if hasOther dag h then .error .equivocation
      else .ok (dagInsert dag h, decide (lcGet lc h.author < h.round))

/-- `gc_round`, utils.rs:59-61. -/
def gcOf (p : Params) (r : Round) : Round := r - p.gcDepth

/-- The `last_committed` part of `ConsensusState::update`, state.rs:184-187. -/
def lcUpdate (lc : List (Nat × Nat)) (h : Header) : List (Nat × Nat) :=
  match SMap.get? h.author lc with
  | some r => SMap.insert h.author (max r h.round) lc
  | none => SMap.insert h.author h.round lc

/-- `self.dag.retain(|r, _| *r > gc_round)`, state.rs:202. -/
def gcDag (gc : Round) (dag : Dag) : Dag := dag.filter (fun x => decide (gc < x.round))

/-- `ConsensusState::update`, state.rs:183-203, with `ConsensusRound::update`, state.rs:269-274. -/
def update (p : Params) (s : State) (h : Header) : State :=
  let c := max s.committedRound h.round
  { s with
    lastCommitted := lcUpdate s.lastCommitted h
    committedRound := c
    gcRound := gcOf p c
    dag := gcDag (gcOf p c) s.dag }

/-! ### utils.rs: order_dag -/

/-- The second skip condition of `order_dag`, utils.rs:38-42: the author already has a committed
certificate of this or a later round. -/
def pastCommitted (lc : List (Nat × Nat)) (y : Header) : Bool :=
  match SMap.get? y.author lc with
  | some r => decide (y.round ≤ r)
  | none => false

/-- The inner loop of `order_dag` over the parents of `x`, utils.rs:26-50. State: the stack (top
first) and the set of digests already pushed. A parent that is not in the DAG is only logged. -/
def pushParents (dag : Dag) (lc : List (Nat × Nat)) (x : Header) :
    List Digest → List Header × List Digest → List Header × List Digest
  | [], st => st
  | d :: ds, st =>
    match (atRound dag (x.round - 1)).find? (fun y => y.digest == d) with
    | none => pushParents dag lc x ds st
    | some y =>
      if st.2.contains y.digest || pastCommitted lc y then pushParents dag lc x ds st
      else pushParents dag lc x ds (y :: st.1, y.digest :: st.2)

/-- The outer loop of `order_dag`, utils.rs:18-51. The first argument bounds the number of iterations.
Each certificate of the DAG is pushed at most once, so one more than the size of the DAG is enough
(`orderLoop_stable`). -/
def orderLoop (dag : Dag) (lc : List (Nat × Nat)) (gcL : Round) :
    Nat → List Header → List Digest → List Header
  | 0, _, _ => []
  | _ + 1, [], _ => []
  | fuel + 1, x :: buf, seen =>
    if x.round = gcL + 1 then x :: orderLoop dag lc gcL fuel buf seen
    else
      let st := pushParents dag lc x x.parents (buf, seen)
      x :: orderLoop dag lc gcL fuel st.1 st.2

/-- `order_dag`, utils.rs:10-56. `sort_by_key` is stable, as is `stableSort`. -/
def orderDag (p : Params) (dag : Dag) (lc : List (Nat × Nat)) (leader : Header) : List Header :=
  stableSort (fun a b => decide (a.round ≤ b.round))
    (orderLoop dag lc (gcOf p leader.round) (dag.length + 1) [leader] [])

/-! ### bullshark.rs -/

/-- `Header::nonce`: `(epoch as u64) << 32 | round as u64`, header.rs. -/
def nonce (h : Header) : Nat := h.epoch * 2 ^ 32 + h.round

/-- Whether `c` supports `l`: it lies in the next round and has `l` as a parent. -/
def supports (l c : Header) : Bool := c.round == l.round + 1 && c.parents.contains l.digest

/-- The score a commit starts from: bullshark.rs:70-80. -/
def baseScores (p : Params) (lastSub : Option SubDag) (index : Nat) : Scores :=
  if index / 2 % p.schedLen = 0 then Scores.new p.committee
  else
    match lastSub with
    | some s => s.scores
    | none => Scores.new p.committee

/-- The points given for the previous leader: bullshark.rs:82-92. -/
def addSupport (lastSub : Option SubDag) (seq : List Header) (s : Scores) : Scores :=
  match lastSub.bind SubDag.leader? with
  | none => s
  | some l => (seq.filter (supports l)).foldl (fun s c => s.addScore c.author 1) s

/-- The scores of a commit before the final check of `resolve_reputation_score`,
bullshark.rs:61-101. -/
def nextScores (p : Params) (lastSub : Option SubDag) (seq : List Header) (index : Nat) : Scores :=
  { scores := (addSupport lastSub seq (baseScores p lastSub index)).scores
    final := decide ((index / 2 + 1) % p.schedLen = 0) }

/-- `resolve_reputation_score`, bullshark.rs:61-112. -/
def resolveScores (p : Params) (lastSub : Option SubDag) (seq : List Header) (index : Nat) :
    Except Err Scores :=
  if (nextScores p lastSub seq index).totalAuthorities = p.committee.size then
    .ok (nextScores p lastSub seq index)
  else .error .reputationCount

/-- `CommittedSubDag::new`, output.rs:387-448. `agg` is the aggregate signature of the leader
certificate, only used in epochs before the seed-signature fork. -/
def newSubDag (p : Params) (agg : Header → Sig) (seq : List Header) (leader : Header)
    (scores : Scores) (prev : Option SubDag) (seed : Nat) : Except Err SubDag :=
  if seq.getLast?.map (·.digest) = some leader.digest then
    .ok { headers := seq
          scores := scores
          timestamp := max ((prev.map (·.timestamp)).getD 0) leader.createdAt
          randomness := if p.seedActive then p.fold seed leader.round leader.seedSig
            else p.hashSig (agg leader) }
  else .error .leaderNotLast

/-- `leader_certificate`, leader_schedule.rs:325-341. -/
def leaderCert (p : Params) (t : SwapTable) (dag : Dag) (r : Round) : Option Header :=
  match scheduleLeader p.committee p.rng t r with
  | none => none
  | some a => (atRound dag r).find? (fun h => h.author == a.id)

/-- The loop of `linked`, bullshark.rs:338-350: `k` rounds down from round `r`. -/
def linkedLoop (dag : Dag) : Nat → Round → List Header → List Header
  | 0, _, ps => ps
  | k + 1, r, ps =>
    linkedLoop dag k (r - 1)
      ((atRound dag r).filter (fun c => ps.any (fun x => x.parents.contains c.digest)))

/-- `linked`, bullshark.rs:336-352. Certificates are compared as in their `PartialEq`
(digest, round, epoch, origin: certificate.rs), which is the digest here. -/
def linked (dag : Dag) (leader prev : Header) : Bool :=
  (linkedLoop dag (leader.round - prev.round) (leader.round - 1) [leader]).any
    (fun c => c.digest == prev.digest)

/-- The previous leader of round `r` if it is linked to `cur`: body of the loop in `order_leaders`,
bullshark.rs:315-331. -/
def hop (p : Params) (t : SwapTable) (dag : Dag) (cur : Header) (r : Round) : Option Header :=
  match leaderCert p t dag r with
  | none => none
  | some prev => if linked dag cur prev then some prev else none

/-- The loop of `order_leaders`, bullshark.rs:314-332: `k` more candidates, the next one at
round `r`, then `r - 2` and so on. -/
def leadersLoop (p : Params) (t : SwapTable) (dag : Dag) :
    Nat → Round → Header → List Header → List Header
  | 0, _, _, acc => acc
  | k + 1, r, cur, acc =>
    match hop p t dag cur r with
    | none => leadersLoop p t dag k (r - 2) cur acc
    | some prev => leadersLoop p t dag k (r - 2) prev (prev :: acc)

/-- `order_leaders`, bullshark.rs:297-335. The range `committed + 2 ..= leader.round - 2` reversed
in steps of two starts at `leader.round - 2` and has `(leader.round - 2 - committed) / 2` elements. -/
def orderLeaders (p : Params) (s : State) (leader : Header) : Except Err (List Header) :=
  if leader.round % 2 = 0 then
    .ok (leadersLoop p s.table s.dag ((leader.round - 2 - s.committedRound) / 2)
      (leader.round - 2) leader [leader])
  else .error .leaderRoundNotEven

/-- Flatten and record the sub-dag of one leader: the body of the `while` loop of `commit_leader`,
bullshark.rs:228-284, without the schedule update. -/
def commitOne (p : Params) (agg : Header → Sig) (s : State) (leader : Header) :
    Except Err (State × SubDag) :=
  let seq := orderDag p s.dag s.lastCommitted leader
  let s1 := seq.foldl (update p) s
  match resolveScores p s1.lastSub seq (nonce leader) with
  | .error e => .error e
  | .ok scores =>
    match newSubDag p agg seq leader scores s1.lastSub s1.seed with
    | .error e => .error e
    | .ok sub => .ok ({ s1 with lastSub := some sub, seed := sub.randomness }, sub)

/-- `update_leader_schedule`, bullshark.rs:357-376. -/
def updateSchedule (p : Params) (s : State) (scores : Scores) : State :=
  if scores.final then { s with table := SwapTable.new p.committee scores p.badPct } else s

/-- The `while` loop of `commit_leader`, bullshark.rs:227-292. -/
def commitLeaders (p : Params) (agg : Header → Sig) :
    List Header → State → List SubDag → Except Err (Outcome × State × List SubDag)
  | [], s, acc => .ok (.commit, s, acc)
  | l :: rest, s, acc =>
    match commitOne p agg s l with
    | .error e => .error e
    | .ok (s1, sub) =>
      if sub.scores.final && !rest.isEmpty then
        .ok (.scheduleChanged, updateSchedule p s1 sub.scores, acc ++ [sub])
      else commitLeaders p agg rest (updateSchedule p s1 sub.scores) (acc ++ [sub])

/-- Voting power behind a leader: bullshark.rs:196-206. -/
def support (p : Params) (dag : Dag) (leader : Header) : Nat :=
  p.committee.power
    (((atRound dag (leader.round + 1)).filter (fun x => x.parents.contains leader.digest)).map
      (·.author))

/-- `commit_leader`, bullshark.rs:182-295. -/
def commitLeader (p : Params) (agg : Header → Sig) (leaderRound : Round) (s : State) :
    Except Err (Outcome × State × List SubDag) :=
  match leaderCert p s.table s.dag leaderRound with
  | none => .ok (.leaderNotFound, s, [])
  | some leader =>
    if (atRound s.dag (leaderRound + 1)).isEmpty then .error .missingLeaderChildRound
    else if support p s.dag leader < p.committee.validityThreshold then
      .ok (.notEnoughSupport, s, [])
    else
      match orderLeaders p s leader with
      | .error e => .error e
      | .ok ls => commitLeaders p agg ls s []

/-- The `loop` of `process_certificate`, bullshark.rs:145-157: repeat while the schedule changed. The
first argument bounds the repetitions; the committed round grows in each one
(`commitLoop_ok`). -/
def commitLoop (p : Params) (agg : Header → Sig) (leaderRound : Round) :
    Nat → State → List SubDag → Except Err (Outcome × State × List SubDag)
  | 0, s, acc => .ok (.scheduleChanged, s, acc)
  | fuel + 1, s, acc =>
    match commitLeader p agg leaderRound s with
    | .error e => .error e
    | .ok (o, s', subs) =>
      if o = .scheduleChanged then commitLoop p agg leaderRound fuel s' (acc ++ subs)
      else .ok (o, s', acc ++ subs)

/-- `process_certificate`, bullshark.rs:114-174. -/
def processCertificate (p : Params) (agg : Header → Sig) (s : State) (h : Header) :
    Except Err (Outcome × State × List SubDag) :=
  match tryInsert s.dag s.lastCommitted s.gcRound h true with
  | .error e => .error e
  | .ok (dag, false) => .ok (.certificateBelowCommitRound, { s with dag := dag }, [])
  | .ok (dag, true) =>
    let s := { s with dag := dag }
    let r := h.round - 1
    if r % 2 ≠ 0 ∨ r < 2 then .ok (.noLeaderElectedForOddRound, s, [])
    else if r ≤ s.committedRound then .ok (.leaderBelowCommitRound, s, [])
    else
      match commitLoop p agg r (r + 1) s [] with
      | .error e => .error e
      | .ok (o, s', subs) => .ok (if subs.isEmpty then o else .commit, s', subs)

/-! ### recovery -/

/-- `PositionIndex::rev_iter` then reading the headers: the last `n` sub-dags,
position_index/index.rs:218-225. -/
def lastN (n : Nat) (log : List SubDag) : List SubDag := log.drop (log.length - n)

/-- `read_last_committed`, consensus_pack.rs:1250-1267. (The leader is one of the headers, so its
separate entry at lines 1256-1258 adds nothing; the maximum does not depend on the order.) -/
def readLastCommitted (p : Params) (log : List SubDag) : List (Nat × Nat) :=
  ((lastN p.lcWindow log).flatMap (·.headers)).foldl lcUpdate []

/-- `read_latest_commit_with_final_reputation_scores`, consensus_pack.rs:1269-1288, and
`LeaderSchedule::from_store`, leader_schedule.rs:258-280. -/
def tableFromStore (p : Params) (log : List SubDag) : SwapTable :=
  match (lastN p.finalWindow log).reverse.find? (fun s => s.scores.final) with
  | none => {}
  | some s => SwapTable.new p.committee s.scores p.badPct

/-- The errors of `resolve_seed_chain_anchor`. -/
inductive AnchorErr
  | missingSubDag | subDagWithoutRound | roundMismatch
deriving DecidableEq, Repr

/-- `resolve_seed_chain_anchor`, state.rs:318-345. -/
def resolveAnchor (p : Params) (latest : Option SubDag) (committedRound : Round) :
    Except AnchorErr Nat :=
  match latest with
  | some s =>
    if committedRound > 0 then
      if s.leaderRound = committedRound then .ok s.randomness else .error .roundMismatch
    else .error .subDagWithoutRound
  | none =>
    if committedRound > 0 then .error .missingSubDag else .ok (p.root p.committee.epoch)

/-- `construct_dag_from_cert_store`, state.rs:108-131: insert without parent check, in the order
of the store. -/
def buildDag (lc : List (Nat × Nat)) (gcRound : Round) : List Header → Dag → Except Err Dag
  | [], dag => .ok dag
  | h :: hs, dag =>
    match tryInsert dag lc gcRound h false with
    | .error e => .error e
    | .ok (dag', _) => buildDag lc gcRound hs dag'

/-- `Consensus::spawn` up to the construction of the state, state.rs:347-409, with
`new_from_store`, state.rs:83-106. `log` is the content of the epoch's consensus pack and `store` the
certificates `after_round(gc_round + 1)` returns. -/
def recover (p : Params) (log : List SubDag) (store : List Header) :
    Except (AnchorErr ⊕ Err) State :=
  let lc := readLastCommitted p log
  let committed := (lc.map (·.2)).foldl max 0
  match resolveAnchor p log.getLast? committed with
  | .error e => .error (.inl e)
  | .ok seed =>
    match buildDag lc (gcOf p committed) (store.filter (fun h => decide (gcOf p committed < h.round)))
        [] with
    | .error e => .error (.inr e)
    | .ok dag =>
      .ok { committedRound := committed, gcRound := gcOf p committed, lastCommitted := lc
            lastSub := log.getLast?, dag := dag, seed := seed, table := tableFromStore p log }

end Bull
end Verif
