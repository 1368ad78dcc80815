import Verif.Util.SMap
import Verif.Tx.Target
/-
Model of the forwarding of an observer's transactions, `crates/tn-reth/src/forward.rs` 385-1190: admission of a batch,
the walk of one transaction along the validators, the verdict, and what happens to every transaction of a batch.

Keys, endpoints (URLs) and reasons are numbers; time is counted in seconds where it matters. The answers of the
validators are given from outside: one for every validator and transaction (a walk asks every validator at most
once). That the budget of a transaction runs out is given as the number of sends completed before. The metrics and the
log are not modelled.
-/
namespace Verif
namespace Tx

/-! ## One send -/

/-- `Disposition`, forward.rs:1122-1142. -/
inductive Disp
  | delivered
  | rejected (reason : Nat)
  | tryNext
  | unreachable
deriving DecidableEq, Repr

/-- What `send_raw_transaction` returns, within its time-out of 5 s: success, an error response of the server (code
and message), a local fault, no usable response, time-out. -/
inductive Reply
  | success
  | errorResp (code : Int) (message : List Char)
  | localFault
  | noVerdict
  | timedOut
deriving DecidableEq, Repr

/-- Whether a string contains another. -/
def contains (needle : List Char) (s : List Char) : Bool := s.tails.any (needle.isPrefixOf ·)

/-- `TRANSIENT_RPC_CODES`, forward.rs:126. -/
def transientCodes : List Int := [-32003, -32603]

/-- `NODE_LOCAL_MESSAGES`, forward.rs:170-185. -/
def nodeLocal : List (List Char) :=
  ["transaction underpriced".toList, "replacement transaction underpriced".toList,
   "exceeds the configured cap".toList, "address already reserved".toList]

/-- `classify_server_error`, forward.rs:1178-1197. (The reason is not modelled: 0.) -/
def classifyServer (code : Int) (message : List Char) : Disp :=
  let lowered := message.map Char.toLower
  if code ∈ transientCodes then .tryNext
  else if contains "already known".toList lowered then .delivered
  else if code = -32000 ∧ (nodeLocal.any fun n => contains n lowered) then .tryNext
  else .rejected 0

/-- The disposition of a reply, forward.rs:992-996 and `classify_error`, 1158-1175. -/
def classify : Reply → Disp
  | .success => .delivered
  | .errorResp code msg => classifyServer code msg
  | .localFault => .tryNext
  | .noVerdict => .unreachable
  | .timedOut => .unreachable

/-! ## The walk -/

/-- `ForwardOutcome`, forward.rs:1146-1155. -/
inductive Outcome
  | delivered
  | rejected (reason : Nat)
  | noEndpoint
deriving DecidableEq, Repr

/-- An effect on the endpoints the whole node has recorded as unreachable. -/
inductive Eff
  | demote (url : Nat)
  | lift (url : Nat)
deriving DecidableEq, Repr

/-- The variables of a walk: validators seen, the held rejection, the endpoints this batch has found unreachable,
effects on the node's record, the validators asked, and the number of sends until the budget runs out. -/
structure Walk where
  tried : List Nat := []
  held : Option (Nat × Nat) := none
  unreachable : List Nat := []
  effects : List Eff := []
  asked : List Nat := []
  cut : Option Nat := none
deriving DecidableEq, Repr

/-- The walk's end without a second verdict, forward.rs:1085-1090, and the outcome if the budget runs out,
`expired_walk_outcome`, forward.rs:1105-1117: a held rejection stands. -/
def Walk.standing (w : Walk) : Outcome :=
  match w.held with
  | none => .noEndpoint
  | some (_, r) => .rejected r

/-- A delivery lifts the demotion of the endpoint if this batch has recorded one, forward.rs:1005-1015. -/
def Walk.lift (w : Walk) (u : Nat) : Walk :=
  if u ∈ w.unreachable then
    { w with unreachable := w.unreachable.filter (· != u), effects := w.effects ++ [.lift u] }
  else w

/-- An endpoint that gave no verdict, forward.rs:1062-1073. -/
def Walk.demote (w : Walk) (u : Nat) : Walk :=
  if u ∈ w.unreachable then w
  else { w with unreachable := u :: w.unreachable, effects := w.effects ++ [.demote u] }

/-- A send to `k`. -/
def Walk.ask (w : Walk) (k : Nat) : Walk :=
  { w with asked := w.asked ++ [k], cut := w.cut.map (· - 1) }

/-- `walk_fallback_chain`, forward.rs:963-1091, with the budget of 15 s around it (forward.rs:628-646): the outcome,
whether the budget ran out, and the variables after it. `prov` gives the endpoint of a usable validator, `ans` the
answer of a validator. -/
def walk (prov : Nat → Option Nat) (ans : Nat → Disp) : List Nat → Walk → Outcome × Bool × Walk
  | [], w => (w.standing, false, w)
  | k :: ks, w =>
    if k ∈ w.tried then walk prov ans ks w
    else
      let w := { w with tried := k :: w.tried }
      match prov k with
      | none => walk prov ans ks w
      | some u =>
        if u ∈ w.unreachable then walk prov ans ks w
        else if w.cut = some 0 then (w.standing, true, w)
        else
          let w := w.ask k
          match ans k with
          | .delivered => (.delivered, false, w.lift u)
          | .rejected r =>
            match w.held with
            | some _ => (.rejected r, false, w)
            | none => walk prov ans ks { w with held := some (k, r) }
          | .tryNext => walk prov ans ks w
          | .unreachable => walk prov ans ks (w.demote u)

/-! ## A batch -/

/-- `rotation_start` and `rotated_fallbacks`, forward.rs:897-912. -/
def rotate (l : List Nat) (counter : Nat) : List Nat :=
  if l.length = 0 then [] else l.drop (counter % l.length) ++ l.take (counter % l.length)

/-- A transaction of a batch: `sender` is its signer's address as bytes, `none` if it cannot be recovered. -/
structure FTx where
  id : Nat
  sender : Option (List Nat)
deriving DecidableEq, Repr

/-- `u64::from_le_bytes` of the first eight bytes. -/
def le64 (l : List Nat) : Nat := (l.take 8).foldr (fun b acc => b + 256 * acc) 0

/-- `owning_validator`, forward.rs:917-930 (the committee is not empty: `forward_txns` checks it). -/
def owner (slots : List Nat) (t : FTx) : Option Nat :=
  match t.sender with
  | none => none
  | some s => slots[le64 s % slots.length]?

/-- The decision in `submit_txn_if_mine`, batch-validator/src/validator.rs:90-109. -/
def submitIfMine (size slot : Nat) (t : FTx) : Bool :=
  match t.sender with
  | none => false
  | some s => le64 s % size == slot

/-- What the world does to one transaction: the answers, the sends before its budget runs out, and whether its
budget was cut by that of the batch (forward.rs:617). -/
structure TxEnv where
  ans : Nat → Disp
  cut : Option Nat
  clamped : Bool

/-- What becomes of a transaction. -/
inductive Fate
  | delivered
  | rejected
  | unreached
  | cutShort
  | notTried
deriving DecidableEq, Repr

/-- The tallies of a batch, forward.rs:582-606, and the transactions handed back to the pool. -/
structure Tally where
  delivered : Nat := 0
  rejected : Nat := 0
  unreached : Nat := 0
  noVerdict : Nat := 0
  pulled : Nat := 0
  unreachable : List Nat := []
  effects : List Eff := []
  requeued : List FTx := []
  fates : List (FTx × Fate) := []
deriving DecidableEq, Repr

/-- The fate of a transaction by the outcome of its walk, forward.rs:648-686. -/
def fateOf (o : Outcome) (expired clamped : Bool) : Fate :=
  match o with
  | .delivered => .delivered
  | .rejected _ => .rejected
  | .noEndpoint => if expired && clamped then .cutShort else .unreached

/-- The tallies after one transaction, forward.rs:648-686. -/
def Tally.add (b : Tally) (t : FTx) (f : Fate) : Tally :=
  let b := { b with fates := b.fates ++ [(t, f)], pulled := b.pulled + 1 }
  match f with
  | .delivered => { b with delivered := b.delivered + 1 }
  | .rejected => { b with rejected := b.rejected + 1 }
  | .unreached =>
    { b with unreached := b.unreached + 1, noVerdict := b.noVerdict + 1, requeued := b.requeued ++ [t] }
  | .cutShort => { b with noVerdict := b.noVerdict + 1, requeued := b.requeued ++ [t] }
  | .notTried => b

/-- The tail that the deadline of the batch has cut off is handed back too, forward.rs:751-757. -/
def Tally.tail (b : Tally) (ts : List FTx) : Tally :=
  { b with
    noVerdict := b.noVerdict + ts.length
    requeued := b.requeued ++ ts
    fates := b.fates ++ ts.map fun t => (t, Fate.notTried) }

/-- The loop of the task, forward.rs:607-687: one environment for every transaction that is pulled before the
deadline of the batch. -/
def run (slots fallbacks : List Nat) (prov : Nat → Option Nat) : List FTx → List TxEnv → Tally → Tally
  | [], _, b => b
  | t :: ts, [], b => b.tail (t :: ts)
  | t :: ts, e :: es, b =>
    let r := walk prov e.ans ((owner slots t).toList ++ fallbacks)
      { unreachable := b.unreachable, cut := e.cut }
    let b := { b with unreachable := r.2.2.unreachable, effects := b.effects ++ r.2.2.effects }
    run slots fallbacks prov ts es (b.add t (fateOf r.1 r.2.1 e.clamped))

/-- `abandoned`, forward.rs:719. -/
def Tally.abandoned (b : Tally) (queued : Nat) : Nat := queued - (b.delivered + b.rejected + b.unreached)

/-! ## Admission -/

/-- The forwarder, forward.rs:387-437: the policy, the hosts of URLs and whether they parse, the cached endpoints, the
demoted ones with the time of it, the live forwards, the rotation counter. -/
structure Fwd where
  allowPrivate : Bool
  host : Nat → Option Host
  parses : Nat → Bool
  cached : List Nat := []
  demoted : List (Nat × Nat) := []
  live : Nat := 0
  counter : Nat := 0

/-- `UNREACHABLE_COOLDOWN`, forward.rs:150, in seconds. -/
def cooldown : Nat := 30

/-- `MAX_CONCURRENT_FORWARDS`, forward.rs:117. -/
def maxForwards : Nat := 64

def isOk : Except Refused Unit → Bool
  | .ok _ => true
  | .error _ => false

/-- The policy admits the endpoint and it parses, forward.rs:507-535. -/
def Fwd.creatable (f : Fwd) (u : Nat) : Bool :=
  isOk (checkTarget f.allowPrivate (f.host u)) && f.parses u

/-- One advertised endpoint, forward.rs:497-541: the cached endpoints after it, and whether it is usable. -/
def Fwd.resolve (f : Fwd) (u : Nat) : Fwd × Bool :=
  if u ∈ f.demoted.map Prod.fst then (f, false)
  else if u ∈ f.cached then (f, true)
  else if f.creatable u then ({ f with cached := u :: f.cached }, true)
  else (f, false)

/-- The loop over the advertisements. -/
def Fwd.resolveAll : Fwd → List (Nat × Nat) → Fwd × List (Nat × Nat)
  | f, [] => (f, [])
  | f, (k, u) :: rest =>
    let r := f.resolve u
    let r' := r.1.resolveAll rest
    (r'.1, if r.2 then (k, u) :: r'.2 else r'.2)

/-- The eviction before it, forward.rs:484-493. -/
def Fwd.evict (f : Fwd) (now : Nat) (urls : List Nat) : Fwd :=
  { f with
    cached := f.cached.filter fun u => decide (u ∈ urls)
    demoted := f.demoted.filter fun x => decide (x.1 ∈ urls) && decide (now - x.2 < cooldown) }

/-- `cached_providers`, forward.rs:477-543. -/
def Fwd.providers (f : Fwd) (now : Nat) (rpcs : List (Nat × Nat)) : Fwd × List (Nat × Nat) :=
  let r := (f.evict now (rpcs.map Prod.snd)).resolveAll rpcs
  (r.1, SMap.ofList r.2)

/-- What a spawned forward works with. -/
structure Job where
  txs : List FTx
  slots : List Nat
  provs : List (Nat × Nat)
  order : List Nat
deriving DecidableEq, Repr

/-- `forward_txns`, forward.rs:796-870: the forwarder after it and the spawned forward, if the batch is admitted. -/
def Fwd.forward (f : Fwd) (now : Nat) (txs : List FTx) (slots : List Nat) (rpcs : List (Nat × Nat)) :
    Fwd × Option Job :=
  if txs.length = 0 ∨ slots.length = 0 ∨ rpcs.length = 0 then (f, none)
  else
    let r := f.providers now rpcs
    if r.2.length = 0 then (r.1, none)
    else if maxForwards ≤ r.1.live then (r.1, none)
    else
      ({ r.1 with live := r.1.live + 1, counter := (r.1.counter + 1) % 2 ^ 64 },
        some { txs := txs, slots := slots, provs := r.2, order := rotate (r.2.map Prod.fst) r.1.counter })

/-- A forward's effect on the record of demoted endpoints, forward.rs:1011-1015 and 1068-1073. -/
def Fwd.effect (f : Fwd) (now : Nat) : Eff → Fwd
  | .demote u => { f with demoted := (u, now) :: f.demoted.filter (fun x => x.1 != u) }
  | .lift u => { f with demoted := f.demoted.filter fun x => x.1 != u }

/-- A forward ends and returns its permit. -/
def Fwd.finish (f : Fwd) : Fwd := { f with live := f.live - 1 }

/-- The spawned forward, forward.rs:546-768. -/
def Job.run (j : Job) (envs : List TxEnv) : Tally :=
  Tx.run j.slots j.order (fun k => SMap.get? k j.provs) j.txs envs {}

end Tx
end Verif
