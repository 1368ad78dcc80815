/-
Property C102: the `tn` RPC namespace. Every endpoint that does synchronous work (reads of the validator registry, the
decompression of a BLS key) runs it on the blocking pool under one of 64 permits:
crates/execution/tn-rpc/src/rpc_ext.rs:185-282 (`spawn_bounded_blocking`, `proof_of_possession_message_bounded`),
:355-406 (`get_validators`), :500-590 (the registry reads), crates/tn-reth/src/env/epoch.rs:620-712, 934-967
(`read_consensus_registry(_batch)`, `call_consensus_registry`), crates/types/src/task_manager.rs:210-219.
Each await point, each start and end of the work, the return of the permit and the hand-over of the result are separate
steps; requests come, clients go and blocks are committed between any two of them.
Not modelled: the bytes of the ABI; what the registry computes is a parameter (`Env.exec`).
-/
namespace Verif
namespace Rpc

/-- `ValidatorStatus` (crates/tn-reth/src/system_calls.rs:54-71). -/
inductive Status where
  | undefined
  | staked
  | pendingActivation
  | active
  | pendingExit
  | exited
  | any
deriving DecidableEq, Repr

/-- `status as u8`: the position in the declaration (system_calls.rs:54-71). -/
def Status.code : Status → Nat
  | .undefined => 0
  | .staked => 1
  | .pendingActivation => 2
  | .active => 3
  | .pendingExit => 4
  | .exited => 5
  | .any => 6

/-- Calldata of the registry. Simplified: `getValidatorsInfo(uint8)`, `getCurrentStakeVersion()`, any other call. -/
inductive Calldata where
  | validatorsInfo (status : Nat)
  | stakeVersion
  | other (n : Nat)
deriving DecidableEq, Repr

/-- What a successful call returned: bytes that decode to a list of validators, to one word, to another value, or not
to what was asked for. -/
inductive Data (V : Type) where
  | infos (l : List V)
  | word (n : Nat)
  | raw (n : Nat)
  | garbage
deriving DecidableEq, Repr

/-- `ExecutionResult` (epoch.rs:951-966). -/
inductive Exec (V : Type) where
  | success (d : Data V)
  | revert (output : List Nat)
  | halt
deriving DecidableEq, Repr

/-- `EvmReadError`. -/
inductive ReadErr where
  | revert (output : List Nat)
  | internal
deriving DecidableEq, Repr

/-- What the answer carries (`TelcoinNetworkRpcResult`, error.rs:22-44). -/
inductive Reply (V : Type) where
  | infos (l : List V)
  | num (n : Nat)
  | raw (n : Nat)
  | bytes (l : List Nat)
  | revert (output : List Nat)
  | internal
  | invalidParams
deriving DecidableEq, Repr

/-- Requests that do synchronous work. -/
inductive Req where
  | popMessage (key address : List Nat)
  | validators (status : Status)
  | stakeVersion
  | other (n : Nat)
deriving DecidableEq, Repr

/-- The outside: the registry at a block (`exec`), the point decompression (`parse`; `compress` is the compressed form
of the key). -/
structure Env (R V K : Type) where
  exec : R → Calldata → Exec V
  parse : List Nat → Option K
  compress : K → List Nat

variable {R V K : Type}

/-- `call_consensus_registry` (epoch.rs:934-967): a revert keeps its bytes, everything else that fails is internal. -/
def callRegistry {T : Type} (e : Env R V K) (dec : Data V → Option T) (r : R) (cd : Calldata) : Except ReadErr T :=
  match e.exec r cd with
  | .success d =>
    match dec d with
    | some v => .ok v
    | none => .error .internal
  | .revert out => .error (.revert out)
  | .halt => .error .internal

/-- `.into_iter().map(..).collect()` into a `Result`: the first failure is the result (epoch.rs:706-711). -/
def collect {T : Type} (f : Calldata → Except ReadErr T) : List Calldata → Except ReadErr (List T)
  | [] => .ok []
  | cd :: cds =>
    match f cd with
    | .error x => .error x
    | .ok v =>
      match collect f cds with
      | .error x => .error x
      | .ok vs => .ok (v :: vs)

/-- `read_consensus_registry_batch` (epoch.rs:663-712): all calls run on the state of one block, `none` when the state of
the pinned block could not be opened. -/
def batch {T : Type} (e : Env R V K) (dec : Data V → Option T) (pin : Option R) (cds : List Calldata) :
    Except ReadErr (List T) :=
  match pin with
  | none => .error .internal
  | some r => collect (callRegistry e dec r) cds

/-- `read_consensus_registry` (epoch.rs:625-635): a batch of one, the last result of it. -/
def single {T : Type} (e : Env R V K) (dec : Data V → Option T) (pin : Option R) (cd : Calldata) : Except ReadErr T :=
  match batch e dec pin [cd] with
  | .error x => .error x
  | .ok vs =>
    match vs.getLast? with
    | some v => .ok v
    | none => .error .internal

/-- Decoding to `Vec<ValidatorInfo>`. -/
def asInfos : Data V → Option (List V)
  | .infos l => some l
  | _ => none

/-- Decoding to a `u16`. -/
def asWord : Data V → Option Nat
  | .word n => if n < 65536 then some n else none
  | _ => none

/-- Decoding to the type of any other endpoint. -/
def asRaw : Data V → Option Nat
  | .raw n => some n
  | _ => none

/-- The mapping of a read to an answer (rpc_ext.rs:573-588). -/
def mapReply {T : Type} (f : T → Reply V) : Except ReadErr T → Reply V
  | .ok v => f v
  | .error (.revert out) => .revert out
  | .error .internal => .internal

/-- The five sets of "Any" (rpc_ext.rs:374-384). -/
def concrete : List Status := [.staked, .pendingActivation, .active, .pendingExit, .exited]

/-- `construct_proof_of_possession_message` (crates/types/src/crypto/bls_signature.rs:206-214): the three zero bytes of
the intent, the compressed key, the address. -/
def popBytes (compressed address : List Nat) : List Nat := [0, 0, 0] ++ compressed ++ address

/-- `is_plausible_encoding` (crates/types/src/crypto/bls_public_key.rs:94-116). -/
def plausible (key : List Nat) : Bool := key.length == 96 || key.length == 192

/-- What is settled before a permit is asked for (rpc_ext.rs:255-263). -/
def screen : Req → Option (Reply V)
  | .popMessage key _ => if plausible key then none else some .invalidParams
  | _ => none

/-- The work on the blocking thread and the mapping of its result (rpc_ext.rs:265-281, 355-406, 490-520, 560-590).
`pin` is the state of the tip read at the start of the work. -/
def work (e : Env R V K) (pin : Option R) : Req → Reply V
  | .popMessage key address =>
    match e.parse key with
    | some k => .bytes (popBytes (e.compress k) address)
    | none => .invalidParams
  | .validators .any =>
    mapReply (fun (sets : List (List V)) => Reply.infos sets.flatten)
      (batch e asInfos pin (concrete.map fun st => Calldata.validatorsInfo st.code))
  | .validators st => mapReply Reply.infos (single e asInfos pin (Calldata.validatorsInfo st.code))
  | .stakeVersion => mapReply (fun n => Reply.num (n % 256)) (single e asWord pin Calldata.stakeVersion)
  | .other n => mapReply Reply.raw (single e asRaw pin (Calldata.other n))

/-- The client of a call. -/
inductive Client (V : Type) where
  | waiting
  | gone
  | answered (r : Reply V)
deriving DecidableEq, Repr

/-- The work of a call. `queued`: waits for a permit. `granted`: the semaphore gave it a permit, it has not run since.
`spawned`: the closure, with the permit in it, waits for a blocking thread. `running`: it runs, and read the tip as of
this number of blocks. `finished`: the permit is back, the value not handed over. `over`: nothing more happens. -/
inductive Job (V : Type) where
  | queued
  | granted
  | spawned
  | running (tip : Nat)
  | finished (v : Reply V)
  | over
deriving DecidableEq, Repr

/-- One call; `since` is a ghost: the number of blocks when it came. -/
structure Call (V : Type) where
  req : Req
  since : Nat
  client : Client V
  job : Job V
deriving DecidableEq

/-- The free permits of the semaphore, its queue, all calls ever made, the states after each block, oldest first. -/
structure St (R V : Type) where
  free : Nat
  queue : List Nat
  calls : List (Call V)
  chain : List R

def setCall (s : St R V) (i : Nat) (c : Call V) : St R V := { s with calls := s.calls.set i c }

/-- A permit comes back (tokio's batch semaphore): it goes to the first waiter, without one it is free again. -/
def release (s : St R V) : St R V :=
  match s.queue with
  | [] => { s with free := s.free + 1 }
  | j :: q =>
    match s.calls[j]? with
    | some c => { setCall s j { c with job := .granted } with queue := q }
    | none => { s with queue := q }

/-- What can happen. `fault`: the state of the pinned block could not be opened on this node. -/
inductive Ev (R : Type) where
  /-- a block is committed -/
  | commit (r : R)
  /-- a request comes in and runs to its first await -/
  | call (q : Req)
  /-- the call that was granted a permit runs: the closure is given to the blocking pool -/
  | poll (i : Nat)
  /-- a blocking thread takes the closure -/
  | start (i : Nat)
  /-- the work ends and drops the permit -/
  | finish (i : Nat) (fault : Bool)
  /-- the work panics: the permit and the sender are dropped -/
  | panic (i : Nat)
  /-- the closure is dropped before it ran (shutdown of the pool) -/
  | cancel (i : Nat)
  /-- the value is handed over -/
  | send (i : Nat)
  /-- the client goes away, the future of the call is dropped -/
  | leave (i : Nat)

/-- The client learns of a dropped sender (rpc_ext.rs:235-238). -/
def failClient : Client V → Client V
  | .waiting => .answered .internal
  | c => c

/-- The client gets the value if it is still there (rpc_ext.rs:228-231). -/
def giveClient (v : Reply V) : Client V → Client V
  | .waiting => .answered v
  | c => c

/-- One event; `none`: it cannot happen now. -/
def step (e : Env R V K) (s : St R V) : Ev R → Option (St R V)
  | .commit r => some { s with chain := s.chain ++ [r] }
  | .call q =>
    match (screen q : Option (Reply V)) with
    | some r => some { s with calls := s.calls ++ [⟨q, s.chain.length, .answered r, .over⟩] }
    | none =>
      if 0 < s.free then
        some { s with free := s.free - 1, calls := s.calls ++ [⟨q, s.chain.length, .waiting, .spawned⟩] }
      else
        some { s with
          queue := s.queue ++ [s.calls.length], calls := s.calls ++ [⟨q, s.chain.length, .waiting, .queued⟩] }
  | .poll i =>
    match s.calls[i]? with
    | some c => if c.job matches .granted then some (setCall s i { c with job := .spawned }) else none
    | none => none
  | .start i =>
    match s.calls[i]? with
    | some c => if c.job matches .spawned then some (setCall s i { c with job := .running s.chain.length }) else none
    | none => none
  | .finish i fault =>
    match s.calls[i]? with
    | some c =>
      match c.job with
      | .running tip =>
        let pin := if fault then none else s.chain[tip - 1]?
        some (release (setCall s i { c with job := .finished (work e pin c.req) }))
      | _ => none
    | none => none
  | .panic i =>
    match s.calls[i]? with
    | some c =>
      match c.job with
      | .running _ => some (release (setCall s i { c with job := .over, client := failClient c.client }))
      | _ => none
    | none => none
  | .cancel i =>
    match s.calls[i]? with
    | some c =>
      if c.job matches .spawned then
        some (release (setCall s i { c with job := .over, client := failClient c.client }))
      else none
    | none => none
  | .send i =>
    match s.calls[i]? with
    | some c =>
      match c.job with
      | .finished v => some (setCall s i { c with job := .over, client := giveClient v c.client })
      | _ => none
    | none => none
  | .leave i =>
    match s.calls[i]? with
    | some c =>
      match c.client with
      | .waiting =>
        match c.job with
        | .queued =>
          some { setCall s i { c with job := .over, client := .gone } with queue := s.queue.filter (· != i) }
        | .granted => some (release (setCall s i { c with job := .over, client := .gone }))
        | _ => some (setCall s i { c with client := .gone })
      | _ => none
    | none => none

/-- `MAX_CONCURRENT_BLOCKING_RPC_WORK` (rpc_ext.rs:185). -/
def maxWork : Nat := 64

/-- A node just started, with `chain` committed. -/
def start (chain : List R) : St R V := ⟨maxWork, [], [], chain⟩

/-- A history. -/
def run (e : Env R V K) (s : St R V) : List (Ev R) → Option (St R V)
  | [] => some s
  | v :: vs =>
    match step e s v with
    | some s' => run e s' vs
    | none => none

/-- States that occur, from a chain of at least one block. -/
inductive Reach (e : Env R V K) : St R V → Prop where
  | start (chain : List R) (h : chain ≠ []) : Reach e (start chain)
  | step {s t : St R V} (v : Ev R) : Reach e s → step e s v = some t → Reach e t

end Rpc
end Verif
