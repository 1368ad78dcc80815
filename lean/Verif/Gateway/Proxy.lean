import Verif.Net.Map

/-!
# The worker gateway: readiness, screening, forwarding, answers

Model of `bin/worker-gateway/src/{readiness,proxy,error,telemetry,server}.rs`.  The readiness poller, any
number of requests and their time-outs interleave freely; what the network, the upstream workers and the
clients do is chosen by the environment.

Not modelled: the bytes of JSON and HTTP (a body is given by what the two parsers make of it), the
streaming of an upstream's response after its head, header values the gateway does not touch, and the
decoding of a raw transaction (parameters `hex`, `decode`, `allowed`, which the worker's RPC uses too),
and what the HTTP client does inside one request (it keeps its default redirect policy, app.rs:70-73).
-/

namespace Verif.Gproxy

/-- A JSON value (`serde_json::Value`); numbers are opaque. -/
inductive Json
  | null
  | bool (b : Bool)
  | num (n : Int)
  | str (s : String)
  | arr (l : List Json)
  | obj (l : List (String × Json))

/-- `Value::get(&str)`: the members of an object as parsed, a repeated member keeps the last. -/
def Json.get (k : String) : Json → Option Json
  | .obj l => (l.reverse.find? fun m => decide (m.1 = k)).map Prod.snd
  | _ => none

/-- `Value::get(usize)`. -/
def Json.item (i : Nat) : Json → Option Json
  | .arr l => l[i]?
  | _ => none

/-- `Value::as_str`. -/
def Json.asStr : Json → Option String
  | .str s => some s
  | _ => none

/-- A request body: whether it is UTF-8 that contains the name of the raw-transaction method
(proxy.rs:254-256), and what the JSON parser makes of it. -/
structure Body where
  mentions : Bool
  parsed : Option Json

/-- `GatewayError` (error.rs:55-78). -/
inductive GErr
  | noUpstreamReady
  | upstreamUnreachable
  | upstreamTimeout
  | requestTooLarge
  | loopDetected
  | requestTimeout
  | rateLimited
  | invalidTransaction
  | unsupportedTransactionType
  | unreadableBody
  deriving DecidableEq

/-- `GatewayError::status` (error.rs:82-94). -/
def GErr.status : GErr → Nat
  | .noUpstreamReady => 503
  | .upstreamUnreachable => 502
  | .upstreamTimeout => 504
  | .requestTooLarge => 413
  | .loopDetected => 508
  | .requestTimeout => 408
  | .rateLimited => 429
  | .invalidTransaction => 400
  | .unsupportedTransactionType => 400
  | .unreadableBody => 400

/-- `GatewayError::code` (error.rs:97-110) with the constants of lines 28-51. -/
def GErr.code : GErr → Int
  | .noUpstreamReady => -32000
  | .upstreamUnreachable => -32001
  | .upstreamTimeout => -32002
  | .requestTooLarge => -32003
  | .loopDetected => -32004
  | .requestTimeout => -32005
  | .rateLimited => -32006
  | .invalidTransaction => -32007
  | .unsupportedTransactionType => -32008
  | .unreadableBody => -32600

/-- `RequestId::from_request` (error.rs:205-207). -/
def idOf (j : Json) : Json := (j.get "id").getD .null

/-- One member of `IdMemberVisitor::visit_map` (error.rs:251-267): keep an `id`, skip the rest. -/
def idFold (id : Json) (m : String × Json) : Json := if m.1 = "id" then m.2 else id

/-- `RequestId::recover` (error.rs:220-224) through the visitor: only an object has an id.  Simplified: the scan
and the full parse are taken to accept the same bodies (the scan skips over out-of-range numbers and
bad escapes that a full parse refuses). -/
def recover (b : Body) : Json :=
  match b.parsed with
  | some (.obj l) => l.foldl idFold .null
  | _ => .null

/-- What the worker's wire format makes of a string parameter: `decode_hex` (proxy.rs:260-263),
`PooledTransaction::decode_2718` (proxy.rs:243) and `batch_allowlisted_tx_type` (proxy.rs:245). -/
structure Wire where
  hex : String → Option (List Nat)
  decode : List Nat → Option Nat
  allowed : Nat → Bool

/-- The name of the method that is screened (proxy.rs:45). -/
def sendRaw : String := "eth_sendRawTransaction"

/-- The verdict on a string parameter (proxy.rs:239-250). -/
def screenTx (w : Wire) (raw : String) : Option GErr :=
  match w.hex raw with
  | none => some .invalidTransaction
  | some bytes =>
    match w.decode bytes with
    | none => some .invalidTransaction
    | some ty => if w.allowed ty then none else some .unsupportedTransactionType

/-- `screen_raw_transaction` (proxy.rs:219-251). -/
def screen (w : Wire) (b : Body) : Option (GErr × Json) :=
  if b.mentions then
    match b.parsed with
    | none => none
    | some j =>
      if (j.get "method").bind Json.asStr = some sendRaw then
        match (((j.get "params").bind (Json.item 0)).bind Json.asStr) with
        | none => none
        | some raw => (screenTx w raw).map fun e => (e, idOf j)
      else none
  else none

/-- An entry of a readiness payload (readiness.rs:37-40). -/
structure WorkerEntry where
  id : Nat
  accepting : Bool

/-- What a poll of an upstream brings back within its time-out: nothing (unreachable, timed out, an
error status), bytes that do not parse, or an envelope (readiness.rs:183-226). -/
inductive PollResult
  | failed
  | malformed
  | payload (version : Nat) (workers : List WorkerEntry)

/-- `parse_ready` (readiness.rs:207-226): the first entry with the id; any version. -/
def parseReady (id : Nat) : PollResult → Option Bool
  | .payload _ ws => some (((ws.find? fun w => decide (w.id = id)).map WorkerEntry.accepting).getD false)
  | _ => none

/-- `poll_one` (readiness.rs:183-196). -/
def pollOne (id : Nat) (r : PollResult) : Bool := (parseReady id r).getD false

/-- A configured upstream with its readiness flag (readiness.rs:55-60). -/
structure Upstream where
  id : Nat
  ready : Bool

/-- `first_ready_rpc_url` (readiness.rs:91-96): the position of the first ready upstream. -/
def firstReady (us : List Upstream) : Option Nat := us.findIdx? Upstream.ready

/-- `any_ready` (readiness.rs:99-101). -/
def anyReady (us : List Upstream) : Bool := us.any Upstream.ready

/-- A request as the gateway's router sees it. -/
structure Req where
  path : String
  get : Bool
  /-- The peer's address, printed. -/
  peer : String
  /-- Whether the request carries `X-TN-Gateway`. -/
  hop : Bool
  /-- The value of `X-Forwarded-For`, when it is printable. -/
  xff : Option String
  ctype : Option String
  body : Body

/-- What is sent to an upstream (proxy.rs:145-155). -/
structure Sent where
  hop : Bool
  xff : String
  ctype : String
  body : Body

/-- `forwarded_for` (proxy.rs:184-192). -/
def forwardedFor (r : Req) : String :=
  match r.xff with
  | some prev => prev ++ ", " ++ r.peer
  | none => r.peer

/-- The upstream request of `forward` (proxy.rs:143-155). -/
def outgoing (r : Req) : Sent :=
  { hop := true, xff := forwardedFor r, ctype := r.ctype.getD "application/json", body := r.body }

/-- What arrives of the body (proxy.rs:74-77, 120-131). -/
inductive BodyIn
  | ok
  | tooLarge
  | unreadable
  deriving DecidableEq

/-- What becomes of the upstream request (proxy.rs:155-181, 195-201). -/
inductive UpIn
  | head (status : Nat) (ctype : Option String)
  | unreachable
  | timedOut

/-- An answer to the client. -/
inductive Resp
  /-- The response of upstream `u`: its status, its content type, its body. -/
  | upstream (u : Nat) (status : Nat) (ctype : Option String)
  /-- The gateway's JSON-RPC error (error.rs:158-190). -/
  | error (e : GErr) (id : Json)
  | alive
  | ready (b : Bool)
  /-- The router's own answer to a probe path with another method. -/
  | methodNotAllowed

/-- Where a request is. -/
inductive Stage
  /-- The limiter has not decided yet. -/
  | entered
  /-- The body is being read. -/
  | reading
  /-- The request was sent to upstream `u`. -/
  | forwarding (u : Nat)
  | done (r : Resp)
  /-- The client went away. -/
  | gone

/-- The outcomes the request counter distinguishes (telemetry.rs:75-84). -/
inductive Count
  | forwarded
  | rejected (e : GErr)
  deriving DecidableEq

/-- The gateway.  `counts`, `sent` and `polls` are histories, tagged with the request or the upstream. -/
structure S where
  ups : List Upstream
  reqs : List (Req × Stage)
  gauge : Nat
  counts : List (Nat × Count)
  sent : List (Nat × Nat × Sent)
  polls : List (Nat × PollResult)
  /-- The upstream whose poll is under way. -/
  polling : Option Nat
  stopped : Bool

/-- `GatewayReadiness::new` (readiness.rs:77-88): nothing is ready. -/
def S.init (ids : List Nat) : S :=
  { ups := ids.map fun i => { id := i, ready := false }, reqs := [], gauge := 0, counts := [],
    sent := [], polls := [], polling := none, stopped := false }

inductive Ev
  /-- The poller, which has not noticed a shutdown, turns to an upstream (readiness.rs:141-144).
  Simplified: in any order. -/
  | ask (u : Nat)
  /-- The poller finishes one poll (readiness.rs:145-152). -/
  | poll (u : Nat) (r : PollResult)
  /-- Shutdown is signalled. -/
  | stop
  | arrive (r : Req)
  /-- The limiter decides about request `i` (server.rs:134-137); `true` when there is none. -/
  | limit (i : Nat) (ok : Bool)
  | body (i : Nat) (b : BodyIn)
  | up (i : Nat) (u : UpIn)
  /-- The request deadline of request `i` passes (server.rs:130). -/
  | deadline (i : Nat)
  | hangup (i : Nat)

/-- Put request `i` into a stage. -/
def S.move (s : S) (i : Nat) (r : Req) (st : Stage) : S := { s with reqs := s.reqs.set i (r, st) }

/-- `error_response` (error.rs:158-162): answer and count. -/
def S.reject (s : S) (i : Nat) (r : Req) (e : GErr) (id : Json) : S :=
  { s.move i r (.done (.error e id)) with counts := s.counts ++ [(i, Count.rejected e)] }

/-- The router after the limiter (server.rs:125-129): probes, then the proxy, which first reads the
body. -/
def S.route (s : S) (i : Nat) (r : Req) : S :=
  if r.path = "/health" then
    s.move i r (.done (if r.get then .alive else .methodNotAllowed))
  else if r.path = "/ready" then
    s.move i r (.done (if r.get then .ready (anyReady s.ups) else .methodNotAllowed))
  else s.move i r .reading

/-- `proxy` (proxy.rs:63-102) once the body has arrived, up to the send.  The handler's guard raises
the gauge on entry and lowers it on every return. -/
def S.handle (w : Wire) (s : S) (i : Nat) (r : Req) : BodyIn → S
  | .tooLarge => s.reject i r .requestTooLarge .null
  | .unreadable => s.reject i r .unreadableBody .null
  | .ok =>
    if r.hop then s.reject i r .loopDetected (recover r.body)
    else
      match screen w r.body with
      | some (e, id) => s.reject i r e id
      | none =>
        match firstReady s.ups with
        | none => s.reject i r .noUpstreamReady (recover r.body)
        | some u =>
          { s.move i r (.forwarding u) with
            gauge := s.gauge + 1
            sent := s.sent ++ [(i, u, outgoing r)] }

/-- The end of `forward` and the layers around it (proxy.rs:104-114, server.rs:144-149): the time-out
layer's rewriting also catches an upstream's own `408`. -/
def S.answer (s : S) (i : Nat) (r : Req) (u : Nat) : UpIn → S
  | .head status ctype =>
    let s := { s with gauge := s.gauge - 1, counts := s.counts ++ [(i, Count.forwarded)] }
    if status = 408 then s.reject i r .requestTimeout .null
    else s.move i r (.done (.upstream u status ctype))
  | .unreachable => { s with gauge := s.gauge - 1 }.reject i r .upstreamUnreachable (recover r.body)
  | .timedOut => { s with gauge := s.gauge - 1 }.reject i r .upstreamTimeout (recover r.body)

/-- One step; `none` when it is not enabled. -/
def S.step (w : Wire) (s : S) : Ev → Option S
  | .ask u =>
    if s.stopped || s.polling.isSome then none
    else if u < s.ups.length then some { s with polling := some u } else none
  | .poll u r =>
    if s.polling = some u then
      match s.ups[u]? with
      | some x =>
        some { s with ups := s.ups.set u { x with ready := pollOne x.id r },
                      polls := s.polls ++ [(u, r)],
                      polling := none }
      | none => none
    else none
  | .stop => some { s with stopped := true }
  | .arrive r => some { s with reqs := s.reqs ++ [(r, .entered)] }
  | .limit i ok =>
    match s.reqs[i]? with
    | some (r, .entered) =>
      if ok || (r.path = "/health" || r.path = "/ready") then some (s.route i r)
      else some (s.reject i r .rateLimited .null)
    | _ => none
  | .body i b =>
    match s.reqs[i]? with
    | some (r, .reading) => some (s.handle w i r b)
    | _ => none
  | .up i x =>
    match s.reqs[i]? with
    | some (r, .forwarding u) => some (s.answer i r u x)
    | _ => none
  | .deadline i =>
    match s.reqs[i]? with
    | some (r, .reading) => some (s.reject i r .requestTimeout .null)
    | some (r, .forwarding _) =>
      some ({ s with gauge := s.gauge - 1 }.reject i r .requestTimeout .null)
    | _ => none
  | .hangup i =>
    match s.reqs[i]? with
    | some (r, .entered) => some (s.move i r .gone)
    | some (r, .reading) => some (s.move i r .gone)
    | some (r, .forwarding _) => some ({ s with gauge := s.gauge - 1 }.move i r .gone)
    | _ => none

def S.runs (w : Wire) : S → List Ev → Option S
  | s, [] => some s
  | s, e :: es => (s.step w e).bind fun s' => s'.runs w es

/-- `s` is reachable with these upstreams. -/
def Reach (w : Wire) (ids : List Nat) (s : S) : Prop := ∃ es, (S.init ids).runs w es = some s

/-! ## The node's side -/

/-- `readiness_json` (health.rs:97-100) as the gateway's parser reads it. -/
def nodePayload (accepting : Bool) : PollResult := .payload 1 [⟨0, accepting⟩]

/-- The node's answer to one connection (health.rs:203-226): the probe's outcome is `none` when it did
not resolve within a second; the path is what `request_path` makes of the one read. -/
def nodeAnswer (path : Option String) (probe : Option Bool) : PollResult :=
  if path = some "/health/workers" then nodePayload (probe.getD false) else .malformed

/-! ## Settings -/

/-- `resolve_rate_limit` (cli.rs:352-359): rate and burst, `u32`. -/
def resolveLimit (rate burst : Nat) : Option (Nat × Nat) :=
  if rate = 0 then none
  else some (rate, if burst = 0 then Nat.min (2 * rate) 4294967295 else burst)

/-- The check of `into_settings` (cli.rs:267-288), durations in nanoseconds, a zero cap meaning none. -/
def capOk (cap header upstream : Nat) : Bool :=
  if cap = 0 then true else decide (header + (upstream + header) ≤ cap)

/-- `request_deadline` (app.rs:139). -/
def requestDeadline (header upstream : Nat) : Nat := upstream + header

end Verif.Gproxy
