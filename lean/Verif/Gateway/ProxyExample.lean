import Verif.Gateway.ProxyProps

/-!
# A concrete run of the gateway

Two upstreams; the second is ready first.  Request 0 goes to it; then the first becomes ready and takes
request 1, whose upstream answers `408`; request 2 carries the hop marker; request 3 is an undecodable
raw transaction; request 4 is a readiness probe; request 5 is sent and hung up.
-/

namespace Verif.Gproxy.Example

/-- A wire format in which only "0x02" decodes. -/
def wire : Wire :=
  { hex := fun s => if s = "0x02" then some [2] else none
    decode := fun b => if b = [2] then some 2 else none
    allowed := fun t => decide (t ≤ 2) }

def plain : Body := ⟨false, some (.obj [("id", .num 7), ("method", .str "eth_blockNumber")])⟩

def rawTx (h : String) : Body :=
  ⟨true, some (.obj [("method", .str "eth_sendRawTransaction"), ("params", .arr [.str h]),
    ("id", .num 9)])⟩

def req (path : String) (hop : Bool) (b : Body) : Req :=
  { path := path, get := true, peer := "10.0.0.1", hop := hop, xff := some "1.2.3.4", ctype := none,
    body := b }

def evs : List Ev :=
  [.ask 1, .poll 1 (.payload 1 [⟨5, true⟩]), .arrive (req "/" false plain), .limit 0 true, .body 0 .ok,
   .ask 0, .poll 0 (nodeAnswer (some "/health/workers") (some true)),
   .arrive (req "/" false (rawTx "0x02")), .limit 1 true, .body 1 .ok, .up 1 (.head 408 none),
   .up 0 (.head 200 (some "application/json")),
   .arrive (req "/" true plain), .limit 2 true, .body 2 .ok,
   .arrive (req "/" false (rawTx "0xzz")), .limit 3 true, .body 3 .ok,
   .arrive (req "/ready" false plain), .limit 4 false,
   .arrive (req "/x" false plain), .limit 5 true, .body 5 .ok, .hangup 5]

/-- The state after the run. -/
def final : S := ((S.init [0, 5]).runs wire evs).getD (S.init [])

/-- The run is a run of the model. -/
theorem reachable : Reach wire [0, 5] final := by
  refine ⟨evs, ?_⟩
  rfl

/-- What happened: the two answered requests went to different upstreams, the `408` was counted twice,
the marked request and the undecodable one were sent nowhere and got their own ids back, the probe
passed the limiter, the gauge is back at zero. -/
theorem outcome :
    final.reqs.map Prod.snd = [.done (.upstream 1 200 (some "application/json")),
      .done (.error .requestTimeout .null), .done (.error .loopDetected (.num 7)),
      .done (.error .invalidTransaction (.num 9)), .done (.ready true), .gone] ∧
    final.counts = [(1, .forwarded), (1, .rejected .requestTimeout), (0, .forwarded),
      (2, .rejected .loopDetected), (3, .rejected .invalidTransaction)] ∧
    final.sent.map (fun e => (e.1, e.2.1)) = [(0, 1), (1, 0), (5, 0)] ∧
    final.sent.map (fun e => e.2.2.xff)
      = ["1.2.3.4, 10.0.0.1", "1.2.3.4, 10.0.0.1", "1.2.3.4, 10.0.0.1"] ∧
    final.gauge = 0 := by
  refine ⟨rfl, rfl, rfl, rfl, rfl⟩

/-- An upstream's own `408` is both forwarded and rejected in the counters, and the client gets the
gateway's time-out with a null id instead of the upstream's body. -/
theorem upstream_408_counted_twice :
    countsOf 1 final.counts = [.forwarded, .rejected .requestTimeout] ∧
      idOf (.obj [("method", .str "eth_sendRawTransaction"), ("params", .arr [.str "0x02"]),
        ("id", .num 9)]) = .num 9 := ⟨rfl, rfl⟩

/-- A probe path with another method is answered by the router, not by the JSON-RPC proxy. -/
theorem post_to_probe : ∃ s, Reach wire [0] s ∧
    s.reqs.map Prod.snd = [.done .methodNotAllowed] ∧ s.counts = [] :=
  ⟨_, ⟨[.arrive { req "/ready" false plain with get := false }, .limit 0 true], rfl⟩, rfl, rfl⟩

end Verif.Gproxy.Example
