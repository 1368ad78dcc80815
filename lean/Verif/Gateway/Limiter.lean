import Verif.Net.Map

/-!
# The worker gateway's rate limiters

Model of `bin/worker-gateway/src/ratelimit.rs`: the token bucket, the prefix policy that turns a
client address into the key of a bucket, the bounded table of per-client buckets with its sweep,
and `check`, which a request runs before its body is read.

`check` is not atomic: it reads the clock once (line 426), then takes the lock of the gateway-wide
bucket (427-433), releases it, and only then takes the lock of the per-client table (334-335 via
the per-client limiter).  Any number of requests run it at the same time, and so does the sweep (441-450), so the
model is a small-step system in which the clock reading and the two locked sections of each request
are separate steps and a schedule interleaves them freely.

Simplification: tokens are `f64` in the code.  Here a token is `unit = 10^9` nano-tokens and time is
in nanoseconds (the resolution of `Instant`), so a refill of `elapsed * rate` is exact; floating
point rounding is not modelled.
-/

namespace Verif.Gate

open Verif.Net (get put del keys)

/-- One token (`1.0`, line 133), in nano-tokens; one second, in nanoseconds. -/
@[irreducible] def unit : Nat := 1000000000

/-- `RateLimit` (ratelimit.rs:77-80): requests per second and bucket capacity, both `NonZeroU32`. -/
structure Limit where
  rate : Nat
  burst : Nat
  rate_pos : 0 < rate
  burst_pos : 0 < burst

/-- `RateLimit::capacity` (ratelimit.rs:103-105), in nano-tokens. -/
def Limit.capacity (l : Limit) : Nat := l.burst * unit

/-- `Bucket` (ratelimit.rs:111-114). -/
structure Bucket where
  tokens : Nat
  last : Nat
  deriving DecidableEq

/-- `Bucket::full` (ratelimit.rs:117-119). -/
def Bucket.full (now : Nat) (l : Limit) : Bucket := { tokens := l.capacity, last := now }

/-- `Bucket::replenished` (ratelimit.rs:123-126): `saturating_duration_since` is the truncated
difference. -/
def Bucket.replenished (b : Bucket) (now : Nat) (l : Limit) : Nat :=
  min (b.tokens + (now - b.last) * l.rate) l.capacity

/-- `Bucket::try_admit` (ratelimit.rs:130-139): the verdict and the bucket afterwards. -/
def Bucket.tryAdmit (b : Bucket) (now : Nat) (l : Limit) : Bool × Bucket :=
  let t := b.replenished now l
  if unit ≤ t then (true, { tokens := t - unit, last := now })
  else (false, { tokens := t, last := now })

/-- `Bucket::is_idle` (ratelimit.rs:144-146). -/
def Bucket.isIdle (b : Bucket) (now : Nat) (l : Limit) : Bool :=
  decide (l.capacity ≤ b.replenished now l)

/-- `IpAddr`: an address of either family, as its bits. -/
inductive Ip
  | v4 (a : BitVec 32)
  | v6 (a : BitVec 128)
  deriving DecidableEq

/-- The mask of `mask_v4`/`mask_v6` (ratelimit.rs:296-297, 304-305): `MAX.checked_shl(host_bits)`,
or zero when the shift is as wide as the address. -/
def mask (w prefixLen : Nat) : BitVec w :=
  let host := w - prefixLen
  if host < w then BitVec.allOnes w <<< host else 0

/-- `mask_v4`, `mask_v6` (ratelimit.rs:295-307). -/
def maskAddr {w : Nat} (a : BitVec w) (prefixLen : Nat) : BitVec w := a &&& mask w prefixLen

/-- `PrefixLen::checked` (ratelimit.rs:217-219): `none` is `PrefixLenError::TooLong`. -/
def prefixChecked (bits max : Nat) : Option Nat := if bits ≤ max then some bits else none

/-- `PrefixPolicy` (ratelimit.rs:231-236). -/
structure Prefix where
  v4 : Nat
  v6 : Nat

/-- `PrefixPolicy::default` (ratelimit.rs:275-286), with the constants of lines 166 and 173. -/
def Prefix.default : Prefix :=
  { v4 := (prefixChecked 32 32).getD 32, v6 := (prefixChecked 64 128).getD 128 }

/-- `Ipv6Addr::to_ipv4_mapped` (used at ratelimit.rs:267): the four bytes of an address of the form
`::ffff:a.b.c.d`. -/
def toV4Mapped (a : BitVec 128) : Option (BitVec 32) :=
  if a.toNat / 2 ^ 32 = 0xffff then some (a.setWidth 32) else none

/-- `PrefixPolicy::key` (ratelimit.rs:264-272). -/
def Prefix.key (p : Prefix) : Ip → Ip
  | .v4 a => .v4 (maskAddr a p.v4)
  | .v6 a =>
    match toV4Mapped a with
    | some u => .v4 (maskAddr u p.v4)
    | none => .v6 (maskAddr a p.v6)

/-- The per-client table: the `HashMap<IpAddr, Bucket>` of `PerIpLimiter` (ratelimit.rs:319). -/
abbrev Table := List (Ip × Bucket)

/-- What the per-client lock section did for one request: refused, let through and counted, or let
through without being counted (the table was full). -/
inductive Pass
  | refused
  | counted
  | untracked
  deriving DecidableEq

/-- The answer the per-client limiter returns to `check` (ratelimit.rs:327-340). -/
def Pass.ok : Pass → Bool
  | .refused => false
  | .counted => true
  | .untracked => true

/-- The verdict of a locked bucket as a `Pass`. -/
def Pass.ofBool (b : Bool) : Pass := if b then .counted else .refused

/-- `admit_new_ip` (ratelimit.rs:351-368). -/
def admitNew (l : Limit) (max now : Nat) (k : Ip) (t : Table) : Pass × Table :=
  if t.length < max then
    let r := (Bucket.full now l).tryAdmit now l
    (Pass.ofBool r.1, put k r.2 t)
  else (.untracked, t)

/-- The locked section of the per-client limiter (ratelimit.rs:333-339), on the key. -/
def admitKey (l : Limit) (max now : Nat) (k : Ip) (t : Table) : Pass × Table :=
  match get k t with
  | some b =>
    let r := b.tryAdmit now l
    (Pass.ofBool r.1, put k r.2 t)
  | none => admitNew l max now k t

/-- The locked section of `RateLimiters::gc` (ratelimit.rs:447). -/
def sweep (l : Limit) (now : Nat) (t : Table) : Table := t.filter fun e => !e.2.isIdle now l

/-- The settings the limiters are built with (`with_clock`, ratelimit.rs:394-416): either may be
absent; `max` is `max_per_ip_entries.max(1)` (line 411). -/
structure Cfg where
  global : Option Limit
  perIp : Option Limit
  maxEntries : Nat
  pre : Prefix

/-- Line 411. -/
def Cfg.max (c : Cfg) : Nat := Nat.max c.maxEntries 1

/-- The middleware's exemption (ratelimit.rs:490-492) with the paths of server.rs:53 and 56: a probe is
passed on without consulting the limiters. -/
def exempt (path : String) : Bool := path == "/health" || path == "/ready"

/-- How far an in-flight `check` has come: it has read the clock, or it has also passed the
gateway-wide bucket. -/
inductive Stage
  | sampled
  | passedGlobal
  deriving DecidableEq

/-- A `check` in flight: the request's path and peer, if known (`ConnectInfo`), and the clock reading it took. -/
structure Flight where
  path : String
  peer : Option Ip
  now : Nat
  stage : Stage
  deriving DecidableEq

/-- The answer of `check` (ratelimit.rs:425-437). -/
inductive Verdict
  | allowed
  | rateLimited
  deriving DecidableEq

/-- A request that has left the middleware: passed on (`allowed`) or answered with `429`. -/
structure Ans where
  path : String
  peer : Option Ip
  verdict : Verdict
  deriving DecidableEq

/-- What happened in a locked section of the table, for the history of the table. -/
inductive TEv
  | took (k : Ip) (now : Nat) (p : Pass)
  | swept (now : Nat)
  deriving DecidableEq

/-- The limiters while the gateway runs.  `glog`, `tlog` and `answers` are histories: what each
locked section of the gateway-wide bucket and of the table decided, in lock order, and what `check`
answered. -/
structure S where
  clock : Nat
  global : Option Bucket
  table : Table
  flights : List Flight
  gcNow : Option Nat
  glog : List (Nat × Bool)
  tlog : List TEv
  answers : List Ans

/-- `with_clock` (ratelimit.rs:404-415). -/
def S.init (c : Cfg) (now : Nat) : S :=
  { clock := now, global := c.global.map (Bucket.full now), table := [], flights := [],
    gcNow := none, glog := [], tlog := [], answers := [] }

/-- One step of the gateway's tasks. -/
inductive Ev
  /-- Time passes. -/
  | tick (d : Nat)
  /-- A request reaches the middleware (481-493); unless it is exempt it enters `check`, which reads
  the clock (426). -/
  | arrive (path : String) (peer : Option Ip)
  /-- The `i`-th request in flight takes the lock of the gateway-wide bucket (427-433). -/
  | global (i : Nat)
  /-- The `i`-th request in flight takes the lock of the per-client table (434-435). -/
  | perIp (i : Nat)
  /-- The sweep reads the clock (443). -/
  | gcRead
  /-- The sweep takes the lock of the table (446-447). -/
  | gcSweep

/-- The answer is delivered and the request leaves the limiter. -/
def S.finish (s : S) (i : Nat) (f : Flight) (v : Verdict) : S :=
  { s with flights := s.flights.eraseIdx i, answers := s.answers ++ [⟨f.path, f.peer, v⟩] }

/-- After the gateway-wide bucket let a request through: on to the per-client table when there is
one and the peer is known (`zip(peer).is_none_or`, line 435), otherwise done. -/
def S.passGlobal (c : Cfg) (s : S) (i : Nat) (f : Flight) : S :=
  match c.perIp, f.peer with
  | some _, some _ => { s with flights := s.flights.set i { f with stage := .passedGlobal } }
  | _, _ => s.finish i f .allowed

/-- One step; `none` when the step is not enabled. -/
def S.step (c : Cfg) (s : S) : Ev → Option S
  | .tick d => some { s with clock := s.clock + d }
  | .arrive path p =>
    if exempt path then some { s with answers := s.answers ++ [⟨path, p, .allowed⟩] }
    else
      some { s with flights := s.flights ++ [⟨path, p, s.clock, .sampled⟩] }
  | .global i =>
    match s.flights[i]? with
    | some f =>
      match f.stage with
      | .sampled =>
        match c.global, s.global with
        | some l, some b =>
          let r := b.tryAdmit f.now l
          let s' := { s with global := some r.2, glog := s.glog ++ [(f.now, r.1)] }
          if r.1 then some (s'.passGlobal c i f) else some (s'.finish i f .rateLimited)
        | _, _ => some (s.passGlobal c i f)
      | .passedGlobal => none
    | none => none
  | .perIp i =>
    match s.flights[i]? with
    | some f =>
      match f.stage, c.perIp, f.peer with
      | .passedGlobal, some l, some ip =>
        let k := c.pre.key ip
        let r := admitKey l c.max f.now k s.table
        let s' := { s with table := r.2, tlog := s.tlog ++ [TEv.took k f.now r.1] }
        some (s'.finish i f (if r.1.ok then .allowed else .rateLimited))
      | _, _, _ => none
    | none => none
  | .gcRead => match c.perIp with
    | some _ => some { s with gcNow := some s.clock }
    | none => none
  | .gcSweep =>
    match c.perIp, s.gcNow with
    | some l, some n =>
      some { s with table := sweep l n s.table, gcNow := none, tlog := s.tlog ++ [TEv.swept n] }
    | _, _ => none

/-- A schedule: every step enabled. -/
def S.runs (c : Cfg) : S → List Ev → Option S
  | s, [] => some s
  | s, e :: es => (s.step c e).bind fun s' => s'.runs c es

/-- `s` is reachable from the start, under some schedule. -/
def Reach (c : Cfg) (s : S) : Prop := ∃ t0 es, (S.init c t0).runs c es = some s

end Verif.Gate
