import Mathlib.Tactic.Common
/-
C120: the node's health endpoint, `crates/node/src/health.rs` 28-260.

Time is in milliseconds. Text is a list of code points; UTF-8 is a parameter of which only its ASCII part is used.
Simplifications: writing the response takes no time (it is smaller than the socket's buffer; the code gives writing no
limit); between two awaits no time passes; at the very end of a time-out the inner future wins (tokio polls it first);
an accept error takes no time.
-/
namespace Verif
namespace Health

abbrev Bytes := List Nat

/-- `READINESS_VERSION`, `REQUEST_READ_BUF`, `REQUEST_READ_TIMEOUT`, `READINESS_PROBE_TIMEOUT`, health.rs:33-50. -/
def readBuf : Nat := 1024
def readTimeout : Nat := 2000
def probeTimeout : Nat := 1000

/-- A connection: when it is in the listener's queue, what it sends and when that is there, when its end (or an error) is
there, and what `worker_ready`, called at a time, takes and answers (`none`: it never does). -/
structure Client where
  arrive : Nat
  chunks : List (Nat × Bytes)
  eof : Option Nat
  probe : Nat → Option (Nat × Bool)

/-- What is there to read at time `t`. -/
def Client.avail (c : Client) (t : Nat) : Bytes := ((c.chunks.filter (fun x => decide (x.1 ≤ t))).map (·.2)).flatten

/-- A read at time `t` returns. -/
def Client.readable (c : Client) (t : Nat) : Bool :=
  !(c.avail t).isEmpty || (match c.eof with | some e => decide (e ≤ t) | none => false)

/-- The one read, health.rs:207-212: when it is over, and the bytes. -/
def Client.read (c : Client) (start : Nat) : Nat × Bytes :=
  match (List.range (readTimeout + 1)).find? (fun i => c.readable (start + i)) with
  | some i => (start + i, (c.avail (start + i)).take readBuf)
  | none => (start + readTimeout, [])

/-- `char::is_whitespace` on code points. -/
def ws (n : Nat) : Bool :=
  decide (9 ≤ n ∧ n ≤ 13) || n == 32 || n == 133 || n == 160 || n == 5760 || decide (8192 ≤ n ∧ n ≤ 8202) || n == 8232 ||
    n == 8233 || n == 8239 || n == 8287 || n == 12288

/-- `str::lines().next()`, but for a carriage return at the end, which the next step drops. -/
def firstLine (s : List Nat) : Option (List Nat) := if s = [] then none else some (s.takeWhile (fun x => x != 10))

/-- `split_whitespace().nth(1)`. -/
def second (s : List Nat) : Option (List Nat) :=
  let r := ((s.dropWhile ws).dropWhile (fun x => !ws x)).dropWhile ws
  if r = [] then none else some (r.takeWhile (fun x => !ws x))

/-- `request_path`, health.rs:255-260. -/
def requestPath (utf8 : Bytes → Option (List Nat)) (b : Bytes) : Option (List Nat) :=
  (((utf8 b).bind firstLine).bind second).map (fun t => t.takeWhile (fun x => x != 63))

/-- `WORKERS_PATH`, health.rs:29. -/
def workersPath : List Nat := [47, 104, 101, 97, 108, 116, 104, 47, 119, 111, 114, 107, 101, 114, 115]

inductive Answer where
  | alive
  | workers (accepting : Bool)
deriving DecidableEq, Repr

/-- One connection, taken up when the loop is free, health.rs:203-235. -/
def serveOne (utf8 : Bytes → Option (List Nat)) (now : Nat) (c : Client) : Nat × Answer :=
  let r := c.read (max now c.arrive)
  if requestPath utf8 r.2 = some workersPath then
    match c.probe r.1 with
    | some (d, b) => if d ≤ probeTimeout then (r.1 + d, .workers b) else (r.1 + probeTimeout, .workers false)
    | none => (r.1 + probeTimeout, .workers false)
  else (r.1, .alive)

/-- `serve`, health.rs:190-246: the accepted connections and the accept errors (`none`), in order; when each was answered
and what. -/
def serve (utf8 : Bytes → Option (List Nat)) : Nat → List (Option Client) → List (Nat × Answer)
  | _, [] => []
  | now, none :: r => serve utf8 now r
  | now, some c :: r => serveOne utf8 now c :: serve utf8 (serveOne utf8 now c).1 r

/-- The body, health.rs:63-100. -/
def body (accepting : Bool) : String :=
  "{\"version\":1,\"workers\":[{\"worker_id\":0,\"accepting_transactions\":" ++ (if accepting then "true" else "false") ++ "}]}"

/-- The response's head and body, health.rs:54 and 223-227. -/
def Answer.response : Answer → String × String
  | .alive => ("HTTP/1.1 200 OK\r\nContent-Length: 2\r\n\r\n", "OK")
  | .workers b =>
    ("HTTP/1.1 200 OK\r\nContent-Type: application/json\r\nContent-Length: " ++ toString (body b).utf8ByteSize ++ "\r\n\r\n", body b)

/-- All that is used of UTF-8. -/
def Ascii (utf8 : Bytes → Option (List Nat)) : Prop := ∀ b : Bytes, (∀ x ∈ b, x < 128) → utf8 b = some b

end Health
end Verif
