import Verif.Net.StreamsBlame

/-!
# Stream opens: concrete runs and findings
-/

namespace Verif.Strm

/-- The answers, the dials under way, and the phases of the waiting opens after a run from the start. -/
def outcome (es : List Ev) : Option (List (Nat × Answer × Nat) × List (Nat × List Nat) × List (Nat × Phase)) :=
  (S.init.runs es).map fun s => (s.answers, s.dials, s.pending.map fun o => (o.id, o.phase))

/-- The ordinary case: dial, connect, dispatch, negotiate, stream. -/
def ordinary : List Ev :=
  [.call 7 [70], .poll 0, .tick 200, .established 7 true, .poll 0, .request 0, .tick 30, .negotiated 0 0]

example : outcome ordinary = some ([(0, .stream, 230)], [], []) := rfl

/-- Two calls queued together share one dial; both are told when it fails. -/
example : outcome [.call 7 [70], .call 7 [70], .poll 0, .tick 90, .dialFailed 7 true]
    = some ([(0, .notConnected, 90), (1, .notConnected, 90)], [], []) := rfl

/-- A peer that drops before dispatch is dialed again. -/
example : outcome [.call 7 [70], .poll 0, .established 7 true, .closed 0, .poll 0]
    = some ([], [(7, [70])], [(0, .awaiting)]) := rfl

/-- Finding: the deadline stops at dispatch.  Its comment says it covers the negotiation too, but an open
handed to its connection at 14.9 s is answered only when the negotiation times out, 10 s after the handler
asks for the substream: at 24.9 s. -/
theorem deadline_stops_at_dispatch : outcome
    [.call 7 [70], .poll 0, .tick 14900, .established 7 true, .poll 0, .request 0, .tick 100, .sweep,
      .tick 9900, .sweep, .upgradeError 0 0 .timeout]
    = some ([(0, .timeout, 24900)], [], []) := rfl

/-- Finding: opens are coalesced onto one dial only when they are queued at the same poll; a call made
while the dial is under way starts another dial of the same peer. -/
theorem second_dial : outcome [.call 7 [70], .poll 0, .tick 5, .call 7 [70], .poll 0]
    = some ([], [(7, [70]), (7, [70])], [(0, .awaiting), (1, .awaiting)]) := rfl

/-- Finding: the failure of one dial (here another behaviour's) fails every open waiting for the peer,
also those whose own dial is still under way. -/
theorem foreign_failure : outcome [.call 7 [70], .poll 0, .tick 5, .dialFailed 7 false]
    = some ([(0, .notConnected, 5)], [(7, [70])], []) := rfl

/-- Finding: a shared dial uses only the first caller's addresses: the second caller's address 71 is not
tried, and it is told that the peer is not connected. -/
theorem first_addresses_only :
    outcome [.call 7 [70], .call 7 [71], .poll 0, .dialFailed 7 true]
      = some ([(0, .notConnected, 0), (1, .notConnected, 0)], [], []) ∧
    outcome [.call 7 [70], .call 7 [71], .poll 0]
      = some ([], [(7, [70])], [(0, .awaiting), (1, .awaiting)]) := ⟨rfl, rfl⟩

/-- An open with a handler is dropped with its connection: the caller's channel closes without an error
value, while an open not yet dispatched would be dialed again. -/
example : outcome [.established 7 false, .call 7 [], .poll 0, .closed 0]
    = some ([(0, .dropped, 0)], [], []) := rfl

/-- Without a connection and without addresses there is nothing to try. -/
example : outcome [.call 7 []] = some ([(0, .notConnected, 0)], [], []) := rfl

/-- How many streams of peer 7 get through. -/
def through (es : List Ev) : Nat := passed 7 S.init es

/-- The bound of `inbound_rate` is reached: 512 streams within two milliseconds of each other, around the
end of a window. -/
theorem rate_bound_reached : through
    (.established 7 false :: .inbound 0 :: .tick 999 :: List.replicate 255 (.inbound 0) ++
      .tick 1 :: List.replicate 300 (.inbound 0)) = 512 := by decide +kernel

/-- Finding: a peer that reconnects starts a new window: 256 more streams at the same instant. -/
theorem reconnect_resets_rate : through
    (.established 7 false :: List.replicate 300 (.inbound 0) ++
      [.closed 0, .established 7 false] ++ List.replicate 300 (.inbound 0)) = 512 ∧
    through (.established 7 false :: List.replicate 600 (.inbound 0)) = 256 := by decide +kernel

/-- Finding: when 1024 events are buffered, an inbound stream that the rate admits is shed without a trace:
here four peers fill the buffer and the stream of a fifth, its first, is lost. -/
theorem inbound_shed : (S.init.runs
    ([.established 1 false, .established 2 false, .established 3 false, .established 4 false,
      .established 7 false] ++ List.replicate 256 (.inbound 0) ++ List.replicate 256 (.inbound 1) ++
      List.replicate 256 (.inbound 2) ++ List.replicate 256 (.inbound 3) ++ [.inbound 4])).map
      (fun s => (s.events.length, s.events.contains (.inbound 7))) = some (1024, false) ∧
    through ([.established 1 false, .established 2 false, .established 3 false, .established 4 false,
      .established 7 false] ++ List.replicate 256 (.inbound 0) ++ List.replicate 256 (.inbound 1) ++
      List.replicate 256 (.inbound 2) ++ List.replicate 256 (.inbound 3) ++ [.inbound 4]) = 1 := by
  decide +kernel

/-- `limited_means_flood` is met: the 257th stream at one instant is refused. -/
example : (S.init.runs (.established 7 false :: List.replicate 256 (.inbound 0))).map
    (fun s => (s.rateLimited 7).1) = some true := by decide +kernel

/-- `waiting_bounded` is met by a run in which an old open goes and a young one stays. -/
example : outcome [.call 7 [70], .tick 100, .call 8 [80], .tick 14900, .sweep]
    = some ([(0, .timeout, 15000)], [], [(1, .needsDial)]) := rfl

end Verif.Strm
