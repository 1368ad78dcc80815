import Verif.Net.DialingMain

/-!
# C117: every output of a step is true, runs, and findings
-/

namespace Verif.Dial

open Verif.Net (Pid Ip Status)

variable {P : Par} {s : St}

/-! ## The record is written only -/

/-- the state with an older record -/
def rb (L : List Out) (s : St) : St := { s with log := L ++ s.log }

theorem rb_notify (L : List Out) (s : St) (p : Pid) (a : Ans) :
    (rb L s).notify p a = rb L (s.notify p a) := by
  unfold St.notify
  cases h : Net.get p s.pend with
  | none =>
    have : Net.get p (rb L s).pend = none := h
    rw [this]
  | some r =>
    have : Net.get p (rb L s).pend = some r := h
    rw [this]
    simp [rb, List.append_assoc]

theorem rb_reply (L : List Out) (s : St) (p : Pid) (r : Option Nat) (a : Ans) :
    (rb L s).reply p r a = rb L (s.reply p r a) := by
  cases r with
  | none => rfl
  | some r => simp [St.reply, rb, List.append_assoc]

theorem rb_hold (L : List Out) (s : St) (p : Pid) (r : Nat) :
    (rb L s).hold p r = rb L (s.hold p r) := by
  unfold St.hold
  cases h : Net.get p s.pend with
  | none =>
    have : Net.get p (rb L s).pend = none := h
    rw [this]; rfl
  | some r =>
    have : Net.get p (rb L s).pend = some r := h
    rw [this]
    simp [rb, List.append_assoc]

theorem rb_say (L : List Out) (s : St) (o : Out) : (rb L s).say o = rb L (s.say o) := by
  simp [St.say, rb, List.append_assoc]

theorem rb_dialPeer (L : List Out) (s : St) (p : Pid) (addrs : List Addr) (r : Option Nat) :
    dialPeer P p addrs r (rb L s) = rb L (dialPeer P p addrs r s) := by
  unfold dialPeer
  by_cases hp : p = P.me
  · rw [if_pos hp, if_pos hp, rb_reply]
  · rw [if_neg hp, if_neg hp]
    have : (rb L s).status p = s.status p := rfl
    rw [this]
    cases s.status p
    all_goals first | exact rb_reply L s p r _ | rfl

theorem rb_register (L : List Out) (s : St) (p : Pid) (r : Option Nat) :
    register p r (rb L s) = rb L (register p r s) := by
  unfold register
  cases r with
  | none => rfl
  | some r => exact rb_hold L (s.setStatus p (toDialing s.now (s.status p))) p r

theorem rb_giveUps (L : List Out) (l : List Pid) : ∀ s : St,
    l.foldl giveUp (rb L s) = rb L (l.foldl giveUp s) := by
  induction l with
  | nil => intro s; rfl
  | cons x l ih =>
    intro s
    show l.foldl giveUp (giveUp (rb L s) x) = _
    have : giveUp (rb L s) x = rb L (giveUp s x) :=
      rb_notify L (s.setStatus x (toDisconnected s.now (s.status x))) x .timeout
    rw [this]
    exact ih _

theorem rb_dials (L : List Out) (l : List Entry) : ∀ s : St,
    l.foldl (fun s e => dialPeer P e.1 e.2 none s) (rb L s)
      = rb L (l.foldl (fun s e => dialPeer P e.1 e.2 none s) s) := by
  induction l with
  | nil => intro s; rfl
  | cons x l ih =>
    intro s
    show l.foldl (fun s e => dialPeer P e.1 e.2 none s) (dialPeer P x.1 x.2 none (rb L s)) = _
    rw [rb_dialPeer]
    exact ih _

theorem rb_discBeat (L : List Out) (s : St) (c1 c2 : Choice) :
    discBeat P c1 c2 (rb L s) = rb L (discBeat P c1 c2 s) := by
  have e1 : eligible P (rb L s) = eligible P s := rfl
  have e2 : picks P c1 (rb L s) = picks P c1 s := rfl
  have e3 : (rb L s).disc = s.disc := rfl
  unfold discBeat
  dsimp only
  rw [e1, e2, e3, rb_dials]
  generalize (picks P c1 s).foldl (fun s e => dialPeer P e.1 e.2 none s) s = w
  generalize without (s.disc.filter (eligible P s)) (picks P c1 s) = rest
  split
  · rfl
  · split
    · simp [rb, List.append_assoc]
    · rfl

theorem rb_poll (L : List Out) (s : St) : poll (rb L s) = rb L (poll s) := by
  unfold poll
  by_cases he : 0 < s.evs
  · rw [if_pos he, if_pos (show 0 < (rb L s).evs from he)]; rfl
  · rw [if_neg he, if_neg (show ¬ 0 < (rb L s).evs from he)]
    cases hq : s.queue with
    | nil =>
      have : (rb L s).queue = [] := hq
      rw [this]
    | cons q rest =>
      have : (rb L s).queue = q :: rest := hq
      rw [this]
      show (register q.peer q.reply (rb L { s with queue := rest })).say _
        = rb L ((register q.peer q.reply { s with queue := rest }).say _)
      rw [rb_register, rb_say]

theorem rb_outbound (L : List Out) (s : St) (p : Pid) (b : Bool) :
    outbound P p b (rb L s) = rb L (outbound P p b s) := by
  have e : (rb L s).status p = s.status p := rfl
  unfold outbound
  rw [e]
  by_cases hp : p = P.me
  · rw [if_pos hp, if_pos hp, rb_say]
  · rw [if_neg hp, if_neg hp]
    split
    · split <;> rw [rb_say]
    · split
      · rw [rb_register, rb_say]
      · rw [rb_say]

theorem rb_established (L : List Out) (s : St) (p : Pid) (o b : Bool) :
    established p o b (rb L s) = rb L (established p o b s) := by
  have e : (rb L s).status p = s.status p := rfl
  have e2 : (rb L s).setStatus p .connected = rb L (s.setStatus p .connected) := rfl
  unfold established
  dsimp only
  rw [e, e2]
  cases b with
  | true => rfl
  | false =>
    simp only [Bool.false_eq_true, if_false]
    cases hd : isDialing (s.status p) with
    | true =>
      cases o with
      | true => simp only [if_true, rb_notify]
      | false => simp only [Bool.false_eq_true, if_false, if_true, rb_notify]
    | false =>
      cases o with
      | true => simp only [Bool.false_eq_true, if_false, if_true, rb_notify]
      | false => simp only [Bool.false_eq_true, if_false]

theorem rb_failed (L : List Out) (s : St) (p : Pid) :
    failed p (rb L s) = rb L (failed p s) := by
  have e : (rb L s).status p = s.status p := rfl
  unfold failed
  dsimp only
  rw [e]
  by_cases h : s.status p = .connected
  · rw [if_pos h, if_pos h, rb_notify]
  · rw [if_neg h, if_neg h]
    exact rb_notify L (s.setStatus p _) p .failed

theorem rb_step (L : List Out) (s : St) (e : Ev) : step P (rb L s) e = rb L (step P s e) := by
  cases e with
  | dial p addrs =>
    have := rb_dialPeer (P := P) L
      { s with next := s.next + 1, log := s.log ++ [.asked s.next p] } p addrs (some s.next)
    show dialPeer P p addrs (some s.next)
      { rb L s with next := s.next + 1, log := (L ++ s.log) ++ [.asked s.next p] } = _
    rw [List.append_assoc]
    exact this
  | env p st => cases st <;> rfl
  | ips b => rfl
  | event => rfl
  | tick d => rfl
  | heartbeat acts n c1 c2 =>
    have h1 : expire P (rb L s) = rb L (expire P s) := rb_giveUps L (expired P s) s
    have h2 : beatStart P acts n (rb L s) = rb L (beatStart P acts n s) := by
      unfold beatStart; rw [h1]; rfl
    show discBeat P c1 c2 (beatStart P acts n (rb L s)) = _
    rw [h2, rb_discBeat]
    rfl
  | poll => exact rb_poll L s
  | outbound p b => exact rb_outbound L s p b
  | established p o b => exact rb_established L s p o b
  | failed p => exact rb_failed L s p
  | closed p => rfl
  | kad c l => rfl
  | exchange c l =>
    show exchange P c l (rb L s) = rb L (exchange P c l s)
    unfold exchange
    by_cases h : s.disc.length < P.maxDisc
    · rw [if_pos h, if_pos (show (rb L s).disc.length < P.maxDisc from h)]; rfl
    · rw [if_neg h, if_neg (show ¬ (rb L s).disc.length < P.maxDisc from h)]

/-- Every step adds to what was seen, and all that it adds is true of the state before it, the
event and the state after it (`Says`). -/
theorem step_true (P : Par) (s : St) (e : Ev) :
    ∃ new, (step P s e).log = s.log ++ new ∧ ∀ o ∈ new, Says P s (step P s e) e o := by
  have hs : s = rb s.log { s with log := [] } := by simp [rb]
  have h2 : step P s e = rb s.log (step P { s with log := [] } e) := by
    conv_lhs => rw [hs]
    exact rb_step s.log _ e
  refine ⟨(step P { s with log := [] } e).log, by rw [h2]; rfl, ?_⟩
  intro o ho
  have h3 := step_says P { s with log := [] } e ho (by simp)
  rw [h2]
  cases o with
  | asked r p => exact h3
  | answered r p a => cases a <;> exact h3
  | dropped r p => exact h3
  | swarm p a => exact h3
  | allowed p => exact h3
  | denied p => exact h3
  | search => exact h3

/-- nothing that was seen is taken back -/
theorem log_grows (P : Par) (es es' : List Ev) :
    (exec P es).log <+: (exec P (es ++ es')).log := by
  induction es' using List.reverseRecOn with
  | nil => simp
  | append_singleton es' e ih =>
    refine ih.trans ?_
    rw [← List.append_assoc]
    unfold exec
    rw [List.foldl_append (l' := [e])]
    obtain ⟨new, h, _⟩ := step_true P (exec P (es ++ es')) e
    exact ⟨new, h.symm⟩

/-! ## Runs -/

namespace Ex

/-- node 1, target two peers, fifteen seconds -/
def par : Par := ⟨1, 2, 15⟩

def asIs : Choice := ⟨fun l => l, fun l => .refl l⟩

def backwards : Choice := ⟨fun l => l.reverse, fun l => l.reverse_perm⟩

def beat : Ev := .heartbeat [] 0 asIs asIs

/-- a caller's dial succeeds; a second call then says connected; a dial of the own id is `ok`
and reaches no swarm -/
example : (exec par [.dial 7 [some 40], .poll, .outbound 7 false, .established 7 true false,
    .dial 7 [some 40], .dial 1 [some 41]]).log
    = [.asked 0 7, .swarm 7 [some 40], .allowed 7, .answered 0 7 .ok, .asked 1 7,
       .answered 1 7 .connected, .asked 2 1, .answered 2 1 .ok] := by decide +kernel

/-- a dial that nobody reports about is given up by the heartbeat after fifteen seconds; the
map is empty, so the heartbeat asks for a search too -/
example : (exec par [.dial 7 [some 40], .poll, .tick 16, beat]).log
    = [.asked 0 7, .swarm 7 [some 40], .answered 0 7 .timeout, .search] := by decide +kernel

/-- a failed dial is told with the failure -/
example : (exec par [.dial 7 [some 40], .poll, .failed 7]).log
    = [.asked 0 7, .swarm 7 [some 40], .answered 0 7 .failed] := by decide +kernel

/-- what a search found: this node itself, a peer with two addresses, one with a banned ip and
one without an ip are not stored; of the others two are dialed, the draw decides which -/
def found : Ev := .kad asIs [(1, [some 40]), (2, [some 41, some 42]), (3, [some 66]), (4, [none]),
  (5, [some 43]), (6, [some 44]), (7, [some 45])]

def badIp : Ev := .ips (fun ip => decide (ip = 66))

example : (exec par [badIp, found]).disc = [(7, [some 45]), (6, [some 44]), (5, [some 43])] := by
  decide +kernel

example : (exec par [badIp, found, beat]).queue = [⟨7, [some 45], none⟩, ⟨6, [some 44], none⟩]
    ∧ (exec par [badIp, found, beat]).disc = [(5, [some 43])] := by decide +kernel

example : (exec par [badIp, found, .heartbeat [] 0 backwards asIs]).queue
      = [⟨5, [some 43], none⟩, ⟨6, [some 44], none⟩] := by decide +kernel

/-- with one peer connected only one is missing -/
example : (exec par [badIp, found, .env 9 (some .connected), beat]).queue
      = [⟨7, [some 45], none⟩] := by decide +kernel

/-- the hypotheses of `timeout_told` hold in a run -/
example : Net.get 7 (exec par [.dial 7 [some 40], .poll, .tick 16]).pend = some 0
    ∧ Net.get 7 (exec par [.dial 7 [some 40], .poll, .tick 16]).peers = some (.dialing 0) := by
  decide +kernel

/-- the queue of two calls behind an event is worked off with three polls -/
example : (polls par 3 (exec par [.event, .dial 7 [some 40], .dial 8 [some 41]])).log
    = [.asked 0 7, .asked 1 8, .swarm 7 [some 40], .swarm 8 [some 41]] := by decide +kernel

end Ex

/-! ## Findings -/

/-- **Finding.**  Two calls for one peer that are queued together: the check for a dial under
way is made when the call comes in, so both go on; when the second is registered the first
caller's channel is dropped, and it never gets an answer; the swarm is told to dial twice. -/
theorem second_call_drops_first :
    (exec Ex.par [.dial 7 [some 40], .dial 7 [some 40], .poll, .poll, .established 7 true false]).log
      = [.asked 0 7, .asked 1 7, .swarm 7 [some 40], .dropped 0 7, .swarm 7 [some 40],
         .answered 1 7 .ok] := by decide +kernel

/-- **Finding.**  A dial given up by the heartbeat still runs in the swarm.  When its failure
comes in, a later call for the peer, whose own dial is under way, is told that it failed, and
the peer counts as disconnected, so that a third dial can begin beside the second. -/
theorem late_failure_fails_next_call :
    (exec Ex.par [.dial 7 [some 40], .poll, .tick 16, .heartbeat [] 0 Ex.asIs Ex.asIs, .poll,
      .dial 7 [some 41], .poll, .failed 7, .dial 7 [some 42], .poll]).log
      = [.asked 0 7, .swarm 7 [some 40], .answered 0 7 .timeout, .search, .asked 1 7,
         .swarm 7 [some 41], .answered 1 7 .failed, .asked 2 7, .swarm 7 [some 42]] := by
  decide +kernel

/-- **Finding.**  A ban that comes between a call and the poll that takes it from the queue is
overwritten: `handle_dialing_transition` turns the banned record into a dialing one.  The
connection is refused then (the verdict also looks at the score), and the failure leaves the
peer disconnected, no longer banned. -/
theorem queued_dial_overwrites_ban :
    (exec Ex.par [.dial 7 [some 40], .env 7 (some (.banned 0)), .poll, .outbound 7 true,
      .failed 7]).log = [.asked 0 7, .swarm 7 [some 40], .denied 7, .answered 0 7 .failed]
    ∧ (exec Ex.par [.dial 7 [some 40], .env 7 (some (.banned 0)), .poll, .outbound 7 true,
      .failed 7]).status 7 = .disconnected 0 := by decide +kernel

/-- the same in the peer table: two banned peers behind one address make the address banned; a
dial registered for one of them frees the address for everybody -/
theorem queued_dial_frees_ip (now t : Nat) (p : Net.Peer) (c : Net.Counters) (ip : Ip)
    (hp : p.status = .banned t) (hip : p.ips = [ip]) (hc : c.byIp ip = 2) :
    c.ipBanned ip = true
    ∧ (Net.transition now .dialing p c).2.1.ipBanned ip = false
    ∧ (Net.transition now .dialing p c).1.status = .dialing now := by
  refine ⟨by unfold Net.Counters.ipBanned; rw [hc]; rfl, ?_, ?_⟩
  · show (Net.handleDialing now p c).2.1.ipBanned ip = false
    unfold Net.handleDialing
    rw [hp, hip]
    simp [Net.Counters.removeBanned, Net.Counters.ipBanned, hc]
  · rw [toDialing_eq, hp]; rfl

/-- **Finding.**  The queued dials do not count as live.  Heartbeats that are due together (the
interval catches up on missed ticks, and `poll` runs them all before it takes a dial) each dial
up to the target: with a target of two, four peers are dialed. -/
theorem heartbeats_overshoot :
    (exec Ex.par [.kad Ex.asIs [(5, [some 43]), (6, [some 44]), (7, [some 45]), (8, [some 46])],
      Ex.beat, Ex.beat, .poll, .poll, .poll, .poll, .poll, .poll]).live = 4 := by decide +kernel

/-- **Finding.**  Discovery does not look at the temporary bans: a peer that `peer_banned`
refuses is drawn, takes the place of another one, and is refused when the swarm dials it. -/
theorem refused_peer_takes_place :
    (exec Ex.par [.env 9 (some .connected), .kad Ex.asIs [(5, [some 43]), (6, [some 44])], Ex.beat,
      .poll, .poll, .outbound 6 true]).log = [.search, .swarm 6 [some 44], .denied 6] := by
  decide +kernel

end Verif.Dial
