import Verif.Net.PeersExample
import Verif.Net.CacheMain

/-!
# C59: the peer manager above the table: time-outs, events, the gossip blacklist

Models the part of `crates/network-libp2p/src/peers/manager.rs` that joins the peer table to the
reconnection time-out and to the `Banned` / `Unbanned` events, and the reaction of the swarm to
those (`consensus.rs:1717-1728`): the blacklist of gossipsub.  Events are consumed in order, at
once.  Left out: the disconnect events, metrics, dialing and discovery.
-/

namespace Verif.Net.Mgr

open State

/-- the peer table, the time-outs, and the blacklist the events maintain -/
structure M where
  peers : State
  temp : TempBan.Cache
  black : List Pid

/-- `PeerEvent::Unbanned` (`consensus.rs:1724-1728`) -/
def M.unblack (pids : List Pid) (m : M) : M :=
  { m with black := m.black.filter fun p => !decide (p ∈ pids) }

/-- `temporarily_ban` (`manager.rs:356-361`); the table and blacklist are kept if the cache
panics, which `TempBan.timeout_bounded` excludes -/
def M.tempBan (pid : Pid) (now : Nat) (m : M) : M :=
  match m.temp.insert pid now with
  | some (c', _, ev) => ({ m with temp := c' } : M).unblack ev.toList
  | none => m

/-- `apply_peer_action` (`manager.rs:366-391`) -/
def M.apply (pid : Pid) (a : Action) (now : Nat) (m : M) : M :=
  match a with
  | .ban => let m' := m.tempBan pid now; { m' with black := pid :: m'.black }
  | .disconnect => m.tempBan pid now
  | .disconnectPx => m.tempBan pid now
  | .unban => m.unblack [pid]
  | .none => m

/-- `process_penalty` (`manager.rs:467-482`), for a peer other than the node itself -/
def M.penalty (c : Cfg) (pid : Pid) (pen : Penalty) (now : Nat) (m : M) : M :=
  let r := m.peers.penalty c pid pen now
  M.apply pid r.2 now { m with peers := r.1 }

/-- `register_disconnected` (`manager.rs:577-600`); the records pruned for lack of room are
unbanned -/
def M.closed (c : Cfg) (pid : Pid) (now : Nat) (m : M) : M :=
  let r := updateStatus c pid .disconnected now m.peers
  let victims := (collectExcess ((pruneDisconnected c r.1).ctr.total - c.maxBanned) bannedAt
    (pruneDisconnected c r.1)).filterMap fun e =>
      (get e.2.1 (pruneDisconnected c r.1).peers).bind (peerIdFor e.2.1)
  (M.apply pid r.2 now { m with peers := pruneBanned c (pruneDisconnected c r.1) }).unblack victims

/-- `heartbeat` (`manager.rs:300-350`): the decay of the table with its unbans, then the end of
the time-outs -/
def M.heartbeat (c : Cfg) (now : Nat) (m : M) : M :=
  let m1 := ({ m with peers := m.peers.heartbeat c now } : M).unblack
    ((unbannedBy c now (m.peers.dialled c now)).filter fun pid => m.peers.pidBanned pid)
  let r := m1.temp.heartbeat now
  ({ m1 with temp := r.1 } : M).unblack r.2

/-- `peer_banned` of the manager (`manager.rs:435-443`) -/
def M.banned (c : Cfg) (m : M) (pid : Pid) : Bool :=
  m.temp.contains pid || m.peers.peerBanned c pid

/-- **C59 (finding: the end of a time-out clears the blacklist of a banned peer).**  When the
reconnection time-out of a peer ends before its ban, the heartbeat takes the peer off the
blacklist of the gossip layer although the peer is, and stays, banned. -/
theorem timeout_end_clears_blacklist {c : Cfg} {l : List (Nat × Op)}
    (hl : Legal c l State.init) {temp : TempBan.Cache} {black : List Pid} {pid : Pid}
    {now t u : Nat} (ht : TempBan.Inv temp) (hp : TempBan.Past temp now)
    (hin : (pid, t) ∈ temp.list) (hexp : t + temp.dur ≤ now) {p : Peer}
    (hg : (runOps c l State.init).getPeer pid = some p) (hlow : LowScore c.toScoreCfg p)
    (hu : u ≤ p.score.last) (hnow : now < u) :
    pid ∉ (M.heartbeat c now ⟨runOps c l State.init, temp, black⟩).black ∧
      (M.heartbeat c now ⟨runOps c l State.init, temp, black⟩).banned c pid = true := by
  have h := reach_inv hl
  revert hg h
  generalize runOps c l State.init = s
  intro hg h
  obtain ⟨_, _, _, _, _, h6⟩ := TempBan.heartbeat_spec ht hp
  constructor
  · unfold M.heartbeat M.unblack
    dsimp only
    rw [List.mem_filter]
    rintro ⟨_, hb⟩
    have : pid ∈ (temp.heartbeat now).2 := (h6 pid).mpr ⟨t, hin, hexp⟩
    rw [decide_eq_true this] at hb
    cases hb
  · have hlk : LockedIn c u s.peers (s.identityFor pid) := ⟨p, hg, hlow, hu⟩
    obtain ⟨q, hq, hql, _⟩ := locked_heartbeat h hlk hnow
    have hix : (s.heartbeat c now).index = s.index := by
      rw [heartbeat_eq, updateMany_index (by intro b hb; cases hb) _
        (inv_decayAll (inv_dialled h c now) c now)]
      exact updateMany_index (by intro b hb; cases hb) _ h
    have hb : (s.heartbeat c now).peerBanned c pid = true := by
      unfold State.peerBanned State.getPeer
      rw [identityFor_congr hix, hq]
      dsimp only
      rw [decide_eq_true ((reputation_banned_iff _ _).mpr hql), Bool.true_or]
    have hbb : (M.heartbeat c now ⟨s, temp, black⟩).banned c pid =
        ((temp.heartbeat now).1.contains pid || (s.heartbeat c now).peerBanned c pid) := rfl
    rw [hbb, hb, Bool.or_true]

/-- **C59 (a ban reaches the blacklist).**  A penalty or a close that bans a record puts the peer
on the blacklist and into the time-out. -/
theorem ban_blacklists (pid : Pid) (now : Nat) (m : M) (ht : TempBan.Inv m.temp)
    (hp : TempBan.Past m.temp now) :
    pid ∈ (m.apply pid .ban now).black ∧ (m.apply pid .ban now).temp.contains pid = true := by
  constructor
  · exact List.mem_cons_self
  · obtain ⟨c', nw, ev, he, h1, _, _, _, h5, _⟩ := TempBan.insert_spec ht hp pid
    have hc : (m.apply pid .ban now).temp = c' := by
      unfold M.apply M.tempBan
      dsimp only
      rw [he]
      rfl
    rw [hc]
    exact (TempBan.contains_iff h1 pid).mpr ⟨now, h5⟩

/-- the finding on a concrete run: banned at 5 for a hundred units, time-out of 20 -/
def demo : M :=
  M.closed Ex.cfg 20 5 (M.penalty Ex.cfg 20 .fatal 4
    ⟨runOps Ex.cfg [(3, .connected 20 (some 5))] State.init, TempBan.Cache.new 20 4, []⟩)

example : demo.black = [20] ∧ demo.temp.list = [(20, 5)] ∧ demo.banned Ex.cfg 20 = true ∧
    (M.heartbeat Ex.cfg 30 demo).black = [] ∧ (M.heartbeat Ex.cfg 30 demo).banned Ex.cfg 20 = true := by
  decide +kernel

end Verif.Net.Mgr
