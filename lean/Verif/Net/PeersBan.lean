import Verif.Net.PeersTrust
import Mathlib.Tactic.Linarith

/-!
# C58: bans by reputation: when they begin, how long they last, how they end
-/

namespace Verif.Net

open State

/-- a score configuration in which the worst score is a ban (the default: -100 against -50) -/
def ScoreCfg.Sane (c : ScoreCfg) : Prop := c.minScore ≤ c.banAt ∧ c.banAt < c.maxScore

/-- a record whose score is at or below the ban threshold -/
def LowScore (c : ScoreCfg) (p : Peer) : Prop := p.score.val ≤ c.banAt

theorem reputation_banned_iff (c : ScoreCfg) (p : Peer) :
    p.reputation c = .banned ↔ LowScore c p := by
  unfold Peer.reputation Score.reputation LowScore
  split
  · next h => exact ⟨fun _ => h, fun _ => rfl⟩
  · next h =>
    constructor
    · intro h'; split at h' <;> cases h'
    · intro h'; exact absurd h' h

theorem penalised_low {c : ScoreCfg} (hc : c.Sane) {v : ℚ} (hv : v ≤ c.banAt) (pen : Penalty) :
    Score.penalised c v pen ≤ c.banAt := by
  have key : ∀ d : ℚ, d ≤ 0 → Score.clamp c.minScore c.maxScore (v + d) ≤ c.banAt := by
    intro d hd
    unfold Score.clamp
    split
    · exact hc.1
    · split
      · next h => exact (le_of_lt h).trans (by linarith)
      · linarith
  cases pen with
  | mild => exact key (-1) (by norm_num)
  | medium => exact key (-5) (by norm_num)
  | severe => exact key (-10) (by norm_num)
  | fatal => exact hc.1

/-- a further penalty on a banned score keeps it banned and does not move the lockout -/
theorem applyPenalty_low {c : ScoreCfg} (hc : c.Sane) {p : Peer} (hl : LowScore c p)
    (pen : Penalty) (e : Bool) :
    LowScore c (p.applyPenalty c pen e) ∧ (p.applyPenalty c pen e).score.last = p.score.last := by
  unfold Peer.applyPenalty
  split
  · exact ⟨hl, rfl⟩
  · have hl' : p.score.val ≤ c.banAt := hl
    unfold LowScore
    dsimp only [Score.applyPenalty, Score.updateScore]
    refine ⟨penalised_low hc hl' pen, ?_⟩
    unfold Score.isBanned
    rw [decide_eq_true hl']
    rfl

/-- **C58 (when a ban begins).**  A penalty against a peer that is not exempt sets its score
to the clamped sum (the minimum for a fatal one). -/
theorem penalty_score {c : Cfg} (s : State) (h : Inv (fun _ => False) s) (pid : Pid)
    (pen : Penalty) (now : Nat) {p : Peer} (hp : s.getPeer pid = some p)
    (he : s.exemption (s.identityFor pid) p = false) :
    ∃ q, (s.penalty c pid pen now).1.getPeer pid = some q ∧
      (LowScore c.toScoreCfg p →  q.score.last = p.score.last) ∧
      q.score = p.score.applyPenalty c.toScoreCfg pen ∧ q.ips = p.ips := by
  unfold State.getPeer at hp ⊢
  obtain ⟨h1, h2, h3, _⟩ := applyPenalty_same c.toScoreCfg pen
    (s.exemption (s.identityFor pid) p) p
  obtain ⟨hi, hc⟩ := put_score h.ix h.ct hp h1 h2 h3
  have hsc : (p.applyPenalty c.toScoreCfg pen (s.exemption (s.identityFor pid) p)).score =
      p.score.applyPenalty c.toScoreCfg pen := by
    rw [he]; rfl
  have hlast : LowScore c.toScoreCfg p →
      (p.score.applyPenalty c.toScoreCfg pen).last = p.score.last := by
    intro hl
    have hl' : Score.isBanned c.toScoreCfg p.score.val = true := decide_eq_true hl
    dsimp only [Score.applyPenalty, Score.updateScore]
    rw [if_neg]; rw [hl']; exact Bool.false_ne_true
  unfold State.penalty
  dsimp only
  rw [hp]
  dsimp only
  split
  · refine ⟨p.applyPenalty c.toScoreCfg pen (s.exemption (s.identityFor pid) p), ?_, ?_, hsc, h2⟩
    · have hid : State.identityFor { s with
          peers := put (s.identityFor pid) (p.applyPenalty c.toScoreCfg pen
            (s.exemption (s.identityFor pid) p)) s.peers } pid = s.identityFor pid := rfl
      rw [hid]
      dsimp only
      rw [get_put_self]
    · rw [hsc]; exact hlast
  · next hne =>
    split
    · next n hn =>
      have hu := updateStatus_peers (s := { s with
        peers := put (s.identityFor pid) (p.applyPenalty c.toScoreCfg pen
          (s.exemption (s.identityFor pid) p)) s.peers }) hi c pid n now
      have hid : State.identityFor { s with
          peers := put (s.identityFor pid) (p.applyPenalty c.toScoreCfg pen
            (s.exemption (s.identityFor pid) p)) s.peers } pid = s.identityFor pid := rfl
      rw [hid] at hu
      rw [hu]
      have hid2 : State.identityFor { s with
          peers := put (s.identityFor pid) (transition now n (State.ensured c { s with
            peers := put (s.identityFor pid) (p.applyPenalty c.toScoreCfg pen
              (s.exemption (s.identityFor pid) p)) s.peers } (s.identityFor pid) n now) s.ctr).1
              (put (s.identityFor pid) (p.applyPenalty c.toScoreCfg pen
              (s.exemption (s.identityFor pid) p)) s.peers)
          ctr := (transition now n (State.ensured c { s with
            peers := put (s.identityFor pid) (p.applyPenalty c.toScoreCfg pen
              (s.exemption (s.identityFor pid) p)) s.peers } (s.identityFor pid) n now) s.ctr).2.1 }
          pid = s.identityFor pid := rfl
      rw [hid2]
      dsimp only
      rw [get_put_self]
      -- the forced ban finds a score that is low enough
      have hens : State.ensured c { s with
          peers := put (s.identityFor pid) (p.applyPenalty c.toScoreCfg pen
            (s.exemption (s.identityFor pid) p)) s.peers } (s.identityFor pid) n now =
          p.applyPenalty c.toScoreCfg pen (s.exemption (s.identityFor pid) p) := by
        cases hnb : n.noBan with
        | true => exact ensured_noBan c _ _ now hnb (get_put_self _ _ _)
        | false =>
          unfold State.ensured
          dsimp only
          rw [get_put_self]
          cases n with
          | banned =>
            dsimp only [Option.getD]
            unfold Peer.ensureBanned
            rw [if_pos]
            unfold State.penaltyStatus at hn
            split at hn
            · next hb => exact hb
            · split at hn <;> cases hn
            · cases hn
          | _ => rfl
      rw [hens]
      refine ⟨_, rfl, ?_, ?_, ?_⟩
      · intro hl; rw [(transition_score _ _ _ _).1, hsc]; exact hlast hl
      · rw [(transition_score _ _ _ _).1, hsc]
      · have htips : (transition now n (p.applyPenalty c.toScoreCfg pen
            (s.exemption (s.identityFor pid) p)) s.ctr).1.ips =
            (p.applyPenalty c.toScoreCfg pen (s.exemption (s.identityFor pid) p)).ips := by
          have hnc : ∀ ip, n ≠ .connected ip := by
            rintro ip rfl
            unfold State.penaltyStatus at hn
            split at hn
            · cases hn
            · split at hn <;> cases hn
            · cases hn
          generalize p.applyPenalty c.toScoreCfg pen (s.exemption (s.identityFor pid) p) = r
          rcases r with ⟨k, sc, ips, st, al⟩
          cases n <;> cases st <;>
            simp_all [transition, handleDialing, handleDisconnected, handleDisconnecting,
              handleBanned, handleUnbanned, Peer.registerDialing]
          all_goals (split <;> simp_all)
        rw [htips]; exact h2
    · refine ⟨p.applyPenalty c.toScoreCfg pen (s.exemption (s.identityFor pid) p), ?_, ?_, hsc, h2⟩
      · have hid : State.identityFor { s with
            peers := put (s.identityFor pid) (p.applyPenalty c.toScoreCfg pen
              (s.exemption (s.identityFor pid) p)) s.peers } pid = s.identityFor pid := rfl
        rw [hid]
        dsimp only
        rw [get_put_self]
      · rw [hsc]; exact hlast

/-- the record is banned, or will be as soon as its connection is closed -/
def BanStatus (p : Peer) : Prop := p.status = .disconnecting true ∨ ∃ t, p.status = .banned t

theorem handleBanned_status (now : Nat) (p : Peer) (c : Counters) :
    BanStatus (handleBanned now p c).1 ∧
      (p.status = .connected ∨ (∃ t, p.status = .dialing t) →
        (handleBanned now p c).2.2 = .disconnect) := by
  rcases p with ⟨k, sc, ips, st, al⟩
  cases st <;> simp [handleBanned, BanStatus]

/-- the record with another score -/
def Peer.scored (p : Peer) (sc : Score) : Peer := { p with score := sc }

/-- what a penalty that crosses the ban threshold does -/
theorem penalty_bans {c : Cfg} {s : State} (h : Inv (fun _ => False) s) (pid : Pid)
    (pen : Penalty) (now : Nat) {p : Peer} (hp : s.getPeer pid = some p)
    (he : s.exemption (s.identityFor pid) p = false) (hnl : ¬ LowScore c.toScoreCfg p)
    (hlow : Score.penalised c.toScoreCfg p.score.val pen ≤ c.banAt) :
    (s.penalty c pid pen now).1.peerBanned c pid = true ∧
    (∃ q, (s.penalty c pid pen now).1.getPeer pid = some q ∧ BanStatus q ∧
      LowScore c.toScoreCfg q ∧ q.score.last = p.score.last + c.lockout) ∧
    (p.status = .connected ∨ (∃ t, p.status = .dialing t) →
      (s.penalty c pid pen now).2 = .disconnect) := by
  have hb0 : p.reputation c.toScoreCfg ≠ .banned := by
    rw [Ne, reputation_banned_iff]; exact hnl
  have hps : p.applyPenalty c.toScoreCfg pen (s.exemption (s.identityFor pid) p) =
      (p.scored (p.score.applyPenalty c.toScoreCfg pen)) := by rw [he]; rfl
  have hval : (p.score.applyPenalty c.toScoreCfg pen).val =
    Score.penalised c.toScoreCfg p.score.val pen := rfl
  have hlast : (p.score.applyPenalty c.toScoreCfg pen).last = p.score.last + c.lockout := by
    have h1 : Score.isBanned c.toScoreCfg p.score.val = false := decide_eq_false hnl
    have h2 : Score.isBanned c.toScoreCfg (Score.penalised c.toScoreCfg p.score.val pen) = true :=
      decide_eq_true hlow
    dsimp only [Score.applyPenalty, Score.updateScore]
    rw [if_pos]; rw [h1, h2]; rfl
  have hb1 : Peer.reputation c.toScoreCfg
      (p.scored (p.score.applyPenalty c.toScoreCfg pen)) = .banned :=
    (reputation_banned_iff _ _).mpr hlow
  unfold State.getPeer at hp
  obtain ⟨h1, h2, h3, _⟩ := applyPenalty_same c.toScoreCfg pen
    (s.exemption (s.identityFor pid) p) p
  obtain ⟨hi, hc⟩ := put_score h.ix h.ct hp h1 h2 h3
  rw [hps] at hi
  have hpen : s.penalty c pid pen now = updateStatus c pid .banned now
      { s with peers := put (s.identityFor pid) (p.scored (p.score.applyPenalty c.toScoreCfg pen)) s.peers } := by
    unfold State.penalty
    dsimp only
    rw [hp]
    dsimp only
    rw [hps, if_neg]
    · rw [hb1]; rfl
    · rw [hb1]; exact fun h => hb0 h.symm
  have hens : State.ensured c { s with peers := put (s.identityFor pid) (p.scored (p.score.applyPenalty c.toScoreCfg pen)) s.peers }
      (s.identityFor pid) .banned now =
      (p.scored (p.score.applyPenalty c.toScoreCfg pen)) := by
    unfold State.ensured
    dsimp only
    rw [get_put_self]
    dsimp only [Option.getD]
    unfold Peer.ensureBanned
    rw [if_pos hb1]
  have hq : (s.penalty c pid pen now).1.getPeer pid =
      some (handleBanned now (p.scored (p.score.applyPenalty c.toScoreCfg pen)) s.ctr).1 := by
    have hix := (inv_penalty h c pid pen now).ix
    have hid : (s.penalty c pid pen now).1.identityFor pid = s.identityFor pid := by
      rw [hpen, updateStatus_peers hi]; rfl
    unfold State.getPeer
    rw [hid, hpen, updateStatus_peers hi]
    have hid2 : State.identityFor { s with peers := put (s.identityFor pid) (p.scored (p.score.applyPenalty c.toScoreCfg pen)) s.peers } pid =
        s.identityFor pid := rfl
    dsimp only
    rw [hid2, get_put_self, hens]
    rfl
  have hsc : (handleBanned now (p.scored (p.score.applyPenalty c.toScoreCfg pen))
      s.ctr).1.score = p.score.applyPenalty c.toScoreCfg pen :=
    (transition_score now .banned _ _).1
  have hlq : LowScore c.toScoreCfg (handleBanned now
      (p.scored (p.score.applyPenalty c.toScoreCfg pen)) s.ctr).1 := by
    unfold LowScore; rw [hsc]; exact hlow
  refine ⟨?_, ⟨_, hq, (handleBanned_status _ _ _).1, hlq, by rw [hsc]; exact hlast⟩, ?_⟩
  · unfold State.peerBanned
    rw [hq]
    dsimp only
    rw [decide_eq_true ((reputation_banned_iff _ _).mpr hlq), Bool.true_or]
  · intro hst
    rw [hpen]
    unfold State.updateStatus
    rw [healed_eq hi]
    dsimp only
    have hid2 : State.identityFor { s with peers := put (s.identityFor pid) (p.scored (p.score.applyPenalty c.toScoreCfg pen)) s.peers } pid =
        s.identityFor pid := rfl
    rw [hid2, hens]
    exact (handleBanned_status _ _ _).2 hst

/-- **C58 (a ban begins).**  After any history of calls, a penalty that takes the score of a
peer which is not exempt to the ban threshold (a fatal one always does) bans it: connections
from it are refused, its record is banned or will be when its connection closes, a live
connection is dropped, and the score is locked for the configured time after its last update. -/
theorem ban_begins {c : Cfg} {l : List (Nat × Op)} (hl : Legal c l State.init) (pid : Pid)
    (pen : Penalty) (now : Nat) {p : Peer} (hp : (runOps c l State.init).getPeer pid = some p)
    (ha : p.allow = false)
    (hm : ∀ b, (runOps c l State.init).identityFor pid = .conf b →
      ¬ Member (runOps c l State.init) b)
    (hnl : c.banAt < p.score.val)
    (hlow : Score.penalised c.toScoreCfg p.score.val pen ≤ c.banAt) :
    let r := (runOps c l State.init).penalty c pid pen now
    r.1.peerBanned c pid = true ∧
    (∃ q, r.1.getPeer pid = some q ∧ BanStatus q ∧ LowScore c.toScoreCfg q ∧
      q.score.last = p.score.last + c.lockout) ∧
    (p.status = .connected ∨ (∃ t, p.status = .dialing t) → r.2 = .disconnect) := by
  refine penalty_bans (reach_inv hl) pid pen now hp ?_ (not_le.mpr hnl) hlow
  unfold State.exemption
  split
  · next b hb =>
    rw [ha, Bool.or_false]
    rw [Bool.eq_false_iff, Ne, isMember_iff]
    exact hm b hb
  · exact ha

end Verif.Net
