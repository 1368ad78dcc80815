import Verif.Net.PeersBanTerm

/-!
# C56, C58: what a heartbeat does to one record, and a pending ban at a change of key

The score of a remembered peer follows the decay function exactly; a dial that takes too long is
given up, and only then; a ban that was waiting for the connection to close is in force when the
peer changes its key.
-/

namespace Verif.Net

open State

theorem updateMany_score {c : Cfg} {n : NewStatus} {now : Nat} (hn : n.noBan = true)
    (hd : ∀ b, n ≠ .disconnecting b) {id : Ident} (pids : List Pid) :
    ∀ {s : State}, Inv (fun _ => False) s → ∀ {p : Peer}, get id s.peers = some p →
      ∃ q, get id (s.updateMany c n now pids).peers = some q ∧ q.score = p.score := by
  induction pids with
  | nil => intro s _ p hp; exact ⟨p, hp, rfl⟩
  | cons pid pids ih =>
    intro s h p hp
    unfold State.updateMany at ih ⊢
    rw [List.foldl_cons]
    have hi := inv_updateStatus h c pid n now fun b hb => absurd hb (hd b)
    by_cases he : id = s.identityFor pid
    · have hg : get id (s.updateStatus c pid n now).1.peers = some (transition now n p s.ctr).1 := by
        rw [get_updateStatus h.ix, if_pos he,
          ensured_noBan c s _ now hn (by rw [← he]; exact hp)]
      obtain ⟨q, h1, h2⟩ := ih hi hg
      exact ⟨q, h1, h2.trans (transition_score now n p s.ctr).1⟩
    · have hg : get id (s.updateStatus c pid n now).1.peers = some p := by
        rw [get_updateStatus h.ix, if_neg he]; exact hp
      exact ih hi hg

/-- **C58 (the score decays).**  After any history a heartbeat changes the score of a remembered
peer that is not exempt exactly so: before the end of a lockout not at all; afterwards it is the
decay of the value over the time since the last change, from now on counted from this heartbeat
(or, if the decay takes it to the ban threshold, from the end of a new lockout). -/
theorem score_decays {c : Cfg} {l : List (Nat × Op)} (hl : Legal c l State.init) {id : Ident}
    {p : Peer} {now : Nat} (hp : get id (runOps c l State.init).peers = some p)
    (ha : p.allow = false) (hm : ∀ b, id = .conf b → ¬ Member (runOps c l State.init) b) :
    ∃ q, get id (Op.heartbeat.run c now (runOps c l State.init)).peers = some q ∧
      (now < p.score.last → q.score = p.score) ∧
      (p.score.last ≤ now → q.score.val = c.decay (now - p.score.last) p.score.val ∧
        (c.banAt < p.score.val ∧ c.decay (now - p.score.last) p.score.val ≤ c.banAt →
          q.score.last = now + c.lockout) ∧
        (p.score.val ≤ c.banAt ∨ c.banAt < c.decay (now - p.score.last) p.score.val →
          q.score.last = now)) := by
  have h := reach_inv hl
  revert hp hm h
  generalize runOps c l State.init = s
  intro hp hm h
  have h1 := inv_dialled h c now
  obtain ⟨p1, hp1, hs1⟩ := updateMany_score (c := c) (n := .disconnected) (now := now) rfl
    (by intro b hb; cases hb) (expiredDials c now s) h hp
  have hal : p1.allow = p.allow := by
    have : ∀ (pids : List Pid) {s : State}, Inv (fun _ => False) s → ∀ {p q : Peer},
        get id s.peers = some p → get id (s.updateMany c .disconnected now pids).peers = some q →
        q.allow = p.allow := by
      intro pids
      induction pids with
      | nil => intro s _ p q hp hq; rw [State.updateMany, List.foldl_nil, hp] at hq; cases hq; rfl
      | cons pid pids ih =>
        intro s h p q hp hq
        unfold State.updateMany at ih hq
        rw [List.foldl_cons] at hq
        have hi := inv_updateStatus h c pid .disconnected now fun b hb => by cases hb
        by_cases he : id = s.identityFor pid
        · have hg : get id (s.updateStatus c pid .disconnected now).1.peers =
              some (transition now .disconnected p s.ctr).1 := by
            rw [get_updateStatus h.ix, if_pos he,
              ensured_noBan c s _ now rfl (by rw [← he]; exact hp)]
          rw [ih hi hg hq, (transition_score now .disconnected p s.ctr).2]
        · have hg : get id (s.updateStatus c pid .disconnected now).1.peers = some p := by
            rw [get_updateStatus h.ix, if_neg he]; exact hp
          exact ih hi hg hq
    exact this _ h hp hp1
  have he : s.exemption id p1 = false := by
    unfold State.exemption
    split
    · next b =>
      rw [hal, ha, Bool.or_false, Bool.eq_false_iff, Ne, isMember_iff]
      exact hm b rfl
    · rw [hal]; exact ha
  have hg2 : get id (decayAll c now (s.dialled c now)).peers =
      some (p1.heartbeat c.toScoreCfg false now) := by
    rw [get_decayAll]
    have : get id (s.dialled c now).peers = some p1 := hp1
    rw [this]
    dsimp only [Option.map]
    rw [exemption_dialled h, he]
  obtain ⟨q, hq, hsc⟩ := updateMany_score (c := c) (n := .unbanned) (now := now) rfl
    (by intro b hb; cases hb) (unbannedBy c now (s.dialled c now)) (inv_decayAll h1 c now) hg2
  refine ⟨q, ?_, ?_, ?_⟩
  · dsimp only [Op.run]
    rw [heartbeat_eq]
    exact hq
  · intro hlt
    rw [hsc, heartbeat_early _ (by rw [hs1]; exact hlt), hs1]
  · intro hle
    have e : (p1.heartbeat c.toScoreCfg false now).score =
        Score.updateScore c.toScoreCfg p.score.val (c.decay (now - p.score.last) p.score.val) now := by
      unfold Peer.heartbeat Score.updateAt
      rw [if_neg (by decide)]
      dsimp only
      rw [hs1, if_pos hle]
    rw [hsc, e]
    unfold Score.updateScore Score.isBanned
    dsimp only
    refine ⟨rfl, ?_, ?_⟩
    · rintro ⟨h1, h2⟩
      rw [decide_eq_false (not_le.mpr h1), decide_eq_true h2]
      rfl
    · rintro (h1 | h1)
      · rw [decide_eq_true h1]; rfl
      · rw [decide_eq_false (not_le.mpr h1), Bool.and_false]; rfl

/-! ### Dials -/

theorem unbanned_keeps {c : Cfg} {now : Nat} {id : Ident} (pids : List Pid) :
    ∀ {s : State}, Inv (fun _ => False) s → ∀ {p : Peer}, get id s.peers = some p →
      pendingBan p.status = false →
      get id (s.updateMany c .unbanned now pids).peers = some p := by
  induction pids with
  | nil => intro s _ p hp _; exact hp
  | cons pid pids ih =>
    intro s h p hp hn
    unfold State.updateMany at ih ⊢
    rw [List.foldl_cons]
    have hi := inv_updateStatus h c pid .unbanned now fun b hb => by cases hb
    refine ih hi ?_ hn
    by_cases he : id = s.identityFor pid
    · rw [get_updateStatus h.ix, if_pos he, ensured_noBan c s _ now rfl (by rw [← he]; exact hp)]
      rcases p with ⟨k, sc, ips, st, al⟩
      cases st with
      | disconnecting b => cases b <;> simp_all [transition, handleUnbanned, pendingBan]
      | banned t => simp [pendingBan] at hn
      | _ => rfl
    · rw [get_updateStatus h.ix, if_neg he]; exact hp

theorem disconnected_once {c : Cfg} {now : Nat} {id : Ident} (pids : List Pid) :
    ∀ {s : State}, Inv (fun _ => False) s → ∀ {p : Peer}, get id s.peers = some p →
      p.status = .disconnected now →
      get id (s.updateMany c .disconnected now pids).peers = some p := by
  induction pids with
  | nil => intro s _ p hp _; exact hp
  | cons pid pids ih =>
    intro s h p hp hn
    unfold State.updateMany at ih ⊢
    rw [List.foldl_cons]
    have hi := inv_updateStatus h c pid .disconnected now fun b hb => by cases hb
    refine ih hi ?_ hn
    by_cases he : id = s.identityFor pid
    · rw [get_updateStatus h.ix, if_pos he, ensured_noBan c s _ now rfl (by rw [← he]; exact hp)]
      unfold transition handleDisconnected
      dsimp only
      rw [hn]
    · rw [get_updateStatus h.ix, if_neg he]; exact hp

theorem dial_closed {c : Cfg} {now : Nat} {id : Ident} (pids : List Pid) :
    ∀ {s : State}, Inv (fun _ => False) s → ∀ {p : Peer} {t : Nat}, get id s.peers = some p →
      p.status = .dialing t → (∃ pid ∈ pids, s.identityFor pid = id) →
      ∃ q, get id (s.updateMany c .disconnected now pids).peers = some q ∧
        q.status = .disconnected now := by
  induction pids with
  | nil => rintro s _ p t _ _ ⟨pid, hm, _⟩; cases hm
  | cons pid pids ih =>
    intro s h p t hp hst hex
    have hi := inv_updateStatus h c pid .disconnected now fun b hb => by cases hb
    have hx : (s.updateStatus c pid .disconnected now).1.index = s.index := by
      rw [updateStatus_peers h.ix]
    by_cases he : id = s.identityFor pid
    · have hg : get id (s.updateStatus c pid .disconnected now).1.peers =
          some { p with status := .disconnected now } := by
        rw [get_updateStatus h.ix, if_pos he, ensured_noBan c s _ now rfl (by rw [← he]; exact hp)]
        unfold transition handleDisconnected
        dsimp only
        rw [hst]
      refine ⟨{ p with status := .disconnected now }, ?_, rfl⟩
      unfold State.updateMany
      rw [List.foldl_cons]
      exact disconnected_once pids hi hg rfl
    · have hg : get id (s.updateStatus c pid .disconnected now).1.peers = some p := by
        rw [get_updateStatus h.ix, if_neg he]; exact hp
      unfold State.updateMany at ih ⊢
      rw [List.foldl_cons]
      refine ih hi hg hst ?_
      obtain ⟨pid', hm, he'⟩ := hex
      rcases List.mem_cons.mp hm with rfl | hm
      · exact absurd he'.symm he
      · exact ⟨pid', hm, by rw [identityFor_congr hx]; exact he'⟩

/-- **C56 (a dial ends).**  After any history, a dial that has been going on for longer than the
time-out is given up at the next heartbeat, and one that has not goes on. -/
theorem dial_times_out {c : Cfg} {l : List (Nat × Op)} (hl : Legal c l State.init) {id : Ident}
    {p : Peer} {t now : Nat} (hp : get id (runOps c l State.init).peers = some p)
    (hst : p.status = .dialing t) :
    ∃ q, get id (Op.heartbeat.run c now (runOps c l State.init)).peers = some q ∧
      (t + c.dialTimeout < now → q.status = .disconnected now) ∧
      (now ≤ t + c.dialTimeout → q.status = .dialing t) := by
  have h := reach_inv hl
  revert hp h
  generalize runOps c l State.init = s
  intro hp h
  have h1 := inv_dialled h c now
  have second : ∀ q, get id (s.dialled c now).peers = some q → pendingBan q.status = false →
      ∃ q', get id (s.heartbeat c now).peers = some q' ∧ q'.status = q.status := by
    intro q hq hpb
    have hg2 : get id (decayAll c now (s.dialled c now)).peers =
        some (q.heartbeat c.toScoreCfg ((s.dialled c now).exemption id q) now) := by
      rw [get_decayAll, hq]; rfl
    have hg3 := unbanned_keeps (c := c) (now := now) (unbannedBy c now (s.dialled c now)) (inv_decayAll h1 c now) hg2
      (by rw [(heartbeat_same _ _ _ _).1]; exact hpb)
    rw [← heartbeat_eq] at hg3
    exact ⟨_, hg3, (heartbeat_same _ _ _ _).1⟩
  by_cases hx : t + c.dialTimeout < now
  · obtain ⟨pid, hpid⟩ : ∃ pid, peerIdFor id p = some pid := by
      cases id with
      | conf b => obtain ⟨k, hk, _⟩ := h.ix.conf b p hp; exact ⟨k, hk⟩
      | anon k => exact ⟨k, rfl⟩
    have hmem : pid ∈ s.expiredDials c now := by
      unfold State.expiredDials
      rw [List.mem_filterMap]
      refine ⟨(id, p), mem_of_get hp, ?_⟩
      have : dialExpired c now p = true := by
        unfold State.dialExpired
        rw [hst]
        exact decide_eq_true hx
      dsimp only
      rw [if_pos this]
      exact hpid
    obtain ⟨q, hq, hqs⟩ := dial_closed (c := c) (now := now) (expiredDials c now s) h hp hst
      ⟨pid, hmem, identityFor_peerId h.ix hp hpid⟩
    obtain ⟨q', hq', hs'⟩ := second q hq (by rw [hqs]; rfl)
    exact ⟨q', hq', fun _ => hs'.trans hqs, fun hh => absurd hx (by omega)⟩
  · have hq : get id (s.dialled c now).peers = some p := by
      rw [← hp]
      apply updateMany_other (by intro b hb; cases hb) _ h
      intro pid hpid he
      obtain ⟨p', hp', hd⟩ := mem_expiredDials h.ix hpid
      rw [he, hp] at hp'
      injection hp' with hp'
      subst hp'
      unfold State.dialExpired at hd
      rw [hst] at hd
      exact hx (of_decide_eq_true hd)
    obtain ⟨q', hq', hs'⟩ := second p hq (by rw [hst]; rfl)
    exact ⟨q', hq', fun hh => absurd hh hx, fun _ => hs'.trans hst⟩

/-! ### A pending ban at a change of key -/

/-- **C58 (a pending ban is in force after a change of key).**  A known identity whose connection
is being closed in order to ban it publishes a new key that the node has no record of: the
identity is banned from now on, under the new key, and counted. -/
theorem pending_ban_carried {c : Cfg} {l : List (Nat × Op)} (hl : Legal c l State.init) {b : Bls}
    {k : Pid} {r : Peer} {now : Nat}
    (hr : get (.conf b) (runOps c l State.init).peers = some r)
    (hst : r.status = .disconnecting true) (hk : (runOps c l State.init).getPeer k = none) :
    ∃ q, get (.conf b) ((runOps c l State.init).upsert c b k now).peers = some q ∧
      q.key = some k ∧ q.status = .banned now ∧ q.score = r.score ∧ q.ips = r.ips ∧
      ((runOps c l State.init).upsert c b k now).ctr.total =
        (runOps c l State.init).ctr.total + 1 := by
  have h := reach_inv hl
  revert hr hk h
  generalize runOps c l State.init = s
  intro hr hk h
  have hc : s.identityFor k ≠ .conf b := by
    intro he
    unfold State.getPeer at hk
    rw [he, hr] at hk
    cases hk
  have hm : get (s.identityFor k) (s.evict (.conf b)).peers = none := by
    rw [evict_peers, get_del_ne hc]; exact hk
  have hmg : merge c k now (get (s.identityFor k) (s.evict (.conf b)).peers)
      (get (.conf b) s.peers) s.ctr =
      ({ r with key := some k, status := .banned now }, s.ctr.addBanned r.ips) := by
    rw [hm, hr]
    unfold merge normalize
    dsimp only
    rw [hst]
  refine ⟨{ r with key := some k, status := .banned now }, ?_, rfl, rfl, rfl, rfl, ?_⟩
  · unfold State.upsert
    dsimp only
    rw [get_put_self, if_neg hc, if_neg hc, hmg]
  · unfold State.upsert
    dsimp only
    rw [if_neg hc, if_neg hc, hmg]
    rfl

end Verif.Net
