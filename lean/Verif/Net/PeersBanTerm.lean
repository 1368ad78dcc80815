import Verif.Net.PeersBanLast

/-!
# C58: a ban holds until its term, follows the identity, and then ends
-/

namespace Verif.Net

open State

/-! ### Scores under status changes -/

theorem ensured_low (c : Cfg) (s : State) (id : Ident) (n : NewStatus) (now : Nat) {p : Peer}
    (hg : get id s.peers = some p) (hl : LowScore c.toScoreCfg p) :
    s.ensured c id n now = p := by
  unfold State.ensured
  dsimp only
  rw [hg]
  dsimp only [Option.getD]
  split
  · unfold Peer.ensureBanned
    rw [if_pos ((reputation_banned_iff _ _).mpr hl)]
  · rfl

/-- the record exists and is locked -/
def LockedIn (c : Cfg) (u : Nat) (P : List (Ident × Peer)) (id : Ident) : Prop :=
  ∃ p, get id P = some p ∧ LowScore c.toScoreCfg p ∧ u ≤ p.score.last

theorem locked_updateStatus {s : State} (h : IdxInv s.peers s.index) {c : Cfg} {u : Nat}
    {id : Ident} (hl : LockedIn c u s.peers id) (pid : Pid) (n : NewStatus) (now : Nat) :
    LockedIn c u (s.updateStatus c pid n now).1.peers id := by
  obtain ⟨p, hp, hlow, hu⟩ := hl
  by_cases he : id = s.identityFor pid
  · have hg : get id (s.updateStatus c pid n now).1.peers =
        some (transition now n p s.ctr).1 := by
      rw [get_updateStatus h, if_pos he, ensured_low c s _ n now (by rw [← he]; exact hp) hlow]
    refine ⟨_, hg, ?_, ?_⟩
    · unfold LowScore; rw [(transition_score now n p s.ctr).1]; exact hlow
    · rw [(transition_score now n p s.ctr).1]; exact hu
  · exact ⟨p, by rw [get_updateStatus h, if_neg he]; exact hp, hlow, hu⟩

theorem locked_updateMany {c : Cfg} {n : NewStatus} {now : Nat}
    (hd : ∀ b, n ≠ .disconnecting b) {u : Nat} {id : Ident} (pids : List Pid) :
    ∀ {s : State}, Inv (fun _ => False) s → LockedIn c u s.peers id →
      LockedIn c u (s.updateMany c n now pids).peers id := by
  induction pids with
  | nil => intro s _ hl; exact hl
  | cons pid pids ih =>
    intro s h hl
    unfold State.updateMany at ih ⊢
    rw [List.foldl_cons]
    exact ih (inv_updateStatus h c pid n now fun b hb => absurd hb (hd b))
      (locked_updateStatus h.ix hl pid n now)

theorem locked_penalty {s : State} (h : Inv (fun _ => False) s) {c : Cfg} (hc : c.Sane) {u : Nat}
    {id : Ident} (hl : LockedIn c u s.peers id) (pid : Pid) (pen : Penalty) (now : Nat) :
    LockedIn c u (s.penalty c pid pen now).1.peers id := by
  by_cases he : id = s.identityFor pid
  · obtain ⟨p, hp, hlow, hu⟩ := hl
    rw [he] at hp
    obtain ⟨hl1, hl2⟩ := applyPenalty_low hc hlow pen (s.exemption (s.identityFor pid) p)
    unfold State.penalty
    dsimp only
    rw [hp]
    dsimp only
    rw [if_pos]
    · refine ⟨_, by dsimp only; rw [he, get_put_self], hl1, by rw [hl2]; exact hu⟩
    · rw [(reputation_banned_iff _ _).mpr hl1, (reputation_banned_iff _ _).mpr hlow]
  · obtain ⟨p, hp, hlow, hu⟩ := hl
    exact ⟨p, by rw [get_penalty_other h c pid pen now he]; exact hp, hlow, hu⟩

theorem heartbeat_early (c : ScoreCfg) {p : Peer} {now : Nat} (h : now < p.score.last) (e : Bool) :
    p.heartbeat c e now = p := by
  unfold Peer.heartbeat
  split
  · rfl
  · unfold Score.updateAt
    rw [if_neg (by omega)]

theorem locked_heartbeat {s : State} (h : Inv (fun _ => False) s) {c : Cfg} {u : Nat}
    {id : Ident} (hl : LockedIn c u s.peers id) {now : Nat} (hu : now < u) :
    LockedIn c u (s.heartbeat c now).peers id := by
  rw [heartbeat_eq]
  have h1 := inv_dialled h c now
  have hl1 : LockedIn c u (s.dialled c now).peers id :=
    locked_updateMany (by intro b hb; cases hb) _ h hl
  refine locked_updateMany (by intro b hb; cases hb) _ (inv_decayAll h1 c now) ?_
  obtain ⟨p, hp, hlow, hup⟩ := hl1
  refine ⟨p, ?_, hlow, hup⟩
  rw [get_decayAll, hp]
  dsimp only [Option.map]
  rw [heartbeat_early _ (by omega)]

/-! ### New keys for an identity -/

/-- Reputation after a record that names the keys: not better than that of either record it
replaces. -/
theorem upsert_score {s : State} (h : IdxInv s.peers s.index) (c : Cfg) (b : Bls) (k : Pid)
    (now : Nat) :
    ∃ q, get (.conf b) (s.upsert c b k now).peers = some q ∧ q.key = some k ∧
      (s.upsert c b k now).identityFor k = .conf b ∧
      (∀ m, s.getPeer k = some m → q.score.val ≤ m.score.val) ∧
      (∀ r, get (.conf b) s.peers = some r → q.score.val ≤ r.score.val) ∧
      ((∃ m, s.getPeer k = some m ∧ q.score = m.score) ∨
        (∃ r, get (.conf b) s.peers = some r ∧ q.score = r.score) ∨
        (s.getPeer k = none ∧ get (.conf b) s.peers = none)) := by
  have hidx : (s.upsert c b k now).identityFor k = .conf b := by
    unfold State.identityFor State.upsert
    dsimp only
    rw [get_put_self]
  by_cases hc : s.identityFor k = .conf b
  · -- the id already resolves to the identity
    obtain ⟨p, hp⟩ : ∃ p, get (.conf b) s.peers = some p := by
      rcases s.identityFor_cases k with ⟨b', hb', he⟩ | ⟨_, he⟩
      · rw [hc] at he; injection he with he; subst he
        obtain ⟨p, hp, _⟩ := h.idx k b hb'
        exact ⟨p, hp⟩
      · rw [hc] at he; cases he
    have hgp : s.getPeer k = some p := by unfold State.getPeer; rw [hc]; exact hp
    have hq : get (.conf b) (s.upsert c b k now).peers = some { p with key := some k } := by
      unfold State.upsert
      dsimp only
      rw [get_put_self, if_pos hc, if_pos hc, hc, hp]
      rfl
    refine ⟨_, hq, rfl, hidx, ?_, ?_, .inl ⟨p, hgp, rfl⟩⟩
    · intro m hm; rw [hgp] at hm; injection hm with hm; subst hm; exact le_refl _
    · intro r hr; rw [hp] at hr; injection hr with hr; subst hr; exact le_refl _
  · have hm : get (s.identityFor k) (s.evict (.conf b)).peers = s.getPeer k := by
      rw [evict_peers, get_del_ne hc]; rfl
    have hq : get (.conf b) (s.upsert c b k now).peers =
        some (merge c k now (s.getPeer k) (get (.conf b) s.peers) s.ctr).1 := by
      unfold State.upsert
      dsimp only
      rw [get_put_self, if_neg hc, if_neg hc, hm]
    refine ⟨_, hq, merge_key c k now _ _ _, hidx, ?_⟩
    have hnorm : ∀ (p : Peer) (ct : Counters), (normalize now p ct).1.score = p.score := by
      intro p ct
      rcases p with ⟨k, sc, ips, st, al⟩
      unfold State.normalize
      split <;> rfl
    cases hmm : s.getPeer k with
    | none =>
      cases hr : get (.conf b) s.peers with
      | none =>
        refine ⟨fun m hm => (by cases hm), fun r hr => (by cases hr), .inr (.inr ⟨rfl, rfl⟩)⟩
      | some r =>
        have hsc : (merge c k now none (some r) s.ctr).1.score = r.score := by
          unfold State.merge; exact hnorm _ _
        refine ⟨fun m hm => (by cases hm), ?_, .inr (.inl ⟨r, rfl, hsc⟩)⟩
        intro r' hr'; injection hr' with hr'; subst hr'; rw [hsc]
    | some m =>
      cases hr : get (.conf b) s.peers with
      | none =>
        have hsc : (merge c k now (some m) none s.ctr).1.score = m.score := rfl
        refine ⟨?_, fun r hr => (by cases hr), .inl ⟨m, rfl, hsc⟩⟩
        intro m' hm'; injection hm' with hm'; subst hm'; rw [hsc]
      | some r =>
        have hsc : (merge c k now (some m) (some r) s.ctr).1.score = (m.retainWorse r).score := rfl
        unfold Peer.retainWorse at hsc
        split at hsc
        · next hlt =>
          refine ⟨?_, ?_, .inr (.inl ⟨r, rfl, hsc⟩)⟩
          · intro m' hm'; injection hm' with hm'; subst hm'; rw [hsc]; exact le_of_lt hlt
          · intro r' hr'; injection hr' with hr'; subst hr'; rw [hsc]
        · next hlt =>
          refine ⟨?_, ?_, .inl ⟨m, rfl, hsc⟩⟩
          · intro m' hm'; injection hm' with hm'; subst hm'; rw [hsc]
          · intro r' hr'; injection hr' with hr'; subst hr'; rw [hsc]; exact not_lt.mp hlt

/-- **C58 (a ban follows the identity).**  After any history of calls, recording a new network
key for a BLS identity never improves its reputation: if either the identity or the peer that
presents the key is banned, the identity is banned under the new key. -/
theorem ban_follows_identity {c : Cfg} {l : List (Nat × Op)} (hl : Legal c l State.init)
    (b : Bls) (k : Pid) (now : Nat) {p : Peer}
    (hp : get (.conf b) (runOps c l State.init).peers = some p ∨
      (runOps c l State.init).getPeer k = some p) (hb : LowScore c.toScoreCfg p) :
    ((runOps c l State.init).upsert c b k now).peerBanned c k = true := by
  obtain ⟨q, hq, _, hid, hm, hr, _⟩ := upsert_score (reach_inv hl).ix c b k now
  have hlow : LowScore c.toScoreCfg q := by
    unfold LowScore at *
    rcases hp with hp | hp
    · exact (hr p hp).trans hb
    · exact (hm p hp).trans hb
  unfold State.peerBanned State.getPeer
  rw [hid, hq]
  dsimp only
  rw [decide_eq_true ((reputation_banned_iff _ _).mpr hlow), Bool.true_or]

/-! ### Until the end of the lockout -/

/-- The record of the identity is not overwritten or forgiven by the call: the operator does
not put it on the allowlist, its keys are not taken into a committee, its network key is not
given to another identity, and it does not merge with a peer whose own lockout ends before
`u`. -/
def Op.sparing (u : Nat) (id : Ident) (s : State) : Op → Prop
  | .trusted b k => id ≠ .conf b ∧ id ≠ s.identityFor k
  | .known b k => NamesOk u id s b k
  | .advertised _ b k _ => NamesOk u id s b k
  | .discovered b k _ => NamesOk u id s b k
  | .committees p cu n => ∀ b ∈ p ++ cu ++ n, id ≠ Ident.conf b
  | .forDial ms => ∀ b ∈ ms, id ≠ Ident.conf b
  | _ => True
where
  /-- a record that names the keys -/
  NamesOk (u : Nat) (id : Ident) (s : State) (b : Bls) (k : Pid) : Prop :=
    (id ≠ .conf b ∧ id ≠ s.identityFor k) ∨
      (id = .conf b ∧ s.isMember b = false ∧
        ∀ m, s.getPeer k = some m → s.identityFor k ≠ id → u ≤ m.score.last)

theorem locked_upsert {s : State} (h : Inv (fun _ => False) s) {c : Cfg} {u : Nat} {id : Ident}
    (hl : LockedIn c u s.peers id) (b : Bls) (k : Pid) (now : Nat)
    (hs : Op.sparing.NamesOk u id s b k) : LockedIn c u (s.upsert c b k now).peers id := by
  obtain ⟨p, hp, hlow, hu⟩ := hl
  rcases hs with ⟨h1, h2⟩ | ⟨rfl, _, hm⟩
  · exact ⟨p, by rw [upsert_other c b k now (Ne.symm h1) (Ne.symm h2)]; exact hp, hlow, hu⟩
  · obtain ⟨q, hq, _, _, _, hr, hsc⟩ := upsert_score h.ix c b k now
    refine ⟨q, hq, (hr p hp).trans hlow, ?_⟩
    rcases hsc with ⟨m, hm', he⟩ | ⟨r, hr', he⟩ | ⟨_, hn⟩
    · rw [he]
      by_cases hid : s.identityFor k = .conf b
      · unfold State.getPeer at hm'
        rw [hid, hp] at hm'
        injection hm' with hm'
        subst hm'; exact hu
      · exact hm m hm' hid
    · rw [hp] at hr'; injection hr' with hr'; subst hr'; rw [he]; exact hu
    · rw [hp] at hn; cases hn

theorem locked_cacheKnown {s : State} (h : Inv (fun _ => False) s) {c : Cfg} {u : Nat}
    {id : Ident} (hl : LockedIn c u s.peers id) (b : Bls) (k : Pid) (now : Nat)
    (hs : Op.sparing.NamesOk u id s b k) : LockedIn c u (s.cacheKnown c b k now).peers id := by
  have h1 := locked_upsert h hl b k now hs
  unfold State.cacheKnown State.applyIfMember
  split
  · next hm =>
    rcases hs with ⟨h1', _⟩ | ⟨_, hm', _⟩
    · unfold LockedIn
      rw [applyMembers_other c [b] now
        (by intro b' hb'; rw [List.mem_singleton.mp hb']; exact Ne.symm h1')
        (inv_upsert h c b k now)]
      exact h1
    · rw [isMember_upsert, hm'] at hm; cases hm
  · exact h1

theorem locked_run {s : State} (h : Inv (fun _ => False) s) {c : Cfg} (hc : c.Sane) {u : Nat}
    {id : Ident} (hl : LockedIn c u s.peers id) {now : Nat} (hu : now < u) {o : Op}
    (hs : o.sparing u id s) :
    get id (o.run c now s).peers = none ∨ LockedIn c u (o.run c now s).peers id := by
  cases o with
  | connected pid ip => exact .inr (locked_updateStatus h.ix hl pid _ now)
  | dialing pid => exact .inr (locked_updateStatus h.ix hl pid _ now)
  | disconnect pid => exact .inr (locked_updateStatus h.ix hl pid _ now)
  | closed pid =>
    dsimp only [Op.run, State.registerDisconnected]
    obtain ⟨p, hp, hlow⟩ := locked_updateStatus h.ix hl pid .disconnected now
    rcases prune_get c (s.updateStatus c pid .disconnected now).1 id with hg | hg
    · exact .inr ⟨p, by rw [hg]; exact hp, hlow⟩
    · exact .inl hg
  | penalty pid p => exact .inr (locked_penalty h hc hl pid p now)
  | heartbeat => exact .inr (locked_heartbeat h hl hu)
  | trusted b k =>
    obtain ⟨p, hp, hlow⟩ := hl
    refine .inr ⟨p, ?_, hlow⟩
    dsimp only [Op.run]
    rw [addTrusted_other c b k now (Ne.symm hs.1) (Ne.symm hs.2)]
    exact hp
  | known b k => exact .inr (locked_cacheKnown h hl b k now hs)
  | advertised src b k stale =>
    right
    dsimp only [Op.run, State.selfAdvertised]
    split
    · split
      · exact hl
      · exact locked_cacheKnown h hl b k now hs
    · split
      · exact locked_upsert h hl b k now hs
      · exact hl
  | discovered b k stale =>
    right
    dsimp only [Op.run, State.discovered]
    split
    · split
      · exact hl
      · exact locked_cacheKnown h hl b k now hs
    · exact hl
  | committees p cu n =>
    right
    have h' : Inv (fun _ => False) { s with prevC := p, curC := cu, nextC := n } := ⟨h.ix, h.ct⟩
    dsimp only [Op.run, State.updateCommittees]
    unfold LockedIn
    rw [applyMembers_other c _ now (fun b hb e => hs b hb e.symm) h']
    exact hl
  | forDial ms =>
    right
    dsimp only [Op.run]
    unfold LockedIn
    rw [applyMembers_other c _ now (fun b hb e => hs b hb e.symm) h]
    exact hl
  | reorder P =>
    right
    dsimp only [Op.run]
    split
    · next hperm =>
      unfold LockedIn
      dsimp only
      rw [get_perm h.ix.nodup hperm.symm id]
      exact hl
    · exact hl

/-- the identity has a record after every call of the history -/
def Remembered (c : Cfg) (id : Ident) : List (Nat × Op) → State → Prop
  | [], _ => True
  | (t, o) :: l, s => get id (o.run c t s).peers ≠ none ∧ Remembered c id l (o.run c t s)

/-- **C58 (a ban lasts).**  Take a reachable state in which a peer is banned until `u`, and any
further history of calls made before `u` - connections, disconnections, penalties, heartbeats,
records and committees of other peers, new network keys of its own - in which the peer is not
forgiven (`Op.sparing`) or forgotten for lack of room.  At its end the peer is still banned,
under whatever network key its identity then has. -/
theorem ban_lasts {c : Cfg} (hc : c.Sane) {l₀ : List (Nat × Op)} (hl₀ : Legal c l₀ State.init)
    {u : Nat} {id : Ident} {p : Peer} (hp : get id (runOps c l₀ State.init).peers = some p)
    (hlow : LowScore c.toScoreCfg p) (hu : u ≤ p.score.last) (l : List (Nat × Op))
    (hl : Legal c l (runOps c l₀ State.init)) (ht : ∀ e ∈ l, e.1 < u)
    (hs : Always c (fun s o => o.sparing u id s) l (runOps c l₀ State.init))
    (hr : Remembered c id l (runOps c l₀ State.init)) :
    ∃ q pid, get id (runOps c l (runOps c l₀ State.init)).peers = some q ∧
      peerIdFor id q = some pid ∧
      (runOps c l (runOps c l₀ State.init)).peerBanned c pid = true := by
  have main : ∀ (l : List (Nat × Op)) {s : State}, Inv (fun _ => False) s → Legal c l s →
      (∀ e ∈ l, e.1 < u) → Always c (fun s o => o.sparing u id s) l s → Remembered c id l s →
      LockedIn c u s.peers id →
      Inv (fun _ => False) (runOps c l s) ∧ LockedIn c u (runOps c l s).peers id := by
    intro l
    induction l with
    | nil => intro s h _ _ _ _ hk; exact ⟨h, hk⟩
    | cons e l ih =>
      intro s h hl ht hs hr hk
      obtain ⟨t, o⟩ := e
      rw [runOps]
      refine ih (inv_run h c t o hl.1 fun _ h => h.elim) hl.2
        (fun e he => ht e (List.mem_cons_of_mem _ he)) hs.2 hr.2 ?_
      rcases locked_run h hc hk (ht (t, o) List.mem_cons_self) hs.1 with hn | hk'
      · exact absurd hn hr.1
      · exact hk'
  obtain ⟨hinv, q, hq, hlow', _⟩ := main l (reach_inv hl₀) hl ht hs hr ⟨p, hp, hlow, hu⟩
  obtain ⟨pid, hpid⟩ : ∃ pid, peerIdFor id q = some pid := by
    cases id with
    | conf b => obtain ⟨k, hk, _⟩ := hinv.ix.conf b q hq; exact ⟨k, hk⟩
    | anon k => exact ⟨k, rfl⟩
  refine ⟨q, pid, hq, hpid, ?_⟩
  unfold State.peerBanned State.getPeer
  rw [identityFor_peerId hinv.ix hq hpid, hq]
  dsimp only
  rw [decide_eq_true ((reputation_banned_iff _ _).mpr hlow'), Bool.true_or]

/-! ### After the end of the lockout -/

theorem unban_clears {c : Cfg} {now : Nat} {id : Ident} (pids : List Pid) :
    ∀ {s : State}, Inv (fun _ => False) s →
      ∀ {p : Peer}, get id s.peers = some p →
      ((∃ pid ∈ pids, s.identityFor pid = id) ∨ pendingBan p.status = false) →
      ∃ q, get id (s.updateMany c .unbanned now pids).peers = some q ∧
        pendingBan q.status = false ∧ q.score = p.score := by
  induction pids with
  | nil =>
    intro s _ p hp hor
    rcases hor with ⟨pid, hm, _⟩ | h
    · cases hm
    · exact ⟨p, hp, h, rfl⟩
  | cons pid pids ih =>
    intro s h p hp hor
    unfold State.updateMany at ih ⊢
    rw [List.foldl_cons]
    have hi := inv_updateStatus h c pid .unbanned now fun b hb => by cases hb
    have hx : (s.updateStatus c pid .unbanned now).1.index = s.index := by
      rw [updateStatus_peers h.ix]
    by_cases he : id = s.identityFor pid
    · have hg : get id (s.updateStatus c pid .unbanned now).1.peers =
          some (handleUnbanned p s.ctr).1 := by
        rw [get_updateStatus h.ix, if_pos he,
          ensured_noBan c s _ now rfl (by rw [← he]; exact hp)]
        rfl
      obtain ⟨q, h1, h2, h3⟩ := ih hi hg (.inr (handleUnbanned_clears p s.ctr))
      exact ⟨q, h1, h2, h3.trans (transition_score now .unbanned p s.ctr).1⟩
    · have hg : get id (s.updateStatus c pid .unbanned now).1.peers = some p := by
        rw [get_updateStatus h.ix, if_neg he]; exact hp
      refine ih hi hg ?_
      rcases hor with ⟨pid', hm, he'⟩ | h'
      · rcases List.mem_cons.mp hm with rfl | hm
        · exact absurd he'.symm he
        · exact .inl ⟨pid', hm, by rw [identityFor_congr hx]; exact he'⟩
      · exact .inr h'

/-- **C58 (a ban ends).**  After any history of calls, the first heartbeat after the lockout at
which the decayed score of a banned, non-exempt peer is above the ban threshold lifts the ban:
its reputation is not that of a banned peer, and its record is neither banned nor waiting to
be. -/
theorem ban_ends {c : Cfg} {l : List (Nat × Op)} (hl : Legal c l State.init) {id : Ident}
    {p : Peer} {now : Nat} (hp : get id (runOps c l State.init).peers = some p)
    (ha : p.allow = false)
    (hm : ∀ b, id = .conf b → ¬ Member (runOps c l State.init) b)
    (hnd : ∀ t, p.status ≠ .dialing t)
    (hlow : LowScore c.toScoreCfg p) (hlast : p.score.last ≤ now)
    (hdec : c.banAt < c.decay (now - p.score.last) p.score.val) :
    ∃ q, get id (Op.heartbeat.run c now (runOps c l State.init)).peers = some q ∧
      q.reputation c.toScoreCfg ≠ .banned ∧ ¬ BanStatus q := by
  have h := reach_inv hl
  revert hp hm h
  generalize runOps c l State.init = s
  intro hp hm h
  have he : s.exemption id p = false := by
    unfold State.exemption
    split
    · next b =>
      rw [ha, Bool.or_false, Bool.eq_false_iff, Ne, isMember_iff]
      exact hm b rfl
    · exact ha
  have h1 := inv_dialled h c now
  have hg1 : get id (s.dialled c now).peers = some p := by
    rw [dialled_get h c now]
    · exact hp
    · intro p' t hp' hst
      rw [hp] at hp'; injection hp' with hp'; subst hp'
      exact hnd t hst
  have hhb : (p.heartbeat c.toScoreCfg false now).score.val =
      c.decay (now - p.score.last) p.score.val := by
    unfold Peer.heartbeat Score.updateAt Score.updateScore
    rw [if_neg (by decide)]
    dsimp only
    rw [if_pos hlast]
  have hnb : Peer.reputation c.toScoreCfg (p.heartbeat c.toScoreCfg false now) ≠ .banned := by
    rw [Ne, reputation_banned_iff]
    unfold LowScore
    rw [hhb]
    exact not_le.mpr hdec
  obtain ⟨pid, hpid⟩ : ∃ pid, peerIdFor id p = some pid := by
    cases id with
    | conf b => obtain ⟨k, hk, _⟩ := h.ix.conf b p hp; exact ⟨k, hk⟩
    | anon k => exact ⟨k, rfl⟩
  have hmem : pid ∈ unbannedBy c now (s.dialled c now) := by
    unfold State.unbannedBy
    rw [List.mem_filterMap]
    refine ⟨(id, p), mem_of_get hg1, ?_⟩
    dsimp only
    rw [exemption_dialled h, he, if_pos]
    · exact hpid
    · unfold Peer.heartbeatUnbans
      rw [decide_eq_true ((reputation_banned_iff _ _).mpr hlow), decide_eq_false hnb]
      rfl
  have hg2 : get id (decayAll c now (s.dialled c now)).peers =
      some (p.heartbeat c.toScoreCfg false now) := by
    rw [get_decayAll, hg1]
    dsimp only [Option.map]
    rw [exemption_dialled h, he]
  dsimp only [Op.run]
  rw [heartbeat_eq]
  obtain ⟨q, hq, hpb, hsc⟩ := unban_clears (c := c) (now := now)
    (unbannedBy c now (s.dialled c now)) (inv_decayAll h1 c now) hg2
    (.inl ⟨pid, hmem, identityFor_peerId h1.ix hg1 hpid⟩)
  refine ⟨q, hq, ?_, ?_⟩
  · rw [Ne, reputation_banned_iff] at hnb ⊢
    unfold LowScore at *
    rw [hsc]; exact hnb
  · rintro (hs | ⟨t, hs⟩)
    · rw [hs] at hpb; cases hpb
    · rw [hs] at hpb; cases hpb

end Verif.Net
