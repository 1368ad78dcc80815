import Verif.Net.PeersBan

/-!
# C58: how long a ban lasts, how it ends, and the bans that never do
-/

namespace Verif.Net

open State

/-! ### Calls that concern other peers -/

/-- The call concerns the peer stored under the identity: a connection event or a penalty for
it, a record naming its keys, or a committee that contains it. -/
def Op.about (id : Ident) (s : State) : Op → Prop
  | .connected pid _ => s.identityFor pid = id
  | .dialing pid => s.identityFor pid = id
  | .disconnect pid => s.identityFor pid = id
  | .closed pid => s.identityFor pid = id
  | .penalty pid _ => s.identityFor pid = id
  | .heartbeat => False
  | .trusted b k => .conf b = id ∨ s.identityFor k = id
  | .known b k => .conf b = id ∨ s.identityFor k = id
  | .advertised _ b k _ => .conf b = id ∨ s.identityFor k = id
  | .discovered b k _ => .conf b = id ∨ s.identityFor k = id
  | .committees p cu n => ∃ b ∈ p ++ cu ++ n, Ident.conf b = id
  | .forDial ms => ∃ b ∈ ms, Ident.conf b = id
  | .reorder _ => False

theorem upsert_other {s : State} (c : Cfg) (b : Bls) (k : Pid) (now : Nat) {id : Ident}
    (h1 : .conf b ≠ id) (h2 : s.identityFor k ≠ id) :
    get id (s.upsert c b k now).peers = get id s.peers := by
  unfold State.upsert
  dsimp only
  rw [get_put_ne (Ne.symm h1), get_del_ne (Ne.symm h2)]
  split
  · rfl
  · rw [evict_peers, get_del_ne (Ne.symm h1)]

theorem addTrusted_other {s : State} (c : Cfg) (b : Bls) (k : Pid) (now : Nat) {id : Ident}
    (h1 : .conf b ≠ id) (h2 : s.identityFor k ≠ id) :
    get id (s.addTrusted c b k now).peers = get id s.peers := by
  unfold State.addTrusted
  dsimp only
  rw [get_put_ne (Ne.symm h1), evict_peers, get_del_ne (Ne.symm h1)]
  split
  · rfl
  · rw [evict_peers, get_del_ne (Ne.symm h2)]

theorem applyMembers_other (c : Cfg) (ms : List Bls) (now : Nat) {id : Ident}
    (hne : ∀ b ∈ ms, Ident.conf b ≠ id) : ∀ {s : State}, Inv (fun _ => False) s →
      get id (s.applyMembers c ms now).peers = get id s.peers := by
  unfold State.applyMembers
  induction ms with
  | nil => intro s _; rfl
  | cons b ms ih =>
    intro s h
    rw [List.foldl_cons, ih (fun b' hb' => hne b' (List.mem_cons_of_mem _ hb'))
      (inv_applyMember' h c b now)]
    exact applyMember_other h.ix c b now (Ne.symm (hne b List.mem_cons_self))

theorem cacheKnown_other {s : State} (h : Inv (fun _ => False) s) (c : Cfg) (b : Bls) (k : Pid)
    (now : Nat) {id : Ident} (h1 : .conf b ≠ id) (h2 : s.identityFor k ≠ id) :
    get id (s.cacheKnown c b k now).peers = get id s.peers := by
  unfold State.cacheKnown State.applyIfMember
  split
  · rw [applyMembers_other c [b] now (by intro b' hb'; rw [List.mem_singleton.mp hb']; exact h1)
      (inv_upsert h c b k now)]
    exact upsert_other c b k now h1 h2
  · exact upsert_other c b k now h1 h2

theorem prune_get (c : Cfg) (s : State) (id : Ident) :
    get id (State.pruneBanned c (State.pruneDisconnected c s)).peers = get id s.peers ∨
      get id (State.pruneBanned c (State.pruneDisconnected c s)).peers = none := by
  cases hg : get id (State.pruneBanned c (State.pruneDisconnected c s)).peers with
  | none => exact .inr rfl
  | some p => exact .inl (prune_get_sub c s hg).symm

/-- a call that does not concern the peer leaves its record, or forgets it for lack of room -/
theorem run_other {s : State} (h : Inv (fun _ => False) s) (c : Cfg) (now : Nat) {id : Ident}
    {o : Op} (hn : ¬ o.about id s) (ho : o ≠ .heartbeat) :
    get id (o.run c now s).peers = get id s.peers ∨ get id (o.run c now s).peers = none := by
  have hus : ∀ pid n, s.identityFor pid ≠ id →
      get id (s.updateStatus c pid n now).1.peers = get id s.peers := by
    intro pid n hne
    rw [get_updateStatus h.ix, if_neg (Ne.symm hne)]
  cases o with
  | connected pid ip => exact .inl (hus pid _ hn)
  | dialing pid => exact .inl (hus pid _ hn)
  | disconnect pid => exact .inl (hus pid _ hn)
  | closed pid =>
    dsimp only [Op.run, State.registerDisconnected]
    rw [← hus pid .disconnected hn]
    exact prune_get c _ id
  | penalty pid p => exact .inl (get_penalty_other h c pid p now (Ne.symm hn))
  | heartbeat => exact absurd rfl ho
  | trusted b k =>
    exact .inl (addTrusted_other c b k now (fun e => hn (.inl e)) (fun e => hn (.inr e)))
  | known b k =>
    exact .inl (cacheKnown_other h c b k now (fun e => hn (.inl e)) (fun e => hn (.inr e)))
  | advertised src b k stale =>
    left
    dsimp only [Op.run, State.selfAdvertised]
    split
    · split
      · rfl
      · exact cacheKnown_other h c b k now (fun e => hn (.inl e)) (fun e => hn (.inr e))
    · split
      · exact upsert_other c b k now (fun e => hn (.inl e)) (fun e => hn (.inr e))
      · rfl
  | discovered b k stale =>
    left
    dsimp only [Op.run, State.discovered]
    split
    · split
      · rfl
      · exact cacheKnown_other h c b k now (fun e => hn (.inl e)) (fun e => hn (.inr e))
    · rfl
  | committees p cu n =>
    left
    dsimp only [Op.run, State.updateCommittees]
    have h' : Inv (fun _ => False) { s with prevC := p, curC := cu, nextC := n } := ⟨h.ix, h.ct⟩
    rw [applyMembers_other c _ now (fun b hb e => hn ⟨b, hb, e⟩) h']
  | forDial ms =>
    left
    exact applyMembers_other c _ now (fun b hb e => hn ⟨b, hb, e⟩) h
  | reorder P =>
    left
    dsimp only [Op.run]
    split
    · next hperm => exact get_perm h.ix.nodup hperm.symm id
    · rfl

/-! ### The heartbeat, seen from one record -/

theorem updateMany_other {c : Cfg} {n : NewStatus} {now : Nat}
    (hd : ∀ b, n ≠ .disconnecting b) {id : Ident} (pids : List Pid) :
    ∀ {s : State}, Inv (fun _ => False) s → (∀ pid ∈ pids, s.identityFor pid ≠ id) →
      get id (s.updateMany c n now pids).peers = get id s.peers := by
  induction pids with
  | nil => intro s _ _; rfl
  | cons pid pids ih =>
    intro s h hne
    unfold State.updateMany at ih ⊢
    rw [List.foldl_cons]
    have hi := inv_updateStatus h c pid n now fun b hb => absurd hb (hd b)
    have hx : (s.updateStatus c pid n now).1.index = s.index := by
      rw [updateStatus_peers h.ix]
    rw [ih hi]
    · rw [get_updateStatus h.ix, if_neg (Ne.symm (hne pid List.mem_cons_self))]
    · intro p' hp'
      rw [identityFor_congr hx]
      exact hne p' (List.mem_cons_of_mem _ hp')

theorem updateMany_index {c : Cfg} {n : NewStatus} {now : Nat}
    (hd : ∀ b, n ≠ .disconnecting b) (pids : List Pid) :
    ∀ {s : State}, Inv (fun _ => False) s → (s.updateMany c n now pids).index = s.index := by
  induction pids with
  | nil => intro s _; rfl
  | cons pid pids ih =>
    intro s h
    unfold State.updateMany at ih ⊢
    rw [List.foldl_cons]
    rw [ih (inv_updateStatus h c pid n now fun b hb => absurd hb (hd b)),
      updateStatus_peers h.ix]

theorem updateMany_members {c : Cfg} {n : NewStatus} {now : Nat}
    (hd : ∀ b, n ≠ .disconnecting b) (pids : List Pid) (b : Bls) :
    ∀ {s : State}, Inv (fun _ => False) s →
      (s.updateMany c n now pids).isMember b = s.isMember b := by
  induction pids with
  | nil => intro s _; rfl
  | cons pid pids ih =>
    intro s h
    unfold State.updateMany at ih ⊢
    rw [List.foldl_cons]
    rw [ih (inv_updateStatus h c pid n now fun b hb => absurd hb (hd b)),
      updateStatus_members h.ix]

/-- the id of a record leads back to it -/
theorem identityFor_peerId {s : State} (h : IdxInv s.peers s.index) {id : Ident} {p : Peer}
    {pid : Pid} (hp : get id s.peers = some p) (hk : peerIdFor id p = some pid) :
    s.identityFor pid = id := by
  cases id with
  | conf b => exact identityFor_key h hp hk
  | anon q =>
    injection hk with hk
    subst hk
    unfold State.identityFor
    rw [h.anon q p hp]

theorem mem_expiredDials {c : Cfg} {now : Nat} {s : State} (h : IdxInv s.peers s.index)
    {pid : Pid} (hp : pid ∈ s.expiredDials c now) :
    ∃ p, get (s.identityFor pid) s.peers = some p ∧ dialExpired c now p = true := by
  unfold State.expiredDials at hp
  rw [List.mem_filterMap] at hp
  obtain ⟨⟨id, p⟩, hm, hx⟩ := hp
  have hg := get_of_mem h.nodup hm
  dsimp only at hx
  split at hx
  · next hd =>
    rw [identityFor_peerId h hg hx]
    exact ⟨p, hg, hd⟩
  · cases hx

theorem mem_unbannedBy {c : Cfg} {now : Nat} {s : State} (h : IdxInv s.peers s.index)
    {pid : Pid} (hp : pid ∈ s.unbannedBy c now) :
    ∃ p, get (s.identityFor pid) s.peers = some p ∧
      p.heartbeatUnbans c.toScoreCfg (s.exemption (s.identityFor pid) p) now = true := by
  unfold State.unbannedBy at hp
  rw [List.mem_filterMap] at hp
  obtain ⟨⟨id, p⟩, hm, hx⟩ := hp
  have hg := get_of_mem h.nodup hm
  dsimp only at hx
  split at hx
  · next hd =>
    rw [identityFor_peerId h hg hx]
    exact ⟨p, hg, hd⟩
  · cases hx

/-- the state after the dial time-outs of a heartbeat -/
def State.dialled (c : Cfg) (now : Nat) (s : State) : State :=
  updateMany c .disconnected now (expiredDials c now s) s

theorem heartbeat_eq (c : Cfg) (now : Nat) (s : State) :
    s.heartbeat c now =
      updateMany c .unbanned now (unbannedBy c now (s.dialled c now))
        (decayAll c now (s.dialled c now)) := rfl

theorem inv_dialled {s : State} (h : Inv (fun _ => False) s) (c : Cfg) (now : Nat) :
    Inv (fun _ => False) (s.dialled c now) :=
  inv_updateMany (by intro b hb; cases hb) _ h

theorem inv_decayAll {s : State} (h : Inv (fun _ => False) s) (c : Cfg) (now : Nat) :
    Inv (fun _ => False) (s.decayAll c now) :=
  inv_map h _ fun _ =>
    ⟨(heartbeat_same _ _ _ _).1, (heartbeat_same _ _ _ _).2.1, (heartbeat_same _ _ _ _).2.2.1⟩

theorem get_decayAll (c : Cfg) (now : Nat) (s : State) (id : Ident) :
    get id (s.decayAll c now).peers =
      (get id s.peers).map fun p => p.heartbeat c.toScoreCfg (s.exemption id p) now := by
  unfold State.decayAll
  dsimp only
  rw [get_map_same fun e => Peer.heartbeat c.toScoreCfg (s.exemption e.1 e.2) now e.2]

/-- a record that is not dialing is not touched by the time-outs -/
theorem dialled_get {s : State} (h : Inv (fun _ => False) s) (c : Cfg) (now : Nat) {id : Ident}
    (hnd : ∀ p t, get id s.peers = some p → p.status ≠ .dialing t) :
    get id (s.dialled c now).peers = get id s.peers := by
  apply updateMany_other (by intro b hb; cases hb) _ h
  intro pid hpid he
  obtain ⟨p, hp, hd⟩ := mem_expiredDials h.ix hpid
  rw [he] at hp
  unfold State.dialExpired at hd
  split at hd
  · next t hst => exact hnd p t hp hst
  · cases hd

theorem exemption_dialled {s : State} (h : Inv (fun _ => False) s) (c : Cfg) (now : Nat)
    (id : Ident) (p : Peer) :
    (s.dialled c now).exemption id p = s.exemption id p := by
  cases id with
  | conf b =>
    unfold State.exemption State.dialled
    dsimp only
    rw [updateMany_members (by intro b hb; cases hb) _ b h]
  | anon q => rfl

/-- A record that is not dialing and whose ban does not end in this heartbeat: only its score
decays. -/
theorem heartbeat_get {s : State} (h : Inv (fun _ => False) s) (c : Cfg) (now : Nat) {id : Ident}
    (hnd : ∀ p t, get id s.peers = some p → p.status ≠ .dialing t)
    (hnu : ∀ p, get id s.peers = some p →
      p.heartbeatUnbans c.toScoreCfg (s.exemption id p) now = false) :
    get id (s.heartbeat c now).peers =
      (get id s.peers).map fun p => p.heartbeat c.toScoreCfg (s.exemption id p) now := by
  have h1 := inv_dialled h c now
  have hg := dialled_get h c now hnd
  rw [heartbeat_eq, updateMany_other (by intro b hb; cases hb) _ (inv_decayAll h1 c now)]
  · rw [get_decayAll, hg]
    cases get id s.peers with
    | none => rfl
    | some p =>
      dsimp only [Option.map]
      rw [exemption_dialled h]
  · intro pid hpid he
    have he' : (s.dialled c now).identityFor pid = id := he
    obtain ⟨p, hp, hd⟩ := mem_unbannedBy h1.ix hpid
    rw [he'] at hp hd
    rw [exemption_dialled h] at hd
    rw [hg] at hp
    rw [hnu p hp] at hd
    cases hd

/-! ### Bans that never end -/

/-- how a score relaxes over time: towards zero, never to the ban threshold -/
def Relaxes (c : ScoreCfg) : Prop := ∀ dt v, c.banAt < v → c.banAt < c.decay dt v

theorem heartbeat_high {c : ScoreCfg} (hr : Relaxes c) {p : Peer} (hp : c.banAt < p.score.val)
    (e : Bool) (now : Nat) : c.banAt < (p.heartbeat c e now).score.val := by
  unfold Peer.heartbeat
  split
  · exact hp
  · dsimp only [Score.updateAt]
    split
    · exact hr _ _ hp
    · exact hp

/-- the record is marked banned although its score is above the ban threshold -/
def Stuck (c : Cfg) (t : Nat) (P : List (Ident × Peer)) (id : Ident) : Prop :=
  ∀ p, get id P = some p → p.status = .banned t ∧ c.banAt < p.score.val

theorem stuck_run {s : State} (h : Inv (fun _ => False) s) {c : Cfg} (hr : Relaxes c.toScoreCfg)
    {t : Nat} {id : Ident} (hs : Stuck c t s.peers id) (now : Nat) {o : Op}
    (hn : ¬ o.about id s) : Stuck c t (o.run c now s).peers id := by
  by_cases ho : o = .heartbeat
  · subst ho
    intro p hp
    dsimp only [Op.run] at hp
    rw [heartbeat_get h c now] at hp
    · cases hq : get id s.peers with
      | none => rw [hq] at hp; cases hp
      | some q =>
        rw [hq] at hp
        injection hp with hp
        obtain ⟨h1, h2⟩ := hs q hq
        subst hp
        exact ⟨(heartbeat_same _ _ _ _).1.trans h1, heartbeat_high hr h2 _ _⟩
    · intro q t' hq hst
      have h' := (hs q hq).1
      rw [hst] at h'; cases h'
    · intro q hq
      have hq2 := (hs q hq).2
      unfold Peer.heartbeatUnbans
      have : decide (q.reputation c.toScoreCfg = .banned) = false := by
        apply decide_eq_false
        rw [reputation_banned_iff]
        exact not_le.mpr hq2
      rw [this, Bool.and_false, Bool.false_and]
  · intro p hp
    rcases run_other h c now hn ho with hg | hg
    · rw [hg] at hp; exact hs p hp
    · rw [hg] at hp; cases hp

/-- **C58 (finding: a ban without a term).**  A record that is marked banned while its score is
above the ban threshold (the disconnect threshold was crossed during a connection) is never
released: as long as no call concerns that peer itself, however many heartbeats pass and
whatever happens to other peers, the record - while the node remembers it - stays banned with
the same time stamp, and the node does not dial it. -/
theorem stuck_forever {c : Cfg} (hr : Relaxes c.toScoreCfg) {l₀ : List (Nat × Op)}
    (hl₀ : Legal c l₀ State.init) {t : Nat} {id : Ident} {p : Peer}
    (hp : get id (runOps c l₀ State.init).peers = some p) (hst : p.status = .banned t)
    (hv : c.banAt < p.score.val) (l : List (Nat × Op))
    (hl : Legal c l (runOps c l₀ State.init))
    (hn : Always c (fun s o => ¬ o.about id s) l (runOps c l₀ State.init)) :
    ∀ q, get id (runOps c l (runOps c l₀ State.init)).peers = some q →
      q.status = .banned t ∧ c.banAt < q.score.val ∧ q.canDial = false := by
  have main : ∀ (l : List (Nat × Op)) {s : State}, Inv (fun _ => False) s → Legal c l s →
      Always c (fun s o => ¬ o.about id s) l s → Stuck c t s.peers id →
      Stuck c t (runOps c l s).peers id := by
    intro l
    induction l with
    | nil => intro s _ _ _ hs; exact hs
    | cons e l ih =>
      intro s h hl hn hs
      obtain ⟨u, o⟩ := e
      rw [runOps]
      exact ih (inv_run h c u o hl.1 fun _ h => h.elim) hl.2 hn.2 (stuck_run h hr hs u hn.1)
  intro q hq
  have hs : Stuck c t (runOps c l₀ State.init).peers id := by
    intro p' hp'
    rw [hp] at hp'
    injection hp' with hp'
    subst hp'
    exact ⟨hst, hv⟩
  obtain ⟨h1, h2⟩ := main l (reach_inv hl₀) hl hn hs q hq
  refine ⟨h1, h2, ?_⟩
  unfold Peer.canDial
  rw [h1]

end Verif.Net
