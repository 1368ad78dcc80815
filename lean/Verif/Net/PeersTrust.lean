import Verif.Net.PeersMain

/-!
# C57: committee members and allowlisted peers are out of reach of the score model
-/

namespace Verif.Net

open State

/-- the BLS key sits in the previous, current or next committee -/
def Member (s : State) (b : Bls) : Prop := b ∈ s.prevC ∨ b ∈ s.curC ∨ b ∈ s.nextC

theorem isMember_iff (s : State) (b : Bls) : s.isMember b = true ↔ Member s b := by
  unfold State.isMember Member
  simp [or_assoc]

/-- primed: best score, no ban in force or pending -/
def Primed (c : Cfg) (p : Peer) : Prop := p.score.val = c.maxScore ∧ pendingBan p.status = false

/-- every known committee member is primed -/
def Protected (c : Cfg) (s : State) : Prop :=
  ∀ b p, get (.conf b) s.peers = some p → s.isMember b = true → Primed c p

theorem get_updateStatus {s : State} (h : IdxInv s.peers s.index) (c : Cfg) (pid : Pid)
    (n : NewStatus) (now : Nat) (id : Ident) :
    get id (s.updateStatus c pid n now).1.peers =
      if id = s.identityFor pid then
        some (transition now n (s.ensured c (s.identityFor pid) n now) s.ctr).1
      else get id s.peers := by
  rw [updateStatus_peers h]
  dsimp only
  rw [get_put]

theorem updateStatus_members {s : State} (h : IdxInv s.peers s.index) (c : Cfg) (pid : Pid)
    (n : NewStatus) (now : Nat) (b : Bls) :
    (s.updateStatus c pid n now).1.isMember b = s.isMember b := by
  rw [updateStatus_peers h]; rfl

theorem transition_score (now : Nat) (n : NewStatus) (p : Peer) (c : Counters) :
    (transition now n p c).1.score = p.score ∧ (transition now n p c).1.allow = p.allow := by
  rcases p with ⟨k, sc, ips, st, al⟩
  cases n <;> cases st <;>
    simp [transition, handleConnected, handleDialing, handleDisconnected, handleDisconnecting,
      handleBanned, handleUnbanned, Peer.register, Peer.registerDialing]
  all_goals (split <;> simp_all)

/-- the requests that carry no ban -/
def NewStatus.noBan : NewStatus → Bool
  | .banned => false
  | .disconnecting b => !b
  | _ => true

theorem transition_pending (now : Nat) {n : NewStatus} (hn : n.noBan = true) (p : Peer)
    (c : Counters) (hp : pendingBan p.status = false) :
    pendingBan (transition now n p c).1.status = false := by
  rcases p with ⟨k, sc, ips, st, al⟩
  cases n <;> cases st <;>
    simp_all [transition, handleConnected, handleDialing, handleDisconnected, handleDisconnecting,
      handleBanned, handleUnbanned, Peer.register, Peer.registerDialing, pendingBan,
      NewStatus.noBan]

theorem ensured_noBan (c : Cfg) (s : State) (id : Ident) {n : NewStatus} (now : Nat)
    (hn : n.noBan = true) {p : Peer} (hg : get id s.peers = some p) :
    s.ensured c id n now = p := by
  unfold State.ensured
  rw [hg]
  cases n <;> simp_all [NewStatus.noBan]

theorem protected_updateStatus {s : State} {c : Cfg} (h : IdxInv s.peers s.index)
    (hp : Protected c s) (pid : Pid) {n : NewStatus} (hn : n.noBan = true) (now : Nat) :
    Protected c (s.updateStatus c pid n now).1 := by
  intro b p hg hm
  rw [updateStatus_members h] at hm
  rw [get_updateStatus h] at hg
  split at hg
  · next heq =>
    injection hg with hg
    subst hg
    rcases s.identityFor_cases pid with ⟨b', hb', hid⟩ | ⟨_, hid⟩
    · rw [hid] at heq
      injection heq with heq
      subst heq
      obtain ⟨q, hq, _⟩ := h.idx _ _ hb'
      rw [← hid] at hq
      rw [ensured_noBan c s _ now hn hq]
      rw [hid] at hq
      obtain ⟨h1, h2⟩ := hp b q hq hm
      exact ⟨by rw [(transition_score _ _ _ _).1]; exact h1, transition_pending now hn q s.ctr h2⟩
    · rw [hid] at heq; cases heq
  · exact hp b p hg hm

theorem protected_updateMany {c : Cfg} {n : NewStatus} (hn : n.noBan = true)
    (hd : ∀ b, n ≠ .disconnecting b) (now : Nat) (pids : List Pid) :
    ∀ {s : State}, Inv (fun _ => False) s → Protected c s →
      Protected c (s.updateMany c n now pids) := by
  induction pids with
  | nil => intro s _ hp; exact hp
  | cons p l ih =>
    intro s h hp
    unfold State.updateMany at ih ⊢
    rw [List.foldl_cons]
    exact ih (inv_updateStatus h c p n now fun b hb => absurd hb (hd b))
      (protected_updateStatus h.ix hp p hn now)

theorem exempt_member {s : State} {b : Bls} (hm : s.isMember b = true) (p : Peer) :
    s.exemption (.conf b) p = true := by
  unfold State.exemption; dsimp only; rw [hm]; rfl

theorem protected_heartbeat {s : State} {c : Cfg} (h : Inv (fun _ => False) s)
    (hp : Protected c s) (now : Nat) : Protected c (s.heartbeat c now) := by
  unfold State.heartbeat
  dsimp only
  have h1 : Inv (fun _ => False) (s.updateMany c .disconnected now (s.expiredDials c now)) :=
    inv_updateMany (by intro b hb; cases hb) _ h
  have hp1 : Protected c (s.updateMany c .disconnected now (s.expiredDials c now)) :=
    protected_updateMany rfl (by intro b hb; cases hb) now _ h hp
  revert h1 hp1
  generalize s.updateMany c .disconnected now (s.expiredDials c now) = s1
  intro h1 hp1
  apply protected_updateMany rfl (by intro b hb; cases hb) now
  · exact inv_map h1 _ fun e =>
      ⟨(heartbeat_same _ _ _ _).1, (heartbeat_same _ _ _ _).2.1, (heartbeat_same _ _ _ _).2.2.1⟩
  · intro b p hg hm
    unfold State.decayAll at hg
    dsimp only at hg
    rw [get_map_same fun e => Peer.heartbeat c.toScoreCfg (s1.exemption e.1 e.2) now e.2] at hg
    cases hq : get (.conf b) s1.peers with
    | none => rw [hq] at hg; cases hg
    | some q =>
      rw [hq] at hg
      injection hg with hg
      have hm' : s1.isMember b = true := hm
      dsimp only at hg
      rw [exempt_member hm' q] at hg
      have : p = q := by rw [← hg]; rfl
      rw [this]
      exact hp1 b q hq hm'

theorem get_evict_some {s : State} {id id' : Ident} {p : Peer}
    (h : get id' (s.evict id).peers = some p) : get id' s.peers = some p := by
  rw [evict_peers, get_del] at h
  split at h
  · cases h
  · exact h

theorem evict_members (s : State) (id : Ident) (b : Bls) :
    (s.evict id).isMember b = s.isMember b := by
  unfold State.evict; split <;> rfl

theorem protected_addTrusted {s : State} {c : Cfg} (hp : Protected c s) (b : Bls) (k : Pid)
    (now : Nat) : Protected c (s.addTrusted c b k now) := by
  intro b' p hg hm
  have hm' : s.isMember b' = true := by
    rw [← hm]
    unfold State.addTrusted
    dsimp only
    split
    · exact (evict_members s (.conf b) b').symm
    · exact ((evict_members _ (.conf b) b').trans (evict_members s _ b')).symm
  unfold State.addTrusted at hg
  dsimp only at hg
  rw [get_put] at hg
  split at hg
  · injection hg with hg
    subst hg
    exact ⟨rfl, rfl⟩
  · split at hg
    · exact hp b' p (get_evict_some hg) hm'
    · exact hp b' p (get_evict_some (get_evict_some hg)) hm'

/-- records other than the upserted one are old ones -/
theorem get_upsert_other {s : State} {c : Cfg} {b b' : Bls} {k : Pid} {now : Nat} {p : Peer}
    (hne : b' ≠ b) (hg : get (.conf b') (s.upsert c b k now).peers = some p) :
    get (.conf b') s.peers = some p := by
  unfold State.upsert at hg
  dsimp only at hg
  rw [get_put, if_neg (by intro h; injection h with h; exact hne h), get_del] at hg
  split at hg
  · cases hg
  · split at hg
    · exact hg
    · exact get_evict_some hg

theorem protected_upsert {s : State} {c : Cfg} (hp : Protected c s) (b : Bls) (k : Pid)
    (now : Nat) (hb : s.isMember b = false) : Protected c (s.upsert c b k now) := by
  intro b' p hg hm
  rw [isMember_upsert] at hm
  by_cases hne : b' = b
  · subst hne; rw [hb] at hm; cases hm
  · exact hp b' p (get_upsert_other hne hg) hm

/-! ### Committee updates -/

/-- what `apply_committee_membership` does to one identity -/
theorem get_prime (s : State) (c : Cfg) (b : Bls) (now : Nat) (id : Ident) :
    get id (s.prime c b now).peers =
      if id = .conf b then
        (get (.conf b) s.peers).map fun p => { p with score := Score.newMax c.toScoreCfg now }
      else get id s.peers := by
  unfold State.prime
  split
  · next hn =>
    split
    · next heq => rw [heq, hn]; rfl
    · rfl
  · next p hp =>
    dsimp only
    rw [get_put]
    split
    · rw [hp]; rfl
    · rfl

theorem handleUnbanned_clears (p : Peer) (c : Counters) :
    pendingBan (handleUnbanned p c).1.status = false := by
  rcases p with ⟨k, sc, ips, st, al⟩
  cases st with
  | disconnecting b => cases b <;> simp [handleUnbanned, pendingBan]
  | _ => simp [handleUnbanned, pendingBan]

theorem applyMember_primes {s : State} (h : IdxInv s.peers s.index) (c : Cfg) (b : Bls)
    (now : Nat) {p : Peer} (hg : get (.conf b) (s.applyMember c now b).peers = some p) :
    Primed c p := by
  unfold State.applyMember at hg
  split at hg
  · next hn => rw [hn] at hg; cases hg
  · next q hq =>
    split at hg
    · next hk =>
      obtain ⟨k, hk', _⟩ := h.conf b q hq
      rw [hk] at hk'; cases hk'
    · next k hk =>
      dsimp only at hg
      rw [get_prime, if_pos rfl] at hg
      split at hg
      · next hpb =>
        rw [get_updateStatus h, identityFor_key h hq hk, if_pos rfl] at hg
        injection hg with hg
        subst hg
        refine ⟨rfl, ?_⟩
        dsimp only
        exact handleUnbanned_clears _ _
      · next hpb =>
        rw [hq] at hg
        injection hg with hg
        subst hg
        refine ⟨rfl, ?_⟩
        dsimp only
        exact Bool.eq_false_iff.mpr hpb

theorem applyMember_other {s : State} (h : IdxInv s.peers s.index) (c : Cfg) (b : Bls)
    (now : Nat) {id : Ident} (hne : id ≠ .conf b) :
    get id (s.applyMember c now b).peers = get id s.peers := by
  unfold State.applyMember
  split
  · rfl
  · next q hq =>
    split
    · rfl
    · next k hk =>
      dsimp only
      rw [get_prime, if_neg hne]
      split
      · rw [get_updateStatus h, identityFor_key h hq hk, if_neg hne]
      · rfl

theorem prime_members (s : State) (c : Cfg) (b : Bls) (now : Nat) (b' : Bls) :
    (s.prime c b now).isMember b' = s.isMember b' := by
  unfold State.prime; split <;> rfl

theorem applyMember_members {s : State} (h : IdxInv s.peers s.index) (c : Cfg) (b : Bls)
    (now : Nat) (b' : Bls) : (s.applyMember c now b).isMember b' = s.isMember b' := by
  unfold State.applyMember
  split
  · rfl
  · split
    · rfl
    · dsimp only
      rw [prime_members]
      split
      · exact updateStatus_members h _ _ _ _ _
      · rfl

theorem inv_applyMember' {s : State} (h : Inv (fun _ => False) s) (c : Cfg) (b : Bls)
    (now : Nat) : Inv (fun _ => False) (s.applyMember c now b) :=
  inv_applyMember h c b now fun _ _ _ _ h => h

theorem applyMembers_members (c : Cfg) (ms : List Bls) (now : Nat) (b' : Bls) :
    ∀ {s : State}, Inv (fun _ => False) s →
      (s.applyMembers c ms now).isMember b' = s.isMember b' := by
  induction ms with
  | nil => intro s _; rfl
  | cons b ms ih =>
    intro s h
    unfold State.applyMembers at ih ⊢
    rw [List.foldl_cons, ih (inv_applyMember' h c b now), applyMember_members h.ix]

/-- every listed member with a record ends primed; the others are untouched -/
theorem applyMembers_get (c : Cfg) (ms : List Bls) (now : Nat) (b' : Bls) :
    ∀ {s : State}, Inv (fun _ => False) s →
      (b' ∈ ms ∨ (∀ q, get (.conf b') s.peers = some q → Primed c q)) →
      ∀ p, get (.conf b') (s.applyMembers c ms now).peers = some p → Primed c p := by
  induction ms with
  | nil =>
    intro s _ hor p hp
    rcases hor with hm | hq
    · cases hm
    · exact hq p hp
  | cons b ms ih =>
    intro s h hor
    unfold State.applyMembers at ih ⊢
    rw [List.foldl_cons]
    apply ih (inv_applyMember' h c b now)
    by_cases hb : b' = b
    · right
      intro q hq
      rw [hb] at hq
      exact applyMember_primes h.ix c b now hq
    · rcases hor with hm | hq
      · rcases List.mem_cons.mp hm with h' | h'
        · exact absurd h' hb
        · exact .inl h'
      · right
        intro q hq'
        rw [applyMember_other h.ix c b now (by intro h; injection h with h; exact hb h)] at hq'
        exact hq q hq'

theorem protected_applyMembers {s : State} {c : Cfg} (h : Inv (fun _ => False) s)
    (hp : Protected c s) (ms : List Bls) (now : Nat) : Protected c (s.applyMembers c ms now) := by
  intro b p hg hm
  rw [applyMembers_members c ms now b h] at hm
  exact applyMembers_get c ms now b h (.inr fun q hq => hp b q hq hm) p hg

theorem protected_cacheKnown {s : State} {c : Cfg} (h : Inv (fun _ => False) s)
    (hp : Protected c s) (b : Bls) (k : Pid) (now : Nat) :
    Protected c (s.cacheKnown c b k now) := by
  unfold State.cacheKnown State.applyIfMember
  have h1 := inv_upsert h c b k now
  split
  · intro b' p hg hm
    rw [applyMembers_members c [b] now b' h1, isMember_upsert] at hm
    refine applyMembers_get c [b] now b' h1 ?_ p hg
    by_cases hb : b' = b
    · left; rw [hb]; exact List.mem_singleton_self _
    · right
      intro q hq
      exact hp b' q (get_upsert_other hb hq) hm
  · next hm =>
    rw [isMember_upsert] at hm
    exact protected_upsert hp b k now (Bool.eq_false_iff.mpr hm)

/-! ### Penalties -/

/-- a penalty does not touch an exempt record, nor any other -/
theorem get_penalty_exempt {s : State} (c : Cfg) (pid : Pid) (pen : Penalty) (now : Nat) {p : Peer}
    (hp : s.getPeer pid = some p) (he : s.exemption (s.identityFor pid) p = true) :
    (∀ id, get id (s.penalty c pid pen now).1.peers = get id s.peers) ∧
      (s.penalty c pid pen now).1.ctr = s.ctr ∧ (s.penalty c pid pen now).1.index = s.index ∧
      (s.penalty c pid pen now).2 = .none := by
  unfold State.getPeer at hp
  unfold State.penalty
  dsimp only
  rw [hp]
  dsimp only
  rw [he]
  have : Peer.applyPenalty c.toScoreCfg pen true p = p := rfl
  rw [this, if_pos rfl]
  refine ⟨?_, rfl, rfl, rfl⟩
  intro id
  dsimp only
  rw [get_put]
  split
  · next heq => rw [heq, hp]
  · rfl

/-- a penalty touches only the record the id resolves to -/
theorem get_penalty_other {s : State} (h : Inv (fun _ => False) s) (c : Cfg) (pid : Pid)
    (pen : Penalty) (now : Nat) {id : Ident} (hne : id ≠ s.identityFor pid) :
    get id (s.penalty c pid pen now).1.peers = get id s.peers := by
  unfold State.penalty
  dsimp only
  split
  · rfl
  · next p hp =>
    obtain ⟨h1, h2, h3, _⟩ := applyPenalty_same c.toScoreCfg pen
      (s.exemption (s.identityFor pid) p) p
    obtain ⟨hi, hc⟩ := put_score h.ix h.ct hp h1 h2 h3
    split
    · dsimp only; rw [get_put_ne hne]
    · split
      · next n hn =>
        rw [get_updateStatus (s := { s with
          peers := put (s.identityFor pid) (p.applyPenalty c.toScoreCfg pen
            (s.exemption (s.identityFor pid) p)) s.peers }) hi]
        rw [if_neg]
        · dsimp only; rw [get_put_ne hne]
        · exact hne
      · dsimp only; rw [get_put_ne hne]

theorem penalty_members {s : State} (h : Inv (fun _ => False) s) (c : Cfg) (pid : Pid)
    (pen : Penalty) (now : Nat) (b : Bls) :
    (s.penalty c pid pen now).1.isMember b = s.isMember b := by
  unfold State.penalty
  dsimp only
  split
  · rfl
  · next p hp =>
    obtain ⟨h1, h2, h3, _⟩ := applyPenalty_same c.toScoreCfg pen
      (s.exemption (s.identityFor pid) p) p
    obtain ⟨hi, hc⟩ := put_score h.ix h.ct hp h1 h2 h3
    split
    · rfl
    · split
      · next n hn =>
        exact updateStatus_members (s := { s with
          peers := put (s.identityFor pid) (p.applyPenalty c.toScoreCfg pen
            (s.exemption (s.identityFor pid) p)) s.peers }) hi c pid n now b
      · rfl

theorem protected_penalty {s : State} {c : Cfg} (h : Inv (fun _ => False) s)
    (hp : Protected c s) (pid : Pid) (pen : Penalty) (now : Nat) :
    Protected c (s.penalty c pid pen now).1 := by
  intro b p hg hm
  rw [penalty_members h] at hm
  by_cases hid : Ident.conf b = s.identityFor pid
  · cases hq : s.getPeer pid with
    | none =>
      have : (s.penalty c pid pen now).1 = s := by
        unfold State.getPeer at hq
        unfold State.penalty
        dsimp only
        rw [hq]
      rw [this] at hg
      exact hp b p hg hm
    | some q =>
      have he : s.exemption (s.identityFor pid) q = true := by
        rw [← hid]; exact exempt_member hm q
      rw [(get_penalty_exempt c pid pen now hq he).1] at hg
      exact hp b p hg hm
  · rw [get_penalty_other h c pid pen now hid] at hg
    exact hp b p hg hm

/-! ### Histories -/

theorem prune_get_sub (c : Cfg) (s : State) {id : Ident} {p : Peer}
    (h : get id (State.pruneBanned c (State.pruneDisconnected c s)).peers = some p) :
    get id s.peers = some p := by
  unfold State.pruneBanned at h
  rw [foldl_drop_get dropBanned dropBanned_peers] at h
  split at h
  · cases h
  · unfold State.pruneDisconnected at h
    rw [foldl_drop_get dropDisc dropDisc_peers] at h
    split at h
    · cases h
    · exact h

theorem foldl_drop_members (drop : State → Nat × Ident × List Ip → State)
    (hd : ∀ s e b, (drop s e).isMember b = s.isMember b) (b : Bls)
    (V : List (Nat × Ident × List Ip)) : ∀ s : State,
      (V.foldl drop s).isMember b = s.isMember b := by
  induction V with
  | nil => intro s; rfl
  | cons e V ih => intro s; rw [List.foldl_cons, ih, hd]

theorem prune_members (c : Cfg) (s : State) (b : Bls) :
    (State.pruneBanned c (State.pruneDisconnected c s)).isMember b = s.isMember b := by
  unfold State.pruneBanned
  rw [foldl_drop_members dropBanned fun s e b => evict_members s e.2.1 b]
  unfold State.pruneDisconnected
  rw [foldl_drop_members dropDisc fun s e b => evict_members s e.2.1 b]

theorem protected_run {s : State} {c : Cfg} (h : Inv (fun _ => False) s) (hp : Protected c s)
    (now : Nat) (o : Op) : Protected c (o.run c now s) := by
  cases o with
  | connected pid ip => exact protected_updateStatus h.ix hp pid rfl now
  | dialing pid => exact protected_updateStatus h.ix hp pid rfl now
  | disconnect pid => exact protected_updateStatus h.ix hp pid rfl now
  | closed pid =>
    have h1 := protected_updateStatus h.ix hp pid (n := .disconnected) rfl now
    intro b p hg hm
    dsimp only [Op.run, State.registerDisconnected] at hg hm
    rw [prune_members] at hm
    exact h1 b p (prune_get_sub c _ hg) hm
  | penalty pid p => exact protected_penalty h hp pid p now
  | heartbeat => exact protected_heartbeat h hp now
  | trusted b k => exact protected_addTrusted hp b k now
  | known b k => exact protected_cacheKnown h hp b k now
  | advertised src b k stale =>
    dsimp only [Op.run, State.selfAdvertised]
    split
    · split
      · exact hp
      · exact protected_cacheKnown h hp b k now
    · next hm =>
      split
      · exact protected_upsert hp b k now (Bool.eq_false_iff.mpr hm)
      · exact hp
  | discovered b k stale =>
    dsimp only [Op.run, State.discovered]
    split
    · split
      · exact hp
      · exact protected_cacheKnown h hp b k now
    · exact hp
  | committees p cu n =>
    dsimp only [Op.run, State.updateCommittees]
    have h' : Inv (fun _ => False) { s with prevC := p, curC := cu, nextC := n } := ⟨h.ix, h.ct⟩
    intro b q hg hm
    rw [applyMembers_members c _ now b h', isMember_iff] at hm
    refine applyMembers_get c _ now b h' (.inl ?_) q hg
    rcases hm with hm | hm | hm
    · exact List.mem_append_left _ (List.mem_append_left _ hm)
    · exact List.mem_append_left _ (List.mem_append_right _ hm)
    · exact List.mem_append_right _ hm
  | forDial ms => exact protected_applyMembers h hp ms now
  | reorder P =>
    dsimp only [Op.run]
    split
    · next hperm =>
      intro b p hg hm
      dsimp only at hg
      rw [get_perm h.ix.nodup hperm.symm] at hg
      exact hp b p hg hm
    · exact hp

theorem protected_runOps (c : Cfg) (l : List (Nat × Op)) : ∀ {s : State},
    Inv (fun _ => False) s → Protected c s → Legal c l s → Protected c (runOps c l s) := by
  induction l with
  | nil => intro s _ hp _; exact hp
  | cons e l ih =>
    intro s h hp hl
    obtain ⟨t, o⟩ := e
    rw [runOps]
    exact ih (inv_run h c t o hl.1 fun _ h => h.elim) (protected_run h hp t o) hl.2

/-! ### The theorems -/

/-- **C57 (members keep the best score).**  After any history of calls, the record of a
member of the previous, current or next committee has the maximal score, and the member is
neither banned nor about to be banned. -/
theorem member_protected {c : Cfg} {l : List (Nat × Op)} (hl : Legal c l State.init)
    (hmax : c.banAt < c.maxScore) {b : Bls} {p : Peer} (hm : Member (runOps c l State.init) b)
    (hp : get (.conf b) (runOps c l State.init).peers = some p) :
    p.score.val = c.maxScore ∧ p.reputation c.toScoreCfg ≠ .banned ∧
      (∀ t, p.status ≠ .banned t) ∧ p.status ≠ .disconnecting true := by
  have hP : Protected c (runOps c l State.init) :=
    protected_runOps c l inv_init (fun _ _ h => by cases h) hl
  obtain ⟨h1, h2⟩ := hP b p hp ((isMember_iff _ _).mpr hm)
  refine ⟨h1, ?_, ?_, ?_⟩
  · unfold Peer.reputation Score.reputation
    rw [h1, if_neg (not_le.mpr hmax)]
    split <;> simp
  · intro t ht; rw [ht] at h2; cases h2
  · intro ht; rw [ht] at h2; cases h2

/-- **C57 (penalties).**  A penalty reported against a connection of a committee member or of
an operator-allowlisted peer changes no record and no counter, and no action is taken. -/
theorem penalty_exempt {c : Cfg} (s : State) (pid : Pid) (pen : Penalty) (now : Nat) {p : Peer}
    (hp : s.getPeer pid = some p)
    (he : p.allow = true ∨ ∃ b, s.identityFor pid = .conf b ∧ Member s b) :
    (∀ id, get id (s.penalty c pid pen now).1.peers = get id s.peers) ∧
      (s.penalty c pid pen now).1.ctr = s.ctr ∧ (s.penalty c pid pen now).1.index = s.index ∧
      (s.penalty c pid pen now).2 = .none := by
  apply get_penalty_exempt c pid pen now hp
  rcases he with ha | ⟨b, hb, hm⟩
  · unfold State.exemption
    split
    · rw [ha]; simp
    · exact ha
  · rw [hb]; exact exempt_member ((isMember_iff _ _).mpr hm) p

/-- no address of a member is counted -/
def Unblocked (s : State) (b : Bls) : Prop :=
  ∀ p, get (.conf b) s.peers = some p → ∀ ip ∈ p.ips, s.ctr.byIp ip = 0

theorem prime_byIp (s : State) (c : Cfg) (b : Bls) (now : Nat) (ip : Ip)
    (h : s.ctr.byIp ip = 0) : (s.prime c b now).ctr.byIp ip = 0 := by
  unfold State.prime
  split
  · exact h
  · dsimp only [Counters.removeValidatorIp]; split
    · rfl
    · exact h

theorem unban_byIp {s : State} (hi : IdxInv s.peers s.index) (c : Cfg) (k : Pid) (now : Nat)
    (ip : Ip) (h : s.ctr.byIp ip = 0) :
    (s.updateStatus c k .unbanned now).1.ctr.byIp ip = 0 := by
  rw [updateStatus_peers hi]
  dsimp only [transition]
  unfold handleUnbanned
  split <;> simp [Counters.incDisc, Counters.removeBanned, h]

theorem applyMember_byIp {s : State} (hi : IdxInv s.peers s.index) (c : Cfg) (b : Bls) (now : Nat)
    (ip : Ip) (h : s.ctr.byIp ip = 0) : (s.applyMember c now b).ctr.byIp ip = 0 := by
  unfold State.applyMember
  split
  · exact h
  · split
    · exact h
    · dsimp only
      apply prime_byIp
      split
      · exact unban_byIp hi c _ now ip h
      · exact h

theorem applyMember_unblocks {s : State} (hi : IdxInv s.peers s.index) (c : Cfg) (b : Bls)
    (now : Nat) : Unblocked (s.applyMember c now b) b := by
  intro p hp ip hip
  have hips := applyMember_sameIps hi c b now (.conf b)
  rw [hp] at hips
  unfold State.applyMember
  split
  · next hn => rw [hn] at hips; cases hips
  · next q hq =>
    rw [hq] at hips
    injection hips with hips
    obtain ⟨k, hk, _⟩ := hi.conf b q hq
    rw [hk]
    dsimp only
    unfold State.prime
    have hg : ∃ r, get (.conf b) (if pendingBan q.status = true then
        (s.updateStatus c k .unbanned now).1 else s).peers = some r ∧ r.ips = q.ips := by
      split
      · have := unban_sameIps hi c hq hk now (.conf b)
        rw [hq] at this
        cases hr : get (.conf b) (s.updateStatus c k .unbanned now).1.peers with
        | none => rw [hr] at this; cases this
        | some r => rw [hr] at this; injection this with this; exact ⟨r, rfl, this⟩
      · exact ⟨q, hq, rfl⟩
    obtain ⟨r, hr, hrips⟩ := hg
    rw [hr]
    dsimp only [Counters.removeValidatorIp]
    rw [if_pos]
    rw [hrips, ← hips]; exact hip

theorem applyMembers_unblocks (c : Cfg) (ms : List Bls) (now : Nat) (b' : Bls) :
    ∀ {s : State}, Inv (fun _ => False) s → (b' ∈ ms ∨ Unblocked s b') →
      Unblocked (s.applyMembers c ms now) b' := by
  induction ms with
  | nil =>
    intro s _ hor
    rcases hor with hm | hq
    · cases hm
    · exact hq
  | cons b ms ih =>
    intro s h hor
    unfold State.applyMembers at ih ⊢
    rw [List.foldl_cons]
    apply ih (inv_applyMember' h c b now)
    by_cases hb : b' = b
    · right; rw [hb]; exact applyMember_unblocks h.ix c b now
    · rcases hor with hm | hq
      · rcases List.mem_cons.mp hm with h' | h'
        · exact absurd h' hb
        · exact .inl h'
      · right
        intro p hp ip hip
        rw [applyMember_other h.ix c b now (by intro h; injection h with h; exact hb h)] at hp
        exact applyMember_byIp h.ix c b now ip (hq p hp ip hip)

/-- **C57 (epoch change).**  When the committees of an epoch are installed, no member whose
network key is known is banned, neither itself nor through its addresses, whatever happened
before. -/
theorem committee_unbanned {c : Cfg} {l : List (Nat × Op)} (hl : Legal c l State.init)
    (hmax : c.banAt < c.maxScore) (prev cur next : List Bls) (t : Nat) {b : Bls} {p : Peer}
    {k : Pid} (hb : b ∈ prev ∨ b ∈ cur ∨ b ∈ next)
    (hp : get (.conf b) ((Op.committees prev cur next).run c t (runOps c l State.init)).peers =
      some p) (hk : p.key = some k) :
    ((Op.committees prev cur next).run c t (runOps c l State.init)).peerBanned c k = false := by
  have h := reach_inv hl
  revert h hp
  generalize runOps c l State.init = s
  intro hp h
  have h' : Inv (fun _ => False) { s with prevC := prev, curC := cur, nextC := next } :=
    ⟨h.ix, h.ct⟩
  have hmem : b ∈ prev ++ cur ++ next := by
    rcases hb with hm | hm | hm
    · exact List.mem_append_left _ (List.mem_append_left _ hm)
    · exact List.mem_append_left _ (List.mem_append_right _ hm)
    · exact List.mem_append_right _ hm
  have hU := applyMembers_unblocks c (prev ++ cur ++ next) t b h' (.inl hmem)
  have hP := applyMembers_get c (prev ++ cur ++ next) t b h' (.inl hmem) p hp
  have hI : Inv (fun _ => False) ((Op.committees prev cur next).run c t s) :=
    inv_run h c t _ trivial fun _ h => h.elim
  unfold State.peerBanned State.getPeer
  rw [identityFor_key hI.ix hp hk, hp]
  dsimp only
  rw [Bool.or_eq_false_iff]
  constructor
  · apply decide_eq_false
    unfold Peer.reputation Score.reputation
    rw [hP.1, if_neg (not_le.mpr hmax)]
    split <;> simp
  · rw [List.any_eq_false]
    intro ip hip
    have := hU p hp ip hip
    unfold Counters.ipBanned
    rw [Bool.not_eq_true]
    apply decide_eq_false
    dsimp only [Op.run, State.updateCommittees]
    omega

/-- **C57 (what is left).**  Between two committee updates the only way a member counts as
banned is through a blocked address at which it was observed. -/
theorem member_banned_only_by_ip {c : Cfg} {l : List (Nat × Op)} (hl : Legal c l State.init)
    (hmax : c.banAt < c.maxScore) {b : Bls} {p : Peer} {k : Pid}
    (hm : Member (runOps c l State.init) b)
    (hp : get (.conf b) (runOps c l State.init).peers = some p) (hk : p.key = some k) :
    (runOps c l State.init).peerBanned c k = true ↔
      ∃ ip ∈ p.ips, (runOps c l State.init).ctr.ipBanned ip = true := by
  have h := reach_inv hl
  obtain ⟨_, hr, _⟩ := member_protected hl hmax hm hp
  unfold State.peerBanned State.getPeer
  rw [identityFor_key h.ix hp hk, hp]
  dsimp only
  rw [decide_eq_false hr, Bool.false_or, List.any_eq_true]

/-- **C57 (rotation drops the operator's allowlisting).**  If an allowlisted peer shows up
under a new network key first (and so has an anonymous record), the record stored for it when
its BLS key is confirmed is no longer allowlisted. -/
theorem rotation_drops_allowlist (c : Cfg) (s : State) (b : Bls) (k : Pid) (now : Nat) {m : Peer}
    (hcur : s.identityFor k ≠ .conf b) (hm : s.getPeer k = some m) (hma : m.allow = false) :
    ∃ p, get (.conf b) (s.upsert c b k now).peers = some p ∧ p.allow = false := by
  unfold State.upsert
  dsimp only
  rw [get_put_self]
  refine ⟨_, rfl, ?_⟩
  unfold State.getPeer at hm
  rw [if_neg hcur, if_neg hcur, evict_peers, get_del_ne hcur, hm]
  cases get (.conf b) s.peers with
  | some r =>
    dsimp only [State.merge]
    rw [(retainWorse_same m r).2.2]; exact hma
  | none => exact hma

end Verif.Net
