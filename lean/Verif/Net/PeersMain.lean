import Verif.Net.PeersPrune

/-!
# C56: the peer table's books are right after every history of calls
-/

namespace Verif.Net

open State

variable {E : Ip → Prop}

/-- A call the swarm makes: a disconnect is not requested for a record whose status is
already `Banned` (the code logs such a call as an error, `all_peers.rs:704-707`;
`disconnect_of_banned_leaks` shows what it does). -/
def Op.legal (s : State) : Op → Prop
  | .disconnect pid => s.pidBanned pid = false
  | _ => True

/-- The call does not forgive a committee member that was observed at the address. -/
def Op.clear (ip : Ip) (s : State) : Op → Prop
  | .committees p cu n => ∀ b ∈ p ++ cu ++ n, ∀ r, get (.conf b) s.peers = some r → ip ∉ r.ips
  | .forDial ms => ∀ b ∈ ms, ∀ r, get (.conf b) s.peers = some r → ip ∉ r.ips
  | .known b k => s.isMember b = true → (∀ r, get (.conf b) s.peers = some r → ip ∉ r.ips) ∧
      ∀ r, s.getPeer k = some r → ip ∉ r.ips
  | .advertised _ b k _ => s.isMember b = true →
      (∀ r, get (.conf b) s.peers = some r → ip ∉ r.ips) ∧ ∀ r, s.getPeer k = some r → ip ∉ r.ips
  | .discovered b k _ => s.isMember b = true →
      (∀ r, get (.conf b) s.peers = some r → ip ∉ r.ips) ∧ ∀ r, s.getPeer k = some r → ip ∉ r.ips
  | _ => True

/-- every call of the history satisfies `Q` in the state it is made in -/
def Always (c : Cfg) (Q : State → Op → Prop) : List (Nat × Op) → State → Prop
  | [], _ => True
  | (t, o) :: l, s => Q s o ∧ Always c Q l (o.run c t s)

/-- a history of calls the swarm can make -/
def Legal (c : Cfg) (l : List (Nat × Op)) (s : State) : Prop := Always c (fun s o => o.legal s) l s

theorem normalize_ips (now : Nat) (p : Peer) (c : Counters) :
    (State.normalize now p c).1.ips = p.ips := by
  rcases p with ⟨k, sc, ips, st, al⟩
  cases st <;> simp [State.normalize]
  split <;> simp_all

/-- where the addresses of an upserted record come from -/
theorem upsert_ips (s : State) (c : Cfg) (b : Bls) (k : Pid) (now : Nat) (ip : Ip)
    (h1 : ∀ r, get (.conf b) s.peers = some r → ip ∉ r.ips)
    (h2 : ∀ r, s.getPeer k = some r → ip ∉ r.ips) :
    ∀ r, get (.conf b) (s.upsert c b k now).peers = some r → ip ∉ r.ips := by
  intro r hr
  unfold State.upsert at hr
  dsimp only at hr
  rw [get_put_self] at hr
  injection hr with hr
  subst hr
  have hm : ∀ m, get (s.identityFor k)
      (if s.identityFor k = .conf b then s else s.evict (.conf b)).peers = some m → ip ∉ m.ips := by
    intro m hm
    apply h2
    unfold State.getPeer
    split at hm
    · exact hm
    · next hne =>
      rw [evict_peers, get_del_ne hne] at hm
      exact hm
  have hro : ∀ m, (if s.identityFor k = .conf b then none else get (.conf b) s.peers) = some m →
      ip ∉ m.ips := by
    intro m hm'
    split at hm'
    · cases hm'
    · exact h1 m hm'
  revert hm hro
  generalize get (s.identityFor k)
      (if s.identityFor k = .conf b then s else s.evict (.conf b)).peers = mig
  generalize (if s.identityFor k = .conf b then none else get (.conf b) s.peers) = rot
  intro hm hro
  unfold State.merge
  split
  · next m r =>
    have := hm m rfl
    unfold Peer.retainWorse
    split <;> exact this
  · next m => exact hm m rfl
  · next r => rw [normalize_ips]; exact hro r rfl
  · rw [normalize_ips]; intro h; cases h

theorem isMember_upsert (s : State) (c : Cfg) (b : Bls) (k : Pid) (now : Nat) (b' : Bls) :
    (s.upsert c b k now).isMember b' = s.isMember b' := by
  unfold State.upsert State.evict
  dsimp only
  split
  · rfl
  · split <;> rfl

theorem inv_cacheKnown {s : State} (h : Inv E s) (c : Cfg) (b : Bls) (k : Pid) (now : Nat)
    (hc : ∀ ip, E ip → s.isMember b = true →
      (∀ r, get (.conf b) s.peers = some r → ip ∉ r.ips) ∧
        ∀ r, s.getPeer k = some r → ip ∉ r.ips) :
    Inv E (s.cacheKnown c b k now) := by
  unfold State.cacheKnown State.applyIfMember
  have h1 := inv_upsert h c b k now
  split
  · next hm =>
    rw [isMember_upsert] at hm
    apply inv_applyMembers c [b] now h1
    intro b' hb' r hr ip hip hE
    rw [List.mem_singleton] at hb'
    subst hb'
    obtain ⟨ha, hb⟩ := hc ip hE hm
    exact upsert_ips s c b' k now ip ha hb r hr hip
  · exact h1

theorem inv_perm {s : State} (h : Inv E s) {P : List (Ident × Peer)} (hp : P.Perm s.peers) :
    Inv E { s with peers := P } := by
  have hg : ∀ id, get id P = get id s.peers := get_perm h.ix.nodup hp.symm
  have hc : ∀ q, cnt q P = cnt q s.peers := fun q => cnt_perm q hp.symm
  constructor
  · refine ⟨(keys_perm hp).nodup_iff.mpr h.ix.nodup, ?_, ?_, ?_⟩
    · intro b p hb; dsimp only at hb ⊢; rw [hg] at hb; exact h.ix.conf b p hb
    · intro k b hk; dsimp only; rw [hg]; exact h.ix.idx k b hk
    · intro k p hk; dsimp only at hk ⊢; rw [hg] at hk; exact h.ix.anon k p hk
  · refine ⟨?_, ?_, ?_, ?_⟩
    · dsimp only; rw [hc]; exact h.ct.disc
    · dsimp only; rw [hc]; exact h.ct.total
    · intro ip; dsimp only; rw [hc]; exact h.ct.le ip
    · intro ip hE; dsimp only; rw [hc]; exact h.ct.ex ip hE

theorem inv_run {s : State} (h : Inv E s) (c : Cfg) (now : Nat) (o : Op) (hl : o.legal s)
    (hc : ∀ ip, E ip → o.clear ip s) : Inv E (o.run c now s) := by
  cases o with
  | connected pid ip => exact inv_updateStatus h c pid _ now (by intro b hb; cases hb)
  | dialing pid => exact inv_updateStatus h c pid _ now (by intro b hb; cases hb)
  | disconnect pid => exact inv_updateStatus h c pid _ now (fun _ _ => hl)
  | closed pid => exact (inv_registerDisconnected h c pid now).1
  | penalty pid p => exact inv_penalty h c pid p now
  | heartbeat => exact inv_heartbeat h c now
  | trusted b k => exact inv_addTrusted h c b k now
  | known b k => exact inv_cacheKnown h c b k now hc
  | advertised src b k stale =>
    dsimp only [Op.run, State.selfAdvertised]
    split
    · split
      · exact h
      · exact inv_cacheKnown h c b k now hc
    · split
      · exact inv_upsert h c b k now
      · exact h
  | discovered b k stale =>
    dsimp only [Op.run, State.discovered]
    split
    · split
      · exact h
      · exact inv_cacheKnown h c b k now hc
    · exact h
  | committees p cu n =>
    dsimp only [Op.run, State.updateCommittees]
    have h' : Inv E { s with prevC := p, curC := cu, nextC := n } := ⟨h.ix, h.ct⟩
    apply inv_applyMembers c _ now h'
    intro b hb r hr ip hip hE
    exact hc ip hE b hb r hr hip
  | forDial ms =>
    apply inv_applyMembers c _ now h
    intro b hb r hr ip hip hE
    exact hc ip hE b hb r hr hip
  | reorder P =>
    dsimp only [Op.run]
    split
    · next hp => exact inv_perm h hp
    · exact h

theorem inv_runOps (c : Cfg) (l : List (Nat × Op)) : ∀ {s : State}, Inv E s → Legal c l s →
    (∀ ip, E ip → Always c (fun s o => o.clear ip s) l s) → Inv E (runOps c l s) := by
  induction l with
  | nil => intro s h _ _; exact h
  | cons e l ih =>
    intro s h hl hc
    obtain ⟨t, o⟩ := e
    rw [runOps]
    exact ih (inv_run h c t o hl.1 fun ip hE => (hc ip hE).1) hl.2 fun ip hE => (hc ip hE).2

/-- reachable states -/
theorem reach_inv {c : Cfg} {l : List (Nat × Op)} (hl : Legal c l State.init) :
    Inv (fun _ => False) (runOps c l State.init) :=
  inv_runOps c l inv_init hl fun _ h => h.elim

theorem two_of_cnt {q : Peer → Bool} {P : List (Ident × Peer)} (hn : (keys P).Nodup)
    (h : 2 ≤ cnt q P) : ∃ id₁ id₂ p₁ p₂, id₁ ≠ id₂ ∧ get id₁ P = some p₁ ∧ get id₂ P = some p₂ ∧
      q p₁ = true ∧ q p₂ = true := by
  unfold cnt at h
  rw [List.countP_eq_length_filter] at h
  have hsub : ((P.filter fun e => q e.2).map Prod.fst).Sublist (keys P) :=
    (List.filter_sublist).map _
  have hnf := hn.sublist hsub
  match hf : P.filter fun e => q e.2 with
  | [] => rw [hf] at h; simp at h
  | [x] => rw [hf] at h; simp at h
  | x :: y :: rest =>
    rw [hf] at hnf
    have hx : x ∈ P.filter fun e => q e.2 := by rw [hf]; simp
    have hy : y ∈ P.filter fun e => q e.2 := by rw [hf]; simp
    rw [List.mem_filter] at hx hy
    refine ⟨x.1, y.1, x.2, y.2, ?_, get_of_mem hn hx.1, get_of_mem hn hy.1, hx.2, hy.2⟩
    intro heq
    simp [heq] at hnf

theorem cnt_of_two {q : Peer → Bool} {P : List (Ident × Peer)} (hn : (keys P).Nodup)
    {id₁ id₂ : Ident} {p₁ p₂ : Peer} (hne : id₁ ≠ id₂) (h₁ : get id₁ P = some p₁)
    (h₂ : get id₂ P = some p₂) (hq₁ : q p₁ = true) (hq₂ : q p₂ = true) : 2 ≤ cnt q P := by
  rw [cnt_del_some q hn h₁]
  have h2' : get id₂ (del id₁ P) = some p₂ := by rw [get_del_ne hne.symm]; exact h₂
  rw [cnt_del_some q (nodup_del _ hn) h2', hq₁, hq₂]
  unfold b2n
  simp only [if_true]
  omega

/-! ## The theorems -/

/-- **C56 (counters).**  After any history of calls the number of disconnected peers and the
number of banned peers the node believes in are the numbers of records with these statuses. -/
theorem counters_right {c : Cfg} {l : List (Nat × Op)} (hl : Legal c l State.init) :
    (runOps c l State.init).ctr.disc = cnt isDisc (runOps c l State.init).peers ∧
    (runOps c l State.init).ctr.total = cnt isBan (runOps c l State.init).peers :=
  ⟨(reach_inv hl).ct.disc, (reach_inv hl).ct.total⟩

/-- **C56 (an address is blocked only for cause).**  After any history, a blocked IP address
was observed on the connections of at least two different peers that are banned now. -/
theorem ip_blocked_sound {c : Cfg} {l : List (Nat × Op)} (hl : Legal c l State.init) (ip : Ip)
    (hb : (runOps c l State.init).ctr.ipBanned ip = true) :
    ∃ id₁ id₂ p₁ p₂ t₁ t₂, id₁ ≠ id₂ ∧
      get id₁ (runOps c l State.init).peers = some p₁ ∧
      get id₂ (runOps c l State.init).peers = some p₂ ∧
      p₁.status = .banned t₁ ∧ p₂.status = .banned t₂ ∧ ip ∈ p₁.ips ∧ ip ∈ p₂.ips := by
  have hi := reach_inv hl
  have h2 : 2 ≤ cnt (banFrom ip) (runOps c l State.init).peers := by
    have := of_decide_eq_true hb
    have hle := hi.ct.le ip
    omega
  obtain ⟨id₁, id₂, p₁, p₂, hne, h₁, h₂, hq₁, hq₂⟩ := two_of_cnt hi.ix.nodup h2
  have key : ∀ p : Peer, banFrom ip p = true → (∃ t, p.status = .banned t) ∧ ip ∈ p.ips := by
    intro p hp
    unfold banFrom isBan at hp
    rw [Bool.and_eq_true] at hp
    refine ⟨?_, of_decide_eq_true hp.2⟩
    have := hp.1
    split at this
    · next t ht => exact ⟨t, ht⟩
    · cases this
  obtain ⟨⟨t₁, ht₁⟩, hm₁⟩ := key p₁ hq₁
  obtain ⟨⟨t₂, ht₂⟩, hm₂⟩ := key p₂ hq₂
  exact ⟨id₁, id₂, p₁, p₂, t₁, t₂, hne, h₁, h₂, ht₁, ht₂, hm₁, hm₂⟩

/-- **C56 (two banned peers block their address).**  After any history in which no committee
member observed at `ip` was forgiven, two different banned peers observed at `ip` block it. -/
theorem ip_blocked_complete {c : Cfg} {l : List (Nat × Op)} (hl : Legal c l State.init) (ip : Ip)
    (hc : Always c (fun s o => o.clear ip s) l State.init)
    {id₁ id₂ : Ident} {p₁ p₂ : Peer} {t₁ t₂ : Nat} (hne : id₁ ≠ id₂)
    (h₁ : get id₁ (runOps c l State.init).peers = some p₁)
    (h₂ : get id₂ (runOps c l State.init).peers = some p₂)
    (hs₁ : p₁.status = .banned t₁) (hs₂ : p₂.status = .banned t₂)
    (hi₁ : ip ∈ p₁.ips) (hi₂ : ip ∈ p₂.ips) :
    (runOps c l State.init).ctr.ipBanned ip = true := by
  have hi : Inv (fun i => i = ip) (runOps c l State.init) :=
    inv_runOps c l inv_init hl fun i h => by cases h; exact hc
  have key : ∀ (p : Peer) (t : Nat), p.status = .banned t → ip ∈ p.ips → banFrom ip p = true := by
    intro p t ht hm
    unfold banFrom isBan
    rw [ht]
    simp [hm]
  have h2 := cnt_of_two hi.ix.nodup hne h₁ h₂ (key p₁ t₁ hs₁ hi₁) (key p₂ t₂ hs₂ hi₂)
  have := hi.ct.ex ip rfl
  unfold Counters.ipBanned
  apply decide_eq_true
  omega

/-- **C56 (memory).**  When a connection has been closed, the node keeps at most the
configured numbers of disconnected and of banned peers. -/
theorem limits_after_close {c : Cfg} {l : List (Nat × Op)} (hl : Legal c l State.init)
    (pid : Pid) (t : Nat) :
    cnt isDisc ((Op.closed pid).run c t (runOps c l State.init)).peers ≤ c.maxDisc ∧
    cnt isBan ((Op.closed pid).run c t (runOps c l State.init)).peers ≤ c.maxBanned := by
  obtain ⟨h1, h2, h3⟩ := inv_registerDisconnected (reach_inv hl) c pid t
  have e1 := h1.ct.disc
  have e2 := h1.ct.total
  dsimp only [Op.run]
  exact ⟨by rw [← e1]; exact h2, by rw [← e2]; exact h3⟩

/-- what pruning does to the banned records: it forgets the oldest -/
theorem pruneBanned_oldest {s : State} (h : IdxInv s.peers s.index) (c : Cfg)
    {id id' : Ident} {p p' : Peer} {t t' : Nat}
    (hp : get id s.peers = some p) (hs : p.status = .banned t)
    (hgone : get id (s.pruneBanned c).peers = none)
    (hp' : get id' (s.pruneBanned c).peers = some p') (hs' : p'.status = .banned t') : t ≤ t' := by
  unfold State.pruneBanned at hgone hp'
  rw [foldl_drop_get dropBanned dropBanned_peers] at hgone hp'
  obtain ⟨rest, H⟩ := collectExcess_oldest (s.ctr.total - c.maxBanned) bannedAt s
  have hin : id ∈ (collectExcess (s.ctr.total - c.maxBanned) bannedAt s).map fun e => e.2.1 := by
    by_contra hno
    rw [if_neg hno, hp] at hgone
    cases hgone
  have hout : id' ∉ (collectExcess (s.ctr.total - c.maxBanned) bannedAt s).map fun e => e.2.1 := by
    intro hyes
    rw [if_pos hyes] at hp'
    cases hp'
  rw [if_neg hout] at hp'
  obtain ⟨v, hv, hvid⟩ := List.mem_map.mp hin
  have hvt : v.1 = t := by
    obtain ⟨q, hq, hqs, _⟩ := (collect_victims h _ bannedAt).recd v hv
    rw [hvid, hp] at hq
    injection hq with hq
    subst hq
    rw [hs] at hqs
    injection hqs with hqs
    exact hqs.symm
  have hmem : (t', id', p'.ips) ∈ candidates bannedAt s :=
    mem_candidates.mpr ⟨p', mem_of_get hp', by rw [hs']; rfl, rfl⟩
  rcases List.mem_append.mp (H.perm.mem_iff.mpr hmem) with hc | hc
  · exact absurd (List.mem_map.mpr ⟨_, hc, rfl⟩) hout
  · have := H.old v hv _ hc
    dsimp only at this
    omega

/-- what pruning does to the disconnected records: it forgets the oldest -/
theorem pruneDisconnected_oldest {s : State} (h : IdxInv s.peers s.index) (c : Cfg)
    {id id' : Ident} {p p' : Peer} {t t' : Nat}
    (hp : get id s.peers = some p) (hs : p.status = .disconnected t)
    (hgone : get id (s.pruneDisconnected c).peers = none)
    (hp' : get id' (s.pruneDisconnected c).peers = some p') (hs' : p'.status = .disconnected t') :
    t ≤ t' := by
  unfold State.pruneDisconnected at hgone hp'
  rw [foldl_drop_get dropDisc dropDisc_peers] at hgone hp'
  obtain ⟨rest, H⟩ := collectExcess_oldest (s.ctr.disc - c.maxDisc) disconnectedAt s
  have hin : id ∈
      (collectExcess (s.ctr.disc - c.maxDisc) disconnectedAt s).map fun e => e.2.1 := by
    by_contra hno
    rw [if_neg hno, hp] at hgone
    cases hgone
  have hout : id' ∉
      (collectExcess (s.ctr.disc - c.maxDisc) disconnectedAt s).map fun e => e.2.1 := by
    intro hyes
    rw [if_pos hyes] at hp'
    cases hp'
  rw [if_neg hout] at hp'
  obtain ⟨v, hv, hvid⟩ := List.mem_map.mp hin
  have hvt : v.1 = t := by
    obtain ⟨q, hq, hqs, _⟩ := (collect_victims h _ disconnectedAt).recd v hv
    rw [hvid, hp] at hq
    injection hq with hq
    subst hq
    rw [hs] at hqs
    injection hqs with hqs
    exact hqs.symm
  have hmem : (t', id', p'.ips) ∈ candidates disconnectedAt s :=
    mem_candidates.mpr ⟨p', mem_of_get hp', by rw [hs']; rfl, rfl⟩
  rcases List.mem_append.mp (H.perm.mem_iff.mpr hmem) with hc | hc
  · exact absurd (List.mem_map.mpr ⟨_, hc, rfl⟩) hout
  · have := H.old v hv _ hc
    dsimp only at this
    omega

/-- pruning of one kind keeps the records of other statuses -/
theorem prune_keeps {s : State} (h : IdxInv s.peers s.index) (c : Cfg) {id : Ident} {p : Peer}
    (hp : get id s.peers = some p) :
    ((∀ t, p.status ≠ .disconnected t) → get id (s.pruneDisconnected c).peers = some p) ∧
    ((∀ t, p.status ≠ .banned t) → get id (s.pruneBanned c).peers = some p) := by
  constructor
  · intro hne
    unfold State.pruneDisconnected
    rw [foldl_drop_get dropDisc dropDisc_peers, if_neg, hp]
    intro hm
    obtain ⟨v, hv, hvid⟩ := List.mem_map.mp hm
    obtain ⟨q, hq, hqs, _⟩ := (collect_victims h _ disconnectedAt).recd v hv
    rw [hvid, hp] at hq
    injection hq with hq
    subst hq
    unfold disconnectedAt at hqs
    split at hqs
    · next t ht => exact hne t ht
    · cases hqs
  · intro hne
    unfold State.pruneBanned
    rw [foldl_drop_get dropBanned dropBanned_peers, if_neg, hp]
    intro hm
    obtain ⟨v, hv, hvid⟩ := List.mem_map.mp hm
    obtain ⟨q, hq, hqs, _⟩ := (collect_victims h _ bannedAt).recd v hv
    rw [hvid, hp] at hq
    injection hq with hq
    subst hq
    unfold bannedAt at hqs
    split at hqs
    · next t ht => exact hne t ht
    · cases hqs

/-- **C56 (which records are forgotten).**  When a connection is closed, a banned record that
the node forgets is not newer than any banned record it keeps; likewise for disconnected
records. -/
theorem close_forgets_oldest {c : Cfg} {l : List (Nat × Op)} (hl : Legal c l State.init)
    (pid : Pid) (now : Nat) {id id' : Ident} {p p' : Peer} {t t' : Nat}
    (hp : get id ((runOps c l State.init).updateStatus c pid .disconnected now).1.peers = some p)
    (hgone : get id ((Op.closed pid).run c now (runOps c l State.init)).peers = none)
    (hp' : get id' ((Op.closed pid).run c now (runOps c l State.init)).peers = some p') :
    (p.status = .banned t → p'.status = .banned t' → t ≤ t') ∧
    (p.status = .disconnected t → p'.status = .disconnected t' → t ≤ t') := by
  dsimp only [Op.run, State.registerDisconnected] at hgone hp'
  have h1 := inv_updateStatus (reach_inv hl) c pid .disconnected now (by intro b hb; cases hb)
  obtain ⟨h2, _, _⟩ := pruneDisconnected_inv h1 c
  constructor
  · intro hs hs'
    have hk := (prune_keeps h1.ix c hp).1 (by intro t' ht'; rw [hs] at ht'; cases ht')
    exact pruneBanned_oldest h2.ix c hk hs hgone hp' hs'
  · intro hs hs'
    have hpp : get id' (State.pruneDisconnected c
        ((runOps c l State.init).updateStatus c pid .disconnected now).1).peers = some p' := by
      unfold State.pruneBanned at hp'
      rw [foldl_drop_get dropBanned dropBanned_peers] at hp'
      split at hp'
      · cases hp'
      · exact hp'
    have hg : get id (State.pruneDisconnected c
        ((runOps c l State.init).updateStatus c pid .disconnected now).1).peers = none := by
      cases hq : get id (State.pruneDisconnected c
        ((runOps c l State.init).updateStatus c pid .disconnected now).1).peers with
      | none => rfl
      | some q =>
        have hqp : q = p := by
          unfold State.pruneDisconnected at hq
          rw [foldl_drop_get dropDisc dropDisc_peers] at hq
          split at hq
          · cases hq
          · exact Option.some.inj (hq.symm.trans hp)
        have := (prune_keeps h2.ix c hq).2 (by intro t' ht'; rw [hqp, hs] at ht'; cases ht')
        rw [this] at hgone
        cases hgone
    exact pruneDisconnected_oldest h1.ix c hp hs hg hpp hs'

/-- **C56 (why the hypothesis).**  A disconnect requested for a banned record leaves the
banned-peer counter one too high. -/
theorem disconnect_of_banned_leaks {c : Cfg} {l : List (Nat × Op)} (hl : Legal c l State.init)
    (pid : Pid) (t : Nat) (hb : (runOps c l State.init).pidBanned pid = true) :
    ((Op.disconnect pid).run c t (runOps c l State.init)).ctr.total =
      cnt isBan ((Op.disconnect pid).run c t (runOps c l State.init)).peers + 1 := by
  have hi := reach_inv hl
  revert hb hi
  generalize runOps c l State.init = s
  intro hb hi
  unfold State.pidBanned State.getPeer at hb
  cases hg : get (s.identityFor pid) s.peers with
  | none => rw [hg] at hb; cases hb
  | some p =>
    rw [hg] at hb
    dsimp only at hb
    dsimp only [Op.run]
    rw [updateStatus_peers hi.ix]
    dsimp only
    have he := ensured_status c s (s.identityFor pid) (.disconnecting false) t hg
    have hbal := hi.ct.bal hi.ix.nodup hg
    rw [cnt_put]
    have hst : ∃ t0, p.status = .banned t0 := by
      unfold isBan at hb
      split at hb
      · next t0 h => exact ⟨t0, h⟩
      · cases hb
    obtain ⟨t0, ht0⟩ := hst
    have htot := hbal.total
    rw [hb] at htot
    unfold transition handleDisconnecting
    dsimp only
    rw [he.1, ht0]
    dsimp only
    unfold b2n isBan at *
    simpa using htot

end Verif.Net
