import Verif.Net.PeersInv

/-!
# Preservation of the table invariants by every call
-/

namespace Verif.Net

/-- The resolution index and the records agree: an id resolves to a BLS key exactly when the
record of that key carries the id, and an id with an index entry has no anonymous record. -/
structure IdxInv (P : List (Ident × Peer)) (I : List (Pid × Bls)) : Prop where
  nodup : (keys P).Nodup
  conf : ∀ b p, get (.conf b) P = some p → ∃ k, p.key = some k ∧ get k I = some b
  idx : ∀ k b, get k I = some b → ∃ p, get (.conf b) P = some p ∧ p.key = some k
  anon : ∀ k p, get (.anon k) P = some p → get k I = none

/-- both invariants -/
structure Inv (E : Ip → Prop) (s : State) : Prop where
  ix : IdxInv s.peers s.index
  ct : CtrInv E s.peers s.ctr

variable {E : Ip → Prop}

theorem inv_init : Inv E State.init :=
  ⟨⟨List.nodup_nil, fun _ _ h => (by cases h), fun _ _ h => (by cases h),
    fun _ _ h => (by cases h)⟩,
   ⟨rfl, rfl, fun _ => Nat.le_refl _, fun _ _ => rfl⟩⟩

theorem State.identityFor_cases (s : State) (pid : Pid) :
    (∃ b, get pid s.index = some b ∧ s.identityFor pid = .conf b) ∨
      (get pid s.index = none ∧ s.identityFor pid = .anon pid) := by
  unfold State.identityFor
  cases h : get pid s.index with
  | some b => exact .inl ⟨b, rfl, rfl⟩
  | none => exact .inr ⟨rfl, rfl⟩

/-- the self-healing branch of `ensure_peer_exists` is never taken -/
theorem healed_eq {s : State} (h : IdxInv s.peers s.index) (pid : Pid) :
    s.healed pid = (s, s.identityFor pid) := by
  unfold State.healed
  rcases s.identityFor_cases pid with ⟨b, hb, hid⟩ | ⟨_, hid⟩
  · obtain ⟨p, hp, _⟩ := h.idx _ _ hb
    rw [hid]; dsimp only; rw [hp]
  · rw [hid]

/-- replacing the record an id resolves to -/
theorem IdxInv.put_same {s : State} (h : IdxInv s.peers s.index) (pid : Pid) {p' : Peer}
    (hk : ∀ p, get (s.identityFor pid) s.peers = some p → p'.key = p.key) :
    IdxInv (put (s.identityFor pid) p' s.peers) s.index := by
  constructor
  · exact nodup_put _ _ h.nodup
  · intro b p hg
    rw [get_put] at hg
    split at hg
    · next heq =>
      injection hg with hg; subst hg
      rcases s.identityFor_cases pid with ⟨b', hb', hid⟩ | ⟨_, hid⟩
      · rw [hid] at heq
        injection heq with heq
        subst heq
        obtain ⟨p, hp, hpk⟩ := h.idx _ _ hb'
        refine ⟨pid, ?_, hb'⟩
        rw [hk p (by rw [hid]; exact hp), hpk]
      · rw [hid] at heq; cases heq
    · exact h.conf b p hg
  · intro k b hi
    obtain ⟨p, hp, hpk⟩ := h.idx k b hi
    rw [get_put]
    split
    · next heq =>
      refine ⟨p', rfl, ?_⟩
      rw [hk p (by rw [← heq]; exact hp), hpk]
    · exact ⟨p, hp, hpk⟩
  · intro k p hg
    rw [get_put] at hg
    split at hg
    · next heq =>
      rcases s.identityFor_cases pid with ⟨b', hb', hid⟩ | ⟨hn, hid⟩
      · rw [hid] at heq; cases heq
      · rw [hid] at heq
        injection heq with heq
        rw [heq]; exact hn
    · exact h.anon k p hg

/-- a record that changes only its score -/
theorem put_score {P : List (Ident × Peer)} {I : List (Pid × Bls)} {c : Counters}
    (hi : IdxInv P I) (hc : CtrInv E P c) {id : Ident} {p p' : Peer} (hg : get id P = some p)
    (hs : p'.status = p.status) (hips : p'.ips = p.ips) (hk : p'.key = p.key) :
    IdxInv (put id p' P) I ∧ CtrInv E (put id p' P) c := by
  refine ⟨⟨nodup_put _ _ hi.nodup, ?_, ?_, ?_⟩, ?_⟩
  · intro b q hq
    rw [get_put] at hq
    split at hq
    · next heq =>
      injection hq with hq; subst hq
      rw [hk]; exact hi.conf b p (by rw [heq]; exact hg)
    · exact hi.conf b q hq
  · intro k b hkb
    obtain ⟨q, hq, hqk⟩ := hi.idx k b hkb
    rw [get_put]
    split
    · next heq =>
      rw [heq] at hq
      have : p = q := Option.some.inj (hg.symm.trans hq)
      exact ⟨p', rfl, by rw [hk, this, hqk]⟩
    · exact ⟨q, hq, hqk⟩
  · intro k q hq
    rw [get_put] at hq
    split at hq
    · next heq => exact hi.anon k p (by rw [heq]; exact hg)
    · exact hi.anon k q hq
  · exact ((hc.bal hi.nodup hg).congr hs.symm hips.symm).put

theorem ensured_status (c : Cfg) (s : State) (id : Ident) (n : NewStatus) (now : Nat) {p : Peer}
    (hg : get id s.peers = some p) :
    (s.ensured c id n now).status = p.status ∧ (s.ensured c id n now).ips = p.ips ∧
      (s.ensured c id n now).key = p.key ∧ (s.ensured c id n now).allow = p.allow := by
  unfold State.ensured
  rw [hg]
  cases n <;> simp [Peer.ensureBanned, Peer.applyPenalty]
  split
  · simp
  · split <;> simp

theorem ensured_fresh (c : Cfg) (s : State) (id : Ident) (n : NewStatus) (now : Nat)
    (hg : get id s.peers = none) :
    (s.ensured c id n now).status = .unknown ∧ (s.ensured c id n now).ips = [] ∧
      (s.ensured c id n now).key = none ∧ (s.ensured c id n now).allow = false := by
  unfold State.ensured
  rw [hg]
  have key : ∀ e, (Peer.ensureBanned c.toScoreCfg e (Peer.dflt c.toScoreCfg now)).status = .unknown ∧
      (Peer.ensureBanned c.toScoreCfg e (Peer.dflt c.toScoreCfg now)).ips = [] ∧
      (Peer.ensureBanned c.toScoreCfg e (Peer.dflt c.toScoreCfg now)).key = none ∧
      (Peer.ensureBanned c.toScoreCfg e (Peer.dflt c.toScoreCfg now)).allow = false := by
    intro e
    unfold Peer.ensureBanned Peer.applyPenalty
    split
    · exact ⟨rfl, rfl, rfl, rfl⟩
    · split <;> exact ⟨rfl, rfl, rfl, rfl⟩
  cases n with
  | banned => exact key _
  | _ => exact ⟨rfl, rfl, rfl, rfl⟩

/-- the record the id resolves to, or a fresh one, balances the counters -/
theorem ensured_bal {s : State} (h : Inv E s) (c : Cfg) (id : Ident) (n : NewStatus)
    (now : Nat) : Bal E (del id s.peers) (s.ensured c id n now) s.ctr := by
  cases hg : get id s.peers with
  | some p =>
    obtain ⟨h1, h2, _⟩ := ensured_status c s id n now hg
    exact (h.ct.bal h.ix.nodup hg).congr h1.symm h2.symm
  | none =>
    rw [del_eq_self hg]
    exact h.ct.bal_unknown (ensured_fresh c s id n now hg).1

/-- what the id resolves to is `Banned` -/
def State.pidBanned (s : State) (pid : Pid) : Bool :=
  match s.getPeer pid with
  | some p => isBan p
  | none => false

theorem inv_updateStatus {s : State} (h : Inv E s) (c : Cfg) (pid : Pid) (n : NewStatus)
    (now : Nat) (hok : ∀ b, n = .disconnecting b → s.pidBanned pid = false) :
    Inv E (s.updateStatus c pid n now).1 := by
  unfold State.updateStatus
  rw [healed_eq h.ix]
  dsimp only
  constructor
  · dsimp only
    apply h.ix.put_same
    intro p hp
    rw [transition_key]
    exact (ensured_status c s _ n now hp).2.2.1
  · dsimp only
    refine (transition_bal now n (ensured_bal h c _ n now) ?_).put
    intro b hb
    have := hok b hb
    unfold State.pidBanned State.getPeer at this
    cases hg : get (s.identityFor pid) s.peers with
    | some p =>
      rw [hg] at this
      obtain ⟨h1, h2, _⟩ := ensured_status c s _ n now hg
      rw [(contrib_congr h1 h2).2.1]; exact this
    | none =>
      unfold isBan
      rw [(ensured_fresh c s _ n now hg).1]

theorem applyPenalty_same (c : ScoreCfg) (pen : Penalty) (e : Bool) (p : Peer) :
    (p.applyPenalty c pen e).status = p.status ∧ (p.applyPenalty c pen e).ips = p.ips ∧
      (p.applyPenalty c pen e).key = p.key ∧ (p.applyPenalty c pen e).allow = p.allow := by
  unfold Peer.applyPenalty
  split <;> simp

theorem identityFor_congr {s s' : State} (h : s'.index = s.index) (pid : Pid) :
    s'.identityFor pid = s.identityFor pid := by unfold State.identityFor; rw [h]

theorem inv_penalty {s : State} (h : Inv E s) (c : Cfg) (pid : Pid) (pen : Penalty)
    (now : Nat) : Inv E (s.penalty c pid pen now).1 := by
  unfold State.penalty
  dsimp only
  split
  · exact h
  · next p hp =>
    obtain ⟨h1, h2, h3, _⟩ := applyPenalty_same c.toScoreCfg pen
      (s.exemption (s.identityFor pid) p) p
    obtain ⟨hi, hc⟩ := put_score h.ix h.ct hp h1 h2 h3
    have hs' : Inv E { s with
        peers := put (s.identityFor pid) (p.applyPenalty c.toScoreCfg pen
          (s.exemption (s.identityFor pid) p)) s.peers } := ⟨hi, hc⟩
    split
    · exact hs'
    · split
      · next n hn =>
        apply inv_updateStatus hs'
        rintro b rfl
        unfold State.pidBanned State.getPeer
        have hid := identityFor_congr (s := s) (s' := { s with
          peers := put (s.identityFor pid) (p.applyPenalty c.toScoreCfg pen
            (s.exemption (s.identityFor pid) p)) s.peers }) rfl pid
        rw [hid]
        dsimp only
        rw [get_put_self]
        dsimp only
        unfold State.penaltyStatus at hn
        split at hn
        · cases hn
        · split at hn
          · next hst => unfold isBan; rw [hst]
          · next hst => unfold isBan; rw [hst]
          · cases hn
        · cases hn
      · exact hs'

theorem inv_updateMany {c : Cfg} {n : NewStatus} {now : Nat}
    (hn : ∀ b, n ≠ .disconnecting b) (pids : List Pid) {s : State} (h : Inv E s) :
    Inv E (s.updateMany c n now pids) := by
  unfold State.updateMany
  induction pids generalizing s with
  | nil => exact h
  | cons p l ih =>
    rw [List.foldl_cons]
    exact ih (inv_updateStatus h c p n now fun b hb => absurd hb (hn b))

/-- the decay map keeps keys, statuses, addresses -/
theorem get_map_same (f : Ident × Peer → Peer) (P : List (Ident × Peer)) (id : Ident) :
    get id (P.map fun e => (e.1, f e)) = (get id P).map fun p => f (id, p) := by
  induction P with
  | nil => rfl
  | cons e l ih =>
    rw [List.map_cons, get, get]
    by_cases h : e.1 = id
    · rw [if_pos h, if_pos h]; subst h; rfl
    · rw [if_neg h, if_neg h, ih]

theorem keys_map_same (f : Ident × Peer → Peer) (P : List (Ident × Peer)) :
    keys (P.map fun e => (e.1, f e)) = keys P := by
  unfold keys; rw [List.map_map]; rfl

theorem cnt_map_same (f : Ident × Peer → Peer) (q : Peer → Bool) (P : List (Ident × Peer))
    (h : ∀ e ∈ P, q (f e) = q e.2) : cnt q (P.map fun e => (e.1, f e)) = cnt q P := by
  unfold cnt
  rw [List.countP_map]
  apply List.countP_congr
  intro e he
  simp [h e he]

theorem inv_map {s : State} (h : Inv E s) (f : Ident × Peer → Peer)
    (hf : ∀ e, (f e).status = e.2.status ∧ (f e).ips = e.2.ips ∧ (f e).key = e.2.key) :
    Inv E { s with peers := s.peers.map fun e => (e.1, f e) } := by
  constructor
  · constructor
    · dsimp only; rw [keys_map_same]; exact h.ix.nodup
    · intro b p hg
      dsimp only at hg ⊢
      rw [get_map_same] at hg
      cases hq : get (.conf b) s.peers with
      | none => rw [hq] at hg; cases hg
      | some q =>
        rw [hq] at hg
        injection hg with hg; subst hg
        rw [(hf _).2.2]; exact h.ix.conf b q hq
    · intro k b hk
      obtain ⟨q, hq, hqk⟩ := h.ix.idx k b hk
      dsimp only
      rw [get_map_same, hq]
      exact ⟨_, rfl, by rw [(hf _).2.2]; exact hqk⟩
    · intro k p hg
      dsimp only at hg ⊢
      rw [get_map_same] at hg
      cases hq : get (.anon k) s.peers with
      | none => rw [hq] at hg; cases hg
      | some q => exact h.ix.anon k q hq
  · have hcc : ∀ e, _ := fun e => contrib_congr (hf e).1 (hf e).2.1
    constructor
    · dsimp only; rw [cnt_map_same _ _ _ fun e _ => (hcc e).1]; exact h.ct.disc
    · dsimp only; rw [cnt_map_same _ _ _ fun e _ => (hcc e).2.1]; exact h.ct.total
    · intro ip; dsimp only; rw [cnt_map_same _ _ _ fun e _ => (hcc e).2.2 ip]; exact h.ct.le ip
    · intro ip hE
      dsimp only; rw [cnt_map_same _ _ _ fun e _ => (hcc e).2.2 ip]; exact h.ct.ex ip hE

theorem heartbeat_same (c : ScoreCfg) (e : Bool) (now : Nat) (p : Peer) :
    (p.heartbeat c e now).status = p.status ∧ (p.heartbeat c e now).ips = p.ips ∧
      (p.heartbeat c e now).key = p.key ∧ (p.heartbeat c e now).allow = p.allow := by
  unfold Peer.heartbeat
  split <;> simp

theorem inv_heartbeat {s : State} (h : Inv E s) (c : Cfg) (now : Nat) :
    Inv E (s.heartbeat c now) := by
  unfold State.heartbeat
  dsimp only
  apply inv_updateMany (by intro b hb; cases hb)
  have h1 : Inv E (s.updateMany c .disconnected now (s.expiredDials c now)) :=
    inv_updateMany (by intro b hb; cases hb) _ h
  exact inv_map h1 _ fun e =>
    ⟨(heartbeat_same _ _ _ _).1, (heartbeat_same _ _ _ _).2.1, (heartbeat_same _ _ _ _).2.2.1⟩

/-! ## Eviction -/

theorem idx_evict {s : State} (h : IdxInv s.peers s.index) (id : Ident) :
    IdxInv (s.evict id).peers (s.evict id).index := by
  unfold State.evict
  split
  · next p hp =>
    dsimp only
    cases id with
    | anon q =>
      have : State.unindex (.anon q) p s.index = s.index := rfl
      rw [this]
      refine ⟨nodup_del _ h.nodup, ?_, ?_, ?_⟩
      · intro b r hr
        rw [get_del_ne (by simp)] at hr
        exact h.conf b r hr
      · intro k b hk
        rw [get_del_ne (by simp)]
        exact h.idx k b hk
      · intro k r hr
        rw [get_del] at hr
        split at hr
        · cases hr
        · exact h.anon k r hr
    | conf b0 =>
      obtain ⟨k0, hk0, hi0⟩ := h.conf b0 p hp
      have : State.unindex (.conf b0) p s.index = del k0 s.index := by
        unfold State.unindex; rw [hk0]
      rw [this]
      refine ⟨nodup_del _ h.nodup, ?_, ?_, ?_⟩
      · intro b r hr
        rw [get_del] at hr
        split at hr
        · cases hr
        · next hne =>
          obtain ⟨k, hk, hi⟩ := h.conf b r hr
          refine ⟨k, hk, ?_⟩
          rw [get_del, if_neg]
          · exact hi
          · rintro rfl
            rw [hi0] at hi
            injection hi with hi
            exact hne (by rw [hi])
      · intro k b hk
        rw [get_del] at hk
        split at hk
        · cases hk
        · next hne =>
          obtain ⟨r, hr, hrk⟩ := h.idx k b hk
          refine ⟨r, ?_, hrk⟩
          rw [get_del, if_neg]
          · exact hr
          · intro heq
            rw [heq, hp] at hr
            injection hr with hr
            rw [← hr, hk0] at hrk
            injection hrk with hrk
            exact hne hrk.symm
      · intro k r hr
        rw [get_del_ne (by simp)] at hr
        have := h.anon k r hr
        rw [get_del]
        split
        · rfl
        · exact this
  · exact h

/-- insertion of a record under a fresh identity and id -/
theorem idx_insert {P : List (Ident × Peer)} {I I' : List (Pid × Bls)} (h : IdxInv P I)
    {b : Bls} {k : Pid} {p : Peer} (hI : ∀ k', get k' I' = if k' = k then some b else get k' I)
    (hk : get k I = none) (hb : get (.conf b) P = none) (ha : get (.anon k) P = none)
    (hp : p.key = some k) : IdxInv (put (.conf b) p P) I' := by
  refine ⟨nodup_put _ _ h.nodup, ?_, ?_, ?_⟩
  · intro b' r hr
    rw [get_put] at hr
    split at hr
    · next heq =>
      injection hr with hr; injection heq with heq; subst hr; subst heq
      exact ⟨k, hp, by rw [hI, if_pos rfl]⟩
    · obtain ⟨k', hk', hi'⟩ := h.conf b' r hr
      refine ⟨k', hk', ?_⟩
      rw [hI, if_neg]
      · exact hi'
      · rintro rfl; rw [hk] at hi'; cases hi'
  · intro k' b' hk'
    rw [hI] at hk'
    split at hk'
    · next heq =>
      injection hk' with hk'; subst hk'; subst heq
      exact ⟨p, get_put_self _ _ _, hp⟩
    · obtain ⟨r, hr, hrk⟩ := h.idx k' b' hk'
      refine ⟨r, ?_, hrk⟩
      rw [get_put, if_neg]
      · exact hr
      · intro heq; injection heq with heq; subst heq; rw [hb] at hr; cases hr
  · intro k' r hr
    rw [get_put, if_neg (by simp)] at hr
    rw [hI, if_neg]
    · exact h.anon k' r hr
    · rintro rfl; rw [ha] at hr; cases hr

/-- counters after dropping the record of an identity with its contribution -/
theorem ctr_release {P : List (Ident × Peer)} {c : Counters} (hn : (keys P).Nodup)
    (h : CtrInv E P c) (id : Ident) :
    CtrInv E (del id P) (State.releaseOpt (get id P) c) := by
  cases hg : get id P with
  | some p => exact (h.bal hn hg).release
  | none => rw [del_eq_self hg]; exact h

theorem evict_peers (s : State) (id : Ident) : (s.evict id).peers = del id s.peers := by
  unfold State.evict
  split
  · rfl
  · next hn => rw [del_eq_self hn]

theorem evict_ctr (s : State) (id : Ident) : (s.evict id).ctr = s.ctr := by
  unfold State.evict; split <;> rfl

theorem evict_index_anon (s : State) (k : Pid) : (s.evict (.anon k)).index = s.index := by
  unfold State.evict; split
  · rfl
  · rfl

theorem evict_index_conf {s : State} (h : IdxInv s.peers s.index) {k : Pid} {b : Bls}
    (hk : get k s.index = some b) : (s.evict (.conf b)).index = del k s.index := by
  obtain ⟨p, hp, hpk⟩ := h.idx k b hk
  unfold State.evict
  rw [hp]
  dsimp only
  unfold State.unindex
  rw [hpk]

theorem evict_index_none {s : State} (h : IdxInv s.peers s.index) {k : Pid} (id : Ident)
    (hk : get k s.index = none) : get k (s.evict id).index = none := by
  unfold State.evict
  split
  · next p hp =>
    dsimp only
    unfold State.unindex
    split
    · rw [get_del]; split
      · rfl
      · exact hk
    · exact hk
  · exact hk

/-- after evicting what an id resolves to, the id is free -/
theorem evict_current {s : State} (h : IdxInv s.peers s.index) (k : Pid) :
    get k (s.evict (s.identityFor k)).index = none ∧
      get (.anon k) (s.evict (s.identityFor k)).peers = none := by
  rcases s.identityFor_cases k with ⟨b, hb, hid⟩ | ⟨hn, hid⟩
  · rw [hid, evict_index_conf h hb, evict_peers, get_del_self]
    refine ⟨rfl, ?_⟩
    rw [get_del_ne (by simp)]
    cases hg : get (.anon k) s.peers with
    | none => rfl
    | some p => rw [h.anon k p hg] at hb; cases hb
  · rw [hid, evict_index_anon, evict_peers, get_del_self]
    exact ⟨hn, rfl⟩

theorem evict_free {s : State} (h : IdxInv s.peers s.index) {k : Pid} (id : Ident)
    (h1 : get k s.index = none) (h2 : get (.anon k) s.peers = none) :
    get k (s.evict id).index = none ∧ get (.anon k) (s.evict id).peers = none := by
  refine ⟨evict_index_none h id h1, ?_⟩
  rw [evict_peers, get_del]
  split
  · rfl
  · exact h2

theorem inv_addTrusted {s : State} (h : Inv E s) (c : Cfg) (b : Bls) (k : Pid) (now : Nat) :
    Inv E (s.addTrusted c b k now) := by
  unfold State.addTrusted
  dsimp only
  by_cases hc : s.identityFor k = .conf b
  · rw [if_pos hc, if_pos hc]
    have hfree := evict_current h.ix k
    rw [hc] at hfree
    constructor
    · dsimp only
      refine idx_insert (idx_evict h.ix (.conf b)) (k := k) (b := b) ?_ hfree.1 ?_ hfree.2 rfl
      · intro k'; rw [get_put]
      · rw [evict_peers, get_del_self]
    · dsimp only
      apply Bal.put
      rw [evict_peers]
      rw [del_eq_self (get_del_self _ _)]
      refine CtrInv.bal_unknown ?_ rfl
      exact ctr_release h.ix.nodup h.ct (.conf b)
  · rw [if_neg hc, if_neg hc]
    have hfree := evict_current h.ix k
    have h1 := idx_evict h.ix (s.identityFor k)
    have hfree2 := evict_free h1 (.conf b) hfree.1 hfree.2
    have h2 := idx_evict h1 (.conf b)
    constructor
    · dsimp only
      refine idx_insert h2 (k := k) (b := b) ?_ hfree2.1 ?_ hfree2.2 rfl
      · intro k'; rw [get_put]
      · rw [evict_peers, get_del_self]
    · dsimp only
      apply Bal.put
      rw [evict_peers]
      rw [del_eq_self (get_del_self _ _)]
      refine CtrInv.bal_unknown ?_ rfl
      apply ctr_release h1.nodup
      rw [evict_peers]
      exact ctr_release h.ix.nodup h.ct _

theorem retainWorse_same (p o : Peer) :
    (p.retainWorse o).status = p.status ∧ (p.retainWorse o).ips = p.ips ∧
      (p.retainWorse o).allow = p.allow := by
  unfold Peer.retainWorse; split <;> simp

theorem merge_key (c : Cfg) (k : Pid) (now : Nat) (m r : Option Peer) (ct : Counters) :
    (State.merge c k now m r ct).1.key = some k := by
  unfold State.merge
  split
  · rfl
  · rfl
  · rw [normalize_key]
  · rw [normalize_key]; rfl

theorem inv_upsert {s : State} (h : Inv E s) (c : Cfg) (b : Bls) (k : Pid) (now : Nat) :
    Inv E (s.upsert c b k now) := by
  unfold State.upsert
  dsimp only
  by_cases hc : s.identityFor k = .conf b
  · rw [if_pos hc, if_pos hc]
    have hfree := evict_current h.ix k
    rw [hc] at hfree
    have hkb : get k s.index = some b := by
      rcases s.identityFor_cases k with ⟨b', hb', hid⟩ | ⟨_, hid⟩
      · rw [hid] at hc; injection hc with hc; rw [← hc]; exact hb'
      · rw [hid] at hc; cases hc
    constructor
    · dsimp only
      rw [hc]
      have := idx_insert (idx_evict h.ix (.conf b)) (k := k) (b := b) (I' := put k b s.index)
        (p := (State.merge c k now (get (.conf b) s.peers) none s.ctr).1) ?_ hfree.1 ?_ hfree.2
        (merge_key _ _ _ _ _ _)
      · rw [evict_peers] at this; exact this
      · intro k'
        rw [get_put, evict_index_conf h.ix hkb, get_del]
        split <;> rfl
      · rw [evict_peers, get_del_self]
    · dsimp only
      rw [hc]
      apply Bal.put
      rw [del_eq_self (get_del_self _ _)]
      obtain ⟨p, hp, _⟩ := h.ix.idx k b hkb
      rw [hp]
      unfold State.merge
      dsimp only
      exact (h.ct.bal h.ix.nodup hp).congr rfl rfl
  · rw [if_neg hc, if_neg hc]
    have hcur : s.identityFor k ≠ .conf b := hc
    -- the state after both evictions
    have h1 := idx_evict h.ix (.conf b)
    have hidf : (s.evict (.conf b)).identityFor k = s.identityFor k := by
      rcases s.identityFor_cases k with ⟨b', hb', hid⟩ | ⟨hn, hid⟩
      · rw [hid] at hc
        obtain ⟨p, hp, hpk⟩ := h.ix.idx k b' hb'
        have hp' : get (.conf b') (s.evict (.conf b)).peers = some p := by
          rw [evict_peers, get_del_ne hc]; exact hp
        obtain ⟨k', hk', hi'⟩ := h1.conf b' p hp'
        have : k' = k := Option.some.inj (hk'.symm.trans hpk)
        subst this
        rw [hid]
        unfold State.identityFor
        rw [hi']
      · rw [hid]
        unfold State.identityFor
        rw [evict_index_none h.ix _ hn]
    have h2 := idx_evict h1 (s.identityFor k)
    have hfree := evict_current h1 k
    rw [hidf] at hfree
    constructor
    · dsimp only
      have := idx_insert h2 (k := k) (b := b) (I' := put k b (s.evict (.conf b)).index)
        (p := (State.merge c k now (get (s.identityFor k) (s.evict (.conf b)).peers)
          (get (.conf b) s.peers) s.ctr).1) ?_ hfree.1 ?_ hfree.2 (merge_key _ _ _ _ _ _)
      · rw [evict_peers (s.evict (.conf b))] at this; exact this
      · intro k'
        rw [get_put]
        by_cases hk' : k' = k
        · rw [if_pos hk', if_pos hk']
        · rw [if_neg hk', if_neg hk']
          rcases s.identityFor_cases k with ⟨b', hb', hid⟩ | ⟨hn, hid⟩
          · have hbe : get k (s.evict (.conf b)).index = some b' := by
              rcases (s.evict (.conf b)).identityFor_cases k with ⟨b2, hb2, hid2⟩ | ⟨hn2, hid2⟩
              · rw [hidf, hid] at hid2; injection hid2 with hid2; rw [hid2]; exact hb2
              · rw [hidf, hid] at hid2; cases hid2
            rw [hid, evict_index_conf h1 hbe, get_del_ne hk']
          · rw [hid, evict_index_anon]
      · rw [evict_peers, evict_peers, get_del]
        split
        · rfl
        · exact get_del_self _ _
    · dsimp only
      rw [evict_peers]
      apply Bal.put
      have hnn : get (.conf b) (del (s.identityFor k) (del (.conf b) s.peers)) = none := by
        rw [get_del]; split
        · rfl
        · exact get_del_self _ _
      rw [del_eq_self hnn]
      have hget : get (s.identityFor k) (del (.conf b) s.peers) = get (s.identityFor k) s.peers :=
        get_del_ne hcur _
      cases hr : get (.conf b) s.peers with
      | some r =>
        have hb1 : CtrInv E (del (.conf b) s.peers) (State.release r s.ctr) :=
          (h.ct.bal h.ix.nodup hr).release
        have hn1 := nodup_del (.conf b) h.ix.nodup
        cases hm : get (s.identityFor k) s.peers with
        | some m =>
          rw [hget, hm]
          unfold State.merge
          dsimp only
          rw [hm] at hget
          exact (hb1.bal hn1 hget).congr (retainWorse_same m r).1.symm
            (retainWorse_same m r).2.1.symm
        | none =>
          rw [hget, hm]
          unfold State.merge
          dsimp only
          rw [hm] at hget
          rw [del_eq_self hget]
          apply normalize_bal
          exact (h.ct.bal h.ix.nodup hr).congr rfl rfl
      | none =>
        rw [del_eq_self hr]
        cases hm : get (s.identityFor k) s.peers with
        | some m =>
          unfold State.merge
          dsimp only
          exact (h.ct.bal h.ix.nodup hm).congr rfl rfl
        | none =>
          unfold State.merge
          dsimp only
          rw [del_eq_self hm]
          apply normalize_bal
          exact h.ct.bal_unknown rfl

end Verif.Net
