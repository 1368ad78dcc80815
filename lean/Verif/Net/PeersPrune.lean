import Verif.Net.PeersIdx

/-!
# Pruning and committee updates keep the invariants
-/

namespace Verif.Net

open State

variable {E : Ip → Prop}

/-! ## The heap of `collect_excess_peers` -/

theorem heapInsert_perm (e : Nat × Ident × List Ip) (h : List (Nat × Ident × List Ip)) :
    (heapInsert e h).Perm (e :: h) := by
  induction h with
  | nil => exact List.Perm.refl _
  | cons x l ih =>
    rw [heapInsert]
    split
    · exact List.Perm.refl _
    · exact (ih.cons x).trans (List.Perm.swap _ _ _)

theorem heapInsert_sorted (e : Nat × Ident × List Ip) {h : List (Nat × Ident × List Ip)}
    (hs : h.Pairwise fun a b => b.1 ≤ a.1) : (heapInsert e h).Pairwise fun a b => b.1 ≤ a.1 := by
  induction h with
  | nil => rw [heapInsert]; exact List.pairwise_singleton _ _
  | cons x l ih =>
    rw [List.pairwise_cons] at hs
    rw [heapInsert]
    split
    · next hle =>
      refine List.pairwise_cons.mpr ⟨?_, List.pairwise_cons.mpr hs⟩
      intro a ha
      rcases List.mem_cons.mp ha with rfl | ha
      · exact hle
      · exact (hs.1 a ha).trans hle
    · next hlt =>
      refine List.pairwise_cons.mpr ⟨?_, ih hs.2⟩
      intro a ha
      rcases List.mem_cons.mp ((heapInsert_perm e l).mem_iff.mp ha) with rfl | ha
      · omega
      · exact hs.1 a ha

/-- what the heap holds after scanning `L`: the `excess` oldest entries -/
structure Oldest (excess : Nat) (L h rest : List (Nat × Ident × List Ip)) : Prop where
  perm : (h ++ rest).Perm L
  len : h.length = min excess L.length
  sorted : h.Pairwise fun a b => b.1 ≤ a.1
  old : ∀ x ∈ h, ∀ y ∈ rest, x.1 ≤ y.1

theorem heapStep_oldest {excess : Nat} {L h rest : List (Nat × Ident × List Ip)}
    (H : Oldest excess L h rest) (e : Nat × Ident × List Ip) :
    ∃ rest', Oldest excess (L ++ [e]) (heapStep excess h e) rest' := by
  unfold heapStep
  by_cases hlt : h.length < excess
  · rw [if_pos hlt]
    have hlen := H.perm.length_eq
    rw [List.length_append] at hlen
    have hl := H.len
    have hrest : rest = [] := List.eq_nil_of_length_eq_zero (by omega)
    subst hrest
    refine ⟨[], ⟨?_, ?_, heapInsert_sorted e H.sorted, by intro x _ y hy; cases hy⟩⟩
    · rw [List.append_nil]
      have hp := H.perm
      rw [List.append_nil] at hp
      exact ((heapInsert_perm e h).trans (hp.cons e)).trans
        (List.perm_append_singleton e L).symm
    · rw [(heapInsert_perm e h).length_eq, List.length_append]
      simp only [List.length_cons, List.length_nil] at *
      omega
  · rw [if_neg hlt]
    have hl := H.len
    have hlen := H.perm.length_eq
    rw [List.length_append] at hlen
    cases h with
    | nil =>
      refine ⟨e :: rest, ⟨?_, ?_, List.Pairwise.nil, by intro x hx; cases hx⟩⟩
      · have hp := H.perm
        rw [List.nil_append] at hp ⊢
        exact (hp.cons e).trans (List.perm_append_singleton e L).symm
      · rw [List.length_append]
        simp only [List.length_nil, List.length_cons] at *
        omega
    | cons newest tl =>
      dsimp only
      have hs := List.pairwise_cons.mp H.sorted
      by_cases hlt2 : e.1 < newest.1
      · rw [if_pos hlt2]
        refine ⟨newest :: rest, ⟨?_, ?_, heapInsert_sorted e hs.2, ?_⟩⟩
        · have h1 : (heapInsert e tl ++ newest :: rest).Perm ((e :: tl) ++ newest :: rest) :=
            (heapInsert_perm e tl).append_right _
          have h2 : ((e :: tl) ++ newest :: rest).Perm (e :: (newest :: tl ++ rest)) := by
            rw [List.cons_append]
            exact (List.perm_middle).cons e
          exact ((h1.trans h2).trans (H.perm.cons e)).trans
            (List.perm_append_singleton e L).symm
        · rw [(heapInsert_perm e tl).length_eq, List.length_append]
          simp only [List.length_cons, List.length_nil] at *
          omega
        · intro x hx y hy
          rcases List.mem_cons.mp ((heapInsert_perm e tl).mem_iff.mp hx) with rfl | hx'
          · rcases List.mem_cons.mp hy with rfl | hy
            · omega
            · have := H.old newest List.mem_cons_self y hy
              omega
          · rcases List.mem_cons.mp hy with rfl | hy
            · exact hs.1 x hx'
            · exact H.old x (List.mem_cons_of_mem _ hx') y hy
      · rw [if_neg hlt2]
        refine ⟨e :: rest, ⟨?_, ?_, H.sorted, ?_⟩⟩
        · have h2 : ((newest :: tl) ++ e :: rest).Perm (e :: (newest :: tl ++ rest)) :=
            List.perm_middle
          exact (h2.trans (H.perm.cons e)).trans (List.perm_append_singleton e L).symm
        · rw [List.length_append]
          simp only [List.length_cons, List.length_nil] at *
          omega
        · intro x hx y hy
          rcases List.mem_cons.mp hy with rfl | hy
          · rcases List.mem_cons.mp hx with rfl | hx
            · omega
            · have := hs.1 x hx
              omega
          · exact H.old x hx y hy

theorem foldl_oldest (excess : Nat) (L2 : List (Nat × Ident × List Ip)) :
    ∀ {L h rest : List (Nat × Ident × List Ip)}, Oldest excess L h rest →
      ∃ rest', Oldest excess (L ++ L2) (L2.foldl (heapStep excess) h) rest' := by
  induction L2 with
  | nil => intro L h rest H; rw [List.append_nil]; exact ⟨rest, H⟩
  | cons e L2 ih =>
    intro L h rest H
    obtain ⟨rest', H'⟩ := heapStep_oldest H e
    obtain ⟨rest'', H''⟩ := ih H'
    rw [List.append_assoc] at H''
    exact ⟨rest'', H''⟩

/-- `collect_excess_peers` returns the `excess` oldest candidates -/
theorem collectExcess_oldest (excess : Nat) (f : Status → Option Nat) (s : State) :
    ∃ rest, Oldest excess (candidates f s) (collectExcess excess f s) rest := by
  have H0 : Oldest excess [] [] [] :=
    ⟨List.Perm.refl _, by simp, List.Pairwise.nil, by intro x hx; cases hx⟩
  obtain ⟨rest, H⟩ := foldl_oldest excess (candidates f s) H0
  exact ⟨rest, by rw [List.nil_append] at H; exact H⟩

theorem mem_candidates {f : Status → Option Nat} {s : State} {e : Nat × Ident × List Ip} :
    e ∈ candidates f s ↔
      ∃ p, (e.2.1, p) ∈ s.peers ∧ f p.status = some e.1 ∧ e.2.2 = p.ips := by
  unfold candidates
  rw [List.mem_filterMap]
  constructor
  · rintro ⟨⟨id, p⟩, hm, hf⟩
    dsimp only at hf
    cases hfs : f p.status with
    | none => rw [hfs] at hf; cases hf
    | some t =>
      rw [hfs] at hf
      injection hf with hf
      subst hf
      exact ⟨p, hm, hfs, rfl⟩
  · rintro ⟨p, hm, hf, hi⟩
    refine ⟨(e.2.1, p), hm, ?_⟩
    dsimp only
    rw [hf]
    rcases e with ⟨t, id, ips⟩
    dsimp only at hi ⊢
    rw [hi]; rfl

theorem candidates_ids (f : Status → Option Nat) (P : List (Ident × Peer)) :
    ((P.filterMap fun e => (f e.2.status).map fun t => (t, e.1, e.2.ips)).map
      (fun e : Nat × Ident × List Ip => e.2.1)).Sublist (keys P) := by
  induction P with
  | nil => exact List.Sublist.refl _
  | cons e P ih =>
    unfold keys at ih ⊢
    rw [List.filterMap_cons]
    cases f e.2.status with
    | none => exact ih.cons _
    | some t => exact ih.cons_cons _

theorem candidates_length {f : Status → Option Nat} {q : Peer → Bool}
    (h : ∀ p : Peer, q p = (f p.status).isSome) (s : State) :
    (candidates f s).length = cnt q s.peers := by
  unfold candidates cnt
  induction s.peers with
  | nil => rfl
  | cons e P ih =>
    rw [List.filterMap_cons, List.countP_cons, h]
    cases hf : f e.2.status with
    | none => simpa using ih
    | some t => simp [ih]

/-- a victim list: different identities with their records -/
structure Victims (f : Status → Option Nat) (V : List (Nat × Ident × List Ip))
    (P : List (Ident × Peer)) : Prop where
  nodup : (V.map fun e => e.2.1).Nodup
  recd : ∀ e ∈ V, ∃ p, get e.2.1 P = some p ∧ f p.status = some e.1 ∧ e.2.2 = p.ips

theorem Victims.tail {f : Status → Option Nat} {e : Nat × Ident × List Ip}
    {V : List (Nat × Ident × List Ip)} {P : List (Ident × Peer)} (h : Victims f (e :: V) P) :
    Victims f V (del e.2.1 P) := by
  have hn := h.nodup
  rw [List.map_cons, List.nodup_cons] at hn
  refine ⟨hn.2, ?_⟩
  intro v hv
  obtain ⟨p, hp, h1, h2⟩ := h.recd v (List.mem_cons_of_mem _ hv)
  refine ⟨p, ?_, h1, h2⟩
  rw [get_del_ne]
  · exact hp
  · intro heq
    exact hn.1 (List.mem_map.mpr ⟨v, hv, heq⟩)

theorem collect_victims {s : State} (h : IdxInv s.peers s.index) (excess : Nat)
    (f : Status → Option Nat) : Victims f (collectExcess excess f s) s.peers := by
  obtain ⟨rest, H⟩ := collectExcess_oldest excess f s
  have hsub : (candidates f s).map (fun e => e.2.1) |>.Nodup :=
    h.nodup.sublist (candidates_ids f s.peers)
  have hsub2 : ((collectExcess excess f s ++ rest).map fun e => e.2.1).Nodup :=
    (H.perm.map _).nodup_iff.mpr hsub
  rw [List.map_append] at hsub2
  refine ⟨(List.nodup_append.mp hsub2).1, ?_⟩
  intro e he
  have hm : e ∈ candidates f s := H.perm.mem_iff.mp (List.mem_append_left _ he)
  obtain ⟨p, hp, h1, h2⟩ := mem_candidates.mp hm
  exact ⟨p, get_of_mem h.nodup hp, h1, h2⟩

/-- what remains after dropping victims -/
theorem foldl_drop_get (drop : State → Nat × Ident × List Ip → State)
    (hd : ∀ s e, (drop s e).peers = del e.2.1 s.peers) (id : Ident)
    (V : List (Nat × Ident × List Ip)) : ∀ s : State,
      get id (V.foldl drop s).peers =
        if id ∈ V.map (fun e => e.2.1) then none else get id s.peers := by
  induction V with
  | nil => intro s; rfl
  | cons e V ih =>
    intro s
    rw [List.foldl_cons, ih, hd, get_del, List.map_cons]
    by_cases h1 : id ∈ V.map (fun e => e.2.1)
    · rw [if_pos h1, if_pos (List.mem_cons_of_mem _ h1)]
    · rw [if_neg h1]
      by_cases h2 : id = e.2.1
      · rw [if_pos h2, if_pos (by rw [h2]; exact List.mem_cons_self)]
      · rw [if_neg h2, if_neg]
        intro hm
        rcases List.mem_cons.mp hm with h | h
        · exact h2 h
        · exact h1 h

theorem dropDisc_peers (s : State) (e : Nat × Ident × List Ip) :
    (dropDisc s e).peers = del e.2.1 s.peers := evict_peers s _

theorem dropBanned_peers (s : State) (e : Nat × Ident × List Ip) :
    (dropBanned s e).peers = del e.2.1 s.peers := evict_peers s _

theorem foldl_dropDisc (V : List (Nat × Ident × List Ip)) : ∀ {s : State}, Inv E s →
    Victims disconnectedAt V s.peers →
    Inv E (V.foldl dropDisc s) ∧ (V.foldl dropDisc s).ctr.disc = s.ctr.disc - V.length ∧
      (V.foldl dropDisc s).ctr.total = s.ctr.total := by
  induction V with
  | nil => intro s h _; exact ⟨h, rfl, rfl⟩
  | cons e V ih =>
    intro s h hv
    rw [List.foldl_cons]
    obtain ⟨p, hp, hst, hips⟩ := hv.recd e List.mem_cons_self
    have hrel : State.release p s.ctr = s.ctr.decDisc := by
      unfold disconnectedAt at hst
      unfold State.release
      split at hst
      · next t heq => rw [heq]
      · cases hst
    have h1 : Inv E (dropDisc s e) := by
      constructor
      · exact idx_evict h.ix e.2.1
      · have := (h.ct.bal h.ix.nodup hp).release
        rw [hrel] at this
        rw [dropDisc_peers]
        exact this
    have h2 := ih h1 (by rw [dropDisc_peers]; exact hv.tail)
    refine ⟨h2.1, ?_, ?_⟩
    · rw [h2.2.1]
      have : (dropDisc s e).ctr.disc = s.ctr.disc - 1 := rfl
      rw [this, List.length_cons]; omega
    · rw [h2.2.2]; rfl

theorem foldl_dropBanned (V : List (Nat × Ident × List Ip)) : ∀ {s : State}, Inv E s →
    Victims bannedAt V s.peers →
    Inv E (V.foldl dropBanned s) ∧ (V.foldl dropBanned s).ctr.total = s.ctr.total - V.length ∧
      (V.foldl dropBanned s).ctr.disc = s.ctr.disc := by
  induction V with
  | nil => intro s h _; exact ⟨h, rfl, rfl⟩
  | cons e V ih =>
    intro s h hv
    rw [List.foldl_cons]
    obtain ⟨p, hp, hst, hips⟩ := hv.recd e List.mem_cons_self
    have hrel : State.release p s.ctr = s.ctr.removeBanned e.2.2 := by
      unfold bannedAt at hst
      unfold State.release
      split at hst
      · next t heq => rw [heq, hips]
      · cases hst
    have h1 : Inv E (dropBanned s e) := by
      constructor
      · exact idx_evict h.ix e.2.1
      · have := (h.ct.bal h.ix.nodup hp).release
        rw [hrel] at this
        rw [dropBanned_peers]
        exact this
    have h2 := ih h1 (by rw [dropBanned_peers]; exact hv.tail)
    refine ⟨h2.1, ?_, ?_⟩
    · rw [h2.2.1]
      have : (dropBanned s e).ctr.total = s.ctr.total - 1 := rfl
      rw [this, List.length_cons]; omega
    · rw [h2.2.2]; rfl

theorem pruneDisconnected_inv {s : State} (h : Inv E s) (c : Cfg) :
    Inv E (s.pruneDisconnected c) ∧ (s.pruneDisconnected c).ctr.disc ≤ c.maxDisc ∧
      (s.pruneDisconnected c).ctr.total = s.ctr.total := by
  unfold State.pruneDisconnected
  obtain ⟨h1, h2, h3⟩ := foldl_dropDisc _ h
    (collect_victims h.ix (s.ctr.disc - c.maxDisc) disconnectedAt)
  refine ⟨h1, ?_, h3⟩
  rw [h2]
  obtain ⟨rest, H⟩ := collectExcess_oldest (s.ctr.disc - c.maxDisc) disconnectedAt s
  have hl := H.len
  rw [candidates_length (q := isDisc)] at hl
  · rw [← h.ct.disc] at hl; omega
  · intro p; unfold isDisc disconnectedAt; split <;> simp_all

theorem pruneBanned_inv {s : State} (h : Inv E s) (c : Cfg) :
    Inv E (s.pruneBanned c) ∧ (s.pruneBanned c).ctr.total ≤ c.maxBanned ∧
      (s.pruneBanned c).ctr.disc = s.ctr.disc := by
  unfold State.pruneBanned
  obtain ⟨h1, h2, h3⟩ := foldl_dropBanned _ h
    (collect_victims h.ix (s.ctr.total - c.maxBanned) bannedAt)
  refine ⟨h1, ?_, h3⟩
  rw [h2]
  obtain ⟨rest, H⟩ := collectExcess_oldest (s.ctr.total - c.maxBanned) bannedAt s
  have hl := H.len
  rw [candidates_length (q := isBan)] at hl
  · rw [← h.ct.total] at hl; omega
  · intro p; unfold isBan bannedAt; split <;> simp_all

theorem inv_registerDisconnected {s : State} (h : Inv E s) (c : Cfg) (pid : Pid) (now : Nat) :
    Inv E (s.registerDisconnected c pid now).1 ∧
      (s.registerDisconnected c pid now).1.ctr.disc ≤ c.maxDisc ∧
      (s.registerDisconnected c pid now).1.ctr.total ≤ c.maxBanned := by
  unfold State.registerDisconnected
  dsimp only
  have h1 := inv_updateStatus h c pid .disconnected now (by intro b hb; cases hb)
  obtain ⟨h2, h3, _⟩ := pruneDisconnected_inv h1 c
  obtain ⟨h4, h5, h6⟩ := pruneBanned_inv h2 c
  exact ⟨h4, by rw [h6]; exact h3, h5⟩

/-! ## Committees -/

/-- the addresses of every record -/
def sameIps (s s' : State) : Prop :=
  ∀ id, (get id s'.peers).map Peer.ips = (get id s.peers).map Peer.ips

theorem transition_unbanned_ips (now : Nat) (p : Peer) (c : Counters) :
    (transition now .unbanned p c).1.ips = p.ips := by
  rcases p with ⟨k, sc, ips, st, al⟩
  cases st <;> simp [transition, handleUnbanned]
  split <;> simp_all

/-- an id whose record is known, and its identity -/
theorem identityFor_key {s : State} (h : IdxInv s.peers s.index) {b : Bls} {p : Peer} {k : Pid}
    (hp : get (.conf b) s.peers = some p) (hk : p.key = some k) : s.identityFor k = .conf b := by
  obtain ⟨k', hk', hi⟩ := h.conf b p hp
  have : k' = k := Option.some.inj (hk'.symm.trans hk)
  subst this
  unfold State.identityFor
  rw [hi]

theorem updateStatus_peers {s : State} (h : IdxInv s.peers s.index) (c : Cfg) (pid : Pid)
    (n : NewStatus) (now : Nat) :
    (s.updateStatus c pid n now).1 =
      { s with
        peers := put (s.identityFor pid)
          (transition now n (s.ensured c (s.identityFor pid) n now) s.ctr).1 s.peers
        ctr := (transition now n (s.ensured c (s.identityFor pid) n now) s.ctr).2.1 } := by
  unfold State.updateStatus
  rw [healed_eq h]

theorem unban_sameIps {s : State} (h : IdxInv s.peers s.index) (c : Cfg) {b : Bls} {p : Peer}
    {k : Pid} (hp : get (.conf b) s.peers = some p) (hk : p.key = some k) (now : Nat) :
    sameIps s (s.updateStatus c k .unbanned now).1 := by
  intro id
  rw [updateStatus_peers h]
  dsimp only
  rw [identityFor_key h hp hk, get_put]
  split
  · next heq =>
    rw [heq, hp]
    simp only [Option.map_some]
    rw [transition_unbanned_ips, (ensured_status c s _ .unbanned now hp).2.1]
  · rfl

theorem prime_sameIps (s : State) (c : Cfg) (b : Bls) (now : Nat) :
    sameIps s (s.prime c b now) := by
  intro id
  unfold State.prime
  split
  · rfl
  · next p hp =>
    dsimp only
    rw [get_put]
    split
    · next heq => rw [heq, hp]; rfl
    · rfl

theorem applyMember_sameIps {s : State} (h : IdxInv s.peers s.index) (c : Cfg) (b : Bls)
    (now : Nat) : sameIps s (s.applyMember c now b) := by
  intro id
  unfold State.applyMember
  split
  · rfl
  · next p hp =>
    split
    · rfl
    · next k hk =>
      dsimp only
      rw [prime_sameIps]
      split
      · exact unban_sameIps h c hp hk now id
      · rfl

theorem inv_prime {s : State} (h : Inv E s) (c : Cfg) (b : Bls) (now : Nat)
    (hE : ∀ p, get (.conf b) s.peers = some p → ∀ ip ∈ p.ips, ¬ E ip) :
    Inv E (s.prime c b now) := by
  unfold State.prime
  split
  · exact h
  · next p hp =>
    obtain ⟨h1, h2⟩ := put_score h.ix h.ct (p' := { p with score := Score.newMax c.toScoreCfg now })
      hp rfl rfl rfl
    refine ⟨h1, ⟨h2.disc, h2.total, ?_, ?_⟩⟩
    · intro ip
      dsimp only [Counters.removeValidatorIp]
      split
      · exact Nat.zero_le _
      · exact h2.le ip
    · intro ip hEi
      dsimp only [Counters.removeValidatorIp]
      rw [if_neg (fun hm => hE p hp ip hm hEi)]
      exact h2.ex ip hEi

theorem inv_applyMember {s : State} (h : Inv E s) (c : Cfg) (b : Bls) (now : Nat)
    (hE : ∀ p, get (.conf b) s.peers = some p → ∀ ip ∈ p.ips, ¬ E ip) :
    Inv E (s.applyMember c now b) := by
  unfold State.applyMember
  split
  · exact h
  · next p hp =>
    split
    · exact h
    · next k hk =>
      dsimp only
      split
      · apply inv_prime (inv_updateStatus h c k .unbanned now (by intro b hb; cases hb))
        intro q hq ip hip
        have := unban_sameIps h.ix c hp hk now (.conf b)
        rw [hq, hp] at this
        injection this with this
        exact hE p hp ip (by rw [← this]; exact hip)
      · exact inv_prime h c b now hE

theorem inv_applyMembers (c : Cfg) (ms : List Bls) (now : Nat) : ∀ {s : State}, Inv E s →
    (∀ b ∈ ms, ∀ p, get (.conf b) s.peers = some p → ∀ ip ∈ p.ips, ¬ E ip) →
    Inv E (s.applyMembers c ms now) := by
  induction ms with
  | nil => intro s h _; exact h
  | cons b ms ih =>
    intro s h hE
    unfold State.applyMembers at ih ⊢
    rw [List.foldl_cons]
    apply ih (inv_applyMember h c b now (hE b List.mem_cons_self))
    intro b' hb' p hp ip hip
    have := applyMember_sameIps h.ix c b now (.conf b')
    rw [hp] at this
    cases hq : get (.conf b') s.peers with
    | none => rw [hq] at this; cases this
    | some q =>
      rw [hq] at this
      injection this with this
      exact hE b' (List.mem_cons_of_mem _ hb') q hq ip (by rw [← this]; exact hip)

end Verif.Net
