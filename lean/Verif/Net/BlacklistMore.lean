import Verif.Net.Blacklist
import Verif.Net.PeersMore

/-!
# C59: who is on the gossip blacklist, and who stays there

Histories of the peer manager (`Blacklist.lean`) with the remaining calls: a graceful disconnect,
a trusted peer added by the operator, the forgiveness of a committee, and calls that only change
the table.
-/

namespace Verif.Net.Mgr

open State

/-- `temporarily_banned.remove` (`manager.rs:171, 779`): no event -/
def M.forgive (pid : Pid) (m : M) : M :=
  match m.temp.remove pid with
  | some (c', _) => { m with temp := c' }
  | none => m

/-- `add_trusted_peer_and_dial` (`manager.rs:160-179`) without the dial -/
def M.trusted (c : Cfg) (b : Bls) (k : Pid) (now : Nat) (m : M) : M :=
  M.forgive k { m with peers := m.peers.addTrusted c b k now }

/-- `disconnect_peer` (`manager.rs:511-528`) -/
def M.disconnect (c : Cfg) (pid : Pid) (now : Nat) (m : M) : M :=
  let r := updateStatus c pid (.disconnecting false) now m.peers
  M.apply pid r.2 now { m with peers := r.1 }

/-- the calls of the manager.  `table`: a call that only changes the table, with the peers it
reports as unbanned (any list; for the committee calls, those that are not in a time-out, see
`M.forgive`) -/
inductive MOp where
  | penalty (pid : Pid) (p : Penalty)
  | closed (pid : Pid)
  | heartbeat
  | disconnect (pid : Pid)
  | table (o : Op) (unbans : List Pid)

/-- one call -/
def MOp.run (c : Cfg) (now : Nat) (m : M) : MOp → M
  | .penalty pid p => m.penalty c pid p now
  | .closed pid => m.closed c pid now
  | .heartbeat => m.heartbeat c now
  | .disconnect pid => m.disconnect c pid now
  | .table o us => ({ m with peers := o.run c now m.peers } : M).unblack us

/-- a history -/
def runM (c : Cfg) : List (Nat × MOp) → M → M
  | [], m => m
  | (t, o) :: l, m => runM c l (o.run c t m)

/-- times do not run backwards, from `now` on -/
def Clock : Nat → List (Nat × MOp) → Prop
  | _, [] => True
  | now, (t, _) :: l => now ≤ t ∧ Clock t l

/-! ### Effects of single calls -/

theorem unblack_sub (pids : List Pid) (m : M) {p : Pid} (h : p ∈ (m.unblack pids).black) :
    p ∈ m.black ∧ p ∉ pids := by
  unfold M.unblack at h
  rw [List.mem_filter] at h
  exact ⟨h.1, by simpa using h.2⟩

theorem mem_unblack {pids : List Pid} {m : M} {p : Pid} (h : p ∈ m.black) (hn : p ∉ pids) :
    p ∈ (m.unblack pids).black := by
  unfold M.unblack
  rw [List.mem_filter]
  exact ⟨h, by simpa using hn⟩

/-- **C59 (the end of a ban clears the blacklist).** -/
theorem unban_unblacks (pid : Pid) (now : Nat) (m : M) : pid ∉ (m.apply pid .unban now).black := by
  intro h
  exact (unblack_sub [pid] m h).2 List.mem_cons_self

/-- **C59 (a forgotten ban clears the blacklist).**  After any history of the table: a banned
peer that is forgotten for lack of room when another connection closes is taken off the
blacklist. -/
theorem forgotten_unblacked {c : Cfg} {l : List (Nat × Op)} (hl : Legal c l State.init)
    {temp : TempBan.Cache} {black : List Pid} {pid pid' : Pid} {now t : Nat} {p' : Peer}
    (hg : (runOps c l State.init).getPeer pid' = some p') (hst : p'.status = .banned t)
    (hne : (runOps c l State.init).identityFor pid ≠ (runOps c l State.init).identityFor pid')
    (hgone : get ((runOps c l State.init).identityFor pid')
      (M.closed c pid now ⟨runOps c l State.init, temp, black⟩).peers.peers = none) :
    pid' ∉ (M.closed c pid now ⟨runOps c l State.init, temp, black⟩).black := by
  have h := reach_inv hl
  revert hg h hne hgone
  generalize runOps c l State.init = s
  intro hg hne hgone h hin
  have h1 := inv_updateStatus h c pid .disconnected now (by intro b hb; cases hb)
  have hg1 : get (s.identityFor pid') (s.updateStatus c pid .disconnected now).1.peers = some p' := by
    rw [get_updateStatus h.ix, if_neg (Ne.symm hne)]; exact hg
  obtain ⟨h2, _, _⟩ := pruneDisconnected_inv h1 c
  have hk := (prune_keeps h1.ix c hg1).1 (by intro t' ht'; rw [hst] at ht'; cases ht')
  have hpeers : (M.closed c pid now ⟨s, temp, black⟩).peers =
      pruneBanned c (pruneDisconnected c (s.updateStatus c pid .disconnected now).1) := by
    unfold M.closed M.apply M.unblack M.tempBan
    dsimp only
    split <;> (try split) <;> rfl
  rw [hpeers] at hgone
  have hx := (unblack_sub _ _ hin).2
  apply hx
  unfold State.pruneBanned at hgone
  rw [foldl_drop_get dropBanned dropBanned_peers] at hgone
  have hv : s.identityFor pid' ∈ (collectExcess
      ((pruneDisconnected c (s.updateStatus c pid .disconnected now).1).ctr.total - c.maxBanned) bannedAt
      (pruneDisconnected c (s.updateStatus c pid .disconnected now).1)).map fun e => e.2.1 := by
    by_contra hno
    rw [if_neg hno, hk] at hgone
    cases hgone
  obtain ⟨v, hv, hvid⟩ := List.mem_map.mp hv
  rw [List.mem_filterMap]
  refine ⟨v, hv, ?_⟩
  rw [hvid, hk]
  dsimp only [Option.bind]
  rcases s.identityFor_cases pid' with ⟨b, hb, hid⟩ | ⟨_, hid⟩
  · obtain ⟨p, hp, hkk⟩ := h.ix.idx _ _ hb
    unfold State.getPeer at hg
    rw [hid] at hg ⊢
    rw [hp] at hg
    injection hg with hg
    subst hg
    exact hkk
  · rw [hid]; rfl

/-! ### The blacklist lasts no longer than the time-outs -/

/-- every blacklisted peer is in the time-out -/
structure BInv (m : M) (now : Nat) : Prop where
  temp : TempBan.Inv m.temp
  past : TempBan.Past m.temp now
  sub : ∀ p ∈ m.black, ∃ t, (p, t) ∈ m.temp.list

theorem BInv.mono {m : M} {a b : Nat} (h : BInv m a) (hab : a ≤ b) : BInv m b :=
  ⟨h.temp, TempBan.past_mono h.past hab, h.sub⟩

theorem BInv.unblack {m : M} {now : Nat} (h : BInv m now) (pids : List Pid) : BInv (m.unblack pids) now :=
  ⟨h.temp, h.past, fun p hp => h.sub p (unblack_sub _ _ hp).1⟩

theorem BInv.tempBan {m : M} {now : Nat} (h : BInv m now) (pid : Pid) :
    BInv (m.tempBan pid now) now ∧ ∃ t, (pid, t) ∈ (m.tempBan pid now).temp.list := by
  obtain ⟨c', nw, ev, he, h1, h2, _, _, h5, h6, _⟩ := TempBan.insert_spec h.temp h.past pid
  have hm : m.tempBan pid now = ({ m with temp := c' } : M).unblack ev.toList := by
    unfold M.tempBan; rw [he]
  rw [hm]
  refine ⟨⟨h1, h2, ?_⟩, now, h5⟩
  intro p hp
  obtain ⟨hb, hnot⟩ := unblack_sub _ _ hp
  obtain ⟨t, ht⟩ := h.sub p hb
  by_cases hpk : p = pid
  · exact ⟨now, by rw [hpk]; exact h5⟩
  · refine ⟨t, (h6 (p, t)).mpr (.inr ⟨ht, hpk, ?_⟩)⟩
    intro hev
    rw [hev] at hnot
    exact hnot (by simp)

theorem BInv.apply {m : M} {now : Nat} (h : BInv m now) (pid : Pid) (a : Action) : BInv (m.apply pid a now) now := by
  cases a with
  | none => exact h
  | unban => exact h.unblack _
  | disconnect => exact (h.tempBan pid).1
  | disconnectPx => exact (h.tempBan pid).1
  | ban =>
    obtain ⟨h1, h2⟩ := h.tempBan pid
    refine ⟨h1.temp, h1.past, ?_⟩
    intro p hp
    rcases List.mem_cons.mp hp with rfl | hp
    · exact h2
    · exact h1.sub p hp

theorem BInv.peers {m : M} {now : Nat} (h : BInv m now) (s : State) : BInv { m with peers := s } now :=
  ⟨h.temp, h.past, h.sub⟩

theorem BInv.heartbeat {m : M} {now : Nat} (h : BInv m now) (c : Cfg) : BInv (m.heartbeat c now) now := by
  unfold M.heartbeat
  dsimp only
  have h1 := (h.peers (m.peers.heartbeat c now)).unblack
    ((unbannedBy c now (m.peers.dialled c now)).filter fun pid => m.peers.pidBanned pid)
  revert h1
  generalize M.unblack _ _ = m1
  intro h1
  obtain ⟨g1, g2, _, _, g5, g6⟩ := TempBan.heartbeat_spec h1.temp h1.past
  refine ⟨g1, g2, ?_⟩
  intro p hp
  obtain ⟨hb, hnot⟩ := unblack_sub _ _ hp
  obtain ⟨t, ht⟩ := h1.sub p hb
  refine ⟨t, (g5 (p, t)).mpr ⟨ht, ?_⟩⟩
  rcases Nat.lt_or_ge now (t + m1.temp.dur) with hlt | hge
  · exact hlt
  · exact absurd ((g6 p).mpr ⟨t, ht, hge⟩) hnot

theorem BInv.run {m : M} {now : Nat} (h : BInv m now) (c : Cfg) (o : MOp) : BInv (o.run c now m) now := by
  cases o with
  | penalty pid p => exact (h.peers _).apply pid _
  | closed pid => exact ((h.peers _).apply pid _).unblack _
  | heartbeat => exact h.heartbeat c
  | disconnect pid => exact (h.peers _).apply pid _
  | table o us => exact (h.peers _).unblack us

theorem BInv.runM (c : Cfg) : ∀ (l : List (Nat × MOp)) {m : M} {now : Nat}, BInv m now → Clock now l →
    ∃ t, now ≤ t ∧ (∀ e ∈ l, e.1 ≤ t) ∧ BInv (runM c l m) t
  | [], _, now, h, _ => ⟨now, Nat.le_refl _, (by simp), h⟩
  | (t, o) :: l, _, _, h, hc => by
    obtain ⟨u, hu, hl, hi⟩ := BInv.runM c l ((h.mono hc.1).run c o) hc.2
    refine ⟨u, Nat.le_trans hc.1 hu, ?_, hi⟩
    intro e he
    rcases List.mem_cons.mp he with rfl | he
    · exact hu
    · exact hl e he

/-- **C59 (the blacklist lasts no longer than the time-out).**  After any history of penalties,
closed connections, heartbeats, disconnects and table changes from a fresh start, every
blacklisted peer is in a reconnection time-out, so at most as many peers as the cap are
blacklisted and each is released when its time-out ends. -/
theorem blacklist_in_timeout (c : Cfg) (dur n : Nat) (l : List (Nat × MOp)) (hc : Clock 0 l) {p : Pid}
    (hp : p ∈ (runM c l ⟨State.init, TempBan.Cache.new dur n, []⟩).black) :
    (runM c l ⟨State.init, TempBan.Cache.new dur n, []⟩).temp.contains p = true := by
  have h0 : BInv ⟨State.init, TempBan.Cache.new dur n, []⟩ 0 :=
    ⟨TempBan.inv_new dur n, (by intro e he; cases he), (by intro p hp; cases hp)⟩
  obtain ⟨_, _, _, h⟩ := h0.runM c l hc
  exact (TempBan.contains_iff h.temp p).mpr (h.sub p hp)

/-! ### Finding: a forgiven peer stays on the blacklist -/

/-- later calls: heartbeats, penalties and connections, of anyone -/
inductive Later : MOp → Prop
  | heartbeat : Later .heartbeat
  | penalty (pid : Pid) (p : Penalty) : Later (.penalty pid p)
  | connected (pid : Pid) (ip : Option Ip) : Later (.table (.connected pid ip) [])

/-- the state of an operator's peer that was on the blacklist when it was added -/
structure Leaked (b : Bls) (k : Pid) (m : M) (now : Nat) : Prop where
  inv : Inv (fun _ => False) m.peers
  temp : TempBan.Inv m.temp
  past : TempBan.Past m.temp now
  out : ∀ t, (k, t) ∉ m.temp.list
  black : k ∈ m.black
  idx : m.peers.identityFor k = .conf b
  rcd : ∃ p, get (.conf b) m.peers.peers = some p ∧ p.allow = true ∧
    (p.status = .unknown ∨ p.status = .connected)

theorem leaked_tempBan {b : Bls} {k : Pid} {m : M} {now : Nat} (h : Leaked b k m now) {pid : Pid}
    (hne : pid ≠ k) : Leaked b k (m.tempBan pid now) now := by
  obtain ⟨c', nw, ev, he, h1, h2, _, _, h5, h6, h7⟩ := TempBan.insert_spec h.temp h.past pid
  have hm : m.tempBan pid now = ({ m with temp := c' } : M).unblack ev.toList := by
    unfold M.tempBan; rw [he]
  rw [hm]
  refine ⟨h.inv, h1, h2, ?_, ?_, h.idx, h.rcd⟩
  · intro t ht
    rcases (h6 (k, t)).mp ht with hx | ⟨hx, _⟩
    · injection hx with hx _; exact hne hx.symm
    · exact h.out t hx
  · refine mem_unblack (m := { m with temp := c' }) h.black ?_
    intro hin
    have hev : ev = some k := by simpa using hin
    obtain ⟨_, _, _, t, ht, _⟩ := h7 k hev
    exact h.out t ht

theorem leaked_apply {b : Bls} {k : Pid} {m : M} {now : Nat} (h : Leaked b k m now) {pid : Pid}
    (hne : pid ≠ k) (a : Action) : Leaked b k (m.apply pid a now) now := by
  cases a with
  | none => exact h
  | unban => exact ⟨h.inv, h.temp, h.past, h.out, mem_unblack h.black (by simpa using hne.symm), h.idx, h.rcd⟩
  | disconnect => exact leaked_tempBan h hne
  | disconnectPx => exact leaked_tempBan h hne
  | ban =>
    have h1 := leaked_tempBan h hne
    exact ⟨h1.inv, h1.temp, h1.past, h1.out, List.mem_cons_of_mem _ h1.black, h1.idx, h1.rcd⟩

theorem leaked_run {b : Bls} {k : Pid} {m : M} {now : Nat} (h : Leaked b k m now) (c : Cfg) {o : MOp}
    (ho : Later o) : Leaked b k (o.run c now m) now := by
  obtain ⟨p, hp, hal, hst⟩ := h.rcd
  have hex : m.peers.exemption (.conf b) p = true := by
    unfold State.exemption; dsimp only; rw [hal, Bool.or_true]
  cases ho with
  | penalty pid pen =>
    have hinv := inv_run h.inv c now (.penalty pid pen) trivial fun _ h => h.elim
    dsimp only [Op.run] at hinv
    dsimp only [MOp.run]
    unfold M.penalty
    dsimp only
    by_cases hid : m.peers.identityFor pid = .conf b
    · have hgp : m.peers.getPeer pid = some p := by unfold State.getPeer; rw [hid]; exact hp
      obtain ⟨e1, e2, e3, e4⟩ := get_penalty_exempt c pid pen now hgp (by rw [hid]; exact hex)
      rw [e4]
      show Leaked b k { m with peers := (m.peers.penalty c pid pen now).1 } now
      exact ⟨hinv, h.temp, h.past, h.out, h.black,
        (identityFor_congr e3 k).trans h.idx, p, (e1 _).trans hp, hal, hst⟩
    · have hne : pid ≠ k := by rintro rfl; exact hid h.idx
      refine leaked_apply (m := { m with peers := (m.peers.penalty c pid pen now).1 })
        ⟨hinv, h.temp, h.past, h.out, h.black, ?_, p, ?_, hal, hst⟩ hne _
      · have hix : (m.peers.penalty c pid pen now).1.index = m.peers.index := by
          have hi := h.inv
          unfold State.penalty
          dsimp only
          split
          · rfl
          · next q hq =>
            obtain ⟨h1, h2, h3, _⟩ := applyPenalty_same c.toScoreCfg pen
              (m.peers.exemption (m.peers.identityFor pid) q) q
            obtain ⟨hi', _⟩ := put_score hi.ix hi.ct hq h1 h2 h3
            split
            · rfl
            · split
              · rw [updateStatus_peers hi']
              · rfl
        exact (identityFor_congr hix k).trans h.idx
      · show get (.conf b) (m.peers.penalty c pid pen now).1.peers = some p
        rw [get_penalty_other h.inv c pid pen now (Ne.symm hid)]; exact hp
  | connected pid ip =>
    have hinv := inv_run h.inv c now (.connected pid ip) trivial fun _ h => h.elim
    dsimp only [MOp.run, Op.run] at hinv ⊢
    refine ⟨hinv, h.temp, h.past, h.out, mem_unblack h.black (by simp), ?_, ?_⟩
    · have hix : (m.peers.updateStatus c pid (.connected ip) now).1.index = m.peers.index := by
        rw [updateStatus_peers h.inv.ix]
      exact (identityFor_congr hix k).trans h.idx
    · show ∃ p, get (.conf b) (m.peers.updateStatus c pid (.connected ip) now).1.peers = some p ∧ _
      rw [get_updateStatus h.inv.ix]
      split
      · next he =>
        rw [ensured_noBan c m.peers _ now rfl (by rw [← he]; exact hp)]
        exact ⟨_, rfl, hal, .inr rfl⟩
      · exact ⟨p, hp, hal, hst⟩
  | heartbeat =>
    have hinv := inv_run h.inv c now .heartbeat trivial fun _ h => h.elim
    dsimp only [MOp.run, Op.run] at hinv ⊢
    have hnd : ∀ p' t, get (.conf b) m.peers.peers = some p' → p'.status ≠ .dialing t := by
      intro p' t hp' hd
      rw [hp] at hp'; injection hp' with hp'; subst hp'
      rcases hst with hst | hst <;> (rw [hst] at hd; cases hd)
    have hget := heartbeat_get h.inv c now hnd (by
      intro p' hp'
      rw [hp] at hp'; injection hp' with hp'; subst hp'
      unfold Peer.heartbeatUnbans
      rw [hex]; rfl)
    rw [hp] at hget
    dsimp only [Option.map] at hget
    rw [hex] at hget
    have hix : (m.peers.heartbeat c now).index = m.peers.index := by
      rw [heartbeat_eq, updateMany_index (by intro b hb; cases hb) _
        (inv_decayAll (inv_dialled h.inv c now) c now)]
      exact updateMany_index (by intro b hb; cases hb) _ h.inv
    have hnot : k ∉ (unbannedBy c now (m.peers.dialled c now)).filter fun pid => m.peers.pidBanned pid := by
      intro hin
      obtain ⟨q, hq, hu⟩ := mem_unbannedBy (inv_dialled h.inv c now).ix (List.mem_of_mem_filter hin)
      have hidd : (m.peers.dialled c now).identityFor k = .conf b :=
        (identityFor_congr (updateMany_index (by intro b hb; cases hb) _ h.inv) k).trans h.idx
      rw [hidd] at hq hu
      rw [dialled_get h.inv c now hnd, hp] at hq
      injection hq with hq
      subst hq
      unfold Peer.heartbeatUnbans at hu
      rw [exemption_dialled h.inv, hex] at hu
      cases hu
    have h1 : k ∈ (({ m with peers := m.peers.heartbeat c now } : M).unblack
        ((unbannedBy c now (m.peers.dialled c now)).filter fun pid => m.peers.pidBanned pid)).black :=
      mem_unblack (m := { m with peers := m.peers.heartbeat c now }) h.black hnot
    obtain ⟨g1, g2, _, _, g5, g6⟩ := TempBan.heartbeat_spec h.temp h.past
    refine ⟨hinv, g1, g2, ?_, ?_, (identityFor_congr hix k).trans h.idx, p, hget, hal, hst⟩
    · intro t ht; exact h.out t ((g5 _).mp ht).1
    · unfold M.heartbeat
      dsimp only
      apply mem_unblack
      · exact h1
      · intro hin
        obtain ⟨t, ht, _⟩ := (g6 k).mp hin
        exact h.out t ht

/-- **C59 (finding: a trusted peer stays on the blacklist).**  A peer that is on the gossip
blacklist when the operator adds it as a trusted peer is forgiven everywhere else - it is not in
a time-out and not banned - but no event takes it off the blacklist: it is still there after any
number of heartbeats, connections and penalties. -/
theorem trusted_stays_blacklisted {c : Cfg} {l : List (Nat × Op)} (hl : Legal c l State.init)
    {temp : TempBan.Cache} {black : List Pid} {b : Bls} {k : Pid} {now : Nat} (ht : TempBan.Inv temp)
    (hp : TempBan.Past temp now) (hb : k ∈ black) (later : List (Nat × MOp)) (hlater : ∀ e ∈ later, Later e.2)
    (hc : Clock now later) :
    k ∈ (runM c later (M.trusted c b k now ⟨runOps c l State.init, temp, black⟩)).black ∧
    (M.trusted c b k now ⟨runOps c l State.init, temp, black⟩).temp.contains k = false := by
  have h := reach_inv hl
  revert h
  generalize runOps c l State.init = s
  intro h
  have h0 : Leaked b k (M.trusted c b k now ⟨s, temp, black⟩) now := by
    obtain ⟨c', n, he, h1, h2, _, _, h5⟩ := TempBan.remove_spec ht hp k
    have hm : M.trusted c b k now ⟨s, temp, black⟩ = ⟨s.addTrusted c b k now, c', black⟩ := by
      unfold M.trusted M.forgive
      dsimp only
      rw [he]
    rw [hm]
    refine ⟨inv_addTrusted h c b k now, h1, h2, ?_, hb, ?_, Peer.newTrusted c.toScoreCfg k now, ?_, rfl, .inl rfl⟩
    · intro t htt; exact ((h5 _).mp htt).2 rfl
    · show State.identityFor (s.addTrusted c b k now) k = .conf b
      unfold State.identityFor State.addTrusted
      dsimp only
      rw [get_put_self]
    · show get (.conf b) (s.addTrusted c b k now).peers = _
      unfold State.addTrusted
      dsimp only
      rw [get_put_self]
  constructor
  · clear hb ht hp
    revert h0
    generalize M.trusted c b k now ⟨s, temp, black⟩ = m
    intro h0
    induction later generalizing m now with
    | nil => exact h0.black
    | cons e later ih =>
      obtain ⟨t, o⟩ := e
      obtain ⟨hc1, hc2⟩ := hc
      have ho := hlater (t, o) List.mem_cons_self
      have h1 : Leaked b k m t :=
        ⟨h0.inv, h0.temp, TempBan.past_mono h0.past hc1, h0.out, h0.black, h0.idx, h0.rcd⟩
      exact ih (fun e he => hlater e (List.mem_cons_of_mem _ he)) hc2 _ (leaked_run h1 c ho)
  · rw [Bool.eq_false_iff]
    intro hcon
    obtain ⟨t, htt⟩ := (TempBan.contains_iff h0.temp k).mp hcon
    exact h0.out t htt

/-- The finding on the concrete run: the peer banned at 5 is added as trusted at 6. -/
example : (M.trusted Ex.cfg 7 20 6 demo).black = [20] ∧ (M.trusted Ex.cfg 7 20 6 demo).banned Ex.cfg 20 = false ∧
    (runM Ex.cfg [(30, .heartbeat), (31, .table (.connected 20 (some 5)) []), (9000, .heartbeat)]
      (M.trusted Ex.cfg 7 20 6 demo)).black = [20] := by
  decide +kernel

/-- A history whose blacklist is not empty. -/
example : (runM Ex.cfg [(3, .table (.connected 20 (some 5)) []), (4, .penalty 20 .fatal), (5, .closed 20)]
    ⟨State.init, TempBan.Cache.new 20 4, []⟩).black = [20] := by decide +kernel

/-! ### Concrete cases of `PeersMore` -/

/-- a peer with score -10 at 3 -/
def scored : List (Nat × Op) := [(3, .connected 20 (some 5)), (4, .penalty 20 .severe)]

/-- `score_decays` applies to it -/
example : ∃ q, get (.anon 20) (Op.heartbeat.run Ex.cfg 60 (runOps Ex.cfg scored State.init)).peers = some q ∧
    q.score.val = 0 ∧ q.score.last = 60 := by
  obtain ⟨q, hq, _, h2⟩ := score_decays (c := Ex.cfg) (l := scored) (Ex.legal_of_B (by decide +kernel))
    (id := .anon 20) (p := ⟨none, ⟨-10, 3⟩, [5], .connected, false⟩) (now := 60) (by decide +kernel) rfl
    (by intro b hb; cases hb)
  obtain ⟨h3, _, h5⟩ := h2 (by decide)
  exact ⟨q, hq, h3.trans (by decide +kernel), h5 (.inr (by decide +kernel))⟩

/-- `dial_times_out` applies to a dial that began at 2: at 13 it is given up -/
example : ∃ q, get (.anon 20) (Op.heartbeat.run Ex.cfg 13
      (runOps Ex.cfg [(2, .dialing 20)] State.init)).peers = some q ∧ q.status = .disconnected 13 := by
  obtain ⟨q, hq, h1, _⟩ := dial_times_out (c := Ex.cfg) (l := [(2, .dialing 20)])
    (Ex.legal_of_B (by decide +kernel)) (id := .anon 20) (p := ⟨none, ⟨0, 2⟩, [], .dialing 2, false⟩) (t := 2)
    (now := 13) (by decide +kernel) rfl
  exact ⟨q, hq, h1 (by decide)⟩

/-- identity 7 with key 30 is being closed to be banned -/
def pending : List (Nat × Op) :=
  [(1, .connected 30 (some 5)), (2, .advertised 30 7 30 false), (4, .penalty 30 .fatal)]

/-- `pending_ban_carried` applies: it is banned under its new key 31 -/
example : ∃ q, get (.conf 7) ((runOps Ex.cfg pending State.init).upsert Ex.cfg 7 31 5).peers = some q ∧
    q.key = some 31 ∧ q.status = .banned 5 := by
  have hs : ∃ r, get (.conf 7) (runOps Ex.cfg pending State.init).peers = some r ∧
      r.status = .disconnecting true := by
    cases h : get (.conf 7) (runOps Ex.cfg pending State.init).peers with
    | none => revert h; decide +kernel
    | some r =>
      refine ⟨r, rfl, ?_⟩
      have : (get (.conf 7) (runOps Ex.cfg pending State.init).peers).map Peer.status =
        some (.disconnecting true) := by decide +kernel
      rw [h] at this
      injection this
  obtain ⟨r, hr, hst⟩ := hs
  obtain ⟨q, h1, h2, h3, _⟩ := pending_ban_carried (c := Ex.cfg) (l := pending)
    (Ex.legal_of_B (by decide +kernel)) (now := 5) (k := 31) hr hst (by decide +kernel)
  exact ⟨q, h1, h2, h3⟩

end Verif.Net.Mgr
