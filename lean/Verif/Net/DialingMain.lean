import Verif.Net.DialingProps

/-!
# C117: dials and discovery, for the caller and the operator

The vocabulary is that of `Dialing`: the outputs `Out`, the events `Ev`, the queue of dial
requests, the pending dials, the discovery map.
-/

namespace Verif.Dial

open Verif.Net (Pid Ip Status)

variable {P : Par} {s : St}

/-! ## Every call is in one place -/

/-- the calls made are numbered in order, each once -/
theorem asked_once (P : Par) (es : List Ev) (r : Nat) :
    (exec P es).log.countP (asks r) = if r < (exec P es).next then 1 else 0 := by
  obtain ⟨q, h⟩ := inv_exec P es
  rw [h.calls r]
  by_cases hr : r < (exec P es).next <;> simp [one, hr]

/-- in every run each call ended once (an answer, or its channel was dropped), or it waits in
the queue, or it waits for its dial; in no two of these places, and in none twice -/
theorem one_place (P : Par) (es : List Ev) {r : Nat} (hr : r < (exec P es).next) :
    (exec P es).log.countP (ends r)
      + (exec P es).queue.countP (fun q => decide (q.reply = some r))
      + (exec P es).pend.countP (fun e => decide (e.2 = r)) = 1 := by
  obtain ⟨q, h⟩ := inv_exec P es
  have := h.total r
  rw [one_false (b := (none : Option Nat) = some r) (by simp), one_true hr] at this
  exact this

/-- no call is answered twice -/
theorem answered_once (P : Par) (es : List Ev) (r : Nat) :
    (exec P es).log.countP (ends r) ≤ 1 := by
  obtain ⟨q, h⟩ := inv_exec P es
  have := h.total r
  unfold tot one at this
  split at this <;> split at this <;> omega

/-- an answer is about the peer that the caller asked for -/
theorem answer_about_peer (P : Par) (es : List Ev) {r : Nat} {p : Pid} {a : Ans}
    (h : Out.answered r p a ∈ (exec P es).log) : Out.asked r p ∈ (exec P es).log := by
  obtain ⟨q, i⟩ := inv_exec P es
  exact i.al r p a h

/-! ## Every answer is true -/

/-- what an output says about the state before and after its step -/
def Says (P : Par) (s s' : St) (e : Ev) : Out → Prop
  | .asked r p => (∃ addrs, e = .dial p addrs) ∧ r = s.next
  | .answered _ p .ok => p = P.me ∨ Net.get p s'.peers = some .connected
  | .answered _ p .banned => ∃ t, Net.get p s.peers = some (.banned t)
  | .answered _ p .dialing => ∃ t, Net.get p s.peers = some (.dialing t)
  | .answered _ p .connected => Net.get p s.peers = some .connected
  | .answered _ p .timeout => ∃ t, Net.get p s.peers = some (.dialing t) ∧ t + P.timeout < s.now
  | .answered _ p .failed => e = .failed p
  | .dropped r p => Net.get p s.pend = some r ∧ ∃ r', Net.get p s'.pend = some r'
  | .swarm p addrs => e = .poll ∧ s.evs = 0 ∧ ∃ q, s.queue.head? = some q ∧ q.peer = p ∧ q.addrs = addrs
  | .allowed p => e = .outbound p false ∧ p ≠ P.me ∧
      ((∃ t, Net.get p s'.peers = some (.dialing t)) ∨ s'.status p = .disconnecting false)
  | .denied p => (∃ b, e = .outbound p b) ∧
      (p = P.me ∨ e = .outbound p true ∨ canDial (s.status p) = false)
  | .search => s'.disc.length < P.maxDisc

theorem get_of_status {p : Pid} {st : Status} (h : s.status p = st) (hu : st ≠ .unknown) :
    Net.get p s.peers = some st := by
  unfold St.status at h
  cases hg : Net.get p s.peers with
  | none => rw [hg] at h; exact absurd h.symm hu
  | some x => rw [hg] at h; exact congrArg some h

theorem get_setStatus (s : St) (p : Pid) (st : Status) :
    Net.get p (s.setStatus p st).peers = some st := Net.get_put_self p st s.peers

theorem status_setStatus (s : St) (p : Pid) (st : Status) : (s.setStatus p st).status p = st := by
  unfold St.status
  rw [get_setStatus]
  rfl

theorem mem_notify {p : Pid} {a : Ans} {o : Out} (h : o ∈ (s.notify p a).log) :
    o ∈ s.log ∨ ∃ r, o = .answered r p a := by
  unfold St.notify at h
  split at h
  · rcases List.mem_append.mp h with h | h
    · exact .inl h
    · exact .inr ⟨_, List.mem_singleton.mp h⟩
  · exact .inl h

theorem mem_reply {p : Pid} {r : Option Nat} {a : Ans} {o : Out} (h : o ∈ (s.reply p r a).log) :
    o ∈ s.log ∨ ∃ r', r = some r' ∧ o = .answered r' p a := by
  unfold St.reply at h
  split at h
  · rcases List.mem_append.mp h with h | h
    · exact .inl h
    · exact .inr ⟨_, rfl, List.mem_singleton.mp h⟩
  · exact .inl h

theorem notify_peers (p : Pid) (a : Ans) : (s.notify p a).peers = s.peers := by
  unfold St.notify; split <;> rfl

theorem notify_now (p : Pid) (a : Ans) : (s.notify p a).now = s.now := by
  unfold St.notify; split <;> rfl

theorem reply_peers (p : Pid) (r : Option Nat) (a : Ans) : (s.reply p r a).peers = s.peers := by
  unfold St.reply; split <;> rfl

theorem register_peers (p : Pid) (r : Option Nat) :
    (register p r s).peers = Net.put p (toDialing s.now (s.status p)) s.peers := by
  unfold register
  cases r with
  | none => rfl
  | some r => simp only [St.hold]; split <;> rfl

/-- the outputs of `dial_peer` -/
theorem mem_dialPeer {p : Pid} {addrs : List Addr} {r : Option Nat} {o : Out}
    (h : o ∈ (dialPeer P p addrs r s).log) : o ∈ s.log ∨ ∃ r' a, r = some r' ∧
      o = .answered r' p a ∧ ((a = .ok ∧ p = P.me)
        ∨ (a = .banned ∧ ∃ t, Net.get p s.peers = some (.banned t))
        ∨ (a = .dialing ∧ ∃ t, Net.get p s.peers = some (.dialing t))
        ∨ (a = .connected ∧ Net.get p s.peers = some .connected)) := by
  unfold dialPeer at h
  by_cases hp : p = P.me
  · rw [if_pos hp] at h
    rcases mem_reply h with h | ⟨r', h1, h2⟩
    · exact .inl h
    · exact .inr ⟨r', .ok, h1, h2, .inl ⟨rfl, hp⟩⟩
  · rw [if_neg hp] at h
    cases hs : s.status p with
    | connected =>
      rw [hs] at h
      rcases mem_reply h with h | ⟨r', h1, h2⟩
      · exact .inl h
      · exact .inr ⟨r', _, h1, h2, .inr (.inr (.inr ⟨rfl, get_of_status hs (by simp)⟩))⟩
    | banned t =>
      rw [hs] at h
      rcases mem_reply h with h | ⟨r', h1, h2⟩
      · exact .inl h
      · exact .inr ⟨r', _, h1, h2, .inr (.inl ⟨rfl, t, get_of_status hs (by simp)⟩)⟩
    | dialing t =>
      rw [hs] at h
      rcases mem_reply h with h | ⟨r', h1, h2⟩
      · exact .inl h
      · exact .inr ⟨r', _, h1, h2, .inr (.inr (.inl ⟨rfl, t, get_of_status hs (by simp)⟩))⟩
    | disconnecting b => rw [hs] at h; exact .inl h
    | disconnected t => rw [hs] at h; exact .inl h
    | unknown => rw [hs] at h; exact .inl h

theorem mem_dials {l : List Entry} {o : Out}
    (h : o ∈ (l.foldl (fun s e => dialPeer P e.1 e.2 none s) s).log) : o ∈ s.log := by
  induction l generalizing s with
  | nil => exact h
  | cons x l ih =>
    rcases mem_dialPeer (ih h) with h | ⟨_, _, h1, _⟩
    · exact h
    · cases h1

theorem mem_discBeat {c1 c2 : Choice} {o : Out} (h : o ∈ (discBeat P c1 c2 s).log) :
    o ∈ s.log ∨ (o = .search ∧ (discBeat P c1 c2 s).disc.length < P.maxDisc) := by
  unfold discBeat at h ⊢
  dsimp only at h ⊢
  split
  · rename_i hc; rw [if_pos hc] at h; exact .inl (mem_dials h)
  · rename_i hc
    rw [if_neg hc] at h
    split
    · rename_i hc2
      rw [if_pos hc2] at h
      rcases List.mem_append.mp h with h | h
      · exact .inl (mem_dials h)
      · exact .inr ⟨List.mem_singleton.mp h, hc2⟩
    · rename_i hc2; rw [if_neg hc2] at h; exact .inl (mem_dials h)

theorem mem_giveUps {l : List Pid} {o : Out} (h : o ∈ (l.foldl giveUp s).log) :
    o ∈ s.log ∨ ∃ r, ∃ p ∈ l, o = .answered r p .timeout := by
  induction l generalizing s with
  | nil => exact .inl h
  | cons x l ih =>
    rcases ih h with h | ⟨r, p, hp, rfl⟩
    · rcases mem_notify h with h | ⟨r, rfl⟩
      · exact .inl h
      · exact .inr ⟨r, x, List.mem_cons_self, rfl⟩
    · exact .inr ⟨r, p, List.mem_cons_of_mem _ hp, rfl⟩

theorem expired_iff {p : Pid} (h : p ∈ expired P s) :
    ∃ t, Net.get p s.peers = some (.dialing t) ∧ t + P.timeout < s.now := by
  have h1 := (List.mem_filter.mp h).2
  unfold isExpired at h1
  split at h1
  · rename_i t hs
    exact ⟨t, get_of_status hs (by simp), of_decide_eq_true h1⟩
  · cases h1

theorem toDialing_allowed {now : Nat} {st : Status} (h : canDial st = true) :
    (∃ t, toDialing now st = .dialing t) ∨ toDialing now st = .disconnecting false := by
  unfold toDialing
  cases st with
  | connected => cases h
  | dialing t => exact .inl ⟨t, rfl⟩
  | disconnecting b =>
    cases b with
    | true => cases h
    | false => exact .inr rfl
  | disconnected t => exact .inl ⟨now, rfl⟩
  | banned t => exact .inl ⟨now, rfl⟩
  | unknown => exact .inl ⟨now, rfl⟩

theorem isDialing_iff {st : Status} (h : isDialing st = true) : ∃ t, st = .dialing t := by
  unfold isDialing at h
  split at h
  · exact ⟨_, rfl⟩
  · cases h

theorem established_get (p : Pid) (o : Bool) :
    Net.get p (established p o false s).peers = some .connected := by
  unfold established
  rw [if_neg (by simp)]
  cases o with
  | true =>
    dsimp only
    rw [if_pos rfl, notify_peers]
    split
    · rw [notify_peers]; exact get_setStatus s p _
    · exact get_setStatus s p _
  | false =>
    dsimp only
    rw [if_neg (by simp)]
    split
    · rw [notify_peers]; exact get_setStatus s p _
    · exact get_setStatus s p _

/-- whatever a step lets be seen is true: an answer `ok` only if the peer is connected now (or
it is this node); `banned`, `dialing`, `connected` only if the peer is; `timeout` only for a
dial older than the timeout; `failed` only if the swarm said so of this peer; a channel is
dropped only for a later call for the same peer; the swarm is told to dial just what the
first request says; a connection is let out only to a peer that is not banned and not this
node -/
theorem step_says (P : Par) (s : St) (e : Ev) {o : Out} (h : o ∈ (step P s e).log)
    (hn : o ∉ s.log) : Says P s (step P s e) e o := by
  cases e with
  | dial p addrs =>
    rcases mem_dialPeer (s := { s with next := s.next + 1, log := s.log ++ [.asked s.next p] }) h
      with h | ⟨r', a, h1, rfl, h2⟩
    · rcases List.mem_append.mp h with h | h
      · exact absurd h hn
      · rw [List.mem_singleton.mp h]; exact ⟨⟨addrs, rfl⟩, rfl⟩
    · rcases h2 with ⟨rfl, h2⟩ | ⟨rfl, h2⟩ | ⟨rfl, h2⟩ | ⟨rfl, h2⟩
      · exact .inl h2
      · exact h2
      · exact h2
      · exact h2
  | env p st => cases st <;> exact absurd h hn
  | ips b => exact absurd h hn
  | event => exact absurd h hn
  | tick d => exact absurd h hn
  | heartbeat acts n c1 c2 =>
    rcases mem_discBeat (s := beatStart P acts n s) h with h2 | ⟨rfl, h2⟩
    · rcases mem_giveUps (s := s) h2 with h3 | ⟨r, p, hp, rfl⟩
      · exact absurd h3 hn
      · exact expired_iff hp
    · exact h2
  | poll =>
    have h' : o ∈ (poll s).log := h
    show Says P s (poll s) .poll o
    unfold poll at h' ⊢
    by_cases he : 0 < s.evs
    · rw [if_pos he] at h'; exact absurd h' hn
    · rw [if_neg he] at h' ⊢
      cases hq : s.queue with
      | nil => rw [hq] at h'; exact absurd h' hn
      | cons x rest =>
        rw [hq] at h'
        rcases List.mem_append.mp h' with h' | h'
        · unfold register at h'
          cases hx : x.reply with
          | none => rw [hx] at h'; exact absurd h' hn
          | some r =>
            rw [hx] at h'
            simp only [St.hold] at h'
            split at h'
            · rename_i old hg
              rcases List.mem_append.mp h' with h' | h'
              · exact absurd h' hn
              · rw [List.mem_singleton.mp h']
                refine ⟨hg, r, ?_⟩
                show Net.get x.peer (register x.peer x.reply { s with queue := rest }).pend = _
                rw [hx]
                show Net.get x.peer (St.hold _ x.peer r).pend = _
                unfold St.hold
                split <;> exact Net.get_put_self _ _ _
            · exact absurd h' hn
        · rw [List.mem_singleton.mp h']
          exact ⟨rfl, by omega, x, by rw [hq]; rfl, rfl, rfl⟩
  | outbound p b =>
    have h' : o ∈ (outbound P p b s).log := h
    show Says P s (outbound P p b s) (.outbound p b) o
    unfold outbound at h' ⊢
    by_cases hp : p = P.me
    · rw [if_pos hp] at h'
      rcases List.mem_append.mp h' with h' | h'
      · exact absurd h' hn
      · rw [List.mem_singleton.mp h']; exact ⟨⟨b, rfl⟩, .inl hp⟩
    · rw [if_neg hp] at h' ⊢
      by_cases hd : isDialing (s.status p) = true
      · rw [if_pos hd] at h' ⊢
        cases b with
        | true =>
          rw [if_pos rfl] at h'
          rcases List.mem_append.mp h' with h' | h'
          · exact absurd h' hn
          · rw [List.mem_singleton.mp h']; exact ⟨⟨true, rfl⟩, .inr (.inl rfl)⟩
        | false =>
          rw [if_neg (by simp)] at h' ⊢
          rcases List.mem_append.mp h' with h' | h'
          · exact absurd h' hn
          · rw [List.mem_singleton.mp h']
            obtain ⟨t, ht⟩ := isDialing_iff hd
            exact ⟨rfl, hp, .inl ⟨t, get_of_status (s := s) ht (by simp)⟩⟩
      · rw [if_neg hd] at h' ⊢
        by_cases hc : (!b && canDial (s.status p)) = true
        · rw [if_pos hc] at h' ⊢
          rcases List.mem_append.mp h' with h' | h'
          · exact absurd h' hn
          · rw [List.mem_singleton.mp h']
            rw [Bool.and_eq_true, Bool.not_eq_true'] at hc
            rw [hc.1]
            refine ⟨rfl, hp, ?_⟩
            rcases toDialing_allowed (now := s.now) hc.2 with ⟨t, ht⟩ | ht
            · refine .inl ⟨t, ?_⟩
              show Net.get p (register p none s).peers = _
              rw [register_peers, Net.get_put_self, ht]
            · refine .inr ?_
              show ((Net.get p (register p none s).peers).getD .unknown) = _
              rw [register_peers, Net.get_put_self, ht]
              rfl
        · rw [if_neg hc] at h'
          rcases List.mem_append.mp h' with h' | h'
          · exact absurd h' hn
          · rw [List.mem_singleton.mp h']
            cases b with
            | true => exact ⟨⟨true, rfl⟩, .inr (.inl rfl)⟩
            | false =>
              refine ⟨⟨false, rfl⟩, .inr (.inr ?_)⟩
              rw [Bool.not_false, Bool.true_and] at hc
              exact Bool.eq_false_iff.mpr hc
  | established p ob b =>
    have h' : o ∈ (established p ob b s).log := h
    show Says P s (established p ob b s) _ o
    cases b with
    | true => exact absurd h' hn
    | false =>
      have key : o ∈ s.log ∨ ∃ r, o = .answered r p .ok := by
        unfold established at h'
        rw [if_neg (by simp)] at h'
        dsimp only at h'
        cases ob with
        | true =>
          rw [if_pos rfl] at h'
          rcases mem_notify h' with h' | h'
          · split at h'
            · rcases mem_notify h' with h' | h'
              · exact .inl h'
              · exact .inr h'
            · exact .inl h'
          · exact .inr h'
        | false =>
          rw [if_neg (by simp)] at h'
          split at h'
          · rcases mem_notify h' with h' | h'
            · exact .inl h'
            · exact .inr h'
          · exact .inl h'
      rcases key with h' | ⟨r, rfl⟩
      · exact absurd h' hn
      · exact .inr (established_get p ob)
  | failed p =>
    have h' : o ∈ (failed p s).log := h
    unfold failed at h'
    dsimp only at h'
    have key : o ∈ s.log ∨ ∃ r, o = .answered r p .failed := by
      rcases mem_notify h' with h' | h'
      · refine .inl ?_
        split at h' <;> exact h'
      · exact .inr h'
    rcases key with h' | ⟨r, rfl⟩
    · exact absurd h' hn
    · exact rfl
  | closed p => exact absurd h hn
  | kad c l => exact absurd h hn
  | exchange c l =>
    have h' : o ∈ (exchange P c l s).log := h
    unfold exchange at h'
    split at h' <;> exact absurd h' hn

/-- the swarm is never told to dial this node, and no connection to itself is let out -/
theorem never_self (P : Par) (es : List Ev) :
    (∀ a, Out.swarm P.me a ∉ (exec P es).log) ∧ Out.allowed P.me ∉ (exec P es).log := by
  obtain ⟨q, h⟩ := inv_exec P es
  exact ⟨fun a ha => h.sw _ a ha rfl, fun ha => h.al' _ ha rfl⟩

/-! ## Every dial ends its call -/

theorem notify_clears {p : Pid} {a : Ans} {r : Nat} (h : Net.get p s.pend = some r) :
    Net.get p (s.notify p a).pend = none ∧ Out.answered r p a ∈ (s.notify p a).log := by
  have e : s.notify p a
      = { s with pend := Net.del p s.pend, log := s.log ++ [.answered r p a] } := by
    unfold St.notify; rw [h]
  rw [e]
  exact ⟨Net.get_del_self _ _, List.mem_append_right _ (List.mem_singleton.mpr rfl)⟩

/-- a failure reported by the swarm is told to the caller that waits for this peer -/
theorem failure_told (P : Par) {p : Pid} {r : Nat} (h : Net.get p s.pend = some r) :
    Out.answered r p .failed ∈ (step P s (.failed p)).log := by
  show _ ∈ (failed p s).log
  unfold failed
  dsimp only
  split
  · exact (notify_clears h).2
  · exact (notify_clears (s := s.setStatus p _) h).2

/-- a connection that this node made, or that came in during the dial, is told to the caller -/
theorem success_told (P : Par) {p : Pid} {r : Nat} {ob : Bool} (h : Net.get p s.pend = some r)
    (hd : ob = true ∨ isDialing (s.status p) = true) :
    Out.answered r p .ok ∈ (step P s (.established p ob false)).log := by
  show _ ∈ (established p ob false s).log
  unfold established
  rw [if_neg (by simp)]
  dsimp only
  have h0 : Net.get p (s.setStatus p .connected).pend = some r := h
  by_cases hi : isDialing (s.status p) = true
  · rw [if_pos hi]
    have h1 := (notify_clears (a := .ok) h0).2
    split
    · unfold St.notify at h1 ⊢
      split
      · exact List.mem_append_left _ h1
      · exact h1
    · exact h1
  · rw [if_neg hi]
    rcases hd with rfl | hd
    · rw [if_pos rfl]; exact (notify_clears h0).2
    · exact absurd hd hi

theorem giveUp_other {p q : Pid} (h : q ≠ p) : Net.get p (giveUp s q).pend = Net.get p s.pend := by
  unfold giveUp St.notify
  split
  · show Net.get p (Net.del q s.pend) = _
    exact Net.get_del_ne (Ne.symm h) _
  · rfl

theorem giveUps_told {l : List Pid} {p : Pid} {r : Nat} (hp : p ∈ l)
    (h : Net.get p s.pend = some r) :
    Out.answered r p .timeout ∈ (l.foldl giveUp s).log := by
  induction l generalizing s with
  | nil => cases hp
  | cons x l ih =>
    have keep : ∀ (l : List Pid) (s : St) (o : Out), o ∈ s.log → o ∈ (l.foldl giveUp s).log := by
      intro l
      induction l with
      | nil => intro s o ho; exact ho
      | cons y l ih2 =>
        intro s o ho
        refine ih2 _ o ?_
        unfold giveUp St.notify
        split
        · exact List.mem_append_left _ ho
        · exact ho
    by_cases hx : x = p
    · subst hx
      exact keep l _ _ (notify_clears (s := s.setStatus x _) h).2
    · rcases List.mem_cons.mp hp with rfl | hp
      · exact absurd rfl hx
      · exact ih hp (by rw [giveUp_other hx]; exact h)

theorem discBeat_log {c1 c2 : Choice} {o : Out} (h : o ∈ s.log) :
    o ∈ (discBeat P c1 c2 s).log := by
  have key : ∀ (l : List Entry) (s : St), o ∈ s.log →
      o ∈ (l.foldl (fun s e => dialPeer P e.1 e.2 none s) s).log := by
    intro l
    induction l with
    | nil => intro s ho; exact ho
    | cons x l ih =>
      intro s ho
      refine ih (dialPeer P x.1 x.2 none s) ?_
      unfold dialPeer
      split
      · exact ho
      · split <;> exact ho
  unfold discBeat
  dsimp only
  split
  · exact key _ _ h
  · split
    · exact List.mem_append_left _ (key _ _ h)
    · exact key _ _ h

/-- a dial that is older than the timeout is given up in the next heartbeat, and its caller is
told, whatever discovery draws -/
theorem timeout_told (P : Par) {p : Pid} {r t : Nat} (h : Net.get p s.pend = some r)
    (hs : Net.get p s.peers = some (.dialing t)) (ht : t + P.timeout < s.now)
    (acts : List (Pid × Status)) (n : Nat) (c1 c2 : Choice) :
    Out.answered r p .timeout ∈ (step P s (.heartbeat acts n c1 c2)).log := by
  refine discBeat_log (s := beatStart P acts n s) ?_
  refine giveUps_told (s := s) ?_ h
  refine List.mem_filter.mpr ⟨?_, ?_⟩
  · by_contra hk
    rw [Net.get_eq_none.mpr hk] at hs
    cases hs
  · unfold St.status
    rw [hs]
    exact decide_eq_true ht

/-! ## The queue is worked off in order -/

/-- `n` polls in a row -/
def polls (P : Par) (n : Nat) (s : St) : St := (List.replicate n Ev.poll).foldl (step P) s

theorem polls_succ (P : Par) (n : Nat) (s : St) : polls P (n + 1) s = polls P n (poll s) := rfl

theorem polls_drain (P : Par) : ∀ (n : Nat) (s : St), s.evs = n →
    polls P n s = { s with evs := 0 } := by
  intro n
  induction n with
  | zero => intro s h; unfold polls; cases s; cases h; rfl
  | succ n ih =>
    intro s h
    rw [polls_succ]
    have e : poll s = { s with evs := n } := by
      unfold poll
      rw [if_pos (by omega), h]
      rfl
    rw [e, ih _ rfl]

theorem poll_queue {q : Req} {rest : List Req} (he : s.evs = 0) (hq : s.queue = q :: rest) :
    (poll s).queue = rest ∧ (poll s).evs = 0 ∧ (∀ o ∈ s.log, o ∈ (poll s).log)
      ∧ Out.swarm q.peer q.addrs ∈ (poll s).log := by
  have e : poll s = (register q.peer q.reply { s with queue := rest }).say
      (.swarm q.peer q.addrs) := by
    unfold poll
    rw [if_neg (by omega), hq]
    rfl
  have h1 : (register q.peer q.reply { s with queue := rest }).queue = rest
      ∧ (register q.peer q.reply { s with queue := rest }).evs = s.evs
      ∧ ∀ o ∈ s.log, o ∈ (register q.peer q.reply { s with queue := rest }).log := by
    unfold register
    cases q.reply with
    | none => exact ⟨rfl, rfl, fun o ho => ho⟩
    | some r =>
      dsimp only
      unfold St.hold
      split
      · exact ⟨rfl, rfl, fun o ho => List.mem_append_left _ ho⟩
      · exact ⟨rfl, rfl, fun o ho => ho⟩
  rw [e]
  exact ⟨h1.1, h1.2.1.trans he, fun o ho => List.mem_append_left _ (h1.2.2 o ho),
    List.mem_append_right _ (List.mem_singleton.mpr rfl)⟩

theorem polls_keep (P : Par) (n : Nat) : ∀ (s : St) (o : Out), s.evs = 0 → o ∈ s.log →
    o ∈ (polls P n s).log := by
  induction n with
  | zero => intro s o _ ho; exact ho
  | succ n ih =>
    intro s o he ho
    rw [polls_succ]
    cases hq : s.queue with
    | nil =>
      have e : poll s = s := by unfold poll; rw [if_neg (by omega), hq]
      rw [e]; exact ih s o he ho
    | cons q rest =>
      have h := poll_queue he hq
      exact ih _ o h.2.1 (h.2.2.1 o ho)

theorem polls_dials (P : Par) : ∀ (i : Nat) (s : St) (q : Req), s.evs = 0 →
    s.queue[i]? = some q → Out.swarm q.peer q.addrs ∈ (polls P (i + 1) s).log := by
  intro i
  induction i with
  | zero =>
    intro s q he h
    cases hq : s.queue with
    | nil => rw [hq] at h; cases h
    | cons x rest =>
      rw [hq] at h
      cases h
      rw [polls_succ]
      exact polls_keep P 0 _ _ (poll_queue he hq).2.1 (poll_queue he hq).2.2.2
  | succ i ih =>
    intro s q he h
    cases hq : s.queue with
    | nil => rw [hq] at h; cases h
    | cons x rest =>
      rw [hq] at h
      rw [polls_succ]
      have hp := poll_queue he hq
      exact ih (poll s) q hp.2.1 (by rw [hp.1]; exact h)

/-- the `i`-th request of the queue reaches the swarm, with its addresses, once the manager was
polled for each event before it and each request before it -/
theorem queue_worked_off (P : Par) (s : St) {i : Nat} {q : Req} (h : s.queue[i]? = some q) :
    Out.swarm q.peer q.addrs ∈ (polls P (s.evs + (i + 1)) s).log := by
  have e : polls P (s.evs + (i + 1)) s = polls P (i + 1) (polls P s.evs s) := by
    unfold polls
    rw [← List.foldl_append, List.replicate_append_replicate]
  rw [e, polls_drain P s.evs s rfl]
  exact polls_dials P i { s with evs := 0 } q rfl h

/-! ## Discovery -/

theorem keys_filter_take {l : List Entry} (hn : (Net.keys l).Nodup) (n : Nat) :
    without l (l.take n) = l.drop n := by
  have hsplit : l = l.take n ++ l.drop n := (List.take_append_drop n l).symm
  have hn2 : (Net.keys (l.take n ++ l.drop n)).Nodup := by rw [← hsplit]; exact hn
  have hdis : List.Disjoint ((l.take n).map Prod.fst) ((l.drop n).map Prod.fst) := by
    unfold Net.keys at hn2
    rw [List.map_append] at hn2
    exact List.disjoint_of_nodup_append hn2
  unfold without
  have e1 : (l.take n).filter (fun e => !decide (e.1 ∈ (l.take n).map Prod.fst)) = [] := by
    rw [List.filter_eq_nil_iff]
    intro e he
    have : e.1 ∈ (l.take n).map Prod.fst := List.mem_map.mpr ⟨e, he, rfl⟩
    simpa using this
  have e2 : (l.drop n).filter (fun e => !decide (e.1 ∈ (l.take n).map Prod.fst)) = l.drop n := by
    rw [List.filter_eq_self]
    intro e he
    have : e.1 ∉ (l.take n).map Prod.fst :=
      fun hm => hdis hm (List.mem_map.mpr ⟨e, he, rfl⟩)
    rw [decide_eq_false this]
    rfl
  have e3 := List.filter_append (p := fun e : Entry => !decide (e.1 ∈ (l.take n).map Prod.fst))
    (l.take n) (l.drop n)
  rw [← hsplit, e1, e2, List.nil_append] at e3
  exact e3

theorem without_perm {l l' g : List Entry} (h : l'.Perm l) : (without l' g).Perm (without l g) :=
  h.filter _

/-- taking a random draw of `n` out leaves the others -/
theorem without_draw {l : List Entry} (hn : (Net.keys l).Nodup) (c : Choice) (n : Nat) :
    (without l ((c.f l).take n)).length = l.length - n := by
  have h1 := (without_perm (g := (c.f l).take n) (c.perm l)).length_eq
  rw [← h1, keys_filter_take, List.length_drop, (c.perm l).length_eq]
  exact (Net.keys_perm (c.perm l)).nodup_iff.mpr hn

theorem dials_queue (l : List Entry) : ∀ (s : St), (∀ e ∈ l, eligible P s e = true) →
    (l.foldl (fun s e => dialPeer P e.1 e.2 none s) s)
      = { s with queue := s.queue ++ l.map fun e => ⟨e.1, e.2, none⟩ } := by
  induction l with
  | nil => intro s _; simp
  | cons x l ih =>
    intro s h
    have hx := eligible_iff.mp (h x List.mem_cons_self)
    have e1 : dialPeer P x.1 x.2 none s = s.enqueue ⟨x.1, x.2, none⟩ := by
      unfold dialPeer
      rw [if_neg hx.1]
      have hc := hx.2.2.2
      cases hs : s.status x.1 with
      | connected => rw [hs] at hc; cases hc
      | dialing t => rw [hs] at hc; cases hc
      | banned t => rw [hs] at hc; cases hc
      | disconnecting b => rfl
      | disconnected t => rfl
      | unknown => rfl
    show (l.foldl (fun s e => dialPeer P e.1 e.2 none s) (dialPeer P x.1 x.2 none s)) = _
    rw [e1, ih (s.enqueue ⟨x.1, x.2, none⟩) (fun e he => h e (List.mem_cons_of_mem _ he))]
    simp [St.enqueue, List.append_assoc]

/-- What a heartbeat's discovery does, whatever it draws.  `s0` is the state it finds (the
heartbeat's other work done), `ok` the stored peers that are eligible then.  It queues dials
for different eligible peers, just as many as are missing to the target and available; these
leave the map; of the others it keeps at most twice the target; and it asks for a search if
and only if fewer are left. -/
theorem heartbeat_discovery (P : Par) (es : List Ev) (acts : List (Pid × Status)) (n : Nat)
    (c1 c2 : Choice) {s0 s' : St} (h0 : s0 = beatStart P acts n (exec P es))
    (h' : s' = exec P (es ++ [.heartbeat acts n c1 c2])) :
    ∃ pick : List Entry,
      s'.queue = s0.queue ++ pick.map (fun e => ⟨e.1, e.2, none⟩)
      ∧ (∀ e ∈ pick, e ∈ s0.disc ∧ eligible P s0 e = true ∧ e ∉ s'.disc)
      ∧ (pick.map Prod.fst).Nodup
      ∧ pick.length = min (P.target - s0.live) (s0.disc.filter (eligible P s0)).length
      ∧ s0.live + pick.length ≤ max P.target s0.live
      ∧ (∀ e ∈ s'.disc, e ∈ s0.disc ∧ eligible P s0 e = true)
      ∧ s'.disc.length = min P.maxDisc ((s0.disc.filter (eligible P s0)).length - pick.length)
      ∧ (s'.log = s0.log ++ [.search] ↔ s'.disc.length < P.maxDisc)
      ∧ (s'.log = s0.log ∨ s'.log = s0.log ++ [.search]) := by
  obtain ⟨q, hi⟩ := inv_exec P es
  have h1 : Inv P none q s0 := by rw [h0]; exact hi.expire.frame rfl rfl rfl rfl rfl
  have hs' : s' = discBeat P c1 c2 s0 := by
    rw [h', h0]
    unfold exec
    rw [List.foldl_append]
    rfl
  have hnd : (Net.keys (s0.disc.filter (eligible P s0))).Nodup :=
    h1.dn.sublist (List.filter_sublist.map _)
  have hrest : (without (s0.disc.filter (eligible P s0)) (picks P c1 s0)).length
      = (s0.disc.filter (eligible P s0)).length - (P.target - s0.live) :=
    without_draw hnd c1 _
  have hlen : (picks P c1 s0).length
      = min (P.target - s0.live) (s0.disc.filter (eligible P s0)).length := by
    unfold picks
    rw [List.length_take, (c1.perm _).length_eq]
  have hkeep : ∀ e ∈ without (s0.disc.filter (eligible P s0)) (picks P c1 s0),
      e ∈ s0.disc ∧ eligible P s0 e = true := fun e he => List.mem_filter.mp (without_sub e he)
  have hgone : ∀ e ∈ picks P c1 s0, e ∉ without (s0.disc.filter (eligible P s0)) (picks P c1 s0) := by
    intro e he hm
    have := (List.mem_filter.mp hm).2
    rw [decide_eq_true (List.mem_map.mpr ⟨e, he, rfl⟩)] at this
    cases this
  have hfold := dials_queue (P := P) (picks P c1 s0) s0 (fun e he => (mem_picks he).2)
  have hne : ∀ l : List Out, l ≠ l ++ [.search] := by
    intro l hl
    have := congrArg List.length hl
    simp at this
  have hpn : ((picks P c1 s0).map Prod.fst).Nodup := by
    refine ((Net.keys_perm (c1.perm (s0.disc.filter (eligible P s0)))).nodup_iff.mpr hnd).sublist ?_
    exact (List.take_sublist _ _).map _
  refine ⟨picks P c1 s0, ?_⟩
  rw [hs']
  unfold discBeat
  dsimp only
  rw [hfold]
  split
  · rename_i hc
    have hl2 := without_draw (l := without (s0.disc.filter (eligible P s0)) (picks P c1 s0))
      (without_nodup hnd) c2
      ((without (s0.disc.filter (eligible P s0)) (picks P c1 s0)).length - P.maxDisc)
    refine ⟨rfl, fun e he => ⟨(mem_picks he).1, (mem_picks he).2,
      fun hm => hgone e he (without_sub e hm)⟩, hpn, hlen, by omega,
      fun e he => hkeep e (without_sub e he), ?_, ?_, .inl rfl⟩
    · show (without _ _).length = _
      rw [hl2]; omega
    · refine ⟨fun h => absurd h (hne _), fun h => ?_⟩
      have h : (without _ _).length < _ := h
      rw [hl2] at h
      omega
  · rename_i hc
    split
    · rename_i hc2
      refine ⟨rfl, fun e he => ⟨(mem_picks he).1, (mem_picks he).2, hgone e he⟩, hpn, hlen,
        by omega, hkeep, ?_, ⟨fun _ => hc2, fun _ => rfl⟩, .inr rfl⟩
      show (without _ _).length = _
      omega
    · rename_i hc2
      refine ⟨rfl, fun e he => ⟨(mem_picks he).1, (mem_picks he).2, hgone e he⟩, hpn, hlen,
        by omega, hkeep, ?_, ⟨fun h => absurd h (hne _), fun h => absurd h hc2⟩, .inl rfl⟩
      show (without _ _).length = _
      omega

/-- what discovery queues, and what it stores, has at most one address and is not this node;
in every run -/
theorem discovered_one_address (P : Par) (es : List Ev) :
    (∀ q ∈ (exec P es).queue, q.reply = none → q.addrs.length ≤ 1 ∧ q.peer ≠ P.me)
    ∧ (∀ e ∈ (exec P es).disc, e.2.length ≤ 1 ∧ e.1 ≠ P.me) := by
  obtain ⟨q, h⟩ := inv_exec P es
  exact ⟨fun q hq hr => ⟨h.qd q hq hr, h.qs q hq⟩, fun e he => ⟨(h.dd e he).2, (h.dd e he).1⟩⟩

/-- a message with peers to exchange stores eligible peers only, and never lifts the map above
twice the target -/
theorem exchange_bounded (P : Par) (s : St) (c : Choice) (l : List Entry) :
    (step P s (.exchange c l)).disc.length ≤ max P.maxDisc s.disc.length
    ∧ ∀ e ∈ (step P s (.exchange c l)).disc, e ∈ s.disc ∨ (e ∈ l ∧ eligible P s e = true) := by
  show (exchange P c l s).disc.length ≤ _ ∧ ∀ e ∈ (exchange P c l s).disc, _
  unfold exchange
  split
  · constructor
    · have := addAll_length ((c.f (l.filter (eligible P s))).take (P.maxDisc - s.disc.length)) s.disc
      have h2 : ((c.f (l.filter (eligible P s))).take (P.maxDisc - s.disc.length)).length
          ≤ P.maxDisc - s.disc.length := by rw [List.length_take]; omega
      show (addAll _ s.disc).length ≤ _
      omega
    · intro e he
      rcases mem_addAll he with he | he
      · exact .inl he
      · exact .inr (List.mem_filter.mp ((c.perm _).mem_iff.mp (List.mem_of_mem_take he)))
  · exact ⟨by omega, fun e he => .inl he⟩

/-- what eligible means, in words: not this node, at most one address, an ip among its
addresses and no banned one, and neither connected nor being dialed nor banned -/
theorem eligible_means {e : Entry} (h : eligible P s e = true) :
    e.1 ≠ P.me ∧ e.2.length ≤ 1 ∧ (∃ ip, some ip ∈ e.2) ∧ (∀ ip, some ip ∈ e.2 → s.ipban ip = false)
      ∧ Net.get e.1 s.peers ≠ some .connected
      ∧ (∀ t, Net.get e.1 s.peers ≠ some (.dialing t))
      ∧ (∀ t, Net.get e.1 s.peers ≠ some (.banned t)) := by
  obtain ⟨h1, h2, h3, h4⟩ := eligible_iff.mp h
  unfold goodIps at h3
  rw [Bool.and_eq_true] at h3
  refine ⟨h1, h2, ?_, ?_, ?_, ?_, ?_⟩
  · obtain ⟨a, ha, hs⟩ := List.any_eq_true.mp h3.1
    cases a with
    | none => cases hs
    | some ip => exact ⟨ip, ha⟩
  · intro ip hip
    have := List.all_eq_true.mp h3.2 _ hip
    simpa using this
  · intro hg; unfold St.status at h4; rw [hg] at h4; cases h4
  · intro t hg; unfold St.status at h4; rw [hg] at h4; cases h4
  · intro t hg; unfold St.status at h4; rw [hg] at h4; cases h4

end Verif.Dial
