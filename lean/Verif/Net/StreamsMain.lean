import Verif.Net.StreamsProps

/-!
# Stream opens: what a caller can rely on
-/

namespace Verif.Strm

open Verif.Net (get put del)

/-! ## Exactly one answer -/

theorem held_pos {i : Nat} {l : List Conn} (h : 0 < held i l) :
    ∃ k ∈ l, i ∈ Conn.queue k ++ (Conn.nego k).map Prod.fst := by
  induction l with
  | nil => cases h
  | cons k l ih =>
    rw [held] at h
    by_cases h1 : 0 < k.queue.count i + (k.nego.map Prod.fst).count i
    · rw [← List.count_append, List.count_pos_iff] at h1
      exact ⟨k, List.mem_cons_self, h1⟩
    · obtain ⟨x, hx, hi⟩ := ih (by omega)
      exact ⟨x, List.mem_cons_of_mem _ hx, hi⟩

theorem held_of_mem {i : Nat} {l : List Conn} {k : Conn} (hk : k ∈ l)
    (hi : i ∈ k.queue ++ k.nego.map Prod.fst) : 0 < held i l := by
  induction l with
  | nil => cases hk
  | cons x l ih =>
    rw [held]
    rcases List.mem_cons.1 hk with h1 | h1
    · subst h1
      rw [← List.count_pos_iff, List.count_append] at hi
      omega
    · have := ih h1; omega

/-- Call `i` waits in the behaviour, is with a connection's handler, or has been answered. -/
def Waits (s : S) (i : Nat) : Prop := ∃ o ∈ s.pending, Open.id o = i

/-- The handler of a live connection to the called peer has it. -/
def WithHandler (s : S) (i : Nat) : Prop :=
  ∃ k ∈ s.conns, i ∈ Conn.queue k ++ (Conn.nego k).map Prod.fst

def Answered (s : S) (i : Nat) : Prop := ∃ a t, (i, a, t) ∈ s.answers

theorem waits_iff (s : S) (i : Nat) : Waits s i ↔ 0 < waiting i s := by
  unfold Waits waiting
  rw [List.count_pos_iff, List.mem_map]

theorem with_iff (s : S) (i : Nat) : WithHandler s i ↔ 0 < held i s.conns :=
  ⟨fun ⟨_, hk, hi⟩ => held_of_mem hk hi, held_pos⟩

theorem answered_iff (s : S) (i : Nat) : Answered s i ↔ 0 < answered i s := by
  unfold Answered answered
  rw [List.count_pos_iff, List.mem_map]
  constructor
  · rintro ⟨a, t, h⟩; exact ⟨_, h, rfl⟩
  · rintro ⟨⟨j, a, t⟩, h, rfl⟩; exact ⟨a, t, h⟩

/-- No call is lost: every call ever made waits, is with a handler, or has its answer — and only one of
the three. -/
theorem exactly_one_place {s : S} (h : Reach s) (i : Nat) (hi : i < s.calls.length) :
    (Waits s i ∧ ¬ WithHandler s i ∧ ¬ Answered s i) ∨
    (¬ Waits s i ∧ WithHandler s i ∧ ¬ Answered s i) ∨
    (¬ Waits s i ∧ ¬ WithHandler s i ∧ Answered s i) := by
  have h0 := (reach_inv h).once i
  rw [if_pos hi] at h0
  unfold place at h0
  rw [waits_iff, with_iff, answered_iff]
  omega

/-- No caller gets two answers, and nobody is answered who did not call. -/
theorem answered_once {s : S} (h : Reach s) :
    (s.answers.map Prod.fst).Nodup ∧ ∀ x ∈ s.answers, Prod.fst x < s.calls.length := by
  have h0 := (reach_inv h).once
  constructor
  · rw [List.nodup_iff_count_le_one]
    intro i
    have := h0 i
    unfold place answered at this
    split at this <;> omega
  · intro x hx
    have := h0 x.1
    have hp : 0 < answered x.1 s := (answered_iff s x.1).1 ⟨x.2.1, x.2.2, hx⟩
    unfold place at this
    split at this
    · assumption
    · omega

/-- The bounds on the three buffers hold at every moment. -/
theorem buffers_bounded {s : S} (h : Reach s) : s.pending.length ≤ 1024 ∧ s.events.length ≤ 1024 ∧
    ∀ k ∈ s.conns, (Conn.queue k).length ≤ 256 :=
  ⟨(reach_inv h).pending, (reach_inv h).events, (reach_inv h).queues⟩

/-! ## Why an answer is given -/

/-- What call `i` getting answer `a` by event `e` in state `s` means. -/
def Cause (s : S) (i : Nat) : Ev → Answer → Prop
  | .call _ _, .tooMany => i = s.calls.length ∧ s.pending.length = 1024
  | .call p addrs, .notConnected =>
    i = s.calls.length ∧ (¬ ∃ k ∈ s.conns, Conn.peer k = p) ∧ addrs = []
  | .sweep, .timeout => Waits s i ∧ ∃ t p, s.calls[i]? = some (t, p) ∧ t + 15000 ≤ s.now
  | .poll c, .tooMany => Waits s i ∧
    ∃ (k : Conn) (t : Nat), s.conns[c]? = some k ∧ s.calls[i]? = some (t, k.peer) ∧ k.queue.length = 256
  | .dialFailed p _, .notConnected => Waits s i ∧ (¬ ∃ k ∈ s.conns, Conn.peer k = p) ∧
    ∃ t, s.calls[i]? = some (t, p)
  | .closed c, .dropped => ∃ k : Conn, s.conns[c]? = some k ∧ i ∈ k.queue ++ k.nego.map Prod.fst
  | .negotiated c j, .stream => i = j ∧
    ∃ (k : Conn) (t t' : Nat), s.conns[c]? = some k ∧ (i, t') ∈ k.nego ∧ s.calls[i]? = some (t, k.peer)
  | .upgradeError c j e, a => i = j ∧
    (∃ (k : Conn) (t t' : Nat), s.conns[c]? = some k ∧ (i, t') ∈ k.nego ∧ s.calls[i]? = some (t, k.peer)) ∧
    match e with
    | .timeout => a = .timeout
    | .negotiation => a = .upgradeFailed
    | .io _ => a = .upgradeIo
  | _, _ => False

theorem not_connected {s : S} (h : Inv s) {p : Nat} (hp : p ∉ s.connected) :
    ¬ ∃ k ∈ s.conns, Conn.peer k = p := fun he => hp ((h.conns p).2 he)

/-- The call's number is of the form the invariant speaks of. -/
theorem nego_target {s : S} (h : Inv s) {c : Nat} {k : Conn} (hk : s.conns[c]? = some k) {e : Nat × Nat}
    (he : e ∈ k.nego) : ∃ t, s.calls[e.1]? = some (t, k.peer) :=
  h.target k (List.mem_of_getElem? hk) e.1 (List.mem_append_right _ (List.mem_map_of_mem he))

/-- Every answer has its cause: a stream is to the peer asked for; an error says what happened. -/
theorem answer_cause_inv {s s' : S} {e : Ev} (h : Inv s) (hs : s.step e = some s') :
    ∃ new, s'.answers = s.answers ++ new ∧ ∀ x ∈ new, Cause s (Prod.fst x) e x.2.1 ∧ x.2.2 = s.now := by
  cases e with
  | tick d => cases hs; exact ⟨[], (List.append_nil _).symm, by simp⟩
  | call p a =>
    cases hs
    unfold S.openStream
    dsimp only
    split
    · rename_i hm
      refine ⟨[(s.calls.length, .tooMany, s.now)], rfl, ?_⟩
      intro x hx
      rw [List.mem_singleton] at hx; subst hx
      exact ⟨⟨rfl, Nat.le_antisymm h.pending hm⟩, rfl⟩
    · split
      · exact ⟨[], (List.append_nil _).symm, by simp⟩
      · rename_i hc
        split
        · rename_i ha
          refine ⟨[(s.calls.length, .notConnected, s.now)], rfl, ?_⟩
          intro x hx
          rw [List.mem_singleton] at hx; subst hx
          exact ⟨⟨rfl, not_connected h hc, ha⟩, rfl⟩
        · exact ⟨[], (List.append_nil _).symm, by simp⟩
  | sweep =>
    cases hs
    obtain ⟨-, -, -, -, -, -, a7, -, -⟩ := failAll_spec .timeout .timeout
      (s.pending.filter fun o => o.stale s.now)
      { s with pending := s.pending.filter fun o => !o.stale s.now }
    refine ⟨_, a7, ?_⟩
    intro x hx
    obtain ⟨o, ho, rfl⟩ := List.mem_map.1 hx
    obtain ⟨hm, hst⟩ := List.mem_filter.1 ho
    obtain ⟨t, h1, h2⟩ := h.deadline o hm
    refine ⟨⟨⟨o, hm, rfl⟩, t, o.peer, h1, ?_⟩, rfl⟩
    have h3 : o.deadline ≤ s.now := by simpa [Open.stale] using hst
    have e : openDeadline = 15000 := rfl
    omega
  | poll c =>
    dsimp only [S.step] at hs
    unfold S.poll at hs
    cases he : s.events with
    | cons e es =>
      rw [he] at hs
      dsimp only [S.act] at hs
      cases hs
      exact ⟨[], (List.append_nil _).symm, by simp⟩
    | nil =>
      rw [he] at hs
      dsimp only at hs
      cases hf : s.pending.find? Open.isConnected with
      | some o =>
        rw [hf] at hs
        have ho : o ∈ s.pending := List.mem_of_find?_eq_some hf
        have hph : o.phase = .connected := by simpa [Open.isConnected] using List.find?_some hf
        obtain ⟨k0, hk0, hkp0⟩ := (h.conns o.peer).1 ((h.phase o ho).1 hph)
        dsimp only [S.act] at hs
        rw [if_pos (List.any_eq_true.2 ⟨k0, hk0, by simpa using hkp0⟩)] at hs
        cases hk : s.conns[c]? with
        | none => rw [hk] at hs; cases hs
        | some k =>
          rw [hk] at hs
          dsimp only at hs
          split at hs
          · rename_i hkp
            have hs := Option.some.inj hs
            subst hs
            unfold S.toHandler
            dsimp only
            rw [hk]
            dsimp only
            split
            · rename_i hq
              refine ⟨[(o.id, .tooMany, s.now)], rfl, ?_⟩
              intro x hx
              rw [List.mem_singleton] at hx; subst hx
              obtain ⟨t, h1, -⟩ := h.deadline o ho
              refine ⟨⟨⟨o, ho, rfl⟩, k, t, hk, ?_, Nat.le_antisymm (h.queues k (List.mem_of_getElem? hk)) hq⟩, rfl⟩
              rw [hkp]; exact h1
            · exact ⟨[], (List.append_nil _).symm, by simp⟩
          · cases hs
      | none =>
        rw [hf] at hs
        dsimp only at hs
        cases hn : s.pending.find? Open.isNeedsDial with
        | none => rw [hn] at hs; cases hs
        | some o =>
          rw [hn] at hs
          dsimp only [S.act] at hs
          cases hs
          exact ⟨[], (List.append_nil _).symm, by simp⟩
  | established p o =>
    dsimp only [S.step] at hs
    split at hs
    · cases hs
    · cases hs; exact ⟨[], (List.append_nil _).symm, by simp⟩
  | closed c =>
    dsimp only [S.step] at hs
    cases hk : s.conns[c]? with
    | none => rw [hk] at hs; cases hs
    | some k =>
      rw [hk] at hs
      dsimp only at hs
      obtain ⟨a1, a2, a3, a4, a5, a6, a7, a8, a9⟩ := dropAll_spec s k
      have hx : ∀ x ∈ (k.queue ++ k.nego.map Prod.fst).map (fun i => (i, Answer.dropped, s.now)),
          Cause s (Prod.fst x) (.closed c) x.2.1 ∧ x.2.2 = s.now := by
        intro x hx
        obtain ⟨i, hi, rfl⟩ := List.mem_map.1 hx
        exact ⟨⟨k, hk, hi⟩, rfl⟩
      split at hs
      · have hs := Option.some.inj hs
        subst hs
        exact ⟨_, a7, hx⟩
      · have hs := Option.some.inj hs
        subst hs
        exact ⟨_, a7, hx⟩
  | dialFailed p o =>
    dsimp only [S.step] at hs
    split at hs
    · cases hs
    · have hs := Option.some.inj hs
      subst hs
      unfold S.onDialFailed
      dsimp only
      generalize (if o = true then s.dials.eraseP fun d => decide (d.1 = p) else s.dials) = dials
      obtain ⟨-, -, -, -, -, -, a7, -, -⟩ := failAll_spec .notConnected .dial
        (s.pending.filter fun o => o.hit p)
        { s with dials := dials, pending := s.pending.filter fun o => !o.hit p }
      refine ⟨_, a7, ?_⟩
      intro x hx
      obtain ⟨q, hq, rfl⟩ := List.mem_map.1 hx
      obtain ⟨hm, hst⟩ := List.mem_filter.1 hq
      have hst : q.peer = p ∧ q.phase = .awaiting := by simpa [Open.hit] using hst
      obtain ⟨t, h1, h2⟩ := h.deadline q hm
      refine ⟨⟨⟨q, hm, rfl⟩, ?_, t, ?_⟩, rfl⟩
      · refine not_connected h fun hc => ?_
        have := (h.phase q hm).2 (by rw [hst.1]; exact hc)
        rw [hst.2] at this; cases this
      · rw [hst.1] at h1; exact h1
  | request c =>
    dsimp only [S.step] at hs
    cases hk : s.conns[c]? with
    | none => rw [hk] at hs; cases hs
    | some k =>
      rw [hk] at hs
      dsimp only at hs
      cases hq : k.queue with
      | nil => rw [hq] at hs; cases hs
      | cons id q =>
        rw [hq] at hs
        cases hs
        exact ⟨[], (List.append_nil _).symm, by simp⟩
  | negotiated c id =>
    dsimp only [S.step] at hs
    cases hk : s.conns[c]? with
    | none => rw [hk] at hs; cases hs
    | some k =>
      rw [hk] at hs
      dsimp only at hs
      cases hn : k.nego.find? fun e => decide (e.1 = id) with
      | none => rw [hn] at hs; cases hs
      | some e =>
        rw [hn] at hs
        dsimp only at hs
        have hs := Option.some.inj hs
        subst hs
        have he : e.1 = id := by simpa using List.find?_some hn
        have hm := List.mem_of_find?_eq_some hn
        obtain ⟨t, ht⟩ := nego_target h hk hm
        refine ⟨[(id, .stream, s.now)], rfl, ?_⟩
        intro x hx
        rw [List.mem_singleton] at hx; subst hx
        subst he
        exact ⟨⟨rfl, k, t, e.2, hk, hm, ht⟩, rfl⟩
  | upgradeError c id err =>
    dsimp only [S.step] at hs
    cases hk : s.conns[c]? with
    | none => rw [hk] at hs; cases hs
    | some k =>
      rw [hk] at hs
      dsimp only at hs
      cases hn : k.nego.find? fun e => decide (e.1 = id) with
      | none => rw [hn] at hs; cases hs
      | some e =>
        rw [hn] at hs
        dsimp only at hs
        have hs := Option.some.inj hs
        have he : e.1 = id := by simpa using List.find?_some hn
        have hm := List.mem_of_find?_eq_some hn
        obtain ⟨t, ht⟩ := nego_target h hk hm
        have hans : s'.answers = s.answers ++ [(id, (classify err).2, s.now)] := by
          rw [← hs]
          split
          · exact (push_spec _ _).2.2.2.2.2.2.1
          · rfl
        refine ⟨_, hans, ?_⟩
        intro x hx
        rw [List.mem_singleton] at hx; subst hx
        subst he
        refine ⟨⟨rfl, ⟨k, t, e.2, hk, hm, ht⟩, ?_⟩, rfl⟩
        cases err <;> rfl
  | inbound c =>
    dsimp only [S.step] at hs
    cases hk : s.conns[c]? with
    | none => rw [hk] at hs; cases hs
    | some k =>
      rw [hk] at hs
      dsimp only at hs
      have hs := Option.some.inj hs
      subst hs
      refine ⟨[], ?_, by simp⟩
      rw [List.append_nil]
      unfold S.onInbound S.rateLimited
      dsimp only
      split
      · exact (push_spec _ _).2.2.2.2.2.2.1
      · exact (push_spec _ _).2.2.2.2.2.2.1

/-- Every answer has its cause, in every reachable state and for every step. -/
theorem answer_cause {s s' : S} {e : Ev} (h : Reach s) (hs : s.step e = some s') :
    ∃ new, s'.answers = s.answers ++ new ∧ ∀ x ∈ new, Cause s (Prod.fst x) e x.2.1 ∧ x.2.2 = s.now :=
  answer_cause_inv (reach_inv h) hs

/-- A caller whose channel closes without a word had its command with a handler whose connection closed:
the behaviour never hands a command to a peer without a connection. -/
theorem dropped_only_on_close {s s' : S} {e : Ev} (h : Reach s) (hs : s.step e = some s') {i t : Nat}
    (hn : (i, Answer.dropped, t) ∈ s'.answers) (ho : ¬ Answered s i) :
    ∃ c, e = .closed c ∧ ∃ k : Conn, s.conns[c]? = some k ∧ i ∈ k.queue ++ k.nego.map Prod.fst := by
  obtain ⟨new, h1, h2⟩ := answer_cause h hs
  rw [h1] at hn
  rcases List.mem_append.1 hn with h3 | h3
  · exact absurd ⟨_, _, h3⟩ ho
  · have hc := (h2 _ h3).1
    cases e with
    | closed c => exact ⟨c, rfl, hc⟩
    | upgradeError c j er => obtain ⟨-, -, h5⟩ := hc; cases er <;> cases h5
    | _ => exact absurd hc (by simp [Cause])

/-! ## Nobody is left waiting -/

theorem poll_none_iff (s : S) : s.poll = none ↔ s.events = [] ∧ ∀ o ∈ s.pending, Open.phase o = .awaiting := by
  unfold S.poll
  cases he : s.events with
  | cons e es => simp
  | nil =>
    dsimp only
    cases hf : s.pending.find? Open.isConnected with
    | some o =>
      have ho : o ∈ s.pending := List.mem_of_find?_eq_some hf
      have hph : o.phase = .connected := by simpa [Open.isConnected] using List.find?_some hf
      constructor
      · intro h; cases h
      · rintro ⟨-, h⟩
        have := h o ho
        rw [hph] at this; cases this
    | none =>
      dsimp only
      cases hn : s.pending.find? Open.isNeedsDial with
      | some o =>
        have ho : o ∈ s.pending := List.mem_of_find?_eq_some hn
        have hph : o.phase = .needsDial := by simpa [Open.isNeedsDial] using List.find?_some hn
        constructor
        · intro h; cases h
        · rintro ⟨-, h⟩
          have := h o ho
          rw [hph] at this; cases this
      | none =>
        refine ⟨fun _ => ⟨rfl, ?_⟩, fun _ => rfl⟩
        intro o ho
        have h1 := List.find?_eq_none.1 hf o ho
        have h2 := List.find?_eq_none.1 hn o ho
        cases hp : o.phase with
        | awaiting => rfl
        | connected => simp [Open.isConnected, hp] at h1
        | needsDial => simp [Open.isNeedsDial, hp] at h2

/-- When the behaviour says it has nothing to do, every open it holds waits for a dial of its peer that is
under way, and no open waits for a peer that is connected. -/
theorem idle_waits_for_dials {s : S} (h : Reach s) (hp : s.poll = none) :
    s.events = [] ∧ ∀ o ∈ s.pending, (∃ d ∈ s.dials, Prod.fst d = Open.peer o) ∧
      ¬ ∃ k ∈ s.conns, Conn.peer k = Open.peer o := by
  obtain ⟨h1, h2⟩ := (poll_none_iff s).1 hp
  refine ⟨h1, fun o ho => ⟨(reach_inv h).dialing o ho (h2 o ho), not_connected (reach_inv h) fun hc => ?_⟩⟩
  have := ((reach_inv h).phase o ho).2 hc
  rw [h2 o ho] at this; cases this

/-- Whatever a poll hands out can be carried out: a command always finds a connection of its peer. -/
theorem poll_enabled {s : S} (h : Reach s) (hp : s.poll ≠ none) : ∃ c s', s.step (.poll c) = some s' := by
  have hi := reach_inv h
  unfold S.poll at hp
  dsimp only [S.step]
  unfold S.poll
  cases he : s.events with
  | cons e es => exact ⟨0, _, rfl⟩
  | nil =>
    rw [he] at hp
    dsimp only at hp ⊢
    cases hf : s.pending.find? Open.isConnected with
    | some o =>
      have ho : o ∈ s.pending := List.mem_of_find?_eq_some hf
      have hph : o.phase = .connected := by simpa [Open.isConnected] using List.find?_some hf
      obtain ⟨k, hk, hkp⟩ := (hi.conns o.peer).1 ((hi.phase o ho).1 hph)
      obtain ⟨c, hc⟩ := List.getElem?_of_mem hk
      refine ⟨c, S.toHandler { s with events := [], pending := s.pending.erase o } c o.id, ?_⟩
      dsimp only [S.act]
      rw [if_pos (List.any_eq_true.2 ⟨k, hk, by simpa using hkp⟩), hc]
      dsimp only
      rw [if_pos hkp]
      
    | none =>
      rw [hf] at hp
      dsimp only at hp ⊢
      cases hn : s.pending.find? Open.isNeedsDial with
      | some o => exact ⟨0, _, rfl⟩
      | none => rw [hn] at hp; exact absurd rfl hp

/-- The behaviour dials only peers without a connection, with addresses one of the waiting callers gave. -/
theorem dials_disconnected {s s' : S} (h : Reach s) {p : Nat} {as : List Nat}
    (hp : s.poll = some (.dial p as, s')) : (¬ ∃ k ∈ s.conns, Conn.peer k = p) ∧
      ∃ o ∈ s.pending, Open.peer o = p ∧ Open.addrs o = as := by
  have hi := reach_inv h
  unfold S.poll at hp
  split at hp
  · cases hp
  · split at hp
    · cases hp
    · split at hp
      · rename_i o hn
        cases hp
        have ho : o ∈ s.pending := List.mem_of_find?_eq_some hn
        have hph : o.phase = .needsDial := by simpa [Open.isNeedsDial] using List.find?_some hn
        refine ⟨not_connected hi fun hc => ?_, o, ho, rfl, rfl⟩
        have := (hi.phase o ho).2 hc
        rw [hph] at this; cases this
      · cases hp

/-- A failed dial leaves no open waiting for it. -/
theorem dial_failure_tells_all {s s' : S} (h : Reach s) {p : Nat} {b : Bool}
    (hs : s.step (.dialFailed p b) = some s') {o : Open} (ho : o ∈ s'.pending) (hp : o.peer = p) :
    o.phase ≠ .awaiting := by
  intro ha
  dsimp only [S.step] at hs
  split at hs
  · cases hs
  · have hs := Option.some.inj hs
    subst hs
    unfold S.onDialFailed at ho
    rw [(failAll_spec _ _ _ _).2.2.1] at ho
    have := (List.mem_filter.1 ho).2
    simp [Open.hit, hp, ha] at this

end Verif.Strm
