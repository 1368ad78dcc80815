import Verif.Net.StreamsTime

/-!
# Stream opens: what is reported about peers
-/

namespace Verif.Strm

open Verif.Net (get put del)

/-- What reporting `x` by event `e` in state `s` means. -/
def Reason (s : S) (e : Ev) : SEv → Prop
  | .inbound p => ∃ (c : Nat) (k : Conn), e = .inbound c ∧ s.conns[c]? = some k ∧ k.peer = p ∧
      (s.rateLimited p).1 = false
  | .inboundFailure p f => f = .inboundRate ∧ ∃ (c : Nat) (k : Conn), e = .inbound c ∧
      s.conns[c]? = some k ∧ k.peer = p ∧ (s.rateLimited p).1 = true
  | .outboundFailure p .timeout =>
      (e = .sweep ∧ ∃ i t, s.calls[i]? = some (t, p) ∧ Waits s i ∧ t + 15000 ≤ s.now) ∨
      ∃ (c i : Nat) (k : Conn), e = .upgradeError c i .timeout ∧ s.conns[c]? = some k ∧ k.peer = p
  | .outboundFailure p .dial => (∃ b, e = .dialFailed p b) ∧ ∃ i t, s.calls[i]? = some (t, p) ∧ Waits s i
  | .outboundFailure p (.io b) =>
      ∃ (c i : Nat) (k : Conn), e = .upgradeError c i (.io b) ∧ s.conns[c]? = some k ∧ k.peer = p
  | .outboundFailure _ .unsupported => False
  | .outboundFailure _ .inboundRate => False

theorem push_mem {s : S} {e x : SEv} (h : x ∈ (s.push e).events) : x ∈ s.events ∨ x = e := by
  unfold S.push at h
  split at h
  · rcases List.mem_append.1 h with h1 | h1
    · exact Or.inl h1
    · exact Or.inr (List.mem_singleton.1 h1)
  · exact Or.inl h

theorem failAll_mem {a : Answer} {f : Failure} {os : List Open} {s : S} {x : SEv}
    (h : x ∈ (S.failAll a f s os).events) :
    x ∈ s.events ∨ ∃ o ∈ os, x = .outboundFailure (Open.peer o) f := by
  induction os generalizing s with
  | nil => exact Or.inl h
  | cons o os ih =>
    rcases ih h with h1 | ⟨q, hq, he⟩
    · rcases push_mem h1 with h2 | h2
      · exact Or.inl h2
      · exact Or.inr ⟨o, List.mem_cons_self, h2⟩
    · exact Or.inr ⟨q, List.mem_cons_of_mem _ hq, he⟩

theorem report_reason_inv {s s' : S} {e : Ev} (h : Inv s) (hs : s.step e = some s') {x : SEv}
    (hx : x ∈ s'.events) : x ∈ s.events ∨ Reason s e x := by
  cases e with
  | tick d => cases hs; exact Or.inl hx
  | call p a =>
    cases hs
    left
    unfold S.openStream at hx
    dsimp only at hx
    split at hx
    · exact hx
    · split at hx
      · exact hx
      · split at hx <;> exact hx
  | sweep =>
    cases hs
    rcases failAll_mem hx with h1 | ⟨o, ho, he⟩
    · exact Or.inl h1
    · right
      subst he
      obtain ⟨hm, hst⟩ := List.mem_filter.1 ho
      obtain ⟨t, h1, h2⟩ := h.deadline o hm
      refine Or.inl ⟨rfl, o.id, t, h1, ⟨o, hm, rfl⟩, ?_⟩
      have h3 : o.deadline ≤ s.now := by simpa [Open.stale] using hst
      have e : openDeadline = 15000 := rfl
      omega
  | poll c =>
    left
    dsimp only [S.step] at hs
    have hact : ∀ (t : S) (o : Out), t.act c o = some s' → s'.events = t.events := by
      intro t o h
      cases o with
      | event e => cases h; rfl
      | dial p a => cases h; rfl
      | notify o =>
        dsimp only [S.act] at h
        split at h
        · split at h
          · split at h
            · cases h
              unfold S.toHandler
              split
              · split <;> rfl
              · rfl
            · cases h
          · cases h
        · cases h; rfl
    cases hp : s.poll with
    | none => rw [hp] at hs; cases hs
    | some y =>
      obtain ⟨o, t⟩ := y
      rw [hp] at hs
      rw [hact t o hs] at hx
      unfold S.poll at hp
      split at hp
      · rename_i e es he
        cases hp
        rw [he]
        exact List.mem_cons_of_mem _ hx
      · split at hp
        · cases hp; exact hx
        · split at hp
          · cases hp; exact hx
          · cases hp
  | established p o =>
    dsimp only [S.step] at hs
    split at hs
    · cases hs
    · cases hs; exact Or.inl hx
  | closed c =>
    left
    dsimp only [S.step] at hs
    cases hk : s.conns[c]? with
    | none => rw [hk] at hs; cases hs
    | some k =>
      rw [hk] at hs
      dsimp only at hs
      have a9 := (dropAll_spec s k).2.2.2.2.2.2.2.2
      split at hs
      · have hs := Option.some.inj hs
        subst hs
        have hx : x ∈ (s.dropAll k).events := hx
        rw [a9] at hx; exact hx
      · have hs := Option.some.inj hs
        subst hs
        have hx : x ∈ (s.dropAll k).events := hx
        rw [a9] at hx; exact hx
  | dialFailed p o =>
    dsimp only [S.step] at hs
    split at hs
    · cases hs
    · have hs := Option.some.inj hs
      subst hs
      rcases failAll_mem hx with h1 | ⟨q, hq, he⟩
      · exact Or.inl h1
      · right
        subst he
        obtain ⟨hm, hst⟩ := List.mem_filter.1 hq
        have hst : q.peer = p ∧ q.phase = .awaiting := by simpa [Open.hit] using hst
        obtain ⟨t, h1, -⟩ := h.deadline q hm
        refine ⟨⟨o, ?_⟩, q.id, t, h1, q, hm, rfl⟩
        rw [hst.1]
  | request c =>
    dsimp only [S.step] at hs
    split at hs
    · split at hs
      · cases hs; exact Or.inl hx
      · cases hs
    · cases hs
  | negotiated c id =>
    dsimp only [S.step] at hs
    split at hs
    · split at hs
      · cases hs; exact Or.inl hx
      · cases hs
    · cases hs
  | upgradeError c id err =>
    dsimp only [S.step] at hs
    split at hs
    · rename_i k hk
      split at hs
      · have hs := Option.some.inj hs
        subst hs
        cases err with
        | negotiation => exact Or.inl hx
        | timeout =>
          rcases push_mem hx with h1 | h1
          · exact Or.inl h1
          · right; subst h1; exact Or.inr ⟨c, id, k, rfl, hk, rfl⟩
        | io b =>
          rcases push_mem hx with h1 | h1
          · exact Or.inl h1
          · right; subst h1; exact ⟨c, id, k, rfl, hk, rfl⟩
      · cases hs
    · cases hs
  | inbound c =>
    dsimp only [S.step] at hs
    split at hs
    · rename_i k hk
      have hs := Option.some.inj hs
      subst hs
      unfold S.onInbound at hx
      dsimp only at hx
      split at hx
      · rename_i hl
        rcases push_mem hx with h1 | h1
        · exact Or.inl h1
        · right; subst h1; exact ⟨rfl, c, k, rfl, hk, rfl, hl⟩
      · rename_i hl
        rcases push_mem hx with h1 | h1
        · exact Or.inl h1
        · right; subst h1; exact ⟨c, k, rfl, hk, rfl, by simpa using hl⟩
    · cases hs

/-- Whatever is reported about a peer is about that peer and true: a timeout or failed dial of an open to
it, an error on its connection, its own inbound stream, its own excess. -/
theorem report_reason {s s' : S} {e : Ev} (h : Reach s) (hs : s.step e = some s') {x : SEv}
    (hx : x ∈ s'.events) : x ∈ s.events ∨ Reason s e x :=
  report_reason_inv (reach_inv h) hs hx

/-- A peer that does not speak the stream protocol is never reported for it. -/
theorem unsupported_not_reported {s : S} (h : Reach s) (p : Nat) :
    SEv.outboundFailure p .unsupported ∉ s.events := by
  obtain ⟨es, hr⟩ := h
  suffices ∀ (es : List Ev) (a b : S), Inv a → SEv.outboundFailure p .unsupported ∉ a.events →
      a.runs es = some b → SEv.outboundFailure p .unsupported ∉ b.events from
    this es _ _ inv_init (by simp [S.init]) hr
  clear hr es s
  intro es
  induction es with
  | nil => intro a b _ h1 h2; cases h2; exact h1
  | cons e es ih =>
    intro a b hi h1 h2
    obtain ⟨m, h3, h4⟩ := Option.bind_eq_some_iff.1 h2
    refine ih m b (inv_step hi h3) (fun hm => ?_) h4
    rcases report_reason_inv hi h3 hm with h5 | h5
    · exact h1 h5
    · exact h5

end Verif.Strm
