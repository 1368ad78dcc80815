import Verif.Storage.NotifyMain
/-
Waiting for a certificate: no wake-up is lost, what a call returns was in the store, nothing leaks (C100).
-/
namespace Verif.Ntf

/-- **No wake-up is lost**: while the store shows a certificate under the key of a call that waits, and no
notification of that key is under way, the call has been given a certificate. -/
theorem no_lost_wakeup {s : S} (h : Reach s) {w : Nat} {x : Waiter} (hw : s.ws[w]? = some x)
    (hx : x.phase = .waiting) {v : Nat} (hv : s.vis x.d = some v)
    (hn : ∀ o ∈ s.notes, o.d = x.d → o.phase = .finished) : ∃ v', x.slot = some v' := by
  have i := h.inv
  rcases i.held w x hw (.inr (.inl hx)) with k | k | ⟨o, k1, k2, k3⟩
  · exact Option.isSome_iff_exists.mp k
  · rcases i.woken w x hw hx k with k' | ⟨o, k1, k2, k3⟩
    · rw [hv] at k'; cases k'
    · rw [hn o k1 k2] at k3; cases k3
  · have := hn o k1 k2
    simp [Note.inflight, this] at k3

/-- A call of `notify` under way always has a step of its own to make. -/
theorem note_can_step {s : S} (h : Reach s) {n : Nat} {o : Note} (ho : s.notes[n]? = some o)
    (hf : o.phase ≠ .finished) :
    ∃ s', step s (.take n) = some s' ∨ step s (.sub n) = some s' ∨ step s (.send n) = some s' ∨
      step s (.finish n) = some s' := by
  have i := h.inv
  cases hp : o.phase with
  | todo => exact ⟨_, .inl (by dsimp only [step]; rw [ho]; exact if_pos hp)⟩
  | took rs => exact ⟨_, .inr (.inl (by dsimp only [step]; rw [ho]; simp only [hp]; rfl))⟩
  | sending rs =>
    cases rs with
    | cons r rs => exact ⟨_, .inr (.inr (.inl (by dsimp only [step]; rw [ho]; simp only [hp]; rfl)))⟩
    | nil =>
      cases hw : o.who with
      | none => exact ⟨_, .inr (.inr (.inr (by dsimp only [step]; rw [ho]; simp only [hp, hw, if_pos]; rfl)))⟩
      | some w =>
        obtain ⟨x, v, h1, h2⟩ := i.who o (List.mem_of_getElem? ho) w hw hf
        exact ⟨_, .inr (.inr (.inr (by dsimp only [step]; rw [ho]; simp only [hp, hw, if_pos, h1, h2]; rfl)))⟩
  | finished => exact absurd hp hf

theorem runs_append {s s1 : S} (es fs : List Ev) (h : runs s es = some s1) : runs s (es ++ fs) = runs s1 fs := by
  induction es generalizing s with
  | nil => cases h; rfl
  | cons e es ih =>
    obtain ⟨s2, h1, h2⟩ := Option.bind_eq_some_iff.mp h
    show (step s e).bind (fun s' => runs s' (es ++ fs)) = _
    rw [h1]; exact ih h2

theorem Reach.runs {s s' : S} (h : Reach s) (es : List Ev) (hr : runs s es = some s') : Reach s' := by
  obtain ⟨s0, es0, h0, h1⟩ := h
  exact ⟨s0, es0 ++ es, h0, by rw [runs_append es0 es h1]; exact hr⟩

/-- The steps a call of `notify` makes. -/
def Ev.notifying : Ev → Bool
  | .take _ | .sub _ | .send _ | .finish _ => true
  | _ => false

theorem notifying_vis {s s' : S} {e : Ev} (he : e.notifying = true) (h : step s e = some s') :
    s'.vis = s.vis ∧ s'.notes.length = s.notes.length := by
  cases e <;> simp only [Ev.notifying, Bool.false_eq_true] at he <;> dsimp only [step] at h <;> repeat' split at h
  all_goals first | cases h; done | (cases h; simp [setPhase])

theorem notifying_waiting {s s' : S} {e : Ev} (he : e.notifying = true) (h : step s e = some s') {w : Nat} {x : Waiter}
    (hw : s.ws[w]? = some x) (hx : x.phase = .waiting) : ∃ y, s'.ws[w]? = some y ∧ y.phase = .waiting ∧ y.d = x.d := by
  cases e <;> simp only [Ev.notifying, Bool.false_eq_true] at he <;> dsimp only [step] at h
  · repeat' split at h
    all_goals first | (cases h; done) | (cases h; exact ⟨x, hw, hx, rfl⟩)
  · repeat' split at h
    all_goals first | (cases h; done) | (cases h; exact ⟨x, hw, hx, rfl⟩)
  · split at h
    · rename_i o ho
      split at h
      · rename_i r rs ht
        cases h
        obtain ⟨y, k1, k2, k3, -⟩ := deliver_of (r := r) (v := o.v) hw
        exact ⟨y, k1, k3.trans hx, k2⟩
      · cases h
    · cases h
  · split at h
    · split at h
      · split at h
        · cases h; exact ⟨x, hw, hx, rfl⟩
        · rename_i u _
          split at h
          · rename_i y hy
            split at h
            · rename_i v hv
              cases h
              have : w ≠ u := by rintro rfl; rw [hw] at hy; cases hy; rw [hx] at hv; cases hv
              exact ⟨x, set_other hw this, hx, rfl⟩
            · cases h
          · cases h
      · cases h
    · cases h

/-- How much a call of `notify` has left, once the senders are removed. -/
def Note.left (o : Note) : Nat :=
  match o.phase with
  | .todo => 0
  | .took rs => rs.length + 2
  | .sending rs => rs.length + 1
  | .finished => 0

/-- Driving one call of `notify` to its end. -/
theorem drive {s : S} (h : Reach s) (k : Nat) : ∀ {s : S}, Reach s → ∀ {n : Nat} {o : Note}, s.notes[n]? = some o →
    o.phase ≠ .todo → o.left ≤ k → ∃ es s', (∀ e ∈ es, Ev.notifying e = true) ∧ runs s es = some s' ∧
      (∃ o', s'.notes[n]? = some o' ∧ o'.phase = .finished) ∧
      (∀ j o1, j ≠ n → s.notes[j]? = some o1 → s'.notes[j]? = some o1) := by
  clear h s
  induction k with
  | zero =>
    intro s h n o ho ht hl
    cases hp : o.phase with
    | todo => exact absurd hp ht
    | took rs => simp [Note.left, hp] at hl
    | sending rs => simp [Note.left, hp] at hl
    | finished => exact ⟨[], s, (fun e he => by cases he), rfl, ⟨o, ho, hp⟩, fun _ _ _ h => h⟩
  | succ k ih =>
    intro s h n o ho ht hl
    have go : ∀ (e : Ev) (s1 : S) (o1 : Note), e.notifying = true → step s e = some s1 → s1.notes = s.notes.set n o1 →
        o1.phase ≠ .todo → o1.left ≤ k → ∃ es s', (∀ e ∈ es, Ev.notifying e = true) ∧ runs s es = some s' ∧
        (∃ o', s'.notes[n]? = some o' ∧ o'.phase = .finished) ∧
        (∀ j o1, j ≠ n → s.notes[j]? = some o1 → s'.notes[j]? = some o1) := by
      intro e s1 o1 he hs hn ht1 hl1
      have r1 : runs s [e] = some s1 := by show (step s e).bind _ = _; rw [hs]; rfl
      obtain ⟨es, s', k1, k2, k3, k4⟩ := ih (h.runs [e] r1) (n := n) (o := o1) (by rw [hn]; exact set_self ho) ht1 hl1
      refine ⟨e :: es, s', ?_, ?_, k3, ?_⟩
      · intro e' he'
        rcases List.mem_cons.mp he' with rfl | he'
        · exact he
        · exact k1 e' he'
      · show (step s e).bind _ = _; rw [hs]; exact k2
      · intro j oj hj hoj
        exact k4 j oj hj (by rw [hn]; exact set_other hoj hj)
    cases hp : o.phase with
    | todo => exact absurd hp ht
    | finished => exact ⟨[], s, (fun e he => by cases he), rfl, ⟨o, ho, hp⟩, fun _ _ _ h => h⟩
    | took rs =>
      refine go (.sub n) _ { o with phase := .sending rs } rfl (by dsimp only [step]; rw [ho]; simp only [hp]; rfl) rfl
        (by simp) ?_
      simp only [Note.left, hp] at hl ⊢; omega
    | sending rs =>
      cases rs with
      | cons r rs =>
        refine go (.send n) _ { o with phase := .sending rs } rfl (by dsimp only [step]; rw [ho]; simp only [hp]; rfl) rfl
          (by simp) ?_
        simp only [Note.left, hp, List.length_cons] at hl ⊢; omega
      | nil =>
        cases hw : o.who with
        | none =>
          refine go (.finish n) _ { o with phase := .finished } rfl
            (by dsimp only [step]; rw [ho]; simp only [hp, hw, if_pos]; rfl) (by simp only [hw]) (by simp) (by simp [Note.left])
        | some w =>
          obtain ⟨x, v, h1, h2⟩ := h.inv.who o (List.mem_of_getElem? ho) w hw (by rw [hp]; simp)
          refine go (.finish n) _ { o with phase := .finished } rfl
            (by dsimp only [step]; rw [ho]; simp only [hp, hw, if_pos, h1, h2]; rfl) (by simp only [hw]) (by simp) (by simp [Note.left])

theorem drive_one {s : S} (h : Reach s) {n : Nat} {o : Note} (ho : s.notes[n]? = some o) :
    ∃ es s', (∀ e ∈ es, Ev.notifying e = true) ∧ runs s es = some s' ∧
      (∃ o', s'.notes[n]? = some o' ∧ o'.phase = .finished) ∧
      (∀ j o1, j ≠ n → s.notes[j]? = some o1 → s'.notes[j]? = some o1) := by
  by_cases ht : o.phase = .todo
  · have hs : step s (.take n) = some { s with notes := s.notes.set n { o with phase := .took (regs s.pend o.d) },
                                               pend := s.pend.filter (fun p => !(p.1 == o.d)) } := by
      dsimp only [step]; rw [ho]; exact if_pos ht
    have r1 : runs s [.take n] = some { s with notes := s.notes.set n { o with phase := .took (regs s.pend o.d) },
                                               pend := s.pend.filter (fun p => !(p.1 == o.d)) } := by show (step s (.take n)).bind _ = _; rw [hs]; rfl
    obtain ⟨es, s', k1, k2, k3, k4⟩ := drive (h.runs _ r1) _ (h.runs _ r1) (n := n) (set_self ho) (by simp)
      (Nat.le_refl _)
    refine ⟨.take n :: es, s', ?_, ?_, k3, ?_⟩
    · intro e' he'
      rcases List.mem_cons.mp he' with rfl | he'
      · rfl
      · exact k1 e' he'
    · show (step s (.take n)).bind _ = _; rw [hs]; exact k2
    · intro j oj hj hoj
      exact k4 j oj hj (set_other hoj hj)
  · exact drive h _ h ho ht (Nat.le_refl _)

theorem drive_all {s : S} (h : Reach s) (k : Nat) (hk : k ≤ s.notes.length) :
    ∃ es s', (∀ e ∈ es, Ev.notifying e = true) ∧ runs s es = some s' ∧ s'.notes.length = s.notes.length ∧
      ∀ j o, j < k → s'.notes[j]? = some o → o.phase = .finished := by
  have len : ∀ (es : List Ev) {s s' : S}, (∀ e ∈ es, Ev.notifying e = true) → runs s es = some s' →
      s'.notes.length = s.notes.length := by
    intro es
    induction es with
    | nil => intro s s' _ h; cases h; rfl
    | cons e es ih =>
      intro s s' he h
      obtain ⟨s1, h1, h2⟩ := Option.bind_eq_some_iff.mp h
      rw [ih (fun e' h' => he e' (List.mem_cons_of_mem _ h')) h2, (notifying_vis (he e List.mem_cons_self) h1).2]
  induction k with
  | zero => exact ⟨[], s, (fun e he => by cases he), rfl, rfl, fun j o hj => by omega⟩
  | succ k ih =>
    obtain ⟨es, s1, k1, k2, k3, k4⟩ := ih (by omega)
    have hlt : k < s1.notes.length := by omega
    obtain ⟨es', s2, m1, m2, ⟨o', m3, m3'⟩, m4⟩ := drive_one (h.runs es k2) (List.getElem?_eq_getElem hlt)
    refine ⟨es ++ es', s2, ?_, by rw [runs_append es es' k2]; exact m2, by rw [len es' m1 m2, k3], ?_⟩
    · intro e he
      rcases List.mem_append.mp he with he | he
      · exact k1 e he
      · exact m1 e he
    · intro j o hj hoj
      by_cases e : j = k
      · subst e; rw [m3] at hoj; cases hoj; exact m3'
      · have hj1 : j < s1.notes.length := by omega
        have q := m4 j _ e (List.getElem?_eq_getElem hj1)
        rw [hoj] at q
        exact k4 j o (by omega) (by rw [List.getElem?_eq_getElem hj1]; exact q.symm)

/-- **A call waiting for a certificate the store shows is served** by the notifications already under way: their
own steps, none of which can be refused, give it a value. -/
theorem wakeup_comes {s : S} (h : Reach s) {w : Nat} {x : Waiter} (hw : s.ws[w]? = some x)
    (hx : x.phase = .waiting) {v : Nat} (hv : s.vis x.d = some v) :
    ∃ es s', (∀ e ∈ es, Ev.notifying e = true) ∧ runs s es = some s' ∧
      ∃ y v', s'.ws[w]? = some y ∧ y.phase = .waiting ∧ y.slot = some v' := by
  obtain ⟨es, s', k1, k2, k3, k4⟩ := drive_all h s.notes.length (Nat.le_refl _)
  have keep : ∀ (es : List Ev) {s s' : S} {x : Waiter}, (∀ e ∈ es, Ev.notifying e = true) → runs s es = some s' →
      s.ws[w]? = some x → x.phase = .waiting →
      s'.vis = s.vis ∧ ∃ y, s'.ws[w]? = some y ∧ y.phase = .waiting ∧ y.d = x.d := by
    intro es
    induction es with
    | nil => intro s s' x _ h hw hx; cases h; exact ⟨rfl, x, hw, hx, rfl⟩
    | cons e es ih =>
      intro s s' x he h hw hx
      obtain ⟨s1, h1, h2⟩ := Option.bind_eq_some_iff.mp h
      have he0 := he e List.mem_cons_self
      obtain ⟨y, q1, q2, q3⟩ := notifying_waiting he0 h1 hw hx
      obtain ⟨p0, z, p1, p2, p3⟩ := ih (fun e' h' => he e' (List.mem_cons_of_mem _ h')) h2 q1 q2
      exact ⟨by rw [p0, (notifying_vis he0 h1).1], z, p1, p2, p3.trans q3⟩
  obtain ⟨p0, y, p1, p2, p3⟩ := keep es k1 k2 hw hx
  obtain ⟨v', hv'⟩ := no_lost_wakeup (h.runs es k2) p1 p2 (v := v) (by rw [p3, p0]; exact hv) (by
    intro o ho _
    obtain ⟨j, hj⟩ := List.mem_iff_getElem?.mp ho
    have := (List.getElem?_eq_some_iff.mp hj).1
    exact k4 j o (by omega) hj)
  exact ⟨es, s', k1, k2, y, v', p1, p2, hv'⟩

theorem hist_runs {s s' : S} (es : List Ev) (h : runs s es = some s') {d v : Nat} (hm : (d, v) ∈ s'.hist) :
    (d, v) ∈ s.hist ∨ Ev.insert d v ∈ es := by
  induction es generalizing s with
  | nil => cases h; exact .inl hm
  | cons e es ih =>
    obtain ⟨s1, h1, h2⟩ := Option.bind_eq_some_iff.mp h
    rcases ih h2 with k | k
    · by_cases hi : ∃ d' v', e = .insert d' v'
      · obtain ⟨d', v', rfl⟩ := hi
        dsimp only [step] at h1
        cases h1
        rcases List.mem_cons.mp k with k | k
        · cases k; exact .inr List.mem_cons_self
        · exact .inl k
      · left
        have : s1.hist = s.hist := by
          cases e <;> dsimp only [step] at h1
          · exact absurd ⟨_, _, rfl⟩ hi
          all_goals (repeat' split at h1)
          all_goals first | (cases h1; done) | (cases h1; rfl)
        rw [← this]; exact k
    · exact .inr (List.mem_cons_of_mem _ k)

/-- **What a call returns was in the store** under the key asked for: at the start, or inserted since. -/
theorem returned_genuine {s0 s : S} {es : List Ev} (h0 : Init s0) (h : runs s0 es = some s) {w : Nat} {x : Waiter}
    (hw : s.ws[w]? = some x) {v : Nat} (hx : x.phase = .gone (some v)) :
    s0.vis x.d = some v ∨ Ev.insert x.d v ∈ es := by
  have i := ((Inv.init h0).runs es h)
  rcases hist_runs es h (i.phasev w x v hw (by rw [hx]; rfl)) with k | k
  · exact .inl ((h0.hist _ _).mpr k)
  · exact .inr k

/-- The sender of a call that waits is never dropped unsent: the value was sent, or the sender is registered under
the call's key, or a `notify` of that key holds it (so the receiver's `expect` cannot fail). -/
theorem sender_kept {s : S} (h : Reach s) {w : Nat} {x : Waiter} (hw : s.ws[w]? = some x) (hx : x.phase = .waiting) :
    (∃ v, x.slot = some v) ∨ (x.d, w) ∈ s.pend ∨
      ∃ o ∈ s.notes, o.d = x.d ∧ ∃ rs, w ∈ rs ∧ (o.phase = .took rs ∨ o.phase = .sending rs) := by
  rcases h.inv.held w x hw (.inr (.inl hx)) with k | k | ⟨o, k1, k2, k3⟩
  · exact .inl (Option.isSome_iff_exists.mp k)
  · exact .inr (.inl k)
  · refine .inr (.inr ⟨o, k1, k2, ?_⟩)
    cases hp : o.phase with
    | took rs => simp only [Note.inflight, hp] at k3; exact ⟨rs, k3, .inl rfl⟩
    | sending rs => simp only [Note.inflight, hp] at k3; exact ⟨rs, k3, .inr rfl⟩
    | todo => simp [Note.inflight, hp] at k3
    | finished => simp [Note.inflight, hp] at k3

/-- The counter of pending registrations never goes below the number of registered senders, so it never wraps. -/
theorem count_bound {s : S} (h : Reach s) : (s.pend.length : Int) ≤ s.count := by
  rw [h.inv.count]; omega

/-- Between calls the counter is the number of registered senders. -/
theorem count_exact {s : S} (h : Reach s) (hw : ∀ x ∈ s.ws, x.phase ≠ .counted)
    (hn : ∀ o ∈ s.notes, ∀ rs, o.phase ≠ .took rs) : s.count = s.pend.length := by
  rw [h.inv.count]
  have h1 : (s.ws.map Waiter.owed).sum = 0 := by
    rw [List.sum_eq_zero_iff_forall_eq_nat]
    intro n hn
    obtain ⟨x, hx, rfl⟩ := List.mem_map.mp hn
    simp [Waiter.owed, hw x hx]
  have h2 : (s.notes.map Note.owed).sum = 0 := by
    rw [List.sum_eq_zero_iff_forall_eq_nat]
    intro n hn'
    obtain ⟨o, ho, rfl⟩ := List.mem_map.mp hn'
    unfold Note.owed
    split
    · rename_i rs e; exact absurd e (hn o ho rs)
    · rfl
  rw [h1, h2]; rfl

/-- **Nothing leaks**: when every call has returned or was dropped and cleaned up, and no `notify` is between its two
halves, no sender is left behind and the counter is zero. -/
theorem nothing_leaks {s : S} (h : Reach s) (hw : ∀ x ∈ s.ws, ∃ r, x.phase = .gone r)
    (hn : ∀ o ∈ s.notes, ∀ rs, o.phase ≠ .took rs) : s.pend = [] ∧ s.count = 0 := by
  have hp : s.pend = [] := by
    rw [List.eq_nil_iff_forall_not_mem]
    rintro ⟨d, w⟩ hm
    obtain ⟨x, h1, -, -, h4⟩ := h.inv.key d w hm
    obtain ⟨r, hr⟩ := hw x (List.mem_of_getElem? h1)
    rcases h4 with (e | e | ⟨v, e⟩) | ⟨v, e⟩ <;> rw [hr] at e <;> cases e
  refine ⟨hp, ?_⟩
  rw [count_exact h (fun x hx => by obtain ⟨r, hr⟩ := hw x hx; rw [hr]; simp) hn, hp]; rfl

end Verif.Ntf
