import Verif.Storage.NotifySpec
/-
Waiting for a certificate that is no longer there, and concrete histories (C100).
-/
namespace Verif.Ntf

/-- A key nobody holds a value for: the store shows nothing, no notification of it is under way. -/
structure Dead (s : S) (d : Nat) : Prop where
  vis : s.vis d = none
  notes : ∀ o ∈ s.notes, o.d = d → o.phase = .finished

theorem Dead.step {s s' : S} {d : Nat} (h : Dead s d) (i : Inv s) {e : Ev} (he : ∀ v, e ≠ .insert d v)
    (hs : step s e = some s') : Dead s' d := by
  have setn : ∀ {n : Nat} {o : Note} {p : NPhase}, s.notes[n]? = some o → o.phase ≠ .finished →
      ∀ o' ∈ s.notes.set n { o with phase := p }, o'.d = d → o'.phase = .finished := by
    intro n o p ho hf o' ho' hd
    rcases mem_set ho ho' with rfl | ⟨j, -, hj⟩
    · exact absurd (h.notes o (List.mem_of_getElem? ho) hd) hf
    · exact h.notes o' (List.mem_of_getElem? hj) hd
  cases e with
  | insert d' v =>
    have hne : d' ≠ d := by rintro rfl; exact he v rfl
    dsimp only [Ntf.step] at hs; cases hs
    refine ⟨?_, ?_⟩
    · show (if d = d' then some v else s.vis d) = none
      rw [if_neg (fun e => hne e.symm)]; exact h.vis
    · intro o ho hd
      rcases List.mem_append.mp ho with ho | ho
      · exact h.notes o ho hd
      · rw [List.mem_singleton.mp ho] at hd; exact absurd hd hne
  | remove d' =>
    dsimp only [Ntf.step] at hs; cases hs
    refine ⟨?_, h.notes⟩
    show (if d = d' then none else s.vis d) = none
    split
    · rfl
    · exact h.vis
  | begin_ d' => dsimp only [Ntf.step] at hs; cases hs; exact ⟨h.vis, h.notes⟩
  | push w =>
    dsimp only [Ntf.step] at hs
    repeat' split at hs
    all_goals first | (cases hs; done) | (cases hs; exact ⟨h.vis, h.notes⟩)
  | read w =>
    dsimp only [Ntf.step] at hs
    split at hs
    · rename_i x hw
      split at hs
      · split at hs
        · cases hs; exact ⟨h.vis, h.notes⟩
        · rename_i v hv
          cases hs
          refine ⟨h.vis, ?_⟩
          intro o ho hd
          rcases List.mem_append.mp ho with ho | ho
          · exact h.notes o ho hd
          · rw [List.mem_singleton.mp ho] at hd
            have hd : x.d = d := hd
            rw [hd, h.vis] at hv; cases hv
      · cases hs
    · cases hs
  | poll w =>
    dsimp only [Ntf.step] at hs
    repeat' split at hs
    all_goals first | (cases hs; done) | (cases hs; exact ⟨h.vis, h.notes⟩)
  | cancel w =>
    dsimp only [Ntf.step] at hs
    repeat' split at hs
    all_goals first | (cases hs; done) | (cases hs; exact ⟨h.vis, h.notes⟩)
  | cleanup w =>
    dsimp only [Ntf.step] at hs
    repeat' split at hs
    all_goals first | (cases hs; done) | (cases hs; exact ⟨h.vis, h.notes⟩)
  | take n =>
    dsimp only [Ntf.step] at hs
    split at hs
    · rename_i o ho
      split at hs
      · rename_i ht; cases hs; exact ⟨h.vis, setn ho (by rw [ht]; simp)⟩
      · cases hs
    · cases hs
  | sub n =>
    dsimp only [Ntf.step] at hs
    split at hs
    · rename_i o ho
      split at hs
      · rename_i rs ht; cases hs; exact ⟨h.vis, setn ho (by rw [ht]; simp)⟩
      · cases hs
    · cases hs
  | send n =>
    dsimp only [Ntf.step] at hs
    split at hs
    · rename_i o ho
      split at hs
      · rename_i r rs ht; cases hs; exact ⟨h.vis, setn ho (by rw [ht]; simp)⟩
      · cases hs
    · cases hs
  | finish n =>
    dsimp only [Ntf.step] at hs
    split at hs
    · rename_i o ho
      split at hs
      · rename_i ht
        have k := @setn n o .finished ho (by rw [ht]; simp)
        repeat' split at hs
        all_goals first | (cases hs; done) | (cases hs; exact ⟨h.vis, k⟩)
      · cases hs
    · cases hs

/-- The call has not got anything. -/
def Waiter.empty (x : Waiter) : Prop := x.slot = none ∧ x.phase.val = none

theorem empty_step {s s' : S} {d : Nat} (h : Dead s d) {w : Nat} {x : Waiter} (hw : s.ws[w]? = some x) (hd : x.d = d)
    (hx : x.empty) {e : Ev} (i : Inv s) (hs : step s e = some s') :
    ∃ y, s'.ws[w]? = some y ∧ y.d = d ∧ y.empty := by
  have same : ∀ {u : Nat} {z : Waiter} {p : Phase}, s.ws[u]? = some z → (u = w → p.val = none) →
      ∃ y, (s.ws.set u { z with phase := p })[w]? = some y ∧ y.d = d ∧ y.empty := by
    intro u z p hu hp
    by_cases e : w = u
    · subst e
      rw [hw] at hu; cases hu
      exact ⟨_, set_self hw, hd, hx.1, hp rfl⟩
    · exact ⟨x, set_other hw e, hd, hx⟩
  cases e with
  | insert d' v => dsimp only [step] at hs; cases hs; exact ⟨x, hw, hd, hx⟩
  | remove d' => dsimp only [step] at hs; cases hs; exact ⟨x, hw, hd, hx⟩
  | begin_ d' => dsimp only [step] at hs; cases hs; exact ⟨x, snoc_of hw, hd, hx⟩
  | push u =>
    dsimp only [step] at hs
    split at hs
    · rename_i z hz
      split at hs
      · cases hs; exact same hz (fun _ => rfl)
      · cases hs
    · cases hs
  | read u =>
    dsimp only [step] at hs
    split at hs
    · rename_i z hz
      split at hs
      · split at hs
        · cases hs; exact same hz (fun _ => rfl)
        · rename_i v hv
          cases hs
          refine same hz (fun e => ?_)
          subst e
          rw [hw] at hz; cases hz
          rw [hd, h.vis] at hv; cases hv
      · cases hs
    · cases hs
  | poll u =>
    dsimp only [step] at hs
    split at hs
    · rename_i z hz
      split at hs
      · split at hs
        · rename_i v hv
          cases hs
          refine same hz (fun e => ?_)
          subst e
          rw [hw] at hz; cases hz
          rw [hx.1] at hv; cases hv
        · cases hs
      · cases hs
    · cases hs
  | cancel u =>
    dsimp only [step] at hs
    split at hs
    · rename_i z hz
      split at hs
      · cases hs; exact same hz (fun _ => rfl)
      · cases hs
    · cases hs
  | cleanup u =>
    dsimp only [step] at hs
    split at hs
    · rename_i z hz
      split at hs
      · rename_i r hr
        cases hs
        refine same hz (fun e => ?_)
        subst e
        rw [hw] at hz; cases hz
        have := hx.2
        rw [hr] at this; exact this
      · cases hs
    · cases hs
  | take n =>
    dsimp only [step] at hs
    repeat' split at hs
    all_goals first | (cases hs; done) | (cases hs; exact ⟨x, hw, hd, hx⟩)
  | sub n =>
    dsimp only [step] at hs
    repeat' split at hs
    all_goals first | (cases hs; done) | (cases hs; exact ⟨x, hw, hd, hx⟩)
  | send n =>
    dsimp only [step] at hs
    split at hs
    · rename_i o ho
      split at hs
      · rename_i r rs ht
        cases hs
        obtain ⟨y, k1, k2, k3, k4⟩ := deliver_of (r := r) (v := o.v) hw
        have hne : w ≠ r := by
          rintro rfl
          have hm := List.mem_of_getElem? ho
          obtain ⟨-, z, q1, q2, -⟩ := i.fly o hm w (by simp [Note.inflight, ht])
          rw [hw] at q1; cases q1
          have := h.notes o hm (q2.symm.trans hd)
          rw [ht] at this; cases this
        rw [k4 hne] at k1
        exact ⟨x, k1, hd, hx⟩
      · cases hs
    · cases hs
  | finish n =>
    dsimp only [step] at hs
    split at hs
    · rename_i o ho
      split at hs
      · split at hs
        · cases hs; exact ⟨x, hw, hd, hx⟩
        · rename_i u _
          split at hs
          · rename_i z hz
            split at hs
            · rename_i v hv
              cases hs
              refine same hz (fun e => ?_)
              subst e
              rw [hw] at hz; cases hz
              have := hx.2
              rw [hv] at this; cases this
            · cases hs
          · cases hs
      · cases hs
    · cases hs

/-- **A call that asks for a certificate the store has given up waits until somebody inserts it again**: as long as
nobody does, it returns nothing, whatever else happens. -/
theorem waits_for_ever {s s' : S} (h : Reach s) {w : Nat} {x : Waiter} (hw : s.ws[w]? = some x)
    (hx : x.phase = .counted ∨ x.phase = .registered) (hsl : x.slot = none) (hv : s.vis x.d = none)
    (hn : ∀ o ∈ s.notes, o.d = x.d → o.phase = .finished) {es : List Ev} (he : ∀ v, Ev.insert x.d v ∉ es)
    (hr : runs s es = some s') :
    ∃ y, s'.ws[w]? = some y ∧ ∀ v, y.phase ≠ .gone (some v) := by
  have key : ∀ (es : List Ev) {s : S} {x' : Waiter}, Inv s → Dead s x.d → s.ws[w]? = some x' → x'.d = x.d → x'.empty →
      (∀ v, Ev.insert x.d v ∉ es) → runs s es = some s' → ∃ y, s'.ws[w]? = some y ∧ y.empty := by
    intro es
    induction es with
    | nil => intro s x' _ _ h1 _ h3 _ hr; cases hr; exact ⟨x', h1, h3⟩
    | cons e es ih =>
      intro s x' i hd h1 h2 h3 he hr
      obtain ⟨s1, r1, r2⟩ := Option.bind_eq_some_iff.mp hr
      obtain ⟨y, k1, k2, k3⟩ := empty_step hd h1 h2 h3 i r1
      exact ih (i.step e r1) (hd.step i (fun v e' => he v (by rw [e']; exact List.mem_cons_self)) r1) k1 k2 k3
        (fun v hm => he v (List.mem_cons_of_mem _ hm)) r2
  obtain ⟨y, k1, k2⟩ := key es h.inv ⟨hv, hn⟩ hw rfl ⟨hsl, by rcases hx with e | e <;> rw [e] <;> rfl⟩ he hr
  refine ⟨y, k1, fun v e => ?_⟩
  have := k2.2
  rw [e] at this; cases this

/-- An empty store. -/
def empty0 : S := { vis := fun _ => none }

theorem empty0_init : Init empty0 := ⟨rfl, rfl, rfl, rfl, by intro d v; simp [empty0]⟩

/-- Two calls for key 1 and one for key 2; the insertion of (1, 10) comes between the registration of call 1 and its
read, after the read of call 0. -/
def race : List Ev :=
  [.begin_ 1, .push 0, .begin_ 2, .read 0, .begin_ 1, .push 1, .push 2, .insert 1 10]

theorem run_race : ((runs empty0 race).map (fun s => (s.ws.map (·.phase), s.pend, s.count))) =
    some ([.waiting, .registered, .registered], [(1, 0), (2, 1), (1, 2)], 3) := by decide

/-- The state after the race. -/
def raced : S := (runs empty0 race).getD empty0

theorem raced_reach : Reach raced := ⟨empty0, race, empty0_init, rfl⟩

/-- `wakeup_comes` and `sender_kept` apply to call 0. -/
example : ∃ x, raced.ws[0]? = some x ∧ x.phase = .waiting ∧ raced.vis x.d = some 10 ∧ x.slot = none :=
  ⟨{ d := 1, phase := .waiting }, rfl, rfl, rfl, rfl⟩

/-- The insertion's notification and the one call 2 makes after its own read interleave: call 0 is served once, call 2
returns what it read; call 1 is dropped. -/
def after : List Ev :=
  [.read 2, .take 1, .take 0, .sub 0, .finish 0, .sub 1, .send 1, .send 1, .poll 0, .finish 1, .cleanup 2,
   .read 1, .cancel 1, .cleanup 1]

/-- `nothing_leaks`, `count_exact` and `returned_genuine` apply. -/
example : ((runs raced after).map (fun s => (s.ws.map (·.phase), s.pend, s.count))) =
    some ([.gone (some 10), .gone none, .gone (some 10)], [], 0) := by decide

/-- `no_lost_wakeup` applies after the served notification. -/
example : ((runs raced [.take 0, .sub 0, .send 0, .send 0, .finish 0]).map
    (fun s => (s.ws.map (fun x => (x.phase, x.slot)), s.notes.map (·.phase)))) =
    some ([(.waiting, some 10), (.registered, none), (.registered, some 10)], [.finished]) := by decide

/-- The certificate was stored, then garbage collected; the call comes after that. -/
def late : List Ev := [.insert 1 10, .take 0, .sub 0, .finish 0, .remove 1, .begin_ 1]

/-- `waits_for_ever` applies. -/
example : ((runs empty0 late).map (fun s => (s.ws.map (·.phase), s.vis 1, s.notes.map (·.phase)))) =
    some ([.counted], none, [.finished]) := by decide

end Verif.Ntf
