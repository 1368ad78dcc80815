import Verif.Storage.NotifyProps
/-
Every step keeps the invariant of the waiting for certificates.
-/
namespace Verif.Ntf

/-- `register_one`, first half. -/
theorem Inv.begin_ {s : S} (i : Inv s) (d : Nat) :
    Inv { s with count := s.count + 1, ws := s.ws ++ [{ d, phase := .counted }] } := by
  refine { i with key := ?_, fly := ?_, fresh := ?_, held := ?_, woken := ?_, slotv := ?_, phasev := ?_,
                  count := ?_, who := ?_, whop := ?_ }
  · intro d' u hu
    obtain ⟨y, h1, h⟩ := i.key d' u hu
    exact ⟨y, snoc_of h1, h⟩
  · intro o ho r hr
    obtain ⟨h0, y, h1, h⟩ := i.fly o ho r hr
    exact ⟨h0, y, snoc_of h1, h⟩
  · intro u y hu hy
    rcases getElem?_snoc hu with h | ⟨-, rfl⟩
    · exact i.fresh u y h hy
    · rfl
  · intro u y hu hy
    rcases getElem?_snoc hu with h | ⟨-, rfl⟩
    · exact i.held u y h hy
    · rcases hy with e | e | ⟨v, e⟩ <;> cases e
  · intro u y hu hy hm
    rcases getElem?_snoc hu with h | ⟨-, rfl⟩
    · exact i.woken u y h hy hm
    · cases hy
  · intro u y v hu hy
    rcases getElem?_snoc hu with h | ⟨-, rfl⟩
    · exact i.slotv u y v h hy
    · cases hy
  · intro u y v hu hy
    rcases getElem?_snoc hu with h | ⟨-, rfl⟩
    · exact i.phasev u y v h hy
    · cases hy
  · have h := i.count
    have e : Waiter.owed { d, phase := .counted } = 1 := rfl
    show s.count + 1 = ((s.pend.length + ((s.ws ++ [({ d, phase := .counted } : Waiter)]).map Waiter.owed).sum +
      (s.notes.map Note.owed).sum : Nat) : Int)
    rw [List.map_append, List.sum_append]
    simp only [List.map_cons, List.map_nil, List.sum_cons, List.sum_nil, e]
    omega
  · intro o ho w hw hf
    obtain ⟨x, v, h1, h2⟩ := i.who o ho w hw hf
    exact ⟨x, v, snoc_of h1, h2⟩
  · intro o ho w hw
    obtain ⟨x, h1, h2⟩ := i.whop o ho w hw
    exact ⟨x, snoc_of h1, h2⟩

/-- `register_one`, second half. -/
theorem Inv.push {s : S} (i : Inv s) {w : Nat} {x : Waiter} (hw : s.ws[w]? = some x) (hx : x.phase = .counted) :
    Inv { Ntf.setPhase s w x .registered with pend := s.pend ++ [(x.d, w)] } := by
  have hnp : w ∉ s.pend.map (·.2) := by
    intro h
    obtain ⟨d, hd⟩ := mem_snd.mp h
    obtain ⟨y, h1, -, -, h4⟩ := i.key d w hd
    rw [hw] at h1; cases h1
    rcases h4 with (e | e | ⟨v, e⟩) | ⟨v, e⟩ <;> rw [hx] at e <;> cases e
  have hsl := i.fresh w x hw hx
  refine { i with nodup := ?_, key := ?_, fly := ?_, fresh := ?_, held := ?_, woken := ?_, slotv := ?_, phasev := ?_,
                  count := ?_, who := ?_, whop := ?_ }
  · show ((s.pend ++ [(x.d, w)]).map (·.2)).Nodup
    rw [List.map_append, List.nodup_append]
    refine ⟨i.nodup, by simp, ?_⟩
    intro a ha b hb e
    simp only [List.map_cons, List.map_nil, List.mem_singleton] at hb
    subst hb; subst e; exact hnp ha
  · intro d u hu
    rcases List.mem_append.mp hu with hu' | hu
    · obtain ⟨y, h1, h⟩ := i.key d u hu'
      have : u ≠ w := by rintro rfl; exact hnp (mem_snd.mpr ⟨d, hu'⟩)
      exact ⟨y, set_other h1 this, h⟩
    · have := List.mem_singleton.mp hu
      cases this
      exact ⟨_, set_self hw, rfl, hsl, .inl (.inl rfl)⟩
  · intro o ho r hr
    obtain ⟨h0, y, h1, h2, h3⟩ := i.fly o ho r hr
    have hne : r ≠ w := by rintro rfl; rw [hw] at h1; cases h1; exact h3 hx
    refine ⟨?_, y, set_other h1 hne, h2, h3⟩
    intro hm
    obtain ⟨d, hd⟩ := mem_snd.mp hm
    rcases List.mem_append.mp hd with hd | hd
    · exact h0 (mem_snd.mpr ⟨d, hd⟩)
    · have := List.mem_singleton.mp hd
      cases this; exact hne rfl
  · intro u y hu hy
    rcases getElem?_set' hw hu with ⟨-, rfl⟩ | ⟨-, h⟩
    · exact hsl
    · exact i.fresh u y h hy
  · intro u y hu hy
    rcases getElem?_set' hw hu with ⟨rfl, rfl⟩ | ⟨-, h⟩
    · exact .inr (.inl (List.mem_append_right _ (List.mem_singleton.mpr rfl)))
    · rcases i.held u y h hy with h | h | h
      · exact .inl h
      · exact .inr (.inl (List.mem_append_left _ h))
      · exact .inr (.inr h)
  · intro u y hu hy hm
    rcases getElem?_set' hw hu with ⟨rfl, rfl⟩ | ⟨hne, h⟩
    · cases hy
    · refine i.woken u y h hy ?_
      rcases List.mem_append.mp hm with hm | hm
      · exact hm
      · have := List.mem_singleton.mp hm
        exact absurd (congrArg Prod.snd this) hne
  · intro u y v hu hy
    rcases getElem?_set' hw hu with ⟨-, rfl⟩ | ⟨-, h⟩
    · exact i.slotv w x v hw hy
    · exact i.slotv u y v h hy
  · intro u y v hu hy
    rcases getElem?_set' hw hu with ⟨-, rfl⟩ | ⟨-, h⟩
    · cases hy
    · exact i.phasev u y v h hy
  · have h1 := sum_set Waiter.owed s.ws w x { x with phase := .registered } hw
    have h2 : Waiter.owed x = 1 := by simp [Waiter.owed, hx]
    have h3 : Waiter.owed { x with phase := .registered } = 0 := rfl
    have h4 := i.count
    show s.count = (((s.pend ++ [(x.d, w)]).length +
      ((s.ws.set w { x with phase := .registered }).map Waiter.owed).sum + (s.notes.map Note.owed).sum : Nat) : Int)
    rw [List.length_append, List.length_singleton]
    omega
  · intro o ho u hu hf
    obtain ⟨y, v, h1, h2⟩ := i.who o ho u hu hf
    have : u ≠ w := by rintro rfl; rw [hw] at h1; cases h1; rw [hx] at h2; cases h2
    exact ⟨y, v, set_other h1 this, h2⟩
  · intro o ho u hu
    obtain ⟨y, h1, h2⟩ := i.whop o ho u hu
    have : u ≠ w := by rintro rfl; rw [hw] at h1; cases h1; rw [hx] at h2; cases h2
    exact ⟨y, set_other h1 this, h2⟩

/-- The clean-up of a dropped registration. -/
theorem Inv.cleanup {s : S} (i : Inv s) {w : Nat} {x : Waiter} {r : Option Nat} (hw : s.ws[w]? = some x)
    (hx : x.phase = .closing r) :
    Inv { Ntf.setPhase s w x (.gone r) with
            pend := s.pend.filter (fun p => !(p.1 == x.d && closed s.ws p.2)),
            count := s.count - (s.pend.filter (fun p => p.1 == x.d && closed s.ws p.2)).length } := by
  have hcl : closed s.ws w = true := by unfold closed; rw [hw]; simp [hx]
  have hsub : ∀ {q : Nat × Nat}, q ∈ s.pend.filter (fun p => !(p.1 == x.d && closed s.ws p.2)) → q ∈ s.pend :=
    fun h => (List.mem_filter.mp h).1
  have hnw : ∀ {d u : Nat}, (d, u) ∈ s.pend.filter (fun p => !(p.1 == x.d && closed s.ws p.2)) → u ≠ w := by
    intro d u h e
    subst e
    obtain ⟨y, h1, h2, -⟩ := i.key d u (hsub h)
    rw [hw] at h1; cases h1
    have := (List.mem_filter.mp h).2
    simp [h2, hcl] at this
  refine { i with nodup := ?_, key := ?_, fly := ?_, fresh := ?_, held := ?_, woken := ?_, slotv := ?_, phasev := ?_,
                  count := ?_, who := ?_, whop := ?_ }
  · exact i.nodup.sublist (List.Sublist.map _ (List.filter_sublist))
  · intro d u hu
    obtain ⟨y, h1, h⟩ := i.key d u (hsub hu)
    exact ⟨y, set_other h1 (hnw hu), h⟩
  · intro o ho u hu
    obtain ⟨h0, y, h1, h2, h3⟩ := i.fly o ho u hu
    refine ⟨?_, ?_⟩
    · intro hm
      obtain ⟨d, hd⟩ := mem_snd.mp hm
      exact h0 (mem_snd.mpr ⟨d, hsub hd⟩)
    · by_cases e : u = w
      · subst e
        rw [hw] at h1; cases h1
        exact ⟨_, set_self hw, h2, by simp⟩
      · exact ⟨y, set_other h1 e, h2, h3⟩
  · intro u y hu hy
    rcases getElem?_set' hw hu with ⟨-, rfl⟩ | ⟨-, h⟩
    · cases hy
    · exact i.fresh u y h hy
  · intro u y hu hy
    rcases getElem?_set' hw hu with ⟨-, rfl⟩ | ⟨-, h⟩
    · rcases hy with e | e | ⟨v, e⟩ <;> cases e
    · rcases i.held u y h hy with h' | h' | h'
      · exact .inl h'
      · refine .inr (.inl (List.mem_filter.mpr ⟨h', ?_⟩))
        simp [Waiter.live_not_closed h hy]
      · exact .inr (.inr h')
  · intro u y hu hy hm
    rcases getElem?_set' hw hu with ⟨-, rfl⟩ | ⟨-, h⟩
    · cases hy
    · exact i.woken u y h hy (hsub hm)
  · intro u y v hu hy
    rcases getElem?_set' hw hu with ⟨-, rfl⟩ | ⟨-, h⟩
    · exact i.slotv w x v hw hy
    · exact i.slotv u y v h hy
  · intro u y v hu hy
    rcases getElem?_set' hw hu with ⟨-, rfl⟩ | ⟨-, h⟩
    · exact i.phasev w x v hw (by rw [hx]; exact hy)
    · exact i.phasev u y v h hy
  · have h1 := sum_set Waiter.owed s.ws w x { x with phase := .gone r } hw
    have h2 : Waiter.owed x = 0 := by simp [Waiter.owed, hx]
    have h3 : Waiter.owed { x with phase := .gone r } = 0 := rfl
    have h4 := i.count
    have h5 := filter_len s.pend (fun p => p.1 == x.d && closed s.ws p.2)
    show s.count - (s.pend.filter (fun p => p.1 == x.d && closed s.ws p.2)).length =
      (((s.pend.filter (fun p => !(p.1 == x.d && closed s.ws p.2))).length +
      ((s.ws.set w { x with phase := .gone r }).map Waiter.owed).sum + (s.notes.map Note.owed).sum : Nat) : Int)
    omega
  · intro o ho u hu hf
    obtain ⟨y, v, h1, h2⟩ := i.who o ho u hu hf
    have : u ≠ w := by rintro rfl; rw [hw] at h1; cases h1; rw [hx] at h2; cases h2
    exact ⟨y, v, set_other h1 this, h2⟩
  · intro o ho u hu
    obtain ⟨y, h1, h2⟩ := i.whop o ho u hu
    by_cases e : u = w
    · subst e; exact ⟨_, set_self hw, rfl⟩
    · exact ⟨y, set_other h1 e, h2⟩

/-- The store shows a value, its notification is due. -/
theorem Inv.insert {s : S} (i : Inv s) (d v : Nat) :
    Inv { s with vis := fun k => if k = d then some v else s.vis k, notes := s.notes ++ [{ d, v }],
                 hist := (d, v) :: s.hist } := by
  have i1 : Inv { s with hist := (d, v) :: s.hist } :=
    { i with visv := fun a b h => List.mem_cons_of_mem _ (i.visv a b h)
             notev := fun o h => List.mem_cons_of_mem _ (i.notev o h)
             slotv := fun w x u h1 h2 => List.mem_cons_of_mem _ (i.slotv w x u h1 h2)
             phasev := fun w x u h1 h2 => List.mem_cons_of_mem _ (i.phasev w x u h1 h2) }
  have i2 := i1.note { d, v } rfl List.mem_cons_self (fun w h => by cases h)
  refine { i2 with woken := ?_, visv := ?_ }
  · intro w x h1 h2 h3
    by_cases e : x.d = d
    · exact .inr ⟨{ d, v }, List.mem_append_right _ (List.mem_singleton.mpr rfl), e.symm, rfl⟩
    · rcases i2.woken w x h1 h2 h3 with h | h
      · refine .inl ?_
        show (if x.d = d then some v else s.vis x.d) = none
        rw [if_neg e]; exact h
      · exact .inr h
  · intro a b h
    have h : (if a = d then some v else s.vis a) = some b := h
    by_cases e : a = d
    · rw [if_pos e] at h; rw [e, Option.some.inj h]; exact List.mem_cons_self
    · rw [if_neg e] at h; exact i2.visv a b h

/-- A deletion. -/
theorem Inv.remove {s : S} (i : Inv s) (d : Nat) : Inv { s with vis := fun k => if k = d then none else s.vis k } := by
  refine { i with woken := ?_, visv := ?_ }
  · intro w x h1 h2 h3
    rcases i.woken w x h1 h2 h3 with h | h
    · refine .inl ?_
      show (if x.d = d then none else s.vis x.d) = none
      split
      · rfl
      · exact h
    · exact .inr h
  · intro a b h
    have h : (if a = d then none else s.vis a) = some b := h
    split at h
    · cases h
    · exact i.visv a b h

/-- Every step keeps the invariant. -/
theorem Inv.step {s s' : S} (i : Inv s) (e : Ev) (h : step s e = some s') : Inv s' := by
  cases e with
  | insert d v => dsimp only [Ntf.step] at h; cases h; exact i.insert d v
  | remove d => dsimp only [Ntf.step] at h; cases h; exact i.remove d
  | begin_ d => dsimp only [Ntf.step] at h; cases h; exact i.begin_ d
  | push w =>
    dsimp only [Ntf.step] at h
    split at h
    · rename_i x hw
      split at h
      · rename_i hx; cases h; exact i.push hw hx
      · cases h
    · cases h
  | read w =>
    dsimp only [Ntf.step] at h
    split at h
    · rename_i x hw
      split at h
      · rename_i hx
        have hl : x.live := .inl hx
        split at h
        · rename_i hv
          cases h
          exact i.setPhase hw hl .waiting (.inl (.inr (.inl rfl))) (fun _ => .inl hv) (fun v hv => by cases hv)
            (fun h => by rw [hx] at h; cases h) (fun ⟨v, h⟩ => by rw [hx] at h; cases h)
        · rename_i v hv
          cases h
          have i1 : Inv (Ntf.setPhase s w x (.finishing v)) :=
            i.setPhase hw hl (.finishing v) (.inl (.inr (.inr ⟨v, rfl⟩))) (fun h => by cases h)
              (fun v' hv' => by cases hv'; exact i.visv _ _ hv) (fun h => by rfl) (fun ⟨v', h⟩ => .inl ⟨v, rfl⟩)
          refine i1.note { d := x.d, v, who := some w } rfl (i.visv _ _ hv) ?_
          intro u hu
          cases hu
          refine ⟨⟨_, v, set_self hw, rfl⟩, ?_⟩
          intro o' ho' hwho
          obtain ⟨y, h1, h2⟩ := i.whop o' ho' w hwho
          rw [hw] at h1; cases h1
          rw [hx] at h2; cases h2
      · cases h
    · cases h
  | poll w =>
    dsimp only [Ntf.step] at h
    split at h
    · rename_i x hw
      split at h
      · rename_i hx
        split at h
        · rename_i v hv
          cases h
          exact i.setPhase hw (.inr (.inl hx)) (.gone (some v)) (.inr (.inr ⟨by rw [hv]; rfl, _, rfl⟩))
            (fun h => by cases h) (fun v' hv' => by cases hv'; exact i.slotv _ _ _ hw hv) (fun _ => rfl)
            (fun ⟨v', h⟩ => by rw [hx] at h; cases h)
        · cases h
      · cases h
    · cases h
  | cancel w =>
    dsimp only [Ntf.step] at h
    split at h
    · rename_i x hw
      split at h
      · rename_i hx
        cases h
        exact i.setPhase hw (.inr (.inl hx)) (.closing none) (.inr (.inl ⟨_, rfl⟩))
          (fun h => by cases h) (fun v' hv' => by cases hv') (fun _ => rfl)
          (fun ⟨v', h⟩ => by rw [hx] at h; cases h)
      · cases h
    · cases h
  | cleanup w =>
    dsimp only [Ntf.step] at h
    split at h
    · rename_i x hw
      split at h
      · rename_i r hx; cases h; exact i.cleanup hw hx
      · cases h
    · cases h
  | take n =>
    dsimp only [Ntf.step] at h
    split at h
    · rename_i o ho
      split at h
      · rename_i ht; cases h; exact i.take ho ht
      · cases h
    · cases h
  | sub n =>
    dsimp only [Ntf.step] at h
    split at h
    · rename_i o ho
      split at h
      · rename_i rs ht
        cases h
        refine i.setNote ho (.sending rs) _ (by simp [Note.inflight, ht]) (by rw [ht]; simp) (by rw [ht]; simp) ?_
        have h1 : o.owed = rs.length := by simp [Note.owed, ht]
        have h2 : ({ o with phase := .sending rs } : Note).owed = 0 := rfl
        rw [h1, h2]; omega
      · cases h
    · cases h
  | send n =>
    dsimp only [Ntf.step] at h
    split at h
    · rename_i o ho
      split at h
      · rename_i r rs ht; cases h; exact i.send ho ht
      · cases h
    · cases h
  | finish n =>
    dsimp only [Ntf.step] at h
    split at h
    · rename_i o ho
      split at h
      · rename_i ht
        have i1 : Inv { s with notes := s.notes.set n { o with phase := .finished }, count := s.count } :=
          i.setNote ho .finished s.count (by simp [Note.inflight, ht]) (by rw [ht]; simp) (by rw [ht]; simp)
            (by simp [Note.owed, ht])
        split at h
        · cases h; exact i1
        · rename_i w hwho
          split at h
          · rename_i x hw
            split at h
            · rename_i v hx
              cases h
              refine i1.setPhase (w := w) (x := x) hw (.inr (.inr ⟨v, hx⟩)) (.closing (some v)) (.inr (.inl ⟨_, rfl⟩))
                (fun h => by cases h) (fun v' hv' => by cases hv'; exact i.phasev w x v hw (by rw [hx]; rfl))
                (fun _ => rfl) (fun _ => .inr ?_)
              intro o' ho' hw'
              rcases mem_set ho ho' with rfl | ⟨j, hne, hj⟩
              · rfl
              · exact absurd (i.single j n o' o w hj ho hw' hwho) hne
            · cases h
          · cases h
      · cases h
    · cases h

theorem Inv.init {s : S} (h : Init s) : Inv s where
  nodup := by rw [h.pend]; exact List.nodup_nil
  key := by intro d w hm; rw [h.pend] at hm; cases hm
  fly := by intro o ho; rw [h.notes] at ho; cases ho
  fresh := by intro w x hx; rw [h.ws] at hx; cases hx
  held := by intro w x hx; rw [h.ws] at hx; cases hx
  woken := by intro w x hx; rw [h.ws] at hx; cases hx
  visv := fun d v => (h.hist d v).mp
  notev := by intro o ho; rw [h.notes] at ho; cases ho
  slotv := by intro w x v hx; rw [h.ws] at hx; cases hx
  phasev := by intro w x v hx; rw [h.ws] at hx; cases hx
  count := by rw [h.count, h.pend, h.ws, h.notes]; rfl
  who := by intro o ho; rw [h.notes] at ho; cases ho
  whop := by intro o ho; rw [h.notes] at ho; cases ho
  single := by intro a b o o' w ha; rw [h.notes] at ha; cases ha

theorem Inv.runs {s s' : S} (i : Inv s) (es : List Ev) (h : runs s es = some s') : Inv s' := by
  induction es generalizing s with
  | nil => cases h; exact i
  | cons e es ih =>
    obtain ⟨s1, h1, h2⟩ := Option.bind_eq_some_iff.mp h
    exact ih (i.step e h1) h2

theorem Reach.inv {s : S} (h : Reach s) : Inv s := by
  obtain ⟨s0, es, h0, h1⟩ := h
  exact (Inv.init h0).runs es h1

end Verif.Ntf
