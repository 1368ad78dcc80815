import Verif.Storage.Notify
/-
Invariants of the waiting for certificates.
-/
namespace Verif.Ntf

/-- Senders in the hands of a `notify` call. -/
def Note.inflight (o : Note) : List Nat :=
  match o.phase with
  | .took rs | .sending rs => rs
  | _ => []

/-- Senders removed but still counted. -/
def Note.owed (o : Note) : Nat :=
  match o.phase with
  | .took rs => rs.length
  | _ => 0

/-- Counted but not yet registered. -/
def Waiter.owed (x : Waiter) : Nat := if x.phase = .counted then 1 else 0

/-- The call has neither been dropped nor returned, and its sender was registered. -/
def Waiter.live (x : Waiter) : Prop :=
  x.phase = .registered ∨ x.phase = .waiting ∨ ∃ v, x.phase = .finishing v

/-- The value a phase carries. -/
def Phase.val : Phase → Option Nat
  | .finishing v => some v
  | .closing r | .gone r => r
  | _ => none

/-- The call found the value in the store, or is over. -/
def Phase.late : Phase → Bool
  | .finishing _ | .closing _ | .gone _ => true
  | _ => false

/-- The invariant. -/
structure Inv (s : S) : Prop where
  nodup : (s.pend.map (·.2)).Nodup
  key : ∀ d w, (d, w) ∈ s.pend → ∃ x, s.ws[w]? = some x ∧ x.d = d ∧ x.slot = none ∧
    (x.live ∨ ∃ r, x.phase = .closing r)
  fly : ∀ o ∈ s.notes, ∀ r ∈ o.inflight, r ∉ s.pend.map (·.2) ∧ ∃ x, s.ws[r]? = some x ∧ x.d = o.d ∧
    x.phase ≠ .counted
  fresh : ∀ (w : Nat) x, s.ws[w]? = some x → x.phase = .counted → x.slot = none
  held : ∀ (w : Nat) x, s.ws[w]? = some x → x.live → x.slot.isSome = true ∨ (x.d, w) ∈ s.pend ∨
    ∃ o ∈ s.notes, o.d = x.d ∧ w ∈ o.inflight
  woken : ∀ (w : Nat) x, s.ws[w]? = some x → x.phase = .waiting → (x.d, w) ∈ s.pend →
    s.vis x.d = none ∨ ∃ o ∈ s.notes, o.d = x.d ∧ o.phase = .todo
  visv : ∀ d v, s.vis d = some v → (d, v) ∈ s.hist
  notev : ∀ o ∈ s.notes, (o.d, o.v) ∈ s.hist
  slotv : ∀ (w : Nat) x v, s.ws[w]? = some x → x.slot = some v → (x.d, v) ∈ s.hist
  phasev : ∀ (w : Nat) x v, s.ws[w]? = some x → x.phase.val = some v → (x.d, v) ∈ s.hist
  count : s.count = (s.pend.length + (s.ws.map Waiter.owed).sum + (s.notes.map Note.owed).sum : Nat)
  who : ∀ o ∈ s.notes, ∀ w, o.who = some w → o.phase ≠ .finished → ∃ x v, s.ws[w]? = some x ∧ x.phase = .finishing v
  whop : ∀ o ∈ s.notes, ∀ w, o.who = some w → ∃ x, s.ws[w]? = some x ∧ x.phase.late = true
  single : ∀ (i j : Nat) o o' w, s.notes[i]? = some o → s.notes[j]? = some o' → o.who = some w → o'.who = some w → i = j

theorem sum_set {α : Type} (f : α → Nat) (l : List α) (i : Nat) (a b : α) (h : l[i]? = some a) :
    ((l.set i b).map f).sum + f a = (l.map f).sum + f b := by
  induction l generalizing i with
  | nil => simp at h
  | cons x l ih =>
    cases i with
    | zero => simp only [List.getElem?_cons_zero, Option.some.injEq] at h; subst h; simp; omega
    | succ i =>
      simp only [List.getElem?_cons_succ] at h
      simp only [List.set_cons_succ, List.map_cons, List.sum_cons]
      have := ih i h
      omega

theorem getElem?_set' {α : Type} {l : List α} {i j : Nat} {a b x : α} (hi : l[i]? = some a)
    (h : (l.set i b)[j]? = some x) : (j = i ∧ x = b) ∨ (j ≠ i ∧ l[j]? = some x) := by
  rw [List.getElem?_set] at h
  split at h
  · rename_i e
    split at h
    · cases h; exact .inl ⟨e.symm, rfl⟩
    · cases h
  · rename_i e; exact .inr ⟨fun e' => e e'.symm, h⟩

theorem set_self {α : Type} {l : List α} {i : Nat} {a b : α} (hi : l[i]? = some a) : (l.set i b)[i]? = some b := by
  rw [List.getElem?_set_self (List.getElem?_eq_some_iff.mp hi).1]

theorem set_other {α : Type} {l : List α} {i j : Nat} {b x : α} (hj : l[j]? = some x) (hne : j ≠ i) :
    (l.set i b)[j]? = some x := by rw [List.getElem?_set_ne (fun e => hne e.symm)]; exact hj

theorem mem_set {α : Type} {l : List α} {i : Nat} {a b o : α} (hi : l[i]? = some a) (h : o ∈ l.set i b) :
    o = b ∨ ∃ j, j ≠ i ∧ l[j]? = some o := by
  obtain ⟨j, hj⟩ := List.mem_iff_getElem?.mp h
  rcases getElem?_set' hi hj with ⟨-, e⟩ | ⟨hne, e⟩
  · exact .inl e
  · exact .inr ⟨j, hne, e⟩

theorem mem_set_of {α : Type} {l : List α} {i : Nat} {a b o : α} (hi : l[i]? = some a) (h : o ∈ l) :
    o ∈ l.set i b ∨ o = a := by
  obtain ⟨j, hj⟩ := List.mem_iff_getElem?.mp h
  by_cases e : j = i
  · subst e; rw [hi] at hj; exact .inr (Option.some.inj hj).symm
  · exact .inl (List.mem_of_getElem? (set_other hj e))

theorem mem_regs {p : List (Nat × Nat)} {d r : Nat} : r ∈ regs p d ↔ (d, r) ∈ p := by
  simp only [regs, List.mem_map, List.mem_filter, beq_iff_eq]
  constructor
  · rintro ⟨⟨a, b⟩, ⟨h1, h2⟩, h3⟩; simp only at h2 h3; subst h2; subst h3; exact h1
  · intro h; exact ⟨(d, r), ⟨h, rfl⟩, rfl⟩

theorem mem_snd {p : List (Nat × Nat)} {w : Nat} : w ∈ p.map (·.2) ↔ ∃ d, (d, w) ∈ p := by
  simp only [List.mem_map]
  constructor
  · rintro ⟨⟨a, b⟩, h, rfl⟩; exact ⟨a, h⟩
  · rintro ⟨d, h⟩; exact ⟨_, h, rfl⟩

theorem filter_len {α : Type} (l : List α) (q : α → Bool) :
    (l.filter (fun a => !q a)).length + (l.filter q).length = l.length := by
  induction l with
  | nil => rfl
  | cons a l ih =>
    simp only [List.filter_cons]
    cases q a <;> simp <;> omega

theorem Waiter.live_not_closed {ws : List Waiter} {w : Nat} {x : Waiter} (h : ws[w]? = some x) (hl : x.live) :
    closed ws w = false := by
  unfold closed
  rw [h]
  rcases hl with e | e | ⟨v, e⟩ <;> simp [e]

/-- Changing the phase of a registered waiter. -/
theorem Inv.setPhase {s : S} (i : Inv s) {w : Nat} {x : Waiter} (hw : s.ws[w]? = some x) (hx : x.live)
    (p : Phase) (hp : (({ x with phase := p } : Waiter).live) ∨ (∃ r, p = .closing r) ∨
      (x.slot.isSome = true ∧ ∃ r, p = .gone r))
    (hwk : p = .waiting → s.vis x.d = none ∨ x.phase = .waiting)
    (hv : ∀ v, p.val = some v → (x.d, v) ∈ s.hist)
    (hlt : x.phase.late = true → p.late = true)
    (hfin : (∃ v, x.phase = .finishing v) → (∃ v, p = .finishing v) ∨
      ∀ o ∈ s.notes, o.who = some w → o.phase = .finished) :
    Inv (Ntf.setPhase s w x p) := by
  have hpc : p ≠ .counted := by
    rcases hp with h | ⟨r, rfl⟩ | ⟨-, r, rfl⟩
    · rcases h with e | e | ⟨v, e⟩ <;> simp only at e <;> rw [e] <;> simp
    · simp
    · simp
  have hxc : x.phase ≠ .counted := by rcases hx with e | e | ⟨v, e⟩ <;> rw [e] <;> simp
  refine { i with key := ?_, fly := ?_, fresh := ?_, held := ?_, woken := ?_, slotv := ?_, phasev := ?_,
                  count := ?_, who := ?_, whop := ?_ }
  · intro d u hu
    obtain ⟨y, h1, h2, h3, h4⟩ := i.key d u hu
    by_cases e : u = w
    · subst e
      rw [hw] at h1; cases h1
      refine ⟨{ x with phase := p }, set_self hw, h2, h3, ?_⟩
      rcases hp with h | h | ⟨h, -⟩
      · exact .inl h
      · exact .inr h
      · rw [h3] at h; cases h
    · exact ⟨y, set_other h1 e, h2, h3, h4⟩
  · intro o ho r hr
    obtain ⟨h0, y, h1, h2, h3⟩ := i.fly o ho r hr
    refine ⟨h0, ?_⟩
    by_cases e : r = w
    · subst e
      rw [hw] at h1; cases h1
      exact ⟨{ x with phase := p }, set_self hw, h2, hpc⟩
    · exact ⟨y, set_other h1 e, h2, h3⟩
  · intro u y hu hy
    rcases getElem?_set' hw hu with ⟨-, e⟩ | ⟨-, e⟩
    · subst e; exact absurd hy hpc
    · exact i.fresh u y e hy
  · intro u y hu hy
    rcases getElem?_set' hw hu with ⟨e1, e⟩ | ⟨-, e⟩
    · subst e; subst e1; exact i.held u x hw hx
    · exact i.held u y e hy
  · intro u y hu hy hm
    rcases getElem?_set' hw hu with ⟨e1, e⟩ | ⟨-, e⟩
    · subst e; subst e1
      rcases hwk hy with h | h
      · exact .inl h
      · exact i.woken u x hw h hm
    · exact i.woken u y e hy hm
  · intro u y v hu hy
    rcases getElem?_set' hw hu with ⟨e1, e⟩ | ⟨-, e⟩
    · subst e; exact i.slotv w x v hw hy
    · exact i.slotv u y v e hy
  · intro u y v hu hy
    rcases getElem?_set' hw hu with ⟨e1, e⟩ | ⟨-, e⟩
    · subst e; exact hv v hy
    · exact i.phasev u y v e hy
  · have h1 := sum_set Waiter.owed s.ws w x { x with phase := p } hw
    have h2 : Waiter.owed x = 0 := by simp [Waiter.owed, hxc]
    have h3 : Waiter.owed { x with phase := p } = 0 := by simp [Waiter.owed, hpc]
    rw [h2, h3] at h1
    have h4 := i.count
    show s.count = ((s.pend.length + ((s.ws.set w { x with phase := p }).map Waiter.owed).sum +
      (s.notes.map Note.owed).sum : Nat) : Int)
    rw [h4]; simp only [Nat.add_zero] at h1; rw [h1]
  · intro o ho u hu hf
    obtain ⟨y, v, h1, h2⟩ := i.who o ho u hu hf
    by_cases e : u = w
    · subst e
      rw [hw] at h1; cases h1
      rcases hfin ⟨v, h2⟩ with ⟨v', h⟩ | h
      · exact ⟨{ x with phase := p }, v', set_self hw, h⟩
      · exact absurd (h o ho hu) hf
    · exact ⟨y, v, set_other h1 e, h2⟩
  · intro o ho u hu
    obtain ⟨y, h1, h2⟩ := i.whop o ho u hu
    by_cases e : u = w
    · subst e
      rw [hw] at h1; cases h1
      exact ⟨{ x with phase := p }, set_self hw, hlt h2⟩
    · exact ⟨y, set_other h1 e, h2⟩

/-- A new call of `notify`. -/
theorem Inv.note {s : S} (i : Inv s) (o : Note) (ho : o.phase = .todo) (hv : (o.d, o.v) ∈ s.hist)
    (hw : ∀ w, o.who = some w → (∃ x v, s.ws[w]? = some x ∧ x.phase = .finishing v) ∧
      ∀ o' ∈ s.notes, o'.who ≠ some w) : Inv { s with notes := s.notes ++ [o] } := by
  have hfl : o.inflight = [] := by simp [Note.inflight, ho]
  refine { i with fly := ?_, held := ?_, woken := ?_, notev := ?_, count := ?_, who := ?_, whop := ?_, single := ?_ }
  · intro o' h r hr
    rcases List.mem_append.mp h with h | h
    · exact i.fly o' h r hr
    · rw [List.mem_singleton.mp h, hfl] at hr; cases hr
  · intro w x h1 h2
    rcases i.held w x h1 h2 with h | h | ⟨o', h, h'⟩
    · exact .inl h
    · exact .inr (.inl h)
    · exact .inr (.inr ⟨o', List.mem_append_left _ h, h'⟩)
  · intro w x h1 h2 h3
    rcases i.woken w x h1 h2 h3 with h | ⟨o', h, h'⟩
    · exact .inl h
    · exact .inr ⟨o', List.mem_append_left _ h, h'⟩
  · intro o' h
    rcases List.mem_append.mp h with h | h
    · exact i.notev o' h
    · rw [List.mem_singleton.mp h]; exact hv
  · have : Note.owed o = 0 := by simp [Note.owed, ho]
    rw [List.map_append, List.sum_append]
    simp only [List.map_cons, List.map_nil, List.sum_cons, List.sum_nil, this]
    exact i.count
  · intro o' h w h1 h2
    rcases List.mem_append.mp h with h | h
    · exact i.who o' h w h1 h2
    · rw [List.mem_singleton.mp h] at h1; exact (hw w h1).1
  · intro o' h w h1
    rcases List.mem_append.mp h with h | h
    · exact i.whop o' h w h1
    · rw [List.mem_singleton.mp h] at h1
      obtain ⟨x, v, h2, h3⟩ := (hw w h1).1
      exact ⟨x, h2, by rw [h3]; rfl⟩
  · intro a b o1 o2 w h1 h2 h3 h4
    have key : ∀ (a : Nat) (o1 : Note), (s.notes ++ [o])[a]? = some o1 →
        s.notes[a]? = some o1 ∨ (a = s.notes.length ∧ o1 = o) := by
      intro a o1 h
      rw [List.getElem?_append] at h
      split at h
      · exact .inl h
      · have hlt := (List.getElem?_eq_some_iff.mp h).1
        simp only [List.length_singleton] at hlt
        exact .inr ⟨by omega, List.mem_singleton.mp (List.mem_of_getElem? h)⟩
    rcases key a o1 h1 with k1 | ⟨k1, rfl⟩
    · rcases key b o2 h2 with k2 | ⟨k2, rfl⟩
      · exact i.single a b o1 o2 w k1 k2 h3 h4
      · exact absurd h3 ((hw w h4).2 o1 (List.mem_of_getElem? k1))
    · rcases key b o2 h2 with k2 | ⟨k2, rfl⟩
      · exact absurd h4 ((hw w h3).2 o2 (List.mem_of_getElem? k2))
      · omega

theorem getElem?_snoc {α : Type} {l : List α} {a x : α} {j : Nat} (h : (l ++ [a])[j]? = some x) :
    l[j]? = some x ∨ (j = l.length ∧ x = a) := by
  rw [List.getElem?_append] at h
  split at h
  · exact .inl h
  · have hlt := (List.getElem?_eq_some_iff.mp h).1
    simp only [List.length_singleton] at hlt
    exact .inr ⟨by omega, List.mem_singleton.mp (List.mem_of_getElem? h)⟩

theorem snoc_of {α : Type} {l : List α} {a x : α} {j : Nat} (h : l[j]? = some x) : (l ++ [a])[j]? = some x := by
  rw [List.getElem?_append_left (List.getElem?_eq_some_iff.mp h).1]; exact h

/-- A step of a `notify` call that serves nobody. -/
theorem Inv.setNote {s : S} (i : Inv s) {n : Nat} {o : Note} (ho : s.notes[n]? = some o) (p : NPhase) (c : Int)
    (hfl : ({ o with phase := p } : Note).inflight = o.inflight) (hnt : o.phase ≠ .todo)
    (hnf : o.phase ≠ .finished)
    (hc : c + (o.owed : Int) = s.count + (({ o with phase := p } : Note).owed : Int)) :
    Inv { s with notes := s.notes.set n { o with phase := p }, count := c } := by
  have hmem := List.mem_of_getElem? ho
  refine { i with fly := ?_, held := ?_, woken := ?_, notev := ?_, count := ?_, who := ?_, whop := ?_, single := ?_ }
  · intro o' h r hr
    rcases mem_set ho h with rfl | ⟨j, -, hj⟩
    · rw [hfl] at hr; exact i.fly o hmem r hr
    · exact i.fly o' (List.mem_of_getElem? hj) r hr
  · intro w x h1 h2
    rcases i.held w x h1 h2 with h | h | ⟨o', h, h', h''⟩
    · exact .inl h
    · exact .inr (.inl h)
    · refine .inr (.inr ?_)
      rcases mem_set_of (b := { o with phase := p }) ho h with h3 | rfl
      · exact ⟨o', h3, h', h''⟩
      · exact ⟨_, List.mem_of_getElem? (set_self ho), h', by rw [hfl]; exact h''⟩
  · intro w x h1 h2 h3
    rcases i.woken w x h1 h2 h3 with h | ⟨o', h, h', h''⟩
    · exact .inl h
    · rcases mem_set_of (b := { o with phase := p }) ho h with h3 | rfl
      · exact .inr ⟨o', h3, h', h''⟩
      · exact absurd h'' hnt
  · intro o' h
    rcases mem_set ho h with rfl | ⟨j, -, hj⟩
    · exact i.notev o hmem
    · exact i.notev o' (List.mem_of_getElem? hj)
  · have h1 := sum_set Note.owed s.notes n o { o with phase := p } ho
    have h2 := i.count
    show c = ((s.pend.length + (s.ws.map Waiter.owed).sum +
      ((s.notes.set n { o with phase := p }).map Note.owed).sum : Nat) : Int)
    omega
  · intro o' h w h1 h2
    rcases mem_set ho h with rfl | ⟨j, -, hj⟩
    · exact i.who o hmem w h1 hnf
    · exact i.who o' (List.mem_of_getElem? hj) w h1 h2
  · intro o' h w h1
    rcases mem_set ho h with rfl | ⟨j, -, hj⟩
    · exact i.whop o hmem w h1
    · exact i.whop o' (List.mem_of_getElem? hj) w h1
  · intro a b o1 o2 w h1 h2 h3 h4
    rcases getElem?_set' ho h1 with ⟨rfl, rfl⟩ | ⟨-, k1⟩ <;> rcases getElem?_set' ho h2 with ⟨e2, rfl⟩ | ⟨-, k2⟩
    · exact e2.symm
    · exact i.single _ _ o o2 w ho k2 h3 h4
    · subst e2; exact i.single _ _ o1 o w k1 ho h3 h4
    · exact i.single a b o1 o2 w k1 k2 h3 h4

/-- `notify` removes the senders. -/
theorem Inv.take {s : S} (i : Inv s) {n : Nat} {o : Note} (ho : s.notes[n]? = some o) (ht : o.phase = .todo) :
    Inv { s with notes := s.notes.set n { o with phase := .took (regs s.pend o.d) },
                 pend := s.pend.filter (fun p => !(p.1 == o.d)) } := by
  have hmem := List.mem_of_getElem? ho
  have hsub : ∀ {q : Nat × Nat}, q ∈ s.pend.filter (fun p => !(p.1 == o.d)) → q ∈ s.pend :=
    fun h => (List.mem_filter.mp h).1
  have hne : ∀ {d w : Nat}, (d, w) ∈ s.pend.filter (fun p => !(p.1 == o.d)) → d ≠ o.d := by
    intro d w h; have := (List.mem_filter.mp h).2; simpa using this
  have hfl0 : o.inflight = [] := by simp [Note.inflight, ht]
  refine { i with nodup := ?_, key := ?_, fly := ?_, held := ?_, woken := ?_, notev := ?_, count := ?_, who := ?_,
                  whop := ?_, single := ?_ }
  · exact i.nodup.sublist (List.Sublist.map _ (List.filter_sublist))
  · intro d w h; exact i.key d w (hsub h)
  · intro o' h r hr
    rcases mem_set ho h with rfl | ⟨j, -, hj⟩
    · have hr' : (o.d, r) ∈ s.pend := mem_regs.mp hr
      obtain ⟨x, h1, h2, -, h4⟩ := i.key _ _ hr'
      refine ⟨?_, x, h1, h2, ?_⟩
      · intro hm
        obtain ⟨d, hd⟩ := mem_snd.mp hm
        obtain ⟨y, k1, k2, -⟩ := i.key _ _ (hsub hd)
        rw [h1] at k1; cases k1
        exact hne hd (k2.symm.trans h2)
      · rcases h4 with (e | e | ⟨v, e⟩) | ⟨v, e⟩ <;> rw [e] <;> simp
    · obtain ⟨k1, k2⟩ := i.fly o' (List.mem_of_getElem? hj) r hr
      refine ⟨fun hm => k1 ?_, k2⟩
      obtain ⟨d, hd⟩ := mem_snd.mp hm
      exact mem_snd.mpr ⟨d, hsub hd⟩
  · intro w x h1 h2
    rcases i.held w x h1 h2 with h | h | ⟨o', h, h', h''⟩
    · exact .inl h
    · by_cases e : x.d = o.d
      · refine .inr (.inr ⟨_, List.mem_of_getElem? (set_self ho), e.symm, ?_⟩)
        show w ∈ regs s.pend o.d
        rw [mem_regs, ← e]; exact h
      · refine .inr (.inl (List.mem_filter.mpr ⟨h, ?_⟩))
        simpa using e
    · refine .inr (.inr ?_)
      rcases mem_set_of (b := { o with phase := .took (regs s.pend o.d) }) ho h with h3 | rfl
      · exact ⟨o', h3, h', h''⟩
      · rw [hfl0] at h''; cases h''
  · intro w x h1 h2 h3
    rcases i.woken w x h1 h2 (hsub h3) with h | ⟨o', h, h', h''⟩
    · exact .inl h
    · rcases mem_set_of (b := { o with phase := .took (regs s.pend o.d) }) ho h with h4 | rfl
      · exact .inr ⟨o', h4, h', h''⟩
      · exact absurd h'.symm (hne h3)
  · intro o' h
    rcases mem_set ho h with rfl | ⟨j, -, hj⟩
    · exact i.notev o hmem
    · exact i.notev o' (List.mem_of_getElem? hj)
  · have h1 := sum_set Note.owed s.notes n o { o with phase := .took (regs s.pend o.d) } ho
    have h2 := i.count
    have h3 : Note.owed o = 0 := by simp [Note.owed, ht]
    have h4 : Note.owed { o with phase := .took (regs s.pend o.d) } = (regs s.pend o.d).length := rfl
    have h5 := filter_len s.pend (fun p => p.1 == o.d)
    have h6 : (regs s.pend o.d).length = (s.pend.filter (fun p => p.1 == o.d)).length := by simp [regs]
    show s.count = (((s.pend.filter (fun p => !(p.1 == o.d))).length + (s.ws.map Waiter.owed).sum +
      ((s.notes.set n { o with phase := .took (regs s.pend o.d) }).map Note.owed).sum : Nat) : Int)
    omega
  · intro o' h w h1 h2
    rcases mem_set ho h with rfl | ⟨j, -, hj⟩
    · exact i.who o hmem w h1 (by rw [ht]; simp)
    · exact i.who o' (List.mem_of_getElem? hj) w h1 h2
  · intro o' h w h1
    rcases mem_set ho h with rfl | ⟨j, -, hj⟩
    · exact i.whop o hmem w h1
    · exact i.whop o' (List.mem_of_getElem? hj) w h1
  · intro a b o1 o2 w h1 h2 h3 h4
    rcases getElem?_set' ho h1 with ⟨rfl, rfl⟩ | ⟨-, k1⟩ <;> rcases getElem?_set' ho h2 with ⟨e2, rfl⟩ | ⟨-, k2⟩
    · exact e2.symm
    · exact i.single _ _ o o2 w ho k2 h3 h4
    · subst e2; exact i.single _ _ o1 o w k1 ho h3 h4
    · exact i.single a b o1 o2 w k1 k2 h3 h4

/-- What serving a sender does to the calls. -/
theorem deliver_get {ws : List Waiter} {r v : Nat} {u : Nat} {y : Waiter} (h : (deliver ws r v)[u]? = some y) :
    ∃ x, ws[u]? = some x ∧ y.d = x.d ∧ y.phase = x.phase ∧
      ((y = x ∧ (u ≠ r ∨ closed ws r = true)) ∨ (u = r ∧ y.slot = some v ∧ closed ws r = false)) := by
  unfold deliver at h
  split at h
  · rename_i hc; exact ⟨y, h, rfl, rfl, .inl ⟨rfl, .inr hc⟩⟩
  · rename_i hc
    split at h
    · rename_i x hx
      rcases getElem?_set' hx h with ⟨e, rfl⟩ | ⟨e, h'⟩
      · subst e; exact ⟨x, hx, rfl, rfl, .inr ⟨rfl, rfl, by simpa using hc⟩⟩
      · exact ⟨y, h', rfl, rfl, .inl ⟨rfl, .inl e⟩⟩
    · rename_i hx
      exact ⟨y, h, rfl, rfl, .inl ⟨rfl, .inl (fun e => by subst e; rw [hx] at h; cases h)⟩⟩

theorem deliver_of {ws : List Waiter} {r v : Nat} {u : Nat} {x : Waiter} (h : ws[u]? = some x) :
    ∃ y, (deliver ws r v)[u]? = some y ∧ y.d = x.d ∧ y.phase = x.phase ∧ (u ≠ r → y = x) := by
  unfold deliver
  split
  · exact ⟨x, h, rfl, rfl, fun _ => rfl⟩
  · split
    · rename_i z hz
      by_cases e : u = r
      · subst e
        rw [h] at hz; cases hz
        exact ⟨_, set_self h, rfl, rfl, fun e => absurd rfl e⟩
      · exact ⟨x, set_other h e, rfl, rfl, fun _ => rfl⟩
    · exact ⟨x, h, rfl, rfl, fun _ => rfl⟩

theorem deliver_owed (ws : List Waiter) (r v : Nat) : ((deliver ws r v).map Waiter.owed).sum = (ws.map Waiter.owed).sum := by
  unfold deliver
  split
  · rfl
  · split
    · rename_i x hx
      have := sum_set Waiter.owed ws r x { x with slot := some v } hx
      have e : Waiter.owed { x with slot := some v } = Waiter.owed x := rfl
      omega
    · rfl

/-- `notify` serves one sender. -/
theorem Inv.send {s : S} (i : Inv s) {n : Nat} {o : Note} {r : Nat} {rs : List Nat} (ho : s.notes[n]? = some o)
    (ht : o.phase = .sending (r :: rs)) :
    Inv { s with notes := s.notes.set n { o with phase := .sending rs }, ws := deliver s.ws r o.v } := by
  have hmem := List.mem_of_getElem? ho
  have hfl0 : o.inflight = r :: rs := by simp [Note.inflight, ht]
  have hfl1 : ({ o with phase := .sending rs } : Note).inflight = rs := rfl
  obtain ⟨hrp, xr, hxr, hxrd, hxrc⟩ := i.fly o hmem r (by rw [hfl0]; exact List.mem_cons_self)
  refine { i with key := ?_, fly := ?_, fresh := ?_, held := ?_, woken := ?_, notev := ?_, slotv := ?_, phasev := ?_,
                  count := ?_, who := ?_, whop := ?_, single := ?_ }
  · intro d u hu
    obtain ⟨x, h1, h2, h3, h4⟩ := i.key d u hu
    obtain ⟨y, k1, k2, k3, k4⟩ := deliver_of (r := r) (v := o.v) h1
    have : u ≠ r := by rintro rfl; exact hrp (mem_snd.mpr ⟨d, hu⟩)
    rw [k4 this] at k1
    exact ⟨x, k1, h2, h3, h4⟩
  · intro o' h u hu
    have base : u ∉ s.pend.map (·.2) ∧ ∃ x, s.ws[u]? = some x ∧ x.d = o'.d ∧ x.phase ≠ .counted := by
      rcases mem_set ho h with rfl | ⟨j, -, hj⟩
      · exact i.fly o hmem u (by rw [hfl0]; exact List.mem_cons_of_mem _ hu)
      · exact i.fly o' (List.mem_of_getElem? hj) u hu
    obtain ⟨h0, x, h1, h2, h3⟩ := base
    obtain ⟨y, k1, k2, k3, -⟩ := deliver_of (r := r) (v := o.v) h1
    exact ⟨h0, y, k1, k2.trans h2, by rw [k3]; exact h3⟩
  · intro u y hu hy
    obtain ⟨x, h1, -, h3, h4⟩ := deliver_get hu
    rcases h4 with ⟨rfl, -⟩ | ⟨rfl, -⟩
    · exact i.fresh u y h1 hy
    · rw [hxr] at h1; cases h1; rw [h3] at hy; exact absurd hy hxrc
  · intro u y hu hy
    obtain ⟨x, h1, h2, h3, h4⟩ := deliver_get hu
    rcases h4 with ⟨rfl, h4⟩ | ⟨-, h4, -⟩
    · rcases i.held u y h1 hy with h | h | ⟨o', h, h', h''⟩
      · exact .inl h
      · exact .inr (.inl h)
      · refine .inr (.inr ?_)
        rcases mem_set_of (b := { o with phase := .sending rs }) ho h with h5 | rfl
        · exact ⟨o', h5, h', h''⟩
        · refine ⟨_, List.mem_of_getElem? (set_self ho), h', ?_⟩
          rw [hfl0] at h''
          rcases List.mem_cons.mp h'' with rfl | h''
          · rcases h4 with h4 | h4
            · exact absurd rfl h4
            · rw [Waiter.live_not_closed h1 hy] at h4; cases h4
          · exact h''
    · exact .inl (by rw [h4]; rfl)
  · intro u y hu hy hm
    obtain ⟨x, h1, h2, h3, h4⟩ := deliver_get hu
    rw [h3] at hy; rw [h2] at hm ⊢
    rcases i.woken u x h1 hy hm with h | ⟨o', h, h', h''⟩
    · exact .inl h
    · rcases mem_set_of (b := { o with phase := .sending rs }) ho h with h5 | rfl
      · exact .inr ⟨o', h5, h', h''⟩
      · rw [ht] at h''; cases h''
  · intro o' h
    rcases mem_set ho h with rfl | ⟨j, -, hj⟩
    · exact i.notev o hmem
    · exact i.notev o' (List.mem_of_getElem? hj)
  · intro u y v hu hy
    obtain ⟨x, h1, h2, h3, h4⟩ := deliver_get hu
    rcases h4 with ⟨rfl, -⟩ | ⟨rfl, h4, -⟩
    · exact i.slotv u y v h1 hy
    · rw [hxr] at h1; cases h1
      rw [h4] at hy; cases hy
      rw [h2, hxrd]; exact i.notev o hmem
  · intro u y v hu hy
    obtain ⟨x, h1, h2, h3, -⟩ := deliver_get hu
    rw [h2]; rw [h3] at hy; exact i.phasev u x v h1 hy
  · have h1 := sum_set Note.owed s.notes n o { o with phase := .sending rs } ho
    have h2 := i.count
    have h3 : Note.owed o = 0 := by simp [Note.owed, ht]
    have h4 : Note.owed { o with phase := .sending rs } = 0 := rfl
    have h5 := deliver_owed s.ws r o.v
    show s.count = ((s.pend.length + ((deliver s.ws r o.v).map Waiter.owed).sum +
      ((s.notes.set n { o with phase := .sending rs }).map Note.owed).sum : Nat) : Int)
    omega
  · intro o' h w h1 h2
    have base : ∃ x v, s.ws[w]? = some x ∧ x.phase = .finishing v := by
      rcases mem_set ho h with rfl | ⟨j, -, hj⟩
      · exact i.who o hmem w h1 (by rw [ht]; simp)
      · exact i.who o' (List.mem_of_getElem? hj) w h1 h2
    obtain ⟨x, v, h3, h4⟩ := base
    obtain ⟨y, k1, -, k3, -⟩ := deliver_of (r := r) (v := o.v) h3
    exact ⟨y, v, k1, k3.trans h4⟩
  · intro o' h w h1
    have base : ∃ x, s.ws[w]? = some x ∧ x.phase.late = true := by
      rcases mem_set ho h with rfl | ⟨j, -, hj⟩
      · exact i.whop o hmem w h1
      · exact i.whop o' (List.mem_of_getElem? hj) w h1
    obtain ⟨x, h3, h4⟩ := base
    obtain ⟨y, k1, -, k3, -⟩ := deliver_of (r := r) (v := o.v) h3
    exact ⟨y, k1, by rw [k3]; exact h4⟩
  · intro a b o1 o2 w h1 h2 h3 h4
    rcases getElem?_set' ho h1 with ⟨rfl, rfl⟩ | ⟨-, k1⟩ <;> rcases getElem?_set' ho h2 with ⟨e2, rfl⟩ | ⟨-, k2⟩
    · exact e2.symm
    · exact i.single _ _ o o2 w ho k2 h3 h4
    · subst e2; exact i.single _ _ o1 o w k1 ho h3 h4
    · exact i.single a b o1 o2 w k1 k2 h3 h4

end Verif.Ntf
