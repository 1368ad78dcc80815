/-
Model of the signals tasks wait for: `crates/types/src/notifier.rs` (`Notifier`, `ShutdownNotifier`, `Noticer`).

Every lock is taken for one step. `notify` is many steps: it takes the list (`begin`), sets the flag of one noticer after another and
takes its waker (`mark`), lets go (`finish`), and then wakes one task after another (`wake`). Polls of other tasks come between any two
of them. `Notifier` holds the lock of the list until the last wake (notifier.rs:46-59), `ShutdownNotifier` lets go before the first
(notifier.rs:105-117).
A dropped `Noticer` stays in the list until the next `notify`; that has no effect but memory and is left out.
-/
namespace Verif
namespace Loop
namespace Notice

variable {W : Type}

/-- `n`: noticers handed out, named `0 .. n - 1`. `list`: the list in the notifier. `flag`, `waker`: the two halves of each noticer's lock
(notifier.rs:17). `latched`: the sticky flag of `ShutdownNotifier` (notifier.rs:79). `marking`: a `notify` that still has these noticers to mark and has
taken these wakers. `waking`: wakers still to be woken.
Histories: `asleep`: the task whose last poll of this noticer was answered with `Pending` and which has not been woken since; `calls`: how
many noticers there were when the last `notify` began. -/
structure St (W : Type) where
  sticky : Bool
  n : Nat
  list : List Nat
  flag : Nat → Bool
  waker : Nat → Option W
  latched : Bool
  marking : Option (List Nat × List W)
  waking : List W
  asleep : Nat → Option W
  calls : Nat

/-- `Notifier::new`, `ShutdownNotifier::new`. -/
def start (sticky : Bool) : St W := ⟨sticky, 0, [], fun _ => false, fun _ => none, false, none, [], fun _ => none, 0⟩

inductive Act (W : Type) where
  | subscribe
  | poll (i : Nat) (w : W)
  | begin_
  | mark
  | finish
  | wake

def set {A : Type} (f : Nat → A) (i : Nat) (a : A) : Nat → A := fun j => if j = i then a else f j

/-- Nobody holds the lock of the list. -/
def free (s : St W) : Prop := s.marking = none ∧ (s.sticky = true ∨ s.waking = [])

instance (s : St W) : Decidable (free s) := by
  have : Decidable (s.marking = none) := decidable_of_iff (s.marking.isNone = true) Option.isNone_iff_eq_none
  have : Decidable (s.waking = []) := decidable_of_iff (s.waking.isEmpty = true) List.isEmpty_iff
  unfold free
  infer_instance

/-- `subscribe`, notifier.rs:37-42 and 90-99: a late noticer of a `ShutdownNotifier` starts noticed and is not listed. -/
def subscribe (s : St W) : St W :=
  if s.sticky && s.latched then { s with n := s.n + 1, flag := set s.flag s.n true }
  else { s with n := s.n + 1, list := s.list ++ [s.n] }

/-- `poll_int`, notifier.rs:134-143: the answer is `flag`. -/
def poll (s : St W) (i : Nat) (w : W) : St W :=
  if s.flag i then { s with waker := set s.waker i none, asleep := set s.asleep i none }
  else { s with waker := set s.waker i (some w), asleep := set s.asleep i (some w) }

def next [DecidableEq W] (s : St W) : Act W → Option (St W)
  | .subscribe => if free s then some (subscribe s) else none
  | .poll i w => if i < s.n then some (poll s i w) else none
  | .begin_ => if free s then some { s with latched := s.sticky || s.latched, list := [], marking := some (s.list, []), calls := s.n }
      else none
  | .mark =>
    match s.marking with
    | some (i :: l, ws) => some { s with flag := set s.flag i true, waker := set s.waker i none,
                                         marking := some (l, ws ++ (s.waker i).toList) }
    | _ => none
  | .finish =>
    match s.marking with
    | some ([], ws) => some { s with marking := none, waking := s.waking ++ ws }
    | _ => none
  | .wake =>
    match s.waking with
    | w :: ws => some { s with waking := ws, asleep := fun j => if s.asleep j = some w then none else s.asleep j }
    | [] => none

inductive Reach [DecidableEq W] (sticky : Bool) : St W → Prop
  | start : Reach sticky (start sticky)
  | step {s t : St W} (a : Act W) : Reach sticky s → next s a = some t → Reach sticky t

/-! ## Invariant -/

/-- What a `notify` under way still has to mark. -/
def todo (s : St W) : List Nat := match s.marking with
  | none => []
  | some (l, _) => l

/-- The wakers a `notify` under way has taken. -/
def taken (s : St W) : List W := match s.marking with
  | none => []
  | some (_, ws) => ws

structure Inv (sticky : Bool) (s : St W) : Prop where
  kind : s.sticky = sticky
  low : ∀ i ∈ s.list, i < s.n
  lowTodo : ∀ i ∈ todo s, i < s.calls
  lowList : ∀ i ∈ s.list, s.calls ≤ i
  callsLe : s.calls ≤ s.n
  /-- every noticer is noticed, or on its way, or listed -/
  reach : ∀ i, i < s.n → s.flag i = true ∨ i ∈ todo s ∨ i ∈ s.list
  fresh : ∀ i, s.n ≤ i → s.flag i = false ∧ s.asleep i = none ∧ s.waker i = none
  sleep : ∀ i w, s.asleep i = some w → s.flag i = false → s.waker i = some w
  woken : ∀ i w, s.asleep i = some w → s.flag i = true → w ∈ taken s ∨ w ∈ s.waking
  flagged : ∀ i, s.flag i = true → i < s.calls ∨ (s.sticky = true ∧ s.latched = true)
  latch : s.latched = true → s.sticky = true ∧ s.list = []
  lock : s.sticky = false → s.marking ≠ none → s.waking = []
  begun : s.sticky = true → (s.waking ≠ [] ∨ s.marking ≠ none) → s.latched = true
  /-- while a notifier of the sticky kind marks for the second time there is nothing to mark -/
  first : s.waking ≠ [] → todo s = []

theorem set_same {A : Type} (f : Nat → A) (i : Nat) (a : A) : set f i a i = a := if_pos rfl
theorem set_ne {A : Type} (f : Nat → A) {i j : Nat} (a : A) (h : j ≠ i) : set f i a j = f j := if_neg h

theorem inv_next [DecidableEq W] {sticky : Bool} {s t : St W} {a : Act W} (i : Inv sticky s) (hn : next s a = some t) : Inv sticky t := by
  cases a with
  | subscribe =>
    simp only [next] at hn
    split at hn
    · rename_i hf
      cases hn
      have htodo : todo s = [] := by unfold todo; rw [hf.1]
      unfold subscribe
      split
      · rename_i hl
        rw [Bool.and_eq_true] at hl
        have hlist := (i.latch hl.2).2
        refine ⟨i.kind, ?_, i.lowTodo, i.lowList, Nat.le_succ_of_le i.callsLe, ?_, ?_, ?_, ?_, ?_, i.latch, i.lock, i.begun, i.first⟩
        · intro j hj; exact Nat.lt_succ_of_lt (i.low j hj)
        · intro j hj
          by_cases hjn : j = s.n
          · left; show set s.flag s.n true j = true; rw [hjn, set_same]
          · show set s.flag s.n true j = true ∨ _
            rw [set_ne _ _ hjn]
            have hj' : j < s.n + 1 := hj
            exact i.reach j (by omega)
        · intro j hj
          have hj' : s.n + 1 ≤ j := hj
          obtain ⟨h1, h2, h3⟩ := i.fresh j (by omega)
          exact ⟨by show set s.flag s.n true j = false; rw [set_ne _ _ (by omega)]; exact h1, h2, h3⟩
        · intro j w ha hfl
          by_cases hjn : j = s.n
          · have := (i.fresh s.n (Nat.le_refl _)).2.1
            rw [hjn] at ha
            rw [show s.asleep s.n = some w from ha] at this; cases this
          · exact i.sleep j w ha (by have : set s.flag s.n true j = false := hfl; rwa [set_ne _ _ hjn] at this)
        · intro j w ha hfl
          by_cases hjn : j = s.n
          · have := (i.fresh s.n (Nat.le_refl _)).2.1
            rw [hjn] at ha
            rw [show s.asleep s.n = some w from ha] at this; cases this
          · exact i.woken j w ha (by have : set s.flag s.n true j = true := hfl; rwa [set_ne _ _ hjn] at this)
        · intro j _; exact Or.inr hl
      · rename_i hl
        refine ⟨i.kind, ?_, i.lowTodo, ?_, Nat.le_succ_of_le i.callsLe, ?_, ?_, i.sleep, i.woken, i.flagged, ?_, i.lock, i.begun, i.first⟩
        · intro j hj
          have hj' : j ∈ s.list ++ [s.n] := hj
          rcases List.mem_append.mp hj' with h | h
          · exact Nat.lt_succ_of_lt (i.low j h)
          · rw [List.mem_singleton.mp h]; exact Nat.lt_succ_self _
        · intro j hj
          have hj' : j ∈ s.list ++ [s.n] := hj
          rcases List.mem_append.mp hj' with h | h
          · exact i.lowList j h
          · rw [List.mem_singleton.mp h]; exact i.callsLe
        · intro j hj
          have hj' : j < s.n + 1 := hj
          show _ ∨ _ ∨ j ∈ s.list ++ [s.n]
          by_cases hjn : j = s.n
          · right; right; rw [hjn]; simp
          · rcases i.reach j (by omega) with h | h | h
            · exact Or.inl h
            · exact Or.inr (Or.inl h)
            · exact Or.inr (Or.inr (List.mem_append_left _ h))
        · intro j hj
          have hj' : s.n + 1 ≤ j := hj
          exact i.fresh j (by omega)
        · intro h
          have h1 := i.latch h
          rw [h1.1, show s.latched = true from h] at hl
          exact absurd rfl hl
    · cases hn
  | poll j w =>
    simp only [next] at hn
    split at hn
    · rename_i hj
      cases hn
      unfold poll
      split
      · rename_i hfl
        refine ⟨i.kind, i.low, i.lowTodo, i.lowList, i.callsLe, i.reach, ?_, ?_, ?_, i.flagged, i.latch, i.lock, i.begun, i.first⟩
        · intro k hk
          have hk' : s.n ≤ k := hk
          have hkj : k ≠ j := by omega
          obtain ⟨h1, h2, h3⟩ := i.fresh k hk'
          exact ⟨h1, by show set s.asleep j none k = none; rw [set_ne _ _ hkj]; exact h2,
            by show set s.waker j none k = none; rw [set_ne _ _ hkj]; exact h3⟩
        · intro k w' ha hf
          have ha' : set s.asleep j none k = some w' := ha
          by_cases hkj : k = j
          · rw [hkj, set_same] at ha'; cases ha'
          · rw [set_ne _ _ hkj] at ha'
            show set s.waker j none k = some w'
            rw [set_ne _ _ hkj]
            exact i.sleep k w' ha' hf
        · intro k w' ha hf
          have ha' : set s.asleep j none k = some w' := ha
          by_cases hkj : k = j
          · rw [hkj, set_same] at ha'; cases ha'
          · rw [set_ne _ _ hkj] at ha'
            exact i.woken k w' ha' hf
      · rename_i hfl
        refine ⟨i.kind, i.low, i.lowTodo, i.lowList, i.callsLe, i.reach, ?_, ?_, ?_, i.flagged, i.latch, i.lock, i.begun, i.first⟩
        · intro k hk
          have hk' : s.n ≤ k := hk
          have hkj : k ≠ j := by omega
          obtain ⟨h1, h2, h3⟩ := i.fresh k hk'
          exact ⟨h1, by show set s.asleep j (some w) k = none; rw [set_ne _ _ hkj]; exact h2,
            by show set s.waker j (some w) k = none; rw [set_ne _ _ hkj]; exact h3⟩
        · intro k w' ha hf
          have ha' : set s.asleep j (some w) k = some w' := ha
          show set s.waker j (some w) k = some w'
          by_cases hkj : k = j
          · rw [hkj, set_same] at ha' ⊢; exact ha'
          · rw [set_ne _ _ hkj] at ha' ⊢
            exact i.sleep k w' ha' hf
        · intro k w' ha hf
          have ha' : set s.asleep j (some w) k = some w' := ha
          have hf' : s.flag k = true := hf
          by_cases hkj : k = j
          · rw [hkj] at hf'; exact absurd hf' hfl
          · rw [set_ne _ _ hkj] at ha'
            exact i.woken k w' ha' hf
    · cases hn
  | begin_ =>
    simp only [next] at hn
    split at hn
    · rename_i hf
      cases hn
      have htodo : todo s = [] := by unfold todo; rw [hf.1]
      have htaken : taken s = [] := by unfold taken; rw [hf.1]
      refine ⟨i.kind, ?_, ?_, ?_, Nat.le_refl _, ?_, i.fresh, i.sleep, ?_, ?_, ?_, ?_, ?_, ?_⟩
      · intro j hj; cases hj
      · intro j hj; exact i.low j hj
      · intro j hj; cases hj
      · intro j hj
        rcases i.reach j hj with h | h | h
        · exact Or.inl h
        · rw [htodo] at h; cases h
        · exact Or.inr (Or.inl h)
      · intro j w ha hfl
        rcases i.woken j w ha hfl with h | h
        · rw [htaken] at h; cases h
        · exact Or.inr h
      · intro j hfl
        by_cases hjn : j < s.n
        · exact Or.inl hjn
        · have := (i.fresh j (by omega)).1
          rw [show s.flag j = true from hfl] at this; cases this
      · intro h
        have h' : (s.sticky || s.latched) = true := h
        refine ⟨?_, rfl⟩
        rcases Bool.or_eq_true_iff.mp h' with h1 | h1
        · exact h1
        · exact (i.latch h1).1
      · intro hs _
        rcases hf.2 with h | h
        · rw [show s.sticky = false from hs] at h; cases h
        · exact h
      · intro hs _
        show (s.sticky || s.latched) = true
        rw [show s.sticky = true from hs]; rfl
      · intro hw
        show s.list = []
        rcases hf.2 with h | h
        · exact (i.latch (i.begun h (Or.inl hw))).2
        · exact absurd h hw
    · cases hn
  | mark =>
    simp only [next] at hn
    split at hn
    · rename_i j l ws hm
      cases hn
      have htodo : todo s = j :: l := by unfold todo; rw [hm]
      have htaken : taken s = ws := by unfold taken; rw [hm]
      have hjc : j < s.calls := i.lowTodo j (by rw [htodo]; exact List.mem_cons_self)
      have hjn : j < s.n := Nat.lt_of_lt_of_le hjc i.callsLe
      have hw0 : s.waking = [] := by
        by_cases hw : s.waking = []
        · exact hw
        · have := i.first hw; rw [htodo] at this; cases this
      refine ⟨i.kind, i.low, ?_, i.lowList, i.callsLe, ?_, ?_, ?_, ?_, ?_, i.latch, ?_, ?_, ?_⟩
      · intro k hk
        exact i.lowTodo k (by rw [htodo]; exact List.mem_cons_of_mem _ hk)
      · intro k hk
        show set s.flag j true k = true ∨ k ∈ l ∨ k ∈ s.list
        by_cases hkj : k = j
        · left; rw [hkj, set_same]
        · rw [set_ne _ _ hkj]
          rcases i.reach k hk with h | h | h
          · exact Or.inl h
          · rw [htodo] at h
            rcases List.mem_cons.mp h with h | h
            · exact absurd h hkj
            · exact Or.inr (Or.inl h)
          · exact Or.inr (Or.inr h)
      · intro k hk
        have hk' : s.n ≤ k := hk
        have hkj : k ≠ j := by omega
        obtain ⟨h1, h2, h3⟩ := i.fresh k hk'
        exact ⟨by show set s.flag j true k = false; rw [set_ne _ _ hkj]; exact h1, h2,
          by show set s.waker j none k = none; rw [set_ne _ _ hkj]; exact h3⟩
      · intro k w ha hf
        have hf' : set s.flag j true k = false := hf
        by_cases hkj : k = j
        · rw [hkj, set_same] at hf'; cases hf'
        · rw [set_ne _ _ hkj] at hf'
          show set s.waker j none k = some w
          rw [set_ne _ _ hkj]
          exact i.sleep k w ha hf'
      · intro k w ha hf
        show w ∈ ws ++ (s.waker j).toList ∨ w ∈ s.waking
        by_cases hkj : k = j
        · subst hkj
          cases hfk : s.flag k with
          | false =>
            left
            rw [i.sleep k w ha hfk]
            simp
          | true =>
            rcases i.woken k w ha hfk with h | h
            · rw [htaken] at h; exact Or.inl (List.mem_append_left _ h)
            · exact Or.inr h
        · have hf' : set s.flag j true k = true := hf
          rw [set_ne _ _ hkj] at hf'
          rcases i.woken k w ha hf' with h | h
          · rw [htaken] at h; exact Or.inl (List.mem_append_left _ h)
          · exact Or.inr h
      · intro k hf
        have hf' : set s.flag j true k = true := hf
        by_cases hkj : k = j
        · rw [hkj]; exact Or.inl hjc
        · rw [set_ne _ _ hkj] at hf'
          exact i.flagged k hf'
      · intro _ _; exact hw0
      · intro hs _; exact i.begun hs (Or.inr (by rw [hm]; intro h; cases h))
      · intro h; exact absurd hw0 h
    · cases hn
  | finish =>
    simp only [next] at hn
    split at hn
    · rename_i ws hm
      cases hn
      have htodo : todo s = [] := by unfold todo; rw [hm]
      have htaken : taken s = ws := by unfold taken; rw [hm]
      refine ⟨i.kind, i.low, ?_, i.lowList, i.callsLe, ?_, i.fresh, i.sleep, ?_, i.flagged, i.latch, ?_, ?_, ?_⟩
      · intro k hk; cases hk
      · intro k hk
        have := i.reach k hk
        rw [htodo] at this
        exact this
      · intro k w ha hf
        have := i.woken k w ha hf
        rw [htaken] at this
        right
        show w ∈ s.waking ++ ws
        rcases this with h | h
        · exact List.mem_append_right _ h
        · exact List.mem_append_left _ h
      · intro _ h; exact absurd rfl h
      · intro hs _; exact i.begun hs (Or.inr (by rw [hm]; intro h; cases h))
      · intro _; rfl
    · cases hn
  | wake =>
    simp only [next] at hn
    split at hn
    · rename_i w ws hw
      cases hn
      refine ⟨i.kind, i.low, i.lowTodo, i.lowList, i.callsLe, i.reach, ?_, ?_, ?_, i.flagged, i.latch, ?_, ?_, ?_⟩
      · intro k hk
        obtain ⟨h1, h2, h3⟩ := i.fresh k hk
        exact ⟨h1, by show (if s.asleep k = some w then none else s.asleep k) = none; rw [h2]; rfl, h3⟩
      · intro k w' ha hf
        have ha' : (if s.asleep k = some w then none else s.asleep k) = some w' := ha
        split at ha'
        · cases ha'
        · exact i.sleep k w' ha' hf
      · intro k w' ha hf
        have ha' : (if s.asleep k = some w then none else s.asleep k) = some w' := ha
        split at ha'
        · cases ha'
        · rename_i hne
          rcases i.woken k w' ha' hf with h | h
          · exact Or.inl h
          · rw [hw] at h
            rcases List.mem_cons.mp h with h | h
            · rw [h] at ha'; exact absurd ha' hne
            · exact Or.inr h
      · intro hs hm
        have := i.lock hs hm
        rw [hw] at this; cases this
      · intro hs _; exact i.begun hs (Or.inl (by rw [hw]; intro h; cases h))
      · intro _; exact i.first (by rw [hw]; intro h; cases h)
    · cases hn

theorem reach_inv [DecidableEq W] {sticky : Bool} {s : St W} (h : Reach sticky s) : Inv sticky s := by
  induction h with
  | start =>
    refine ⟨rfl, ?_, ?_, ?_, Nat.le_refl _, ?_, ?_, ?_, ?_, ?_, ?_, ?_, ?_, ?_⟩
    · intro j hj; cases hj
    · intro j hj; cases hj
    · intro j hj; cases hj
    · intro j hj; cases hj
    · intro j _; exact ⟨rfl, rfl, rfl⟩
    · intro j w h; cases h
    · intro j w h; cases h
    · intro j h; cases h
    · intro h; cases h
    · intro _ _; rfl
    · intro _ h; rcases h with h | h <;> exact absurd rfl h
    · intro _; rfl
  | step a _ hn ih => exact inv_next ih hn

/-! ## C78 -/

/-- No `notify` is under way. -/
def Quiet (s : St W) : Prop := s.marking = none ∧ s.waking = []

/-- **C78**, everyone is told. Once a `notify` has returned, every noticer handed out before it began is noticed. -/
theorem all_told [DecidableEq W] {sticky : Bool} {s : St W} (h : Reach sticky s) (hm : s.marking = none) {j : Nat} (hj : j < s.calls) :
    s.flag j = true := by
  have i := reach_inv h
  rcases i.reach j (Nat.lt_of_lt_of_le hj i.callsLe) with h | h | h
  · exact h
  · unfold todo at h; rw [hm] at h; cases h
  · exact absurd (i.lowList j h) (by omega)

/-- **C78**, no lost wake-up. Once a `notify` has returned, no task whose last poll of a noticed noticer was answered with `Pending` is left
asleep, however polls, subscriptions and the steps of `notify` were interleaved. -/
theorem no_lost_wakeup [DecidableEq W] {sticky : Bool} {s : St W} (h : Reach sticky s) (hq : Quiet s) {j : Nat} (hf : s.flag j = true) :
    s.asleep j = none := by
  cases ha : s.asleep j with
  | none => rfl
  | some w =>
    rcases (reach_inv h).woken j w ha hf with h | h
    · unfold taken at h; rw [hq.1] at h; cases h
    · rw [hq.2] at h; cases h

/-- **C78**, all before the first. When a task is woken by `notify`, every noticer handed out before it began is already noticed. -/
theorem told_before_woken [DecidableEq W] {sticky : Bool} {s t : St W} (h : Reach sticky s) (hn : next s .wake = some t) {j : Nat}
    (hj : j < s.calls) : s.flag j = true := by
  have i := reach_inv h
  have hw : s.waking ≠ [] := by
    intro e
    simp only [next] at hn
    rw [e] at hn; cases hn
  rcases i.reach j (Nat.lt_of_lt_of_le hj i.callsLe) with h | h | h
  · exact h
  · rw [i.first hw] at h; cases h
  · exact absurd (i.lowList j h) (by omega)

/-- **C78**, the shutdown signal sticks: once `notify` has been called, every noticer is noticed as soon as the call has returned,
those subscribed later from the start. -/
theorem sticks [DecidableEq W] {s : St W} (h : Reach true s) (hl : s.latched = true) (hm : s.marking = none) {j : Nat} (hj : j < s.n) :
    s.flag j = true := by
  have i := reach_inv h
  rcases i.reach j hj with h | h | h
  · exact h
  · unfold todo at h; rw [hm] at h; cases h
  · rw [(i.latch hl).2] at h; cases h

/-- **C78**, the plain signal re-arms: a noticer subscribed after the last `notify` began is not noticed. -/
theorem rearms [DecidableEq W] {s : St W} (h : Reach false s) {j : Nat} (hj : s.calls ≤ j) : s.flag j = false := by
  have i := reach_inv h
  cases hf : s.flag j with
  | false => rfl
  | true =>
    rcases i.flagged j hf with h | h
    · omega
    · rw [i.kind] at h; cases h.1

/-- **C78**, no false alarm: a noticer is noticed only when `notify` was called after it was handed out or, for the shutdown signal, before. -/
theorem no_false_alarm [DecidableEq W] {sticky : Bool} {s : St W} (h : Reach sticky s) {j : Nat} (hf : s.flag j = true) :
    j < s.calls ∨ (sticky = true ∧ s.latched = true) := by
  have i := reach_inv h
  have := i.flagged j hf
  rwa [i.kind] at this

/-- **C78**, and it never ceases to be noticed. -/
theorem stays [DecidableEq W] {s t : St W} {a : Act W} (hn : next s a = some t) {j : Nat} (hf : s.flag j = true) : t.flag j = true := by
  have hset : ∀ k, set s.flag k true j = true := by
    intro k
    by_cases h : j = k
    · rw [h, set_same]
    · rw [set_ne _ _ h]; exact hf
  cases a with
  | subscribe =>
    simp only [next] at hn
    split at hn
    · cases hn
      unfold subscribe
      split
      · exact hset _
      · exact hf
    · cases hn
  | poll k w =>
    simp only [next] at hn
    split at hn
    · cases hn
      unfold poll
      split <;> exact hf
    · cases hn
  | begin_ =>
    simp only [next] at hn
    split at hn
    · cases hn; exact hf
    · cases hn
  | mark =>
    simp only [next] at hn
    split at hn
    · cases hn; exact hset _
    · cases hn
  | finish =>
    simp only [next] at hn
    split at hn
    · cases hn; exact hf
    · cases hn
  | wake =>
    simp only [next] at hn
    split at hn
    · cases hn; exact hf
    · cases hn

/-- **C78**, a call of `notify` always comes to its end by its own steps: this number falls with each of them. -/
theorem notify_ends [DecidableEq W] {s t : St W} {a : Act W} (ha : a = .mark ∨ a = .finish ∨ a = .wake) (hn : next s a = some t) :
    (match t.marking with | none => 0 | some (l, ws) => 2 * l.length + ws.length + 1) + t.waking.length <
    (match s.marking with | none => 0 | some (l, ws) => 2 * l.length + ws.length + 1) + s.waking.length := by
  rcases ha with rfl | rfl | rfl
  · simp only [next] at hn
    split at hn
    · rename_i j l ws hm
      cases hn
      rw [hm]
      dsimp only
      rw [List.length_append, List.length_cons]
      have : (s.waker j).toList.length ≤ 1 := by cases s.waker j <;> simp
      omega
    · cases hn
  · simp only [next] at hn
    split at hn
    · rename_i ws hm
      cases hn
      rw [hm]
      dsimp only
      rw [List.length_append, List.length_nil]
      omega
    · cases hn
  · simp only [next] at hn
    split at hn
    · rename_i w ws hw
      cases hn
      rw [hw]
      dsimp only
      rw [List.length_cons]
      omega
    · cases hn

/-- Runs, for the examples. -/
def runs [DecidableEq W] (s : St W) : List (Act W) → Option (St W)
  | [] => some s
  | a :: as => match next s a with
    | none => none
    | some t => runs t as

theorem reach_runs [DecidableEq W] {b : Bool} {as : List (Act W)} : ∀ {s t : St W}, Reach b s → runs s as = some t → Reach b t := by
  induction as with
  | nil => intro s t h e; cases e; exact h
  | cons a as ih =>
    intro s t h e
    unfold runs at e
    split at e
    · cases e
    · rename_i u hu
      exact ih (.step a h hu) e

/-- The late subscriber of a plain `Notifier` is not told: it stays asleep although `notify` has returned. The shutdown signal exists for
this (notifier.rs:70-75). -/
theorem late_plain : ∃ s : St Nat, Reach false s ∧ Quiet s ∧ s.calls = 1 ∧ s.flag 0 = true ∧ s.flag 1 = false ∧ s.asleep 1 = some 5 := by
  have hb : ((runs (start false) ([.subscribe, .poll 0 4, .begin_, .mark, .finish, .wake, .subscribe, .poll 1 5] : List (Act Nat))).map
      (fun t : St Nat => decide ((t.marking.isNone = true ∧ t.waking = []) ∧ t.calls = 1 ∧ t.flag 0 = true ∧ t.flag 1 = false ∧
        t.asleep 1 = some 5))) = some true := by
    decide +kernel
  obtain ⟨t, ht, hd⟩ := Option.map_eq_some_iff.mp hb
  have := of_decide_eq_true hd
  exact ⟨t, reach_runs .start ht, ⟨Option.isNone_iff_eq_none.mp this.1.1, this.1.2⟩, this.2⟩

/-- The same with the shutdown signal: the late one is noticed at once. -/
theorem late_sticky : ∃ s : St Nat, Reach true s ∧ Quiet s ∧ s.latched = true ∧ s.flag 0 = true ∧ s.flag 1 = true ∧ s.n = 2 := by
  have hb : ((runs (start true) ([.subscribe, .poll 0 4, .begin_, .mark, .finish, .subscribe, .wake] : List (Act Nat))).map
      (fun t : St Nat => decide ((t.marking.isNone = true ∧ t.waking = []) ∧ t.latched = true ∧ t.flag 0 = true ∧ t.flag 1 = true ∧
        t.n = 2))) = some true := by
    decide +kernel
  obtain ⟨t, ht, hd⟩ := Option.map_eq_some_iff.mp hb
  have := of_decide_eq_true hd
  exact ⟨t, reach_runs .start ht, ⟨Option.isNone_iff_eq_none.mp this.1.1, this.1.2⟩, this.2⟩

/-- A poll between the marks of two noticers: the first is noticed, the second not yet. -/
theorem between : ∃ s : St Nat, Reach false s ∧ s.marking ≠ none ∧ s.flag 0 = true ∧ s.flag 1 = false ∧ s.asleep 1 = some 9 := by
  have hb : ((runs (start false) ([.subscribe, .subscribe, .begin_, .mark, .poll 1 9] : List (Act Nat))).map
      (fun t : St Nat => decide (t.marking.isSome = true ∧ t.flag 0 = true ∧ t.flag 1 = false ∧ t.asleep 1 = some 9))) = some true := by
    decide +kernel
  obtain ⟨t, ht, hd⟩ := Option.map_eq_some_iff.mp hb
  have := of_decide_eq_true hd
  refine ⟨t, reach_runs .start ht, ?_, this.2⟩
  intro e; rw [e] at this; cases this.1

end Notice
end Loop
end Verif
