import Verif.Storage.Composite
import Mathlib.Data.List.Induction
import Mathlib.Tactic.Common
namespace Verif
namespace Comp
open Layered (KV Op DB Ev depth written starts finishes Balanced)
variable {V : Type}

theorem upd_same {α : Type} (f : Hint → α) (h : Hint) (x : α) : upd f h x h = x := if_pos rfl
theorem upd_other {α : Type} (f : Hint → α) {h h' : Hint} (x : α) (hn : h' ≠ h) : upd f h x h' = f h' := if_neg hn

/-- Number of transactions of `h` not ended. -/
def openTx (s : State V) (h : Hint) : Nat := (s.begun h).count false

/-- What every step keeps. -/
structure Inv (d0 : Hint → KV V) (s : State V) : Prop where
  db : ∀ h, s.db h = Layered.exec (Layered.openDb (fullMemory h) (d0 h)) (s.log h)
  known : ∀ (i : Nat) (x : Handle) (h : Hint) (id : Nat), live s i = some x → x.tx h = some id →
    id < (s.begun h).length
  bal : ∀ h, starts (s.log h) = finishes (s.log h) + openTx s h
  dep : ∀ h, depth (s.log h) = openTx s h
  balanced : ∀ h, Balanced (s.log h)

theorem starts_snoc (l : List (Ev V)) (e : Ev V) : starts (l ++ [e]) = starts l + starts [e] :=
  Layered.starts_append l [e]
theorem finishes_snoc (l : List (Ev V)) (e : Ev V) : finishes (l ++ [e]) = finishes l + finishes [e] :=
  Layered.finishes_append l [e]

theorem balanced_snoc {l : List (Ev V)} {e : Ev V} (h : Balanced l)
    (he : finishes (l ++ [e]) ≤ starts (l ++ [e])) : Balanced (l ++ [e]) := by
  intro pre post hp
  rcases List.eq_nil_or_concat post with rfl | ⟨p', x, rfl⟩
  · rw [List.append_nil] at hp; rw [← hp]; exact he
  · rw [List.concat_eq_append, ← List.append_assoc] at hp
    exact h pre p' (List.append_inj' hp rfl).1

theorem exec_snoc (d : DB V) (l : List (Ev V)) (e : Ev V) :
    Layered.exec d (l ++ [e]) = Layered.step (Layered.exec d l) e := by
  rw [Layered.exec_append]; rfl

/-- A call that begins and ends nothing. -/
theorem inv_call {d0 : Hint → KV V} {s : State V} (i : Inv d0 s) (h : Hint) {e : Ev V} (h1 : e ≠ .start)
    (h2 : e ≠ .finish) : Inv d0 (call s h e) := by
  have hs : starts [e] = 0 ∧ finishes [e] = 0 ∧ ∀ n, Layered.depthStep n e = n := by
    cases e with
    | start => exact absurd rfl h1
    | finish => exact absurd rfl h2
    | _ => exact ⟨rfl, rfl, fun _ => rfl⟩
  refine ⟨fun h' => ?_, i.known, fun h' => ?_, fun h' => ?_, fun h' => ?_⟩
  all_goals (show _; dsimp only [call, openTx]; by_cases hh : h' = h)
  · subst hh; rw [upd_same, upd_same, exec_snoc, ← i.db]
  · rw [upd_other _ _ hh, upd_other _ _ hh]; exact i.db h'
  · subst hh; rw [upd_same, starts_snoc, finishes_snoc, hs.1, hs.2.1]; exact i.bal h'
  · rw [upd_other _ _ hh]; exact i.bal h'
  · subst hh; rw [upd_same, Layered.depth_snoc, hs.2.2]; exact i.dep h'
  · rw [upd_other _ _ hh]; exact i.dep h'
  · subst hh; rw [upd_same]
    have := i.bal h'
    exact balanced_snoc (i.balanced h') (by rw [starts_snoc, finishes_snoc, hs.1, hs.2.1]; omega)
  · rw [upd_other _ _ hh]; exact i.balanced h'

theorem count_snoc (l : List Bool) : (l ++ [false]).count false = l.count false + 1 := by
  rw [List.count_append]; rfl

theorem count_set : ∀ (l : List Bool) (id : Nat), l[id]? = some false →
    (l.set id true).count false + 1 = l.count false
  | [], _, h => nomatch h
  | b :: l, 0, h => by
    cases h
    simp
  | b :: l, n + 1, h => by
    have := count_set l n h
    rw [List.set_cons_succ, List.count_cons, List.count_cons]
    omega

theorem live_set {s : State V} {hs : List (Option Handle)} {i : Nat} {x : Handle}
    (h : live { s with handles := hs } i = some x) : hs[i]? = some (some x) := by
  unfold live at h
  change (match hs[i]? with | some x => x | none => none) = some x at h
  cases hj : hs[i]? with
  | none => rw [hj] at h; cases h
  | some y => rw [hj] at h; exact congrArg some h

/-- A transaction begins. -/
theorem inv_begin {d0 : Hint → KV V} {s : State V} (i : Inv d0 s) (h : Hint) (hs : List (Option Handle))
    (hk : ∀ (j : Nat) (x : Handle) (h' : Hint) (id : Nat), hs[j]? = some (some x) → x.tx h' = some id →
      id < (upd s.begun h (s.begun h ++ [false]) h').length) :
    Inv d0 (call { s with begun := upd s.begun h (s.begun h ++ [false]), handles := hs } h .start) := by
  refine ⟨fun h' => ?_, fun j x h' id hx hi => hk j x h' id (live_set (s := s) hx) hi, fun h' => ?_, fun h' => ?_, fun h' => ?_⟩
  all_goals (show _; dsimp only [call, openTx]; by_cases hh : h' = h)
  · subst hh; rw [upd_same, upd_same, exec_snoc, ← i.db]
  · rw [upd_other _ _ hh, upd_other _ _ hh]; exact i.db h'
  · subst hh; rw [upd_same, upd_same, starts_snoc, finishes_snoc, count_snoc]
    have := i.bal h'; unfold openTx at this
    show starts _ + 1 = finishes _ + 0 + _
    omega
  · rw [upd_other _ _ hh, upd_other _ _ hh]; exact i.bal h'
  · subst hh; rw [upd_same, upd_same, Layered.depth_snoc, count_snoc]
    exact congrArg (· + 1) (i.dep h')
  · rw [upd_other _ _ hh, upd_other _ _ hh]; exact i.dep h'
  · subst hh; rw [upd_same]
    have := i.bal h'
    refine balanced_snoc (i.balanced h') ?_
    rw [starts_snoc, finishes_snoc]
    show finishes _ + 0 ≤ starts _ + 1
    omega
  · rw [upd_other _ _ hh]; exact i.balanced h'

/-- A transaction ends. -/
theorem inv_end {d0 : Hint → KV V} {s : State V} (i : Inv d0 s) {h : Hint} {id : Nat}
    (hf : (s.begun h)[id]? = some false) : Inv d0 (endTx s h id) := by
  have hc := count_set _ _ hf
  refine ⟨fun h' => ?_, fun j x h' id' hx hi => ?_, fun h' => ?_, fun h' => ?_, fun h' => ?_⟩
  · dsimp only [endTx, call]
    by_cases hh : h' = h
    · subst hh; rw [upd_same, upd_same, exec_snoc, ← i.db]
    · rw [upd_other _ _ hh, upd_other _ _ hh]; exact i.db h'
  · have := i.known j x h' id' hx hi
    dsimp only [endTx, call]
    by_cases hh : h' = h
    · subst hh; rw [upd_same, List.length_set]; exact this
    · rw [upd_other _ _ hh]; exact this
  all_goals (show _; dsimp only [endTx, call, openTx]; by_cases hh : h' = h)
  · subst hh; rw [upd_same, upd_same, starts_snoc, finishes_snoc]
    have := i.bal h'; unfold openTx at this
    show starts _ + 0 = finishes _ + 1 + _
    omega
  · rw [upd_other _ _ hh, upd_other _ _ hh]; exact i.bal h'
  · subst hh; rw [upd_same, upd_same, Layered.depth_snoc]
    have := i.dep h'; unfold openTx at this
    show depth _ - 1 = _
    omega
  · rw [upd_other _ _ hh, upd_other _ _ hh]; exact i.dep h'
  · subst hh; rw [upd_same]
    have := i.bal h'; unfold openTx at this
    refine balanced_snoc (i.balanced h') ?_
    rw [starts_snoc, finishes_snoc]
    show finishes _ + 1 ≤ starts _ + 0
    omega
  · rw [upd_other _ _ hh]; exact i.balanced h'

theorem live_eq {s : State V} {i : Nat} {x : Handle} : live s i = some x ↔ s.handles[i]? = some (some x) := by
  constructor
  · intro h; exact live_set (s := s) h
  · intro h; unfold live; rw [h]

theorem inv_handles {d0 : Hint → KV V} {s : State V} (i : Inv d0 s) (hs : List (Option Handle))
    (hk : ∀ (j : Nat) (x : Handle), hs[j]? = some (some x) → ∃ j', live s j' = some x) :
    Inv d0 { s with handles := hs } :=
  ⟨i.db, fun j x h id hx hi => by
    obtain ⟨j', h'⟩ := hk j x (live_set hx)
    exact i.known j' x h id h' hi, i.bal, i.dep, i.balanced⟩

theorem inv_commitOne {d0 : Hint → KV V} {s : State V} (i : Inv d0 s) (x : Handle) (h : Hint) :
    Inv d0 (commitOne x s h) := by
  unfold commitOne
  split
  · exact i
  · split
    · rename_i hf; exact inv_end i hf
    · exact i

theorem inv_dropOne {d0 : Hint → KV V} {s : State V} (i : Inv d0 s) (x : Handle) (h : Hint) :
    Inv d0 (dropOne x s h) := by
  unfold dropOne
  split
  · exact i
  · split
    · rename_i hf; exact inv_end i hf.1
    · exact i

theorem get_set_none {s : State V} {i j : Nat} {x : Handle} (h : (s.handles.set i none)[j]? = some (some x)) :
    live s j = some x := by
  rw [List.getElem?_set] at h
  split at h
  · split at h <;> cases h
  · exact live_eq.mpr h

theorem step_inv {d0 : Hint → KV V} {s : State V} (i : Inv d0 s) (e : Event V) : Inv d0 (step s e) := by
  cases e with
  | begin_ =>
    refine ⟨i.db, fun j x h id hx hi => ?_, i.bal, i.dep, i.balanced⟩
    have hx' := live_set hx
    rw [List.getElem?_append] at hx'
    split at hx'
    · exact i.known j x h id (live_eq.mpr hx') hi
    · have : x = ⟨fun _ => none⟩ := by
        cases hj : (j - s.handles.length) with
        | zero => rw [hj] at hx'; cases hx'; rfl
        | succ n => rw [hj] at hx'; cases hx'
      subst this; cases hi
  | clone k =>
    dsimp only [step]
    cases hk : live s k with
    | none => exact i
    | some y =>
      refine inv_handles i _ (fun j x hx => ?_)
      rw [List.getElem?_append] at hx
      split at hx
      · exact ⟨j, live_eq.mpr hx⟩
      · cases hj : (j - s.handles.length) with
        | zero => rw [hj] at hx; cases hx; exact ⟨k, hk⟩
        | succ n => rw [hj] at hx; cases hx
  | put k h o =>
    dsimp only [step]
    cases hk : live s k with
    | none => exact i
    | some y =>
      dsimp only [put]
      cases hy : y.tx h with
      | some _ => exact inv_call i h (fun h => (nomatch h)) (fun h => (nomatch h))
      | none =>
        refine inv_call (inv_begin i h _ ?_) h (fun h => (nomatch h)) (fun h => (nomatch h))
        intro j x h' id hx hi
        rw [List.getElem?_set] at hx
        split at hx
        · split at hx
          · cases hx
            dsimp only at hi
            by_cases hh : h' = h
            · subst hh
              rw [upd_same] at hi ⊢
              cases hi
              rw [List.length_append]
              exact Nat.lt_succ_self _
            · rw [upd_other _ _ hh] at hi ⊢
              exact i.known k y h' id hk hi
          · cases hx
        · have := i.known j x h' id (live_eq.mpr hx) hi
          by_cases hh : h' = h
          · subst hh; rw [upd_same, List.length_append]; omega
          · rw [upd_other _ _ hh]; exact this
  | commit k =>
    dsimp only [step]
    cases hk : live s k with
    | none => exact i
    | some y =>
      exact inv_commitOne (inv_commitOne (inv_commitOne (inv_handles i _ (fun j x hx => ⟨j, get_set_none hx⟩)) _ _)
        _ _) _ _
  | drop k =>
    dsimp only [step]
    cases hk : live s k with
    | none => exact i
    | some y =>
      exact inv_dropOne (inv_dropOne (inv_dropOne (inv_handles i _ (fun j x hx => ⟨j, get_set_none hx⟩)) _ _)
        _ _) _ _
  | write h o => exact inv_call i h (fun h => (nomatch h)) (fun h => (nomatch h))
  | persist h => exact inv_call i h (fun h => (nomatch h)) (fun h => (nomatch h))
  | run h ok => exact inv_call i h (fun h => (nomatch h)) (fun h => (nomatch h))

theorem openDb_inv (d0 : Hint → KV V) : Inv d0 (openDb d0) :=
  ⟨fun _ => rfl, fun i x h id hx _ => (nomatch (live_eq.mp hx)), fun _ => rfl, fun _ => rfl, fun _ pre post hp => by
    have : pre = [] := (List.append_eq_nil_iff.mp hp.symm).1
    subst this; exact Nat.le_refl _⟩

theorem exec_append (s : State V) (a b : List (Event V)) : exec s (a ++ b) = exec (exec s a) b :=
  List.foldl_append

theorem exec_inv (d0 : Hint → KV V) (evs : List (Event V)) : Inv d0 (exec (openDb d0) evs) := by
  induction evs using List.reverseRecOn with
  | nil => exact openDb_inv d0
  | append_singleton evs e ih => rw [exec_append]; exact step_inv ih e

/-! ### What one event adds to the log of `h` -/

theorem log_commitOne (x : Handle) (s : State V) (h h' : Hint) :
    (commitOne x s h).log h' = s.log h' ∨ (h' = h ∧ (commitOne x s h).log h' = s.log h' ++ [.finish]) := by
  unfold commitOne
  split
  · exact .inl rfl
  · split
    · by_cases hh : h' = h
      · subst hh; exact .inr ⟨rfl, upd_same _ _ _⟩
      · exact .inl (upd_other _ _ hh)
    · exact .inl rfl

theorem log_dropOne (x : Handle) (s : State V) (h h' : Hint) :
    (dropOne x s h).log h' = s.log h' ∨ (h' = h ∧ (dropOne x s h).log h' = s.log h' ++ [.finish]) := by
  unfold dropOne
  split
  · exact .inl rfl
  · split
    · by_cases hh : h' = h
      · subst hh; exact .inr ⟨rfl, upd_same _ _ _⟩
      · exact .inl (upd_other _ _ hh)
    · exact .inl rfl

theorem log_three (f : State V → Hint → State V)
    (hf : ∀ s h h', (f s h).log h' = s.log h' ∨ (h' = h ∧ (f s h).log h' = s.log h' ++ [.finish])) (s : State V)
    (h' : Hint) : (f (f (f s .epoch) .kad) .cache).log h' = s.log h' ∨
      (f (f (f s .epoch) .kad) .cache).log h' = s.log h' ++ [.finish] := by
  cases h' with
  | epoch =>
    rcases hf (f (f s .epoch) .kad) .cache .epoch with h | ⟨h, _⟩
    · rw [h]
      rcases hf (f s .epoch) .kad .epoch with h | ⟨h, _⟩
      · rw [h]
        rcases hf s .epoch .epoch with h | ⟨_, h⟩ <;> rw [h]
        · exact .inl rfl
        · exact .inr rfl
      · cases h
    · cases h
  | kad =>
    rcases hf (f (f s .epoch) .kad) .cache .kad with h | ⟨h, _⟩
    · rw [h]
      have h0 : (f s .epoch).log .kad = s.log .kad := by
        rcases hf s .epoch .kad with h | ⟨h, _⟩
        · exact h
        · cases h
      rcases hf (f s .epoch) .kad .kad with h | ⟨_, h⟩ <;> rw [h, h0]
      · exact .inl rfl
      · exact .inr rfl
    · cases h
  | cache =>
    have h0 : (f s .epoch).log .cache = s.log .cache := by
      rcases hf s .epoch .cache with h | ⟨h, _⟩
      · exact h
      · cases h
    have h1 : (f (f s .epoch) .kad).log .cache = s.log .cache := by
      rcases hf (f s .epoch) .kad .cache with h | ⟨h, _⟩
      · rw [h, h0]
      · cases h
    rcases hf (f (f s .epoch) .kad) .cache .cache with h | ⟨_, h⟩ <;> rw [h, h1]
    · exact .inl rfl
    · exact .inr rfl

/-- What the event adds to the specification's list of writes. -/
def adds (s : State V) (h : Hint) : Event V → List (Op V)
  | .write h' o => if h' = h then [o] else []
  | .put i h' o => if h' = h ∧ (live s i).isSome then [o] else []
  | _ => []

theorem issued_cons (s : State V) (h : Hint) (e : Event V) (es : List (Event V)) :
    issued s h (e :: es) = adds s h e ++ issued (step s e) h es := by
  cases e <;> rfl

theorem issued_append (s : State V) (h : Hint) (a b : List (Event V)) :
    issued s h (a ++ b) = issued s h a ++ issued (exec s a) h b := by
  induction a generalizing s with
  | nil => rfl
  | cons e a ih => rw [List.cons_append, issued_cons, issued_cons, ih, List.append_assoc]; rfl

theorem issued_snoc (s : State V) (h : Hint) (a : List (Event V)) (e : Event V) :
    issued s h (a ++ [e]) = issued s h a ++ adds (exec s a) h e := by
  rw [issued_append, issued_cons]
  show _ ++ (_ ++ []) = _
  rw [List.append_nil]

/-- The log grows by at most one call, or by the begin of a transaction and its first write. -/
inductive Grows (h : Hint) (e : Event V) : List (Ev V) → List (Op V) → Prop
  | same : (∀ h', e ≠ .persist h' ∨ h' ≠ h) → Grows h e [] []
  | write (o : Op V) : (∀ h', e ≠ .persist h') → Grows h e [.write o] [o]
  | first (o : Op V) : (∀ h', e ≠ .persist h') → Grows h e [.start, .write o] [o]
  | finish : (∀ h', e ≠ .persist h') → Grows h e [.finish] []
  | persist : e = .persist h → Grows h e [.persist] []
  | run (ok : Bool) : e = .run h ok → Grows h e [.run ok] []

theorem step_log (s : State V) (h : Hint) (e : Event V) :
    ∃ l, (step s e).log h = s.log h ++ l ∧ Grows h e l (adds s h e) := by
  cases e with
  | begin_ => exact ⟨[], (List.append_nil _).symm, .same (fun _ => .inl (fun h => (nomatch h)))⟩
  | clone k =>
    refine ⟨[], ?_, .same (fun _ => .inl (fun h => (nomatch h)))⟩
    dsimp only [step]
    cases live s k <;> exact (List.append_nil _).symm
  | put k h' o =>
    dsimp only [step, adds]
    cases hk : live s k with
    | none =>
      rw [if_neg (fun c => (nomatch c.2))]
      exact ⟨[], (List.append_nil _).symm, .same (fun _ => .inl (fun h => (nomatch h)))⟩
    | some y =>
      by_cases hh : h' = h
      · subst hh
        rw [if_pos ⟨rfl, rfl⟩]
        dsimp only [put]
        cases hy : y.tx h' with
        | some _ => exact ⟨[.write o], upd_same _ _ _, .write o (fun _ h => (nomatch h))⟩
        | none =>
          refine ⟨[.start, .write o], ?_, .first o (fun _ h => (nomatch h))⟩
          dsimp only [call]
          rw [upd_same, upd_same, List.append_assoc]; rfl
      · rw [if_neg (fun c => hh c.1)]
        have hn : h ≠ h' := fun c => hh c.symm
        refine ⟨[], ?_, .same (fun _ => .inl (fun h => (nomatch h)))⟩
        rw [List.append_nil]
        dsimp only [put]
        cases hy : y.tx h' with
        | some _ => exact upd_other _ _ hn
        | none =>
          dsimp only [call]
          rw [upd_other _ _ hn, upd_other _ _ hn]
  | commit k =>
    dsimp only [step]
    cases hk : live s k with
    | none => exact ⟨[], (List.append_nil _).symm, .same (fun _ => .inl (fun h => (nomatch h)))⟩
    | some y =>
      rcases log_three (commitOne y) (log_commitOne y) { s with handles := s.handles.set k none } h with h1 | h1
      · exact ⟨[], by rw [List.append_nil]; exact h1, .same (fun _ => .inl (fun h => (nomatch h)))⟩
      · exact ⟨[.finish], h1, .finish (fun _ h => (nomatch h))⟩
  | drop k =>
    dsimp only [step]
    cases hk : live s k with
    | none => exact ⟨[], (List.append_nil _).symm, .same (fun _ => .inl (fun h => (nomatch h)))⟩
    | some y =>
      rcases log_three (dropOne y) (log_dropOne y) { s with handles := s.handles.set k none } h with h1 | h1
      · exact ⟨[], by rw [List.append_nil]; exact h1, .same (fun _ => .inl (fun h => (nomatch h)))⟩
      · exact ⟨[.finish], h1, .finish (fun _ h => (nomatch h))⟩
  | write h' o =>
    dsimp only [step, adds, call]
    by_cases hh : h' = h
    · subst hh; rw [if_pos rfl]; exact ⟨[.write o], upd_same _ _ _, .write o (fun _ h => (nomatch h))⟩
    · rw [if_neg hh]
      exact ⟨[], by rw [List.append_nil]; exact upd_other _ _ (fun c => hh c.symm),
        .same (fun _ => .inl (fun h => (nomatch h)))⟩
  | persist h' =>
    dsimp only [step, call]
    by_cases hh : h' = h
    · subst hh; exact ⟨[.persist], upd_same _ _ _, .persist rfl⟩
    · refine ⟨[], by rw [List.append_nil]; exact upd_other _ _ (fun c => hh c.symm), .same (fun h2 => ?_)⟩
      by_cases h3 : h2 = h
      · exact .inl (fun c => by cases c; exact hh h3)
      · exact .inr h3
  | run h' ok =>
    dsimp only [step, call]
    by_cases hh : h' = h
    · subst hh; exact ⟨[.run ok], upd_same _ _ _, .run ok rfl⟩
    · exact ⟨[], by rw [List.append_nil]; exact upd_other _ _ (fun c => hh c.symm),
        .same (fun _ => .inl (fun h => (nomatch h)))⟩

theorem Grows.written {h : Hint} {e : Event V} {l : List (Ev V)} {w : List (Op V)} (g : Grows h e l w) :
    Layered.written l = w := by cases g <;> rfl

theorem exec_snoc' (s : State V) (a : List (Event V)) (e : Event V) : exec s (a ++ [e]) = step (exec s a) e := by
  rw [exec_append]; rfl

/-- The writes a layered database was given are those issued to its tables. -/
theorem log_written (d0 : Hint → KV V) (evs : List (Event V)) (h : Hint) :
    written ((exec (openDb d0) evs).log h) = issued (openDb d0) h evs := by
  induction evs using List.reverseRecOn with
  | nil => rfl
  | append_singleton evs e ih =>
    obtain ⟨l, h1, h2⟩ := step_log (exec (openDb d0) evs) h e
    rw [exec_snoc', h1, Layered.written_append, ih, issued_snoc, h2.written]

theorem persists_append (h : Hint) (a b : List (Event V)) : persists h (a ++ b) = persists h a + persists h b := by
  induction a with
  | nil => exact (Nat.zero_add _).symm
  | cons e a ih => cases e <;> simp [persists, ih]; omega

theorem Grows.persists {h : Hint} {e : Event V} {l : List (Ev V)} {w : List (Op V)} (g : Grows h e l w) :
    Layered.persists l = Comp.persists h [e] := by
  have key : (∀ h', e ≠ .persist h' ∨ h' ≠ h) → Comp.persists h [e] = 0 := by
    intro hn
    cases e with
    | persist h' =>
      rcases hn h' with c | c
      · exact absurd rfl c
      · show (if h' = h then 1 else 0) + 0 = 0; rw [if_neg c]
    | _ => rfl
  cases g with
  | same hn => exact (key hn).symm
  | write o hn => exact (key (fun h' => .inl (hn h'))).symm
  | first o hn => exact (key (fun h' => .inl (hn h'))).symm
  | finish hn => exact (key (fun h' => .inl (hn h'))).symm
  | persist he => subst he; show 1 = (if h = h then 1 else 0) + 0; rw [if_pos rfl]
  | run ok he => subst he; rfl

theorem log_persists (d0 : Hint → KV V) (evs : List (Event V)) (h : Hint) :
    Layered.persists ((exec (openDb d0) evs).log h) = persists h evs := by
  induction evs using List.reverseRecOn with
  | nil => rfl
  | append_singleton evs e ih =>
    obtain ⟨l, h1, h2⟩ := step_log (exec (openDb d0) evs) h e
    rw [exec_snoc', h1, Layered.persists_append, ih, persists_append, h2.persists]

theorem log_noFailure (d0 : Hint → KV V) (evs : List (Event V)) (h : Hint) (hf : NoFailure h evs) :
    Layered.NoFailure ((exec (openDb d0) evs).log h) := by
  induction evs using List.reverseRecOn with
  | nil => exact fun c => (nomatch c)
  | append_singleton evs e ih =>
    obtain ⟨l, h1, h2⟩ := step_log (exec (openDb d0) evs) h e
    rw [exec_snoc', h1]
    intro c
    generalize adds (exec (openDb d0) evs) h e = w at h2
    rcases List.mem_append.mp c with c | c
    · exact ih (fun m => hf (List.mem_append_left _ m)) c
    · cases h2 with
      | same => cases c
      | run ok he =>
        rcases List.mem_singleton.mp c with h3
        cases h3
        exact hf (List.mem_append_right _ (he ▸ List.mem_singleton.mpr rfl))
      | _ => simp at c

/-- A first part of the log with no transaction open is the log of a first part of the run. -/
theorem log_prefix (d0 : Hint → KV V) (evs : List (Event V)) (h : Hint) (l1 l2 : List (Ev V))
    (hl : (exec (openDb d0) evs).log h = l1 ++ l2) (hz : depth l1 = 0) :
    ∃ pre post, evs = pre ++ post ∧ (exec (openDb d0) pre).log h = l1 := by
  induction evs using List.reverseRecOn generalizing l2 with
  | nil => exact ⟨[], [], rfl, (List.append_eq_nil_iff.mp hl.symm).1.symm⟩
  | append_singleton evs e ih =>
    obtain ⟨l, h1, h2⟩ := step_log (exec (openDb d0) evs) h e
    have hl0 := hl
    generalize adds (exec (openDb d0) evs) h e = w at h2
    rw [exec_snoc', h1] at hl
    rcases List.append_eq_append_iff.mp hl with ⟨a, ha, hb⟩ | ⟨a, ha, hb⟩
    · -- l1 = log ++ a, l = a ++ l2
      rcases a with _ | ⟨x, a⟩
      · exact ⟨evs, [e], rfl, by rw [ha, List.append_nil]⟩
      · have whole : l2 = [] → ∃ pre post, evs ++ [e] = pre ++ post ∧ (exec (openDb d0) pre).log h = l1 := by
          intro h3
          subst h3
          exact ⟨evs ++ [e], [], (List.append_nil _).symm, by rw [hl0, List.append_nil]⟩
        cases h2 with
        | same => cases hb
        | first o =>
          obtain ⟨h3, h4⟩ := List.cons.inj hb
          rcases a with _ | ⟨y, a⟩
          · subst h3
            rw [ha, Layered.depth_snoc] at hz
            cases hz
          · obtain ⟨_, h5⟩ := List.cons.inj h4
            exact whole (List.append_eq_nil_iff.mp h5.symm).2
        | _ => exact whole (List.append_eq_nil_iff.mp (List.cons.inj hb).2.symm).2
    · -- log = l1 ++ a
      obtain ⟨pre, post, h3, h4⟩ := ih a ha
      exact ⟨pre, post ++ [e], by rw [h3, List.append_assoc], h4⟩

end Comp
end Verif
