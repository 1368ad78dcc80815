import Mathlib.Tactic.Common

/-!
# Merging the manager's four input streams

`crates/exex/src/manager.rs`: `round_robin` (222-224), `merge_sources` (237-252).

Three nested `futures::stream::select_with_strategy` combinators, each with the round-robin strategy.
A poll of such a combinator asks the strategy for a side — which flips the stored side — polls that
side first and the other one only if the first has nothing ready.  A source is a queue; items arrive
at arbitrary moments.  The end of a stream is the trailing `Closed` item of that source (182-194), so
the three main sources never end inside a run; an ended event stream behaves like an empty one.
-/

namespace Verif.Exex.Merge

/-- The four inputs of `merge_sources`. -/
inductive Src where
  | certs | consensus | canon | events
  deriving DecidableEq, Repr

/-- The `PollNext` states of the three nested combinators; `true` is `PollNext::Left`, the default
(manager.rs 218-224). -/
structure Turn where
  outer : Bool := true
  middle : Bool := true
  inner : Bool := true
  deriving DecidableEq, Repr

/-- `select_with_strategy(canon, events, round_robin)` (manager.rs 247): the chosen source, if any,
and the new turn. -/
def pollInner (ready : Src → Bool) (t : Turn) : Option Src × Turn :=
  let t' := { t with inner := !t.inner }
  if t.inner then
    if ready .canon then (some .canon, t')
    else if ready .events then (some .events, t') else (none, t')
  else
    if ready .events then (some .events, t')
    else if ready .canon then (some .canon, t') else (none, t')

/-- `select_with_strategy(consensus, …, round_robin)` (manager.rs 245-249). -/
def pollMiddle (ready : Src → Bool) (t : Turn) : Option Src × Turn :=
  let t' := { t with middle := !t.middle }
  if t.middle then
    if ready .consensus then (some .consensus, t') else pollInner ready t'
  else
    match pollInner ready t' with
    | (some s, u) => (some s, u)
    | (none, u) => if ready .consensus then (some .consensus, u) else (none, u)

/-- `select_with_strategy(certs, …, round_robin)` (manager.rs 243-251). -/
def pollOuter (ready : Src → Bool) (t : Turn) : Option Src × Turn :=
  let t' := { t with outer := !t.outer }
  if t.outer then
    if ready .certs then (some .certs, t') else pollMiddle ready t'
  else
    match pollMiddle ready t' with
    | (some s, u) => (some s, u)
    | (none, u) => if ready .certs then (some .certs, u) else (none, u)

/-- The merged stream: the turns, the items waiting in each source and the items yielded so far. -/
structure St (α : Type) where
  turn : Turn := {}
  wait : Src → List α
  out : List (Src × α) := []

/-- Take the head of the chosen source. -/
def St.take {α : Type} (s : St α) (t : Turn) (x : Src) : St α :=
  match s.wait x with
  | [] => { s with turn := t }
  | a :: r =>
    { turn := t
      wait := fun y => if y = x then r else s.wait y
      out := s.out ++ [(x, a)] }

/-- Is something waiting in this source? -/
def St.ready {α : Type} (s : St α) (x : Src) : Bool := !(s.wait x).isEmpty

/-- One poll of the merged stream. -/
def St.poll {α : Type} (s : St α) : St α :=
  match pollOuter s.ready s.turn with
  | (some x, t) => s.take t x
  | (none, t) => { s with turn := t }

/-- An item arrives at a source. -/
def St.arrive {α : Type} (s : St α) (x : Src) (a : α) : St α :=
  { s with wait := fun y => if y = x then s.wait y ++ [a] else s.wait y }

/-- What can happen. -/
inductive Op (α : Type) where
  | arrive (x : Src) (a : α)
  | poll

/-- One step. -/
def St.step {α : Type} (s : St α) : Op α → St α
  | .arrive x a => s.arrive x a
  | .poll => s.poll

/-- A schedule. -/
def St.run {α : Type} (s : St α) (ops : List (Op α)) : St α := ops.foldl St.step s

/-- Number of polls in a schedule. -/
def polls {α : Type} : List (Op α) → Nat
  | [] => 0
  | .poll :: r => polls r + 1
  | _ :: r => polls r

/-- Items that arrive at a source during a schedule. -/
def arrivals {α : Type} (x : Src) : List (Op α) → List α
  | [] => []
  | .arrive y a :: r => if y = x then a :: arrivals x r else arrivals x r
  | .poll :: r => arrivals x r

/-- What the merged stream has yielded from a source, in order. -/
def yielded {α : Type} (x : Src) (out : List (Src × α)) : List α :=
  (out.filter (fun p => p.1 = x)).map (·.2)

/-- The number of polls within which a source with something waiting is served, whatever the other
three do. -/
def patience : Src → Nat
  | .certs => 2
  | .consensus => 4
  | .canon => 8
  | .events => 8

/-! ### Proofs -/

/-- Polls left before `x` is served at the latest. -/
def rank (x : Src) (t : Turn) : Nat :=
  let side (b : Bool) (k : Nat) := if b then 2 * k else 2 * k - 1
  match x with
  | .certs => if t.outer then 1 else 2
  | .consensus => side t.outer (if t.middle then 1 else 2)
  | .canon => side t.outer (side t.middle (if t.inner then 1 else 2))
  | .events => side t.outer (side t.middle (if t.inner then 2 else 1))

theorem rank_bounds (x : Src) (t : Turn) : 1 ≤ rank x t ∧ rank x t ≤ patience x := by
  obtain ⟨a, b, c⟩ := t
  cases x <;> cases a <;> cases b <;> cases c <;> decide

theorem rank_step (ready : Src → Bool) (t : Turn) (x : Src) (hx : ready x = true) :
    (pollOuter ready t).1 = some x ∨ rank x (pollOuter ready t).2 + 1 ≤ rank x t := by
  obtain ⟨a, b, c⟩ := t
  generalize hc : ready .certs = rc
  generalize ho : ready .consensus = ro
  generalize hn : ready .canon = rn
  generalize he : ready .events = re
  cases x <;> cases a <;> cases b <;> cases c <;> cases rc <;> cases ro <;> cases rn <;> cases re <;>
    first
    | (rw [hx] at hc; cases hc; done)
    | (rw [hx] at ho; cases ho; done)
    | (rw [hx] at hn; cases hn; done)
    | (rw [hx] at he; cases he; done)
    | (left; simp [pollOuter, pollMiddle, pollInner, hc, ho, hn, he]; done)
    | (right; simp [pollOuter, pollMiddle, pollInner, hc, ho, hn, he, rank]; done)

theorem poll_ready (ready : Src → Bool) (t : Turn) (x : Src)
    (h : (pollOuter ready t).1 = some x) : ready x = true := by
  obtain ⟨a, b, c⟩ := t
  generalize hc : ready .certs = rc
  generalize ho : ready .consensus = ro
  generalize hn : ready .canon = rn
  generalize he : ready .events = re
  cases a <;> cases b <;> cases c <;> cases rc <;> cases ro <;> cases rn <;> cases re <;>
    simp [pollOuter, pollMiddle, pollInner, hc, ho, hn, he] at h <;> subst h <;> assumption

theorem poll_none (ready : Src → Bool) (t : Turn)
    (h : (pollOuter ready t).1 = none) (x : Src) : ready x = false := by
  cases hx : ready x with
  | false => rfl
  | true =>
    exfalso
    obtain ⟨a, b, c⟩ := t
    generalize hc : ready .certs = rc at *
    generalize ho : ready .consensus = ro at *
    generalize hn : ready .canon = rn at *
    generalize he : ready .events = re at *
    cases a <;> cases b <;> cases c <;> cases rc <;> cases ro <;> cases rn <;> cases re <;>
      simp [pollOuter, pollMiddle, pollInner, hc, ho, hn, he] at h <;>
      cases x <;> simp_all

theorem yielded_append {α : Type} (x : Src) (l m : List (Src × α)) :
    yielded x (l ++ m) = yielded x l ++ yielded x m := by
  unfold yielded; rw [List.filter_append, List.map_append]

theorem fifo_poll {α : Type} (s : St α) (x : Src) :
    yielded x s.poll.out ++ s.poll.wait x = yielded x s.out ++ s.wait x := by
  unfold St.poll
  split
  · next y t hp =>
    unfold St.take
    split
    · rfl
    · next a r hw =>
      dsimp only
      rw [yielded_append]
      by_cases hxy : x = y
      · subst hxy
        rw [if_pos rfl, hw]
        simp [yielded]
      · rw [if_neg hxy]
        have : yielded x [(y, a)] = [] := by
          unfold yielded
          rw [List.filter_cons_of_neg (by simpa using fun h => hxy h.symm)]; rfl
        rw [this, List.append_nil]
  · rfl

/-- **C69 (order within a source).**  Whatever the schedule, the merged stream yields the items of a
source in the order in which they arrived there, each once, none invented; what was not yielded yet
is still waiting. -/
theorem source_order {α : Type} (ops : List (Op α)) (s : St α) (x : Src) :
    yielded x (s.run ops).out ++ (s.run ops).wait x =
      yielded x s.out ++ s.wait x ++ arrivals x ops := by
  induction ops generalizing s with
  | nil => simp [St.run, arrivals]
  | cons o r ih =>
    change yielded x ((s.step o).run r).out ++ ((s.step o).run r).wait x = _
    rw [ih]
    cases o with
    | poll => change yielded x s.poll.out ++ s.poll.wait x ++ _ = _; rw [fifo_poll]; rfl
    | arrive y a =>
      change yielded x s.out ++ (if x = y then s.wait x ++ [a] else s.wait x) ++ arrivals x r = _
      by_cases hxy : x = y
      · subst hxy; simp [arrivals]
      · rw [if_neg hxy]
        have : arrivals x (Op.arrive y a :: r) = arrivals x r := by
          rw [arrivals, if_neg (fun h => hxy h.symm)]
        rw [this]

theorem served {α : Type} (x : Src) (ops : List (Op α)) :
    ∀ (s : St α) (k : Nat), k + 1 ≤ (s.wait x).length →
      rank x s.turn + patience x * k ≤ polls ops →
      (yielded x s.out).length + k + 1 ≤ (yielded x (s.run ops).out).length := by
  induction ops with
  | nil =>
    intro s k _ hp
    have := (rank_bounds x s.turn).1
    have hz : polls ([] : List (Op α)) = 0 := rfl
    omega
  | cons o r ih =>
    intro s k hw hp
    cases o with
    | arrive y a =>
      have hw' : k + 1 ≤ ((s.arrive y a).wait x).length := by
        unfold St.arrive; dsimp only
        split
        · simp; omega
        · exact hw
      exact ih (s.arrive y a) k hw' hp
    | poll =>
      have hpp : polls (Op.poll :: r) = polls r + 1 := rfl
      rw [hpp] at hp
      have hrun : s.run (Op.poll :: r) = s.poll.run r := rfl
      rw [hrun]
      have hready : s.ready x = true := by
        unfold St.ready
        cases hq : s.wait x with
        | nil => rw [hq] at hw; simp at hw
        | cons => rfl
      have hstep := rank_step s.ready s.turn x hready
      have hmono : ∀ (ops : List (Op α)) (u : St α),
          (yielded x u.out).length ≤ (yielded x (u.run ops).out).length := by
        intro ops
        induction ops with
        | nil => intro u; exact Nat.le_refl _
        | cons o r ih2 =>
          intro u
          refine Nat.le_trans ?_ (ih2 (u.step o))
          cases o with
          | arrive => exact Nat.le_refl _
          | poll =>
            change _ ≤ (yielded x u.poll.out).length
            unfold St.poll
            split
            · unfold St.take; split
              · exact Nat.le_refl _
              · dsimp only; rw [yielded_append]; simp
            · exact Nat.le_refl _
      have hf := fifo_poll s x
      have hlen : (yielded x s.poll.out).length + (s.poll.wait x).length =
          (yielded x s.out).length + (s.wait x).length := by
        rw [← List.length_append, ← List.length_append, hf]
      by_cases hsel : (pollOuter s.ready s.turn).1 = some x
      · -- served now
        have hout : (yielded x s.poll.out).length = (yielded x s.out).length + 1 := by
          unfold St.poll
          rcases hq : pollOuter s.ready s.turn with ⟨o, t⟩
          rw [hq] at hsel
          dsimp only at hsel
          subst hsel
          dsimp only
          unfold St.take
          split
          · next hnil => rw [hnil] at hw; simp at hw
          · dsimp only; rw [yielded_append]; simp [yielded]
        cases k with
        | zero =>
          have := hmono r s.poll
          omega
        | succ k =>
          have hr' := (rank_bounds x s.poll.turn).2
          have hr := (rank_bounds x s.turn).1
          have hmul : patience x * (k + 1) = patience x * k + patience x := Nat.mul_succ _ _
          have := ih s.poll k (by omega) (by omega)
          omega
      · rcases hstep with hstep | hstep
        · exact absurd hstep hsel
        · have hturn : s.poll.turn = (pollOuter s.ready s.turn).2 := by
            unfold St.poll
            rcases hq : pollOuter s.ready s.turn with ⟨o, t⟩
            cases o with
            | none => rfl
            | some y =>
              dsimp only
              unfold St.take; split <;> rfl
          have hout : (yielded x s.out).length ≤ (yielded x s.poll.out).length := by
            have := hmono [Op.poll] s; exact this
          have hwait : s.poll.wait x = s.wait x := by
            unfold St.poll
            rcases hq : pollOuter s.ready s.turn with ⟨o, t⟩
            cases o with
            | none => rfl
            | some y =>
              rw [hq] at hsel
              have hne : x ≠ y := fun h => hsel (by rw [h])
              dsimp only
              unfold St.take; split
              · rfl
              · dsimp only; rw [if_neg hne]
          have := ih s.poll k (by rw [hwait]; exact hw) (by rw [hturn]; omega)
          omega

/-- **C69 (no source is starved).**  Whatever state the merge is in, however busy the other sources
are and whenever items arrive: an item with `k` items of its own source ahead of it is yielded within
`patience·(k+1)` polls — 2 for certificates, 4 for consensus outputs, 8 for canonical-state
notifications and for ExEx events. -/
theorem no_starvation {α : Type} (s : St α) (x : Src) (k : Nat) (hk : k < (s.wait x).length)
    (ops : List (Op α)) (hp : patience x * (k + 1) ≤ polls ops) :
    (yielded x s.out).length + k + 1 ≤ (yielded x (s.run ops).out).length ∧
      (yielded x (s.run ops).out)[(yielded x s.out).length + k]? = (s.wait x)[k]? := by
  have h1 : (yielded x s.out).length + k + 1 ≤ (yielded x (s.run ops).out).length := by
    apply served x ops s k hk
    have := (rank_bounds x s.turn).2
    have hmul : patience x * (k + 1) = patience x * k + patience x := Nat.mul_succ _ _
    omega
  refine ⟨h1, ?_⟩
  have hf := source_order ops s x
  have e1 : (yielded x (s.run ops).out)[(yielded x s.out).length + k]? =
      (yielded x (s.run ops).out ++ (s.run ops).wait x)[(yielded x s.out).length + k]? := by
    rw [List.getElem?_append_left (by omega)]
  rw [e1, hf, List.append_assoc, List.getElem?_append_right (by omega)]
  rw [Nat.add_sub_cancel_left, List.getElem?_append_left hk]

/-- `n` polls of the choice function with every source always ready: the choices made and the turn
reached. -/
def busy : Nat → Turn → List (Option Src) × Turn
  | 0, t => ([], t)
  | n + 1, t =>
    ((pollOuter (fun _ => true) t).1 :: (busy n (pollOuter (fun _ => true) t).2).1,
      (busy n (pollOuter (fun _ => true) t).2).2)

theorem busy_add (m n : Nat) (t : Turn) :
    busy (m + n) t = ((busy m t).1 ++ (busy n (busy m t).2).1, (busy n (busy m t).2).2) := by
  induction m generalizing t with
  | zero => rw [Nat.zero_add]; rfl
  | succ m ih =>
    rw [Nat.succ_add]
    simp only [busy, ih, List.cons_append]

/-- The shares promised by the doc comment (manager.rs 229-236), out of eight. -/
def share : Src → Nat
  | .certs => 4
  | .consensus => 2
  | .canon => 1
  | .events => 1

/-- **C69 (priorities as shares).**  While all four sources are continuously ready, every `8·n`
consecutive polls — from any state of the merge — serve certificates, consensus outputs, canonical
notifications and events exactly `4n : 2n : n : n` times. -/
theorem busy_shares (n : Nat) (t : Turn) (x : Src) :
    ((busy (8 * n) t).1.count (some x)) = share x * n := by
  have h8 : ∀ t : Turn, (busy 8 t).2 = t ∧ (busy 8 t).1.count (some x) = share x := by
    intro t
    obtain ⟨a, b, c⟩ := t
    cases x <;> cases a <;> cases b <;> cases c <;> decide
  induction n with
  | zero => rfl
  | succ n ih =>
    have hr : 8 * (n + 1) = 8 + 8 * n := by omega
    rw [hr, busy_add, List.count_append, (h8 t).1, (h8 t).2, ih, Nat.mul_succ]; omega

/-! ### Example -/

/-- A flood of certificates does not keep the one canonical notification waiting. -/
example : (((({ wait := fun x => match x with
      | .certs => [1, 2, 3, 4, 5, 6, 7, 8, 9]
      | .canon => [100]
      | _ => [] } : St Nat).run (List.replicate 8 .poll)).out).any
        (fun p => p.1 = .canon ∧ p.2 = 100)) = true := by decide

end Verif.Exex.Merge
