/-
Model of the channel that outlives its subscribers: `crates/consensus/primary/src/consensus_bus.rs` 52-175 (`QueChannel`,
`QueChanReceiver`).

Every atomic access is one step: `subscribe` takes the receiver out of its lock (`take`) and then stores the flag (`activate`); `Drop`
stores the flag (`unsub`) and then puts the receiver back (`restore`); `send` reads the flag (`load`) and then waits for room (`push`), and
may be cancelled in between (`cancel`), which is also `try_send` finding the channel full. The order of two waiting senders is not modelled:
any of them may be next.
-/
import Mathlib.Tactic.Common

namespace Verif
namespace Loop
namespace Channel

variable {M : Type}

/-- Where a subscription is in its life: taken but not yet active, active, or being dropped. -/
inductive Ph where
  | taking
  | live
  | dropping
deriving DecidableEq

/-- `container`: the receiver is in its lock. `holders`: the subscriptions that have it (with their number). `flag`: `subscribed`.
`waiting`: sends that have read the flag and wait for room. `panics`: calls of `subscribe` that panicked.
Histories: `subs`: subscriptions so far; `pushed`: messages that entered the channel; `got`: messages received, with the subscription;
`lost`: messages answered with `Ok` and dropped. -/
structure St (M : Type) where
  always : Bool
  cap : Nat
  container : Bool
  holders : List (Nat × Ph)
  flag : Bool
  queue : List M
  waiting : List M
  panics : Nat
  subs : Nat
  pushed : List M
  got : List (Nat × M)
  lost : List M

/-- `QueChannel::new`, `new_always_subscribed`, consensus_bus.rs:94-108. -/
def start (always : Bool) (cap : Nat) : St M := ⟨always, cap, true, [], always, [], [], 0, 0, [], [], []⟩

inductive Act (M : Type) where
  | take
  | activate (k : Nat)
  | recv (k : Nat)
  | unsub (k : Nat)
  | restore (k : Nat)
  | load (m : M)
  | push (i : Nat)
  | cancel (i : Nat)

/-- Change the phase of subscription `k`. -/
def setPh (l : List (Nat × Ph)) (k : Nat) (p : Ph) : List (Nat × Ph) := l.map (fun x => if x.1 = k then (k, p) else x)

def next (s : St M) : Act M → Option (St M)
  | .take =>
    -- consensus_bus.rs:118-121
    if s.container then some { s with container := false, holders := s.holders ++ [(s.subs, .taking)], subs := s.subs + 1 }
    else some { s with panics := s.panics + 1 }
  | .activate k =>
    -- consensus_bus.rs:122
    if (k, .taking) ∈ s.holders then some { s with flag := true, holders := setPh s.holders k .live } else none
  | .recv k =>
    -- consensus_bus.rs:164-174
    if (k, .live) ∈ s.holders then
      match s.queue with
      | [] => none
      | m :: q => some { s with queue := q, got := s.got ++ [(k, m)] }
    else none
  | .unsub k =>
    -- consensus_bus.rs:68-70
    if (k, .live) ∈ s.holders then
      some { s with flag := if s.always then s.flag else false, holders := setPh s.holders k .dropping }
    else none
  | .restore k =>
    -- consensus_bus.rs:71
    if (k, .dropping) ∈ s.holders then
      some { s with container := true, holders := s.holders.filter (fun x => x.1 != k) }
    else none
  | .load m =>
    -- consensus_bus.rs:149-152 and 156-159
    if s.flag then some { s with waiting := s.waiting ++ [m] } else some { s with lost := s.lost ++ [m] }
  | .push i =>
    -- consensus_bus.rs:153, 160
    match s.waiting[i]? with
    | none => none
    | some m => if s.queue.length < s.cap then
        some { s with waiting := s.waiting.eraseIdx i, queue := s.queue ++ [m], pushed := s.pushed ++ [m] } else none
  | .cancel i => if i < s.waiting.length then some { s with waiting := s.waiting.eraseIdx i } else none

inductive Reach (always : Bool) (cap : Nat) : St M → Prop
  | start : Reach always cap (start always cap)
  | step {s t : St M} (a : Act M) : Reach always cap s → next s a = some t → Reach always cap t

/-! ## Invariant -/

/-- Who has the receiver. -/
inductive One (s : St M) : Prop
  | home : s.container = true → s.holders = [] → s.flag = s.always → One s
  | taking (k : Nat) : s.container = false → s.holders = [(k, .taking)] → s.flag = s.always → One s
  | live (k : Nat) : s.container = false → s.holders = [(k, .live)] → s.flag = true → One s
  | dropping (k : Nat) : s.container = false → s.holders = [(k, .dropping)] → s.flag = s.always → One s

structure Inv (always : Bool) (cap : Nat) (s : St M) : Prop where
  kind : s.always = always
  capEq : s.cap = cap
  one : One s
  num : ∀ x ∈ s.holders, x.1 + 1 = s.subs
  fifo : s.pushed = s.got.map (·.2) ++ s.queue
  room : s.queue.length ≤ s.cap
  keep : s.always = true → s.lost = []
  flagAlways : s.always = true → s.flag = true

theorem inv_next {always : Bool} {cap : Nat} {s t : St M} {a : Act M} (i : Inv always cap s) (hn : next s a = some t) :
    Inv always cap t := by
  cases a with
  | take =>
    simp only [next] at hn
    split at hn
    · rename_i hc
      cases hn
      have hh : s.holders = [] ∧ s.flag = s.always := by
        rcases i.one with ⟨_, h, hf⟩ | ⟨k, h, _⟩ | ⟨k, h, _⟩ | ⟨k, h, _⟩
        · exact ⟨h, hf⟩
        · rw [hc] at h; cases h
        · rw [hc] at h; cases h
        · rw [hc] at h; cases h
      refine ⟨i.kind, i.capEq, .taking s.subs rfl ?_ hh.2, ?_, i.fifo, i.room, i.keep, i.flagAlways⟩
      · show s.holders ++ [(s.subs, Ph.taking)] = _
        rw [hh.1]; rfl
      · intro x hx
        have hx' : x ∈ s.holders ++ [(s.subs, Ph.taking)] := hx
        rw [hh.1] at hx'
        rw [List.mem_singleton.mp hx']
    · rename_i hc
      cases hn
      refine ⟨i.kind, i.capEq, ?_, i.num, i.fifo, i.room, i.keep, i.flagAlways⟩
      rcases i.one with ⟨h, _⟩ | ⟨k, h, h2, h3⟩ | ⟨k, h, h2, h3⟩ | ⟨k, h, h2, h3⟩
      · exact absurd h hc
      · exact .taking k h h2 h3
      · exact .live k h h2 h3
      · exact .dropping k h h2 h3
  | activate k =>
    simp only [next] at hn
    split at hn
    · rename_i hk
      cases hn
      rcases i.one with ⟨h, h2, h3⟩ | ⟨j, h, h2, h3⟩ | ⟨j, h, h2, h3⟩ | ⟨j, h, h2, h3⟩ <;> rw [h2] at hk
      · cases hk
      · obtain rfl : k = j := by have := List.mem_singleton.mp hk; cases this; rfl
        have hs : setPh s.holders k .live = [(k, .live)] := by rw [h2]; simp [setPh]
        refine ⟨i.kind, i.capEq, .live k h hs rfl, ?_, i.fifo, i.room, i.keep, fun _ => rfl⟩
        intro x hx
        have hx' : x ∈ setPh s.holders k .live := hx
        rw [hs] at hx'
        rw [List.mem_singleton.mp hx']
        exact i.num (k, .taking) (by rw [h2]; exact List.mem_cons_self)
      · have := List.mem_singleton.mp hk; cases this
      · have := List.mem_singleton.mp hk; cases this
    · cases hn
  | recv k =>
    simp only [next] at hn
    split at hn
    · split at hn
      · cases hn
      · rename_i m q hq
        cases hn
        refine ⟨i.kind, i.capEq, ?_, i.num, ?_, ?_, i.keep, i.flagAlways⟩
        · rcases i.one with ⟨h, h2, h3⟩ | ⟨k, h, h2, h3⟩ | ⟨k, h, h2, h3⟩ | ⟨k, h, h2, h3⟩
          · exact .home h h2 h3
          · exact .taking k h h2 h3
          · exact .live k h h2 h3
          · exact .dropping k h h2 h3
        · show s.pushed = (s.got ++ [(k, m)]).map (·.2) ++ q
          rw [i.fifo, hq]
          simp
        · have := i.room
          rw [hq, List.length_cons] at this
          exact Nat.le_of_succ_le this
    · cases hn
  | unsub k =>
    simp only [next] at hn
    split at hn
    · rename_i hk
      cases hn
      rcases i.one with ⟨h, h2, h3⟩ | ⟨j, h, h2, h3⟩ | ⟨j, h, h2, h3⟩ | ⟨j, h, h2, h3⟩ <;> rw [h2] at hk
      · cases hk
      · have := List.mem_singleton.mp hk; cases this
      · obtain rfl : k = j := by have := List.mem_singleton.mp hk; cases this; rfl
        have hs : setPh s.holders k .dropping = [(k, .dropping)] := by rw [h2]; simp [setPh]
        refine ⟨i.kind, i.capEq, .dropping k h hs ?_, ?_, i.fifo, i.room, i.keep, ?_⟩
        · show (if s.always then s.flag else false) = s.always
          cases ha : s.always with
          | false => rfl
          | true => exact i.flagAlways ha
        · intro x hx
          have hx' : x ∈ setPh s.holders k .dropping := hx
          rw [hs] at hx'
          rw [List.mem_singleton.mp hx']
          exact i.num (k, .live) (by rw [h2]; exact List.mem_cons_self)
        · intro ha
          show (if s.always then s.flag else false) = true
          rw [if_pos ha]; exact i.flagAlways ha
      · have := List.mem_singleton.mp hk; cases this
    · cases hn
  | restore k =>
    simp only [next] at hn
    split at hn
    · rename_i hk
      cases hn
      rcases i.one with ⟨h, h2, h3⟩ | ⟨j, h, h2, h3⟩ | ⟨j, h, h2, h3⟩ | ⟨j, h, h2, h3⟩ <;> rw [h2] at hk
      · cases hk
      · have := List.mem_singleton.mp hk; cases this
      · have := List.mem_singleton.mp hk; cases this
      · obtain rfl : k = j := by have := List.mem_singleton.mp hk; cases this; rfl
        have hs : s.holders.filter (fun x => x.1 != k) = [] := by rw [h2]; simp
        refine ⟨i.kind, i.capEq, .home rfl hs h3, ?_, i.fifo, i.room, i.keep, i.flagAlways⟩
        intro x hx
        have hx' : x ∈ s.holders.filter (fun x => x.1 != k) := hx
        rw [hs] at hx'; cases hx'
    · cases hn
  | load m =>
    have hone : ∀ (w l : List M), One { s with waiting := w, lost := l } := by
      intro w l
      rcases i.one with ⟨h, h2, h3⟩ | ⟨k, h, h2, h3⟩ | ⟨k, h, h2, h3⟩ | ⟨k, h, h2, h3⟩
      · exact .home h h2 h3
      · exact .taking k h h2 h3
      · exact .live k h h2 h3
      · exact .dropping k h h2 h3
    simp only [next] at hn
    split at hn
    · cases hn
      exact ⟨i.kind, i.capEq, hone _ _, i.num, i.fifo, i.room, i.keep, i.flagAlways⟩
    · rename_i hf
      cases hn
      refine ⟨i.kind, i.capEq, hone _ _, i.num, i.fifo, i.room, ?_, i.flagAlways⟩
      intro ha
      exact absurd (i.flagAlways ha) hf
  | push j =>
    simp only [next] at hn
    split at hn
    · cases hn
    · rename_i m hm
      split at hn
      · rename_i hl
        cases hn
        refine ⟨i.kind, i.capEq, ?_, i.num, ?_, ?_, i.keep, i.flagAlways⟩
        · rcases i.one with ⟨h, h2, h3⟩ | ⟨k, h, h2, h3⟩ | ⟨k, h, h2, h3⟩ | ⟨k, h, h2, h3⟩
          · exact .home h h2 h3
          · exact .taking k h h2 h3
          · exact .live k h h2 h3
          · exact .dropping k h h2 h3
        · show s.pushed ++ [m] = s.got.map (·.2) ++ (s.queue ++ [m])
          rw [i.fifo, List.append_assoc]
        · show (s.queue ++ [m]).length ≤ s.cap
          rw [List.length_append, List.length_singleton]; exact hl
      · cases hn
  | cancel j =>
    simp only [next] at hn
    split at hn
    · cases hn
      refine ⟨i.kind, i.capEq, ?_, i.num, i.fifo, i.room, i.keep, i.flagAlways⟩
      rcases i.one with ⟨h, h2, h3⟩ | ⟨k, h, h2, h3⟩ | ⟨k, h, h2, h3⟩ | ⟨k, h, h2, h3⟩
      · exact .home h h2 h3
      · exact .taking k h h2 h3
      · exact .live k h h2 h3
      · exact .dropping k h h2 h3
    · cases hn

theorem reach_inv {always : Bool} {cap : Nat} {s : St M} (h : Reach always cap s) : Inv always cap s := by
  induction h with
  | start => exact ⟨rfl, rfl, .home rfl rfl rfl, fun x hx => by (cases hx), rfl, Nat.zero_le _, fun _ => rfl, fun h => h⟩
  | step a _ hn ih => exact inv_next ih hn

/-! ## C79 -/

/-- **C79**, one at a time. There is never more than one subscription, and a subscription exists exactly when the receiver is not at home. -/
theorem exclusive {always : Bool} {cap : Nat} {s : St M} (h : Reach always cap s) :
    s.holders.length ≤ 1 ∧ (s.container = true ↔ s.holders = []) := by
  rcases (reach_inv h).one with ⟨h1, h2, _⟩ | ⟨k, h1, h2, _⟩ | ⟨k, h1, h2, _⟩ | ⟨k, h1, h2, _⟩ <;> rw [h1, h2] <;> simp

/-- **C79**, `subscribe` panics exactly when another subscription has the receiver. -/
theorem panics_iff {always : Bool} {cap : Nat} {s t : St M} (h : Reach always cap s) (hn : next s .take = some t) :
    t.panics = s.panics + 1 ↔ s.holders ≠ [] := by
  have he := (exclusive h).2
  simp only [next] at hn
  split at hn
  · rename_i hc
    cases hn
    constructor
    · intro e; exact absurd (show s.panics = s.panics + 1 from e) (by omega)
    · intro e; exact absurd (he.mp hc) e
  · rename_i hc
    cases hn
    exact ⟨fun _ e => hc (he.mpr e), fun _ => rfl⟩

/-- **C79**, a subscriber hears everything. While a subscription is active no send is dropped, whatever the subscription before it was doing
when it began. -/
theorem active_hears {always : Bool} {cap : Nat} {s t : St M} (h : Reach always cap s) {k : Nat} (hk : (k, Ph.live) ∈ s.holders) {m : M}
    (hn : next s (.load m) = some t) : t.waiting = s.waiting ++ [m] ∧ t.lost = s.lost := by
  have hf : s.flag = true := by
    rcases (reach_inv h).one with ⟨h1, h2, _⟩ | ⟨j, h1, h2, _⟩ | ⟨j, h1, h2, hf⟩ | ⟨j, h1, h2, _⟩
    · rw [h2] at hk; cases hk
    · rw [h2] at hk; have := List.mem_singleton.mp hk; cases this
    · exact hf
    · rw [h2] at hk; have := List.mem_singleton.mp hk; cases this
  simp only [next] at hn
  rw [if_pos hf] at hn
  cases hn
  exact ⟨rfl, rfl⟩

/-- **C79**, nobody listens, nobody waits. With no subscription a send to an ordinary channel returns at once and leaves nothing behind. -/
theorem unheard {cap : Nat} {s t : St M} (h : Reach false cap s) (hk : s.holders = []) {m : M} (hn : next s (.load m) = some t) :
    t.waiting = s.waiting ∧ t.queue = s.queue ∧ t.lost = s.lost ++ [m] := by
  have i := reach_inv h
  have hf : s.flag = false := by
    rcases i.one with ⟨h1, h2, hf⟩ | ⟨j, h1, h2, _⟩ | ⟨j, h1, h2, _⟩ | ⟨j, h1, h2, _⟩
    · rw [hf]; exact i.kind
    · rw [h2] at hk; cases hk
    · rw [h2] at hk; cases hk
    · rw [h2] at hk; cases hk
  simp only [next] at hn
  rw [hf] at hn
  cases hn
  exact ⟨rfl, rfl, rfl⟩

/-- **C79**, an always subscribed channel drops nothing. -/
theorem always_keeps {cap : Nat} {s : St M} (h : Reach true cap s) : s.lost = [] := (reach_inv h).keep (reach_inv h).kind

/-- **C79**, in order, once. What entered the channel is what was received, by whichever subscription, followed by what is still in it. -/
theorem fifo {always : Bool} {cap : Nat} {s : St M} (h : Reach always cap s) : s.pushed = s.got.map (·.2) ++ s.queue := (reach_inv h).fifo

/-- **C79**, bounded. -/
theorem bounded {always : Bool} {cap : Nat} {s : St M} (h : Reach always cap s) : s.queue.length ≤ cap := by
  have i := reach_inv h
  have := i.room
  rwa [i.capEq] at this

/-- **C79**, a dropped subscription makes room for the next one: once the drop is complete, `subscribe` succeeds, and from its second step
on the new subscription hears everything. -/
theorem resubscribe {always : Bool} {cap : Nat} {s t : St M} (h : Reach always cap s) {k : Nat} (hn : next s (.restore k) = some t) :
    ∃ u v, next t .take = some u ∧ u.panics = t.panics ∧ next u (.activate t.subs) = some v ∧ (t.subs, Ph.live) ∈ v.holders ∧
      v.flag = true := by
  have ht : Reach always cap t := .step _ h hn
  have hc : t.container = true := by
    simp only [next] at hn
    split at hn
    · cases hn; rfl
    · cases hn
  have hh := (exclusive ht).2.mp hc
  refine ⟨{ t with container := false, holders := t.holders ++ [(t.subs, .taking)], subs := t.subs + 1 },
    { t with container := false, holders := setPh (t.holders ++ [(t.subs, .taking)]) t.subs .live, subs := t.subs + 1, flag := true },
    ?_, rfl, ?_, ?_, rfl⟩
  · simp only [next]; rw [if_pos hc]
  · simp only [next]
    rw [if_pos (by rw [hh]; simp)]
  · show _ ∈ setPh (t.holders ++ [(t.subs, .taking)]) t.subs .live
    rw [hh]; simp [setPh]

/-- Runs, for the examples. -/
def runs (s : St M) : List (Act M) → Option (St M)
  | [] => some s
  | a :: as => match next s a with
    | none => none
    | some t => runs t as

theorem reach_runs {b : Bool} {c : Nat} {as : List (Act M)} : ∀ {s t : St M}, Reach b c s → runs s as = some t → Reach b c t := by
  induction as with
  | nil => intro s t h e; cases e; exact h
  | cons a as ih =>
    intro s t h e
    unfold runs at e
    split at e
    · cases e
    · rename_i u hu
      exact ih (.step a h hu) e

/-- **C79**, left-overs. What a subscription has not read, and what a sender that saw the flag pushes after the drop, goes to the next
subscription. -/
theorem leftovers : ∃ s : St Nat, Reach false 1000 s ∧ s.got = [(1, 7), (1, 8)] ∧ s.lost = [9] := by
  have hb : ((runs (start false 1000) ([.take, .activate 0, .load 7, .load 8, .push 0, .unsub 0, .restore 0, .push 0, .load 9, .take,
      .activate 1, .recv 1, .recv 1] : List (Act Nat))).map
      (fun t : St Nat => decide (t.got = [(1, 7), (1, 8)] ∧ t.lost = [9]))) = some true := by
    decide +kernel
  obtain ⟨t, ht, hd⟩ := Option.map_eq_some_iff.mp hb
  exact ⟨t, reach_runs .start ht, of_decide_eq_true hd⟩

/-- **C79**, the first moment. Between the two steps of `subscribe` the receiver is taken and a send is still dropped. -/
theorem gap : ∃ s : St Nat, Reach false 1000 s ∧ s.holders = [(0, .taking)] ∧ s.lost = [7] := by
  have hb : ((runs (start false 1000) ([.take, .load 7] : List (Act Nat))).map
      (fun t : St Nat => decide (t.holders = [(0, .taking)] ∧ t.lost = [7]))) = some true := by
    decide +kernel
  obtain ⟨t, ht, hd⟩ := Option.map_eq_some_iff.mp hb
  exact ⟨t, reach_runs .start ht, of_decide_eq_true hd⟩

/-- A second subscription while one is active panics. -/
theorem second : ∃ s : St Nat, Reach false 1000 s ∧ s.panics = 1 ∧ s.holders = [(0, .live)] := by
  have hb : ((runs (start false 1000) ([.take, .activate 0, .take] : List (Act Nat))).map
      (fun t : St Nat => decide (t.panics = 1 ∧ t.holders = [(0, .live)]))) = some true := by
    decide +kernel
  obtain ⟨t, ht, hd⟩ := Option.map_eq_some_iff.mp hb
  exact ⟨t, reach_runs .start ht, of_decide_eq_true hd⟩

end Channel
end Loop
end Verif
