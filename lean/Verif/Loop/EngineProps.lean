/- The engine's loop: order, one at a time, back-pressure, shutdown (C80). -/
import Verif.Loop.Engine

namespace Verif
namespace Loop
namespace Engine

variable {O H : Type}

theorem chained_concat {h g r : H} {xs : List (O × H × H)} {o : O} (hc : Chained h xs g) : Chained h (xs ++ [(o, g, r)]) r := by
  induction xs generalizing h with
  | nil => cases hc; exact ⟨rfl, rfl⟩
  | cons x xs ih => exact ⟨hc.1, ih hc.2⟩

structure Inv (h0 : H) (s : St O H) : Prop where
  split : s.sent = s.finished.map (·.1) ++ running s ++ s.queued ++ s.chan
  chain : Chained h0 s.finished s.parent
  given : ∀ t, s.task = some t → t.parent = s.parent
  bound : s.queued.length ≤ maxQueued
  room : s.chan.length ≤ toEngine
  ended : s.ended = true → s.closed = true ∧ s.chan = []
  ok : s.ret = some .ok → s.task = none ∧ s.queued = []
  closedRet : s.ret = some .streamClosed → s.task = none ∧ s.queued = [] ∧ s.ended = true
  err : s.ret = some .execError → ∃ t, s.task = some t ∧ t.result = some none
  gate : ∀ w g, s.pos = .select w g → (g = true ↔ s.ended = false ∧ s.queued.length < maxQueued) ∧ (w = true ∨ s.notice = true)
  busy : s.pos ≠ .top → s.ret = none → s.task = none → s.queued = [] 
  endTop : s.pos ≠ .top → s.ret = none → s.ended = true → s.task ≠ none

theorem idle_iff (s : St O H) : idle s = true ↔ s.task = none ∧ s.queued = [] := by
  unfold idle
  rw [Bool.and_eq_true, Option.isNone_iff_eq_none, List.isEmpty_iff]

theorem spawn_cases (s : St O H) : (∃ o q, s.task = none ∧ s.queued = o :: q ∧
    spawn s = { s with task := some ⟨o, s.parent, none⟩, queued := q }) ∨
    (spawn s = s ∧ (s.task ≠ none ∨ s.queued = [])) := by
  unfold spawn
  cases ht : s.task with
  | none =>
    cases hq : s.queued with
    | nil => exact Or.inr ⟨rfl, Or.inr rfl⟩
    | cons o q => exact Or.inl ⟨o, q, rfl, rfl, rfl⟩
  | some t => exact Or.inr ⟨by cases s.queued <;> rfl, Or.inl (fun h => by cases h)⟩

theorem inv_next {h0 : H} {s t : St O H} {a : Act O H} (i : Inv h0 s) (hn : next s a = some t) : Inv h0 t := by
  cases a with
  | send o =>
    simp only [next] at hn
    split at hn
    · rename_i hc
      cases hn
      exact { i with
              split := by
                show s.sent ++ [o] = _ ++ (s.chan ++ [o])
                rw [i.split, List.append_assoc, List.append_assoc, List.append_assoc]
                show _ = _ ++ (s.chan ++ [o])
                simp only [List.append_assoc]
                rfl
              room := by
                show (s.chan ++ [o]).length ≤ toEngine
                rw [List.length_append, List.length_singleton]; omega
              ended := fun h => by have := (i.ended h).1; rw [hc.1] at this; cases this }
    · cases hn
  | close =>
    simp only [next] at hn
    cases hn
    exact { i with ended := fun h => ⟨rfl, (i.ended h).2⟩ }
  | notify =>
    simp only [next] at hn
    cases hn
    exact { i with gate := fun w g h => ⟨(i.gate w g h).1, Or.inr rfl⟩ }
  | work r =>
    simp only [next] at hn
    split at hn
    · cases hn
    · rename_i tk htk
      split at hn
      · rename_i hr
        cases hn
        have hr := Option.isNone_iff_eq_none.1 hr
        refine { i with
                 split := ?_, given := ?_, ok := ?_, closedRet := ?_, err := ?_, busy := ?_, endTop := ?_ }
        · have := i.split
          unfold running at this ⊢
          rw [htk] at this
          exact this
        · intro t ht
          cases ht
          exact i.given tk htk
        · intro h; have := (i.ok h).1; rw [htk] at this; cases this
        · intro h; have := (i.closedRet h).1; rw [htk] at this; cases this
        · intro h
          obtain ⟨t, ht, hres⟩ := i.err h
          rw [htk] at ht
          cases ht
          rw [hr] at hres; cases hres
        · intro _ _ h; cases h
        · intro _ _ _ h; cases h
      · cases hn
  | top =>
    simp only [next] at hn
    split at hn
    · rename_i hc
      cases hn
      unfold atTop
      split
      · rename_i h1
        rw [Bool.and_eq_true, idle_iff] at h1
        exact { i with
                ok := fun _ => h1.2
                closedRet := fun h => by cases h
                err := fun h => by cases h
                busy := fun _ h => by cases h
                endTop := fun _ h => by cases h }
      · split
        · rename_i h1
          rw [Bool.and_eq_true, idle_iff] at h1
          exact { i with
                  ok := fun h => by cases h
                  closedRet := fun _ => ⟨h1.2.1, h1.2.2, h1.1⟩
                  err := fun h => by cases h
                  busy := fun _ h => by cases h
                  endTop := fun _ h => by cases h }
        · rename_i hne
          have hret : s.ret = none := Option.isNone_iff_eq_none.1 hc.1
          rcases spawn_cases s with ⟨o, q, h1, h2, h3⟩ | ⟨h1, h2⟩
          · rw [h3]
            refine ⟨?_, i.chain, ?_, ?_, i.room, i.ended, ?_, ?_, ?_, ?_, ?_, ?_⟩
            · show s.sent = s.finished.map (·.1) ++ [o] ++ q ++ s.chan
              rw [i.split]
              unfold running
              rw [h1, h2]
              simp
            · intro t ht; cases ht; rfl
            · show q.length ≤ maxQueued
              have := i.bound; rw [h2, List.length_cons] at this; omega
            · intro h; rw [show s.ret = some .ok from h] at hret; cases hret
            · intro h; rw [show s.ret = some .streamClosed from h] at hret; cases hret
            · intro h; rw [show s.ret = some .execError from h] at hret; cases hret
            · intro w g h; cases h
            · intro _ _ h; cases h
            · intro _ _ _ h; cases h
          · rw [h1]
            refine { i with gate := ?_, busy := ?_, endTop := ?_ }
            · intro w g h; cases h
            · intro _ _ ht
              rcases h2 with h2 | h2
              · exact absurd ht h2
              · exact h2
            · intro _ _ he ht
              have ht : s.task = none := ht
              have he : s.ended = true := he
              rcases h2 with h2 | h2
              · exact h2 ht
              · exact hne (by rw [he, (idle_iff s).2 ⟨ht, h2⟩]; rfl)
    · cases hn
  | enter =>
    simp only [next] at hn
    split at hn
    · rename_i hc
      cases hn
      refine { i with gate := ?_, busy := ?_, endTop := ?_ }
      · intro w g h
        injection h with hw hg
        refine ⟨?_, ?_⟩
        · rw [← hg]
          show (!s.ended && decide (s.queued.length < maxQueued)) = true ↔ _
          rw [Bool.and_eq_true, decide_eq_true_iff, Bool.not_eq_true']
        · rw [← hw]
          show (!s.notice) = true ∨ s.notice = true
          cases s.notice
          · exact Or.inl rfl
          · exact Or.inr rfl
      · intro _ hr ht
        exact i.busy (by rw [hc.2]; exact fun h => by cases h) hr ht
      · intro _ hr he
        exact i.endTop (by rw [hc.2]; exact fun h => by cases h) hr he
    · cases hn
  | wake =>
    simp only [next] at hn
    split at hn
    · split at hn
      · cases hn
        exact { i with
                gate := fun w g h => by cases h
                busy := fun h => absurd rfl h
                endTop := fun h => absurd rfl h }
      · cases hn
    · cases hn
  | stream =>
    simp only [next] at hn
    split at hn
    · rename_i w hpos
      split at hn
      · rename_i hr
        have hret : s.ret = none := Option.isNone_iff_eq_none.1 hr
        unfold onStream at hn
        split at hn
        · rename_i o r hch
          cases hn
          have hg := ((i.gate w true hpos).1).1 rfl
          refine ⟨?_, i.chain, i.given, ?_, ?_, ?_, ?_, ?_, ?_, ?_, ?_, ?_⟩
          · show s.sent = s.finished.map (·.1) ++ running s ++ (s.queued ++ [o]) ++ r
            rw [i.split, hch]
            simp
          · show (s.queued ++ [o]).length ≤ maxQueued
            rw [List.length_append, List.length_singleton]; omega
          · have := i.room; rw [hch, List.length_cons] at this
            show r.length ≤ toEngine
            omega
          · intro h; have h : s.ended = true := h
            rw [hg.1] at h; cases h
          · intro h; rw [show s.ret = some .ok from h] at hret; cases hret
          · intro h; rw [show s.ret = some .streamClosed from h] at hret; cases hret
          · intro h; rw [show s.ret = some .execError from h] at hret; cases hret
          · intro w g h; cases h
          · intro h; exact absurd rfl h
          · intro h; exact absurd rfl h
        · rename_i hch
          split at hn
          · rename_i hcl
            cases hn
            refine { i with
                     ended := ?_, ok := ?_, closedRet := ?_, err := ?_, gate := ?_, busy := ?_, endTop := ?_ }
            · intro _; exact ⟨hcl, hch⟩
            · intro h; rw [show s.ret = some .ok from h] at hret; cases hret
            · intro h; rw [show s.ret = some .streamClosed from h] at hret; cases hret
            · intro h; rw [show s.ret = some .execError from h] at hret; cases hret
            · intro w g h; cases h
            · intro h; exact absurd rfl h
            · intro h; exact absurd rfl h
          · cases hn
      · cases hn
    · cases hn
  | result =>
    simp only [next] at hn
    split at hn
    · rename_i w g hpos
      split at hn
      · rename_i hr
        have hret : s.ret = none := Option.isNone_iff_eq_none.1 hr
        unfold onResult at hn
        split at hn
        · cases hn
        · rename_i tk htk
          split at hn
          · cases hn
          · rename_i hres
            cases hn
            exact { i with
                    ok := fun h => by cases h
                    closedRet := fun h => by cases h
                    err := fun _ => ⟨tk, htk, hres⟩
                    busy := fun _ h => by cases h
                    endTop := fun _ h => by cases h }
          · rename_i h hres
            cases hn
            refine ⟨?_, ?_, ?_, i.bound, i.room, i.ended, ?_, ?_, ?_, ?_, ?_, ?_⟩
            · show s.sent = (s.finished ++ [(tk.out, tk.parent, h)]).map (·.1) ++ [] ++ s.queued ++ s.chan
              rw [i.split]
              unfold running
              rw [htk]
              simp
            · show Chained h0 (s.finished ++ [(tk.out, tk.parent, h)]) h
              rw [i.given tk htk]
              exact chained_concat i.chain
            · intro t ht; cases ht
            · intro h; rw [show s.ret = some .ok from h] at hret; cases hret
            · intro h; rw [show s.ret = some .streamClosed from h] at hret; cases hret
            · intro h; rw [show s.ret = some .execError from h] at hret; cases hret
            · intro w g h; cases h
            · intro h; exact absurd rfl h
            · intro h; exact absurd rfl h
      · cases hn
    · cases hn

theorem reach_inv {h0 : H} {s : St O H} (h : Reach h0 s) : Inv h0 s := by
  induction h with
  | start =>
    refine ⟨rfl, rfl, ?_, Nat.zero_le _, Nat.zero_le _, ?_, ?_, ?_, ?_, ?_, ?_, ?_⟩
    · intro t ht; cases ht
    · intro h; cases h
    · intro h; cases h
    · intro h; cases h
    · intro h; cases h
    · intro w g h; cases h
    · intro h; exact absurd rfl h
    · intro h; exact absurd rfl h
  | step a _ hn ih => exact inv_next ih hn

/-! ## C80 -/

/-- **C80**, order. What has been executed, what is being executed, what waits in the engine and what waits in the channel are
together exactly what the manager sent, in that order: nothing is skipped, repeated or reordered. -/
theorem order {h0 : H} {s : St O H} (h : Reach h0 s) :
    s.sent = s.finished.map (·.1) ++ running s ++ s.queued ++ s.chan := (reach_inv h).split

/-- **C80**, one at a time. Every output was executed on the header that the execution of the one before it gave, the first on the
header the engine started with; the output being executed was given the header of the last one finished. -/
theorem one_at_a_time {h0 : H} {s : St O H} (h : Reach h0 s) :
    Chained h0 s.finished s.parent ∧ ∀ t, s.task = some t → t.parent = s.parent :=
  ⟨(reach_inv h).chain, (reach_inv h).given⟩

/-- **C80**, back-pressure. The engine never buffers more than eight outputs, the channel never more than 64. -/
theorem bounded {h0 : H} {s : St O H} (h : Reach h0 s) : s.queued.length ≤ 8 ∧ s.chan.length ≤ 64 :=
  ⟨(reach_inv h).bound, (reach_inv h).room⟩

/-- **C80**, shutdown. When the engine ends on the shutdown signal, everything it had taken from the channel has been executed; what
remains is exactly what was still in the channel. -/
theorem shutdown {h0 : H} {s : St O H} (h : Reach h0 s) (hr : s.ret = some .ok) : s.sent = s.finished.map (·.1) ++ s.chan := by
  have i := reach_inv h
  obtain ⟨ht, hq⟩ := i.ok hr
  rw [i.split]
  unfold running
  rw [ht, hq]
  simp

/-- **C80**, end of the stream. When the engine ends because its channel is closed, everything ever sent has been executed. -/
theorem stream_closed {h0 : H} {s : St O H} (h : Reach h0 s) (hr : s.ret = some .streamClosed) :
    s.sent = s.finished.map (·.1) ∧ s.closed = true := by
  have i := reach_inv h
  obtain ⟨ht, hq, he⟩ := i.closedRet hr
  obtain ⟨hc, hch⟩ := i.ended he
  rw [i.split]
  unfold running
  rw [ht, hq, hch]
  simp [hc]

/-- **C80**, failure. When an execution fails the engine ends; the failed output is the first one not executed, and nothing behind it
was started. -/
theorem exec_error {h0 : H} {s : St O H} (h : Reach h0 s) (hr : s.ret = some .execError) :
    ∃ t, s.task = some t ∧ t.result = some none ∧ s.sent = s.finished.map (·.1) ++ t.out :: (s.queued ++ s.chan) := by
  have i := reach_inv h
  obtain ⟨t, ht, hres⟩ := i.err hr
  refine ⟨t, ht, hres, ?_⟩
  rw [i.split]
  unfold running
  rw [ht]
  simp

/-- **C80**, the end is the end: after `run` has returned nothing is executed. -/
theorem returned_is_final {s t : St O H} {a : Act O H} (hr : s.ret ≠ none) (hn : next s a = some t) :
    t.finished = s.finished ∧ t.ret = s.ret ∧ t.queued = s.queued ∧ (t.task = none ↔ s.task = none) := by
  have hf : s.ret.isNone = false := by
    cases hx : s.ret with
    | none => exact absurd hx hr
    | some r => rfl
  cases a <;> simp only [next, hf] at hn
  case send o => simp at hn
  case close => cases hn; exact ⟨rfl, rfl, rfl, Iff.rfl⟩
  case notify => cases hn; exact ⟨rfl, rfl, rfl, Iff.rfl⟩
  case work r =>
    split at hn
    · cases hn
    · rename_i tk htk
      split at hn
      · cases hn
        refine ⟨rfl, rfl, rfl, ?_⟩
        show (some _ = none) ↔ _
        rw [htk]
        constructor <;> intro h <;> cases h
      · cases hn
  case top => simp at hn
  case enter => simp at hn
  case wake =>
    split at hn
    · simp at hn
    · cases hn
  case stream =>
    split at hn
    · simp at hn
    · cases hn
  case result =>
    split at hn
    · simp at hn
    · cases hn

/-- What the engine and its execution task do by themselves. -/
def own : Act O H → Bool
  | .send _ => false
  | .close => false
  | .notify => false
  | _ => true

def posWeight : At → Nat
  | .top => 2
  | .checked => 1
  | .select _ _ => 0

def taskWeight : Option (Task O H) → Nat
  | none => 0
  | some t => if t.result.isNone then 4 else 3

def wakeWeight (s : St O H) : Nat :=
  match s.pos with
  | .select true _ => 3
  | _ => if s.notice then 0 else 3

def weight (s : St O H) : Nat :=
  if s.ret.isSome then taskWeight s.task
  else 8 + 7 * s.chan.length + 4 * s.queued.length + taskWeight s.task + posWeight s.pos + wakeWeight s +
    (if s.ended then 0 else 3)

theorem taskWeight_le (t : Option (Task O H)) : taskWeight t ≤ 4 := by
  cases t with
  | none => exact Nat.zero_le _
  | some t => unfold taskWeight; dsimp only; split <;> omega

/-- **C80**, no spinning. Whatever the engine does by itself uses up work: without new outputs it comes to rest. -/
theorem own_steps_end {h0 : H} {s t : St O H} {a : Act O H} (h : Reach h0 s) (ha : own a = true) (hn : next s a = some t) : weight t < weight s := by
  cases a with
  | send o => cases ha
  | close => cases ha
  | notify => cases ha
  | work r =>
    simp only [next] at hn
    split at hn
    · cases hn
    · rename_i tk htk
      split at hn
      · rename_i hr
        cases hn
        have h1 : taskWeight s.task = 4 := by rw [htk]; unfold taskWeight; dsimp only; rw [if_pos hr]
        have h2 : taskWeight (some { tk with result := some r }) = 3 := rfl
        unfold weight
        dsimp only
        rw [h1, h2]
        split
        · omega
        · have hw : wakeWeight { s with task := some { tk with result := some r } } = wakeWeight s := rfl
          rw [hw]; omega
      · cases hn
  | top =>
    simp only [next] at hn
    split at hn
    · rename_i hc
      cases hn
      have hret : s.ret.isSome = false := by
        rw [← Option.not_isNone, hc.1]; rfl
      have hws : weight s = 8 + 7 * s.chan.length + 4 * s.queued.length + taskWeight s.task + 2 + wakeWeight s +
          (if s.ended then 0 else 3) := by
        unfold weight
        rw [hret, hc.2]
        rfl
      have hl := taskWeight_le s.task
      have hwk : wakeWeight s = if s.notice then 0 else 3 := by unfold wakeWeight; rw [hc.2]
      unfold atTop
      split
      · have : weight { s with ret := some .ok } = taskWeight s.task := rfl
        rw [this, hws]; omega
      · split
        · have : weight { s with ret := some .streamClosed } = taskWeight s.task := rfl
          rw [this, hws]; omega
        · rcases spawn_cases s with ⟨o, q, h1, h2, h3⟩ | ⟨h1, _⟩
          · rw [h3]
            have : weight { s with task := some ⟨o, s.parent, none⟩, queued := q, pos := .checked } =
                8 + 7 * s.chan.length + 4 * q.length + 4 + 1 + (if s.notice then 0 else 3) + (if s.ended then 0 else 3) := by
              unfold weight
              rw [show ({ s with task := some ⟨o, s.parent, none⟩, queued := q, pos := .checked } : St O H).ret.isSome = false from hret]
              rfl
            rw [this, hws, hwk, h1, h2, List.length_cons]
            have : taskWeight (none : Option (Task O H)) = 0 := rfl
            omega
          · rw [h1]
            have : weight { s with pos := .checked } =
                8 + 7 * s.chan.length + 4 * s.queued.length + taskWeight s.task + 1 + (if s.notice then 0 else 3) +
                  (if s.ended then 0 else 3) := by
              unfold weight
              rw [show ({ s with pos := .checked } : St O H).ret.isSome = false from hret]
              rfl
            rw [this, hws, hwk]; omega
    · cases hn
  | enter =>
    simp only [next] at hn
    split at hn
    · rename_i hc
      cases hn
      have hret : s.ret.isSome = false := by
        rw [← Option.not_isNone, hc.1]; rfl
      unfold weight
      rw [hret]
      rw [hc.2]
      have hwk : wakeWeight s = if s.notice then 0 else 3 := by unfold wakeWeight; rw [hc.2]
      have hwk2 : ∀ g, wakeWeight { s with pos := .select (!s.notice) g } = if s.notice then 0 else 3 := by
        intro g
        unfold wakeWeight
        dsimp only
        cases s.notice <;> rfl
      rw [hwk, hwk2]
      dsimp only [posWeight]
      simp only [Bool.false_eq_true, if_false]
      omega
    · cases hn
  | wake =>
    simp only [next] at hn
    split at hn
    · rename_i g hpos
      split at hn
      · rename_i hc
        cases hn
        have hret : s.ret.isSome = false := by
          rw [← Option.not_isNone, hc.1]; rfl
        unfold weight
        rw [hret]
        have hwk : wakeWeight s = 3 := by unfold wakeWeight; rw [hpos]
        have hwk2 : wakeWeight { s with pos := .top } = 0 := by
          unfold wakeWeight
          dsimp only
          rw [hc.2]; rfl
        rw [hwk, hwk2, hpos]
        dsimp only [posWeight]
        simp only [Bool.false_eq_true, if_false]
        omega
      · cases hn
    · cases hn
  | stream =>
    simp only [next] at hn
    split at hn
    · rename_i w hpos
      split at hn
      · rename_i hr
        have hret : s.ret.isSome = false := by
          rw [← Option.not_isNone, hr]; rfl
        have hwk : (if s.notice then 0 else 3) ≤ wakeWeight s := by
          unfold wakeWeight; rw [hpos]
          cases w
          · exact Nat.le_refl _
          · show (if s.notice then 0 else 3) ≤ 3
            split <;> omega
        have hws : weight s = 8 + 7 * s.chan.length + 4 * s.queued.length + taskWeight s.task + 0 + wakeWeight s +
            (if s.ended then 0 else 3) := by
          unfold weight
          rw [hret, hpos]
          rfl
        unfold onStream at hn
        split at hn
        · rename_i o r hch
          cases hn
          have : weight { s with chan := r, queued := s.queued ++ [o], pos := .top } =
              8 + 7 * r.length + 4 * (s.queued ++ [o]).length + taskWeight s.task + 2 + (if s.notice then 0 else 3) +
                (if s.ended then 0 else 3) := by
            unfold weight
            rw [show ({ s with chan := r, queued := s.queued ++ [o], pos := .top } : St O H).ret.isSome = false from hret]
            rfl
          rw [this, hws, hch, List.length_append, List.length_singleton, List.length_cons]
          omega
        · rename_i hch
          split at hn
          · cases hn
            have he : s.ended = false := ((((reach_inv h).gate _ _ hpos).1.mp rfl)).1
            have : weight { s with ended := true, pos := .top } =
                8 + 7 * s.chan.length + 4 * s.queued.length + taskWeight s.task + 2 + (if s.notice then 0 else 3) + 0 := by
              unfold weight
              rw [show ({ s with ended := true, pos := .top } : St O H).ret.isSome = false from hret]
              rfl
            rw [this, hws, he]
            show _ < _ + 3
            omega
          · cases hn
      · cases hn
    · cases hn
  | result =>
    simp only [next] at hn
    split at hn
    · rename_i w g hpos
      split at hn
      · rename_i hr
        have hret : s.ret.isSome = false := by
          rw [← Option.not_isNone, hr]; rfl
        have hwk : (if s.notice then 0 else 3) ≤ wakeWeight s := by
          unfold wakeWeight; rw [hpos]
          cases w
          · exact Nat.le_refl _
          · show (if s.notice then 0 else 3) ≤ 3
            split <;> omega
        have hws : weight s = 8 + 7 * s.chan.length + 4 * s.queued.length + taskWeight s.task + 0 + wakeWeight s +
            (if s.ended then 0 else 3) := by
          unfold weight
          rw [hret, hpos]
          rfl
        have hl := taskWeight_le s.task
        unfold onResult at hn
        split at hn
        · cases hn
        · rename_i tk htk
          split at hn
          · cases hn
          · cases hn
            have : weight { s with ret := some .execError } = taskWeight s.task := rfl
            rw [this, hws]; omega
          · rename_i hd hres
            cases hn
            have ht : taskWeight s.task = 3 := by
              rw [htk]; unfold taskWeight; dsimp only; rw [hres]; rfl
            have : weight { s with task := none, parent := hd, pos := .top, finished := s.finished ++ [(tk.out, tk.parent, hd)] } =
                8 + 7 * s.chan.length + 4 * s.queued.length + 0 + 2 + (if s.notice then 0 else 3) +
                  (if s.ended then 0 else 3) := by
              unfold weight
              rw [show ({ s with task := none, parent := hd, pos := .top,
                                 finished := s.finished ++ [(tk.out, tk.parent, hd)] } : St O H).ret.isSome = false from hret]
              rfl
            rw [this, hws, ht]; omega
      · cases hn
    · cases hn

/-- The shutdown signal came after the check at the top of the loop and before the branches were armed, with nothing to do: the
shutdown branch is not armed and nothing else wakes the engine. -/
def Missed (s : St O H) : Prop :=
  s.pos = .select false true ∧ s.notice = true ∧ s.task = none ∧ s.queued = [] ∧ s.chan = [] ∧ s.closed = false

/-- There is nothing to do: the engine waits for an output. -/
def Waiting (s : St O H) : Prop :=
  (∃ g, s.pos = .select true g) ∧ s.notice = false ∧ s.task = none ∧ s.queued = [] ∧ s.chan = [] ∧ s.closed = false

/-- **C80**, some branch is always armed: `select!` never finds all its branches disabled. -/
theorem some_branch {h0 : H} {s : St O H} (h : Reach h0 s) (hr : s.ret = none) {w g : Bool} (hp : s.pos = .select w g) :
    g = true ∨ s.task ≠ none := by
  have i := reach_inv h
  have hne : s.pos ≠ .top := by rw [hp]; intro h; cases h
  by_cases ht : s.task = none
  · left
    refine (i.gate w g hp).1.mpr ⟨?_, ?_⟩
    · cases he : s.ended with
      | false => rfl
      | true => exact absurd ht (i.endTop hne hr he)
    · rw [i.busy hne hr ht]; exact Nat.zero_lt_succ _
  · exact Or.inr ht

/-- **C80**, never stuck. As long as the engine has not returned, it or its execution task can act, unless there is nothing to do at all;
and with nothing to do it either waits for both the signal and the next output, or has missed the signal. -/
theorem never_stuck_partial {h0 : H} {s : St O H} (h : Reach h0 s) (hr : s.ret = none)
    (hno : ∀ a, own a = true → next s a = none) : Waiting s ∨ Missed s := by
  have i := reach_inv h
  cases hp : s.pos with
  | top =>
    have := hno .top rfl
    simp only [next] at this
    rw [if_pos ⟨by rw [hr]; rfl, hp⟩] at this
    cases this
  | checked =>
    have := hno .enter rfl
    simp only [next] at this
    rw [if_pos ⟨by rw [hr]; rfl, hp⟩] at this
    cases this
  | select w g =>
    have hrn : s.ret.isNone = true := by rw [hr]; rfl
    have ht : s.task = none := by
      cases htk : s.task with
      | none => rfl
      | some tk =>
        exfalso
        cases hres : tk.result with
        | none =>
          have := hno (.work none) rfl
          simp only [next] at this
          rw [htk] at this
          dsimp only at this
          rw [if_pos (by rw [hres]; rfl)] at this
          cases this
        | some r =>
          have := hno .result rfl
          simp only [next] at this
          rw [hp] at this
          dsimp only at this
          rw [if_pos hrn] at this
          unfold onResult at this
          rw [htk] at this
          dsimp only at this
          rw [hres] at this
          cases r <;> cases this
    have hg : g = true := by
      rcases some_branch h hr hp with h | h
      · exact h
      · exact absurd ht h
    subst hg
    have hst := hno .stream rfl
    simp only [next] at hst
    rw [hp] at hst
    dsimp only at hst
    rw [if_pos hrn] at hst
    unfold onStream at hst
    have hch : s.chan = [] := by
      cases hc : s.chan with
      | nil => rfl
      | cons o r => rw [hc] at hst; cases hst
    have hcl : s.closed = false := by
      cases hc : s.closed with
      | false => rfl
      | true =>
        rw [hch] at hst
        dsimp only at hst
        rw [if_pos hc] at hst
        cases hst
    have hq := i.busy (by rw [hp]; intro h; cases h) hr ht
    cases hn : s.notice with
    | false =>
      refine Or.inl ⟨⟨true, ?_⟩, hn, ht, hq, hch, hcl⟩
      rcases (i.gate w true hp).2 with h | h
      · rw [hp, h]
      · rw [hn] at h; cases h
    | true =>
      cases w with
      | false => exact Or.inr ⟨hp, hn, ht, hq, hch, hcl⟩
      | true =>
        exfalso
        have := hno .wake rfl
        simp only [next] at this
        rw [hp] at this
        dsimp only at this
        rw [if_pos ⟨hrn, hn⟩] at this
        cases this

/-- **C80**, at rest everything is executed: when neither the engine nor its task can act, and `run` has not returned, all that was sent
has been executed. -/
theorem at_rest_all_executed {h0 : H} {s : St O H} (h : Reach h0 s) (hr : s.ret = none)
    (hno : ∀ a, own a = true → next s a = none) : s.sent = s.finished.map (·.1) := by
  have i := reach_inv h
  rw [i.split]
  unfold running
  rcases never_stuck_partial h hr hno with ⟨_, _, ht, hq, hc, _⟩ | ⟨_, _, ht, hq, hc, _⟩ <;> rw [ht, hq, hc] <;> simp

/-- Runs of the engine, for the examples. -/
def runs (s : St O H) : List (Act O H) → Option (St O H)
  | [] => some s
  | a :: as => match next s a with
    | none => none
    | some t => runs t as

theorem reach_runs {h0 : H} {as : List (Act O H)} : ∀ {s t : St O H}, Reach h0 s → runs s as = some t → Reach h0 t := by
  induction as with
  | nil => intro s t h e; cases e; exact h
  | cons a as ih =>
    intro s t h e
    unfold runs at e
    split at e
    · cases e
    · rename_i u hu
      exact ih (.step a h hu) e

/-- **C80**, the missed signal. The engine has nothing to do, the shutdown signal has been given, the manager still holds its sender, and
the engine cannot take a step: it stays until another output comes or the manager drops the channel. -/
theorem missed_notice : ∃ s : St Nat Nat, Reach 0 s ∧ s.ret = none ∧ Missed s ∧ ∀ a, own a = true → next s a = none := by
  refine ⟨⟨[], false, [], none, 0, false, true, .select false true, none, [], []⟩, ?_, rfl, ⟨rfl, rfl, rfl, rfl, rfl, rfl⟩, ?_⟩
  · exact reach_runs (as := [.top, .notify, .enter]) .start rfl
  · intro a ha
    cases a <;> first | rfl | cases ha

/-- **C80**, and only closing the channel or another output frees it. -/
theorem missed_until {s t : St O H} {a : Act O H} (hm : Missed s) (hn : next s a = some t) :
    Missed t ∨ t.closed = true ∨ t.chan ≠ [] := by
  obtain ⟨hp, hno, ht, hq, hc, hcl⟩ := hm
  cases a with
  | send o =>
    simp only [next] at hn
    split at hn
    · cases hn
      exact Or.inr (Or.inr (by rw [hc]; simp))
    · cases hn
  | close => cases hn; exact Or.inr (Or.inl rfl)
  | notify => cases hn; exact Or.inl ⟨hp, rfl, ht, hq, hc, hcl⟩
  | work r => simp only [next] at hn; rw [ht] at hn; cases hn
  | top =>
    simp only [next] at hn
    split at hn
    · rename_i h; rw [hp] at h; cases h.2
    · cases hn
  | enter =>
    simp only [next] at hn
    split at hn
    · rename_i h; rw [hp] at h; cases h.2
    · cases hn
  | wake => simp only [next] at hn; rw [hp] at hn; cases hn
  | stream =>
    simp only [next] at hn; rw [hp] at hn
    dsimp only at hn
    split at hn
    · unfold onStream at hn
      rw [hc] at hn
      dsimp only at hn
      rw [hcl] at hn
      cases hn
    · cases hn
  | result =>
    simp only [next] at hn; rw [hp] at hn
    dsimp only at hn
    split at hn
    · unfold onResult at hn
      rw [ht] at hn
      cases hn
    · cases hn

/-- A run that ends by the signal with two outputs executed and one left in the channel. -/
theorem shutdown_example : ∃ s : St Nat Nat, Reach 0 s ∧ s.ret = some .ok ∧ s.finished = [(7, 0, 1), (8, 1, 2)] ∧ s.chan = [9] := by
  have hb : ((runs (start 0) ([.send 7, .send 8, .top, .enter, .stream, .top, .enter, .stream, .work (some 1), .top, .enter, .notify,
      .result, .top, .work (some 2), .enter, .send 9, .result, .top] : List (Act Nat Nat))).map
      (fun t : St Nat Nat => decide (t.ret = some .ok ∧ t.finished = [(7, 0, 1), (8, 1, 2)] ∧ t.chan = [9]))) = some true := by
    decide +kernel
  obtain ⟨t, ht, hd⟩ := Option.map_eq_some_iff.mp hb
  exact ⟨t, reach_runs .start ht, of_decide_eq_true hd⟩

/-- A run that ends because an execution failed, with one output behind it. -/
theorem error_example : ∃ s : St Nat Nat, Reach 0 s ∧ s.ret = some .execError ∧ s.finished = [] ∧ s.queued = [8] := by
  have hb : ((runs (start 0) ([.send 7, .send 8, .top, .enter, .stream, .top, .enter, .stream, .work none, .top, .enter,
      .result] : List (Act Nat Nat))).map
      (fun t : St Nat Nat => decide (t.ret = some .execError ∧ t.finished = [] ∧ t.queued = [8]))) = some true := by
    decide +kernel
  obtain ⟨t, ht, hd⟩ := Option.map_eq_some_iff.mp hb
  exact ⟨t, reach_runs .start ht, of_decide_eq_true hd⟩

/-- A run that ends because the channel is closed, with everything executed. -/
theorem closed_example : ∃ s : St Nat Nat, Reach 0 s ∧ s.ret = some .streamClosed ∧ s.finished = [(7, 0, 5)] := by
  have hb : ((runs (start 0) ([.send 7, .close, .top, .enter, .stream, .top, .enter, .stream, .work (some 5), .top, .enter,
      .result, .top] : List (Act Nat Nat))).map
      (fun t : St Nat Nat => decide (t.ret = some .streamClosed ∧ t.finished = [(7, 0, 5)]))) = some true := by
    decide +kernel
  obtain ⟨t, ht, hd⟩ := Option.map_eq_some_iff.mp hb
  exact ⟨t, reach_runs .start ht, of_decide_eq_true hd⟩

end Engine
end Loop
end Verif
