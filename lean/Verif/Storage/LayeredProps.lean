import Verif.Storage.Layered
import Mathlib.Data.List.Induction
/-
Durability and read semantics of the layered database.
-/
namespace Verif
namespace Layered

variable {V : Type}

/-- The writes still queued. -/
def queuedOps : List (Msg V) → List (Op V)
  | [] => []
  | .op o :: q => o :: queuedOps q
  | _ :: q => queuedOps q

theorem queuedOps_append (a b : List (Msg V)) : queuedOps (a ++ b) = queuedOps a ++ queuedOps b := by
  induction a with
  | nil => rfl
  | cons m a ih => cases m <;> simp [queuedOps, ih]

theorem written_append (a b : List (Ev V)) : written (a ++ b) = written a ++ written b := by
  induction a with
  | nil => rfl
  | cons m a ih => cases m <;> simp [written, ih]

theorem persists_append (a b : List (Ev V)) : persists (a ++ b) = persists a + persists b := by
  induction a with
  | nil => simp [persists]
  | cons m a ih => cases m <;> simp [persists, ih]; omega

theorem applyOps_append (m : KV V) (a b : List (Op V)) :
    applyOps m (a ++ b) = applyOps (applyOps m a) b := by
  simp [applyOps, List.foldl_append]

theorem exec_append (d : DB V) (a b : List (Ev V)) : exec d (a ++ b) = exec (exec d a) b := by
  simp [exec, List.foldl_append]

/-- Positions (number of earlier writes) of the `persist` calls of a run, in order. -/
def marks : List (Ev V) → Nat → List Nat
  | [], _ => []
  | .write _ :: es, n => marks es (n + 1)
  | .persist :: es, n => n :: marks es n
  | _ :: es, n => marks es n

theorem marks_append (a b : List (Ev V)) (n : Nat) :
    marks (a ++ b) n = marks a n ++ marks b (n + (written a).length) := by
  induction a generalizing n with
  | nil => simp [marks, written]
  | cons m a ih =>
    cases m <;> simp [marks, written, ih]
    congr 1; omega

theorem marks_length (a : List (Ev V)) (n : Nat) : (marks a n).length = persists a := by
  induction a generalizing n with
  | nil => rfl
  | cons m a ih => cases m <;> simp [marks, persists, ih]

/-- Every barrier in the queue sits behind all writes issued before its `persist` call. -/
def BarriersOk (ms : List Nat) : List (Msg V) → Nat → Prop
  | [], _ => True
  | .op _ :: q, n => BarriersOk ms q (n + 1)
  | .barrier b :: q, n => (∃ p, ms[b]? = some p ∧ p ≤ n) ∧ BarriersOk ms q n
  | .start :: q, n => BarriersOk ms q n
  | .finish :: q, n => BarriersOk ms q n

theorem BarriersOk.mono {ms ms' : List Nat} {q : List (Msg V)} {n : Nat}
    (hm : ∀ b p : Nat, ms[b]? = some p → ms'[b]? = some p) (h : BarriersOk ms q n) :
    BarriersOk ms' q n := by
  induction q generalizing n with
  | nil => trivial
  | cons m q ih =>
    cases m with
    | op o => exact ih h
    | start => exact ih h
    | finish => exact ih h
    | barrier b => exact ⟨let ⟨p, h1, h2⟩ := h.1; ⟨p, hm b p h1, h2⟩, ih h.2⟩

theorem BarriersOk.append {ms : List Nat} {q r : List (Msg V)} {n : Nat}
    (h : BarriersOk ms q n) (h2 : BarriersOk ms r (n + (queuedOps q).length)) :
    BarriersOk ms (q ++ r) n := by
  induction q generalizing n with
  | nil => simpa [queuedOps] using h2
  | cons m q ih =>
    cases m with
    | op o =>
      refine ih h ?_
      simp only [queuedOps, List.length_cons] at h2
      have : n + 1 + (queuedOps q).length = n + ((queuedOps q).length + 1) := by omega
      rw [this]; exact h2
    | start => exact ih h h2
    | finish => exact ih h h2
    | barrier b => exact ⟨h.1, ih h.2 h2⟩

/-- Holds of every state a run reaches. `done` are the writes the thread has handled, `g` counts
the leading writes that are certain to be on disk. -/
structure Inv (d0 : KV V) (evs : List (Ev V)) (d : DB V) (done : List (Op V)) (g : Nat) : Prop where
  split : written evs = done ++ queuedOps d.queue
  gle : g ≤ done.length
  diskOk : ∃ l : List (Op V), l.Sublist (done.drop g) ∧ d.disk = applyOps d0 (done.take g ++ l)
  txnOk : ∀ s n, d.txn = some (s, n) →
    (∃ l : List (Op V), l.Sublist (done.drop g) ∧ s = applyOps d0 (done.take g ++ l)) ∧
    (d.failed = false → s = applyOps d0 done)
  clean : d.txn = none → d.failed = false → d.disk = applyOps d0 done ∧ g = done.length
  barriers : BarriersOk (marks evs 0) d.queue done.length
  pendingOk : ∀ b ∈ d.pending, ∃ p, (marks evs 0)[b]? = some p ∧ p ≤ done.length
  pendingTxn : d.txn = none → d.pending = []
  acked : ∀ b, (b, true) ∈ d.acks → ∃ p, (marks evs 0)[b]? = some p ∧ p ≤ g
  next : d.nextBarrier = persists evs

theorem getElem?_append_some {l l' : List Nat} {b p : Nat} (h : l[b]? = some p) :
    (l ++ l')[b]? = some p := by
  obtain ⟨hb, _⟩ := List.getElem?_eq_some_iff.mp h
  rw [List.getElem?_append_left hb]; exact h

theorem sub_snoc {α : Type} {l : List α} {done : List α} {g : Nat} (hg : g ≤ done.length)
    (h : l.Sublist (done.drop g)) (o : α) :
    l.Sublist ((done ++ [o]).drop g) ∧ (l ++ [o]).Sublist ((done ++ [o]).drop g) := by
  rw [List.drop_append_of_le_length hg]
  exact ⟨h.trans (List.sublist_append_left _ _), h.append (List.Sublist.refl _)⟩

theorem take_snoc {α : Type} {done : List α} {g : Nat} (hg : g ≤ done.length) (o : α) :
    (done ++ [o]).take g = done.take g := by
  rw [List.take_append_of_le_length hg]

/-- A transaction ends (or not) and the waiting barriers are answered. -/
theorem inv_finish {d0 : KV V} {evs : List (Ev V)} {d : DB V} {done : List (Op V)} {g : Nat}
    (h : Inv d0 evs d done g) (ok : Bool) :
    ∃ g', g ≤ g' ∧ Inv d0 evs (handle d .finish ok) done g' := by
  obtain ⟨full, mem, disk, queue, txn, failed, retained, pending, acks, nb⟩ := d
  rcases txn with _ | ⟨s, n⟩
  · refine ⟨g, Nat.le_refl _, ?_⟩
    have hp : pending = [] := h.pendingTxn rfl
    subst hp
    simpa [handle, endTxn, ackPending] using h
  · by_cases hn : n ≤ 1
    · cases ok with
      | true =>
        cases failed with
        | false =>
          have hs := (h.txnOk s n rfl).2 rfl
          refine ⟨done.length, h.gle, ?_⟩
          simp only [handle, endTxn, hn, if_true, ackPending, Option.isNone]
          refine ⟨h.split, Nat.le_refl _, ⟨[], by simp, by simpa using hs⟩, by simp,
            fun _ _ => ⟨hs, rfl⟩, h.barriers, by simp, fun _ => rfl, ?_, h.next⟩
          intro b hb
          simp only [List.mem_append, List.mem_map, Bool.not_false] at hb
          rcases hb with hb | ⟨x, hx, he⟩
          · obtain ⟨p, h1, h2⟩ := h.acked b hb
            exact ⟨p, h1, Nat.le_trans h2 h.gle⟩
          · cases he; exact h.pendingOk b hx
        | true =>
          refine ⟨g, Nat.le_refl _, ?_⟩
          simp only [handle, endTxn, hn, if_true, ackPending, Option.isNone]
          refine ⟨h.split, h.gle, (h.txnOk s n rfl).1, by simp, by simp, h.barriers, by simp,
            fun _ => rfl, ?_, h.next⟩
          intro b hb
          simp only [List.mem_append, List.mem_map, Bool.not_true] at hb
          rcases hb with hb | ⟨x, _, he⟩
          · exact h.acked b hb
          · cases he
      | false =>
        refine ⟨g, Nat.le_refl _, ?_⟩
        simp only [handle, endTxn, hn, if_true, ackPending, Option.isNone, Bool.false_eq_true,
          if_false]
        refine ⟨h.split, h.gle, h.diskOk, by simp, by simp, h.barriers, by simp,
          fun _ => rfl, ?_, h.next⟩
        intro b hb
        simp only [List.mem_append, List.mem_map, Bool.not_true] at hb
        rcases hb with hb | ⟨x, _, he⟩
        · exact h.acked b (by simpa using hb)
        · cases he
    · refine ⟨g, Nat.le_refl _, ?_⟩
      simp only [handle, endTxn, hn, if_false, Option.isNone]
      refine ⟨h.split, h.gle, h.diskOk, ?_, by simp, h.barriers, h.pendingOk, by simp,
        h.acked, h.next⟩
      intro s' n' he
      cases he
      exact h.txnOk s n rfl

/-- A write is handled. -/
theorem inv_op {d0 : KV V} {evs : List (Ev V)} {d : DB V} {done : List (Op V)} {g : Nat}
    {o : Op V} {q : List (Msg V)} (h : Inv d0 evs { d with queue := .op o :: q } done g) (ok : Bool) :
    ∃ g', g ≤ g' ∧ Inv d0 evs (runOp { d with queue := q } o ok) (done ++ [o]) g' := by
  obtain ⟨full, mem, disk, queue, txn, failed, retained, pending, acks, nb⟩ := d
  have hsplit : written evs = done ++ [o] ++ queuedOps q := by
    have := h.split; simpa [queuedOps] using this
  have hlen : (done ++ [o]).length = done.length + 1 := by simp
  have hb : BarriersOk (marks evs 0) q (done ++ [o]).length := by
    rw [hlen]; exact h.barriers
  have hpend : ∀ b ∈ pending, ∃ p, (marks evs 0)[b]? = some p ∧ p ≤ (done ++ [o]).length := by
    intro b hb
    obtain ⟨p, h1, h2⟩ := h.pendingOk b hb
    exact ⟨p, h1, by rw [hlen]; exact Nat.le_succ_of_le h2⟩
  have hgle : g ≤ (done ++ [o]).length := by rw [hlen]; exact Nat.le_succ_of_le h.gle
  have hdisk : ∃ l : List (Op V), l.Sublist ((done ++ [o]).drop g) ∧
      disk = applyOps d0 ((done ++ [o]).take g ++ l) := by
    obtain ⟨l, h1, h2⟩ := h.diskOk
    exact ⟨l, (sub_snoc h.gle h1 o).1, by rw [take_snoc h.gle]; exact h2⟩
  rcases txn with _ | ⟨s, n⟩
  · cases ok with
    | true =>
      cases failed with
      | false =>
        obtain ⟨hd, hg⟩ := h.clean rfl rfl
        have hd : disk = applyOps d0 done := hd
        refine ⟨done.length + 1, Nat.le_succ_of_le h.gle, ?_⟩
        have hap : o.apply disk = applyOps d0 (done ++ [o]) := by
          rw [applyOps_append, ← hd]; rfl
        simp only [runOp, if_true]
        refine ⟨hsplit, by rw [hlen]; exact Nat.le_refl _, ⟨[], by simp, ?_⟩, by simp,
          fun _ _ => ⟨hap, hlen.symm⟩, hb, hpend, h.pendingTxn, ?_, h.next⟩
        · rw [← hlen, List.take_length, List.append_nil]; exact hap
        · intro b hb
          obtain ⟨p, h1, h2⟩ := h.acked b hb
          exact ⟨p, h1, by have := h.gle; omega⟩
      | true =>
        obtain ⟨l, h1, h2⟩ := h.diskOk
        have h2 : disk = applyOps d0 (done.take g ++ l) := h2
        refine ⟨g, Nat.le_refl _, ?_⟩
        simp only [runOp, if_true]
        refine ⟨hsplit, hgle, ⟨l ++ [o], (sub_snoc h.gle h1 o).2, ?_⟩, by simp, by simp, hb, hpend,
          h.pendingTxn, h.acked, h.next⟩
        rw [take_snoc h.gle, ← List.append_assoc, applyOps_append, ← h2]; rfl
    | false =>
      refine ⟨g, Nat.le_refl _, ?_⟩
      simp only [runOp, Bool.false_eq_true, if_false]
      exact ⟨hsplit, hgle, hdisk, by simp, by simp, hb, hpend, h.pendingTxn, h.acked, h.next⟩
  · obtain ⟨⟨l, h1, h2⟩, h3⟩ := h.txnOk s n rfl
    refine ⟨g, Nat.le_refl _, ?_⟩
    cases ok with
    | true =>
      simp only [runOp, if_true]
      refine ⟨hsplit, hgle, hdisk, ?_, by simp, hb, hpend, by simp, h.acked, h.next⟩
      intro s' n' he
      cases he
      refine ⟨⟨l ++ [o], (sub_snoc h.gle h1 o).2, ?_⟩, ?_⟩
      · rw [take_snoc h.gle, ← List.append_assoc, applyOps_append, ← h2]; rfl
      · intro hf; rw [applyOps_append, ← h3 hf]; rfl
    | false =>
      simp only [runOp, Bool.false_eq_true, if_false]
      refine ⟨hsplit, hgle, hdisk, ?_, by simp, hb, hpend, by simp, h.acked, h.next⟩
      intro s' n' he
      cases he
      exact ⟨⟨l, (sub_snoc h.gle h1 o).1, by rw [take_snoc h.gle]; exact h2⟩, by simp⟩

/-- The background thread handles one message. -/
theorem inv_run {d0 : KV V} {evs : List (Ev V)} {d : DB V} {done : List (Op V)} {g : Nat}
    (h : Inv d0 evs d done g) (ok : Bool) :
    ∃ done' g', g ≤ g' ∧ Inv d0 evs (step d (.run ok)) done' g' := by
  obtain ⟨full, mem, disk, queue, txn, failed, retained, pending, acks, nb⟩ := d
  rcases queue with _ | ⟨m, q⟩
  · exact ⟨done, g, Nat.le_refl _, h⟩
  · cases m with
    | op o =>
      obtain ⟨g', h1, h2⟩ := inv_op (d := ⟨full, mem, disk, q, txn, failed, retained, pending, acks,
        nb⟩) h ok
      exact ⟨done ++ [o], g', h1, h2⟩
    | finish =>
      have h' : Inv d0 evs ⟨full, mem, disk, q, txn, failed, retained, pending, acks, nb⟩ done g :=
        ⟨h.split, h.gle, h.diskOk, h.txnOk, h.clean, h.barriers, h.pendingOk, h.pendingTxn,
          h.acked, h.next⟩
      obtain ⟨g', h1, h2⟩ := inv_finish h' ok
      exact ⟨done, g', h1, h2⟩
    | start =>
      refine ⟨done, g, Nat.le_refl _, ?_⟩
      rcases txn with _ | ⟨s, n⟩
      · cases ok with
        | true =>
          simp only [step, handle, if_true]
          refine ⟨h.split, h.gle, h.diskOk, ?_, by simp, h.barriers, h.pendingOk, by simp,
            h.acked, h.next⟩
          intro s' n' he
          cases he
          exact ⟨h.diskOk, fun hf => (h.clean rfl hf).1⟩
        | false =>
          simp only [step, handle, Bool.false_eq_true, if_false]
          exact ⟨h.split, h.gle, h.diskOk, by simp, h.clean, h.barriers, h.pendingOk, h.pendingTxn,
            h.acked, h.next⟩
      · simp only [step, handle]
        refine ⟨h.split, h.gle, h.diskOk, ?_, by simp, h.barriers, h.pendingOk, by simp,
          h.acked, h.next⟩
        intro s' n' he
        cases he
        exact h.txnOk s n rfl
    | barrier b =>
      refine ⟨done, g, Nat.le_refl _, ?_⟩
      have hbar : (∃ p, (marks evs 0)[b]? = some p ∧ p ≤ done.length) ∧
          BarriersOk (marks evs 0) q done.length := h.barriers
      rcases txn with _ | ⟨s, n⟩
      · simp only [step, handle, Option.isSome, Bool.false_eq_true, if_false]
        refine ⟨h.split, h.gle, h.diskOk, by simp, h.clean, hbar.2, h.pendingOk, h.pendingTxn, ?_,
          h.next⟩
        intro x hx
        simp only [List.mem_append, List.mem_singleton, Prod.mk.injEq] at hx
        rcases hx with hx | ⟨rfl, hf⟩
        · exact h.acked x hx
        · obtain ⟨p, h1, h2⟩ := hbar.1
          have hf : failed = false := by simpa using hf.symm
          have := (h.clean rfl hf).2
          exact ⟨p, h1, by omega⟩
      · simp only [step, handle, Option.isSome, if_true]
        refine ⟨h.split, h.gle, h.diskOk, h.txnOk, by simp, hbar.2, ?_, by simp, h.acked, h.next⟩
        intro x hx
        simp only [List.mem_append, List.mem_singleton] at hx
        rcases hx with hx | rfl
        · exact h.pendingOk x hx
        · exact hbar.1

/-- The invariant after one event; certain writes stay certain. -/
theorem inv_step {d0 : KV V} {evs : List (Ev V)} {d : DB V} {done : List (Op V)} {g : Nat}
    (h : Inv d0 evs d done g) (e : Ev V) :
    ∃ done' g', g ≤ g' ∧ Inv d0 (evs ++ [e]) (step d e) done' g' := by
  have hm : ∀ b p : Nat, (marks evs 0)[b]? = some p → (marks (evs ++ [e]) 0)[b]? = some p :=
    fun b p hb => by rw [marks_append]; exact getElem?_append_some hb
  cases e with
  | run ok =>
    obtain ⟨done', g', h1, h2⟩ := inv_run h ok
    have hw : written (evs ++ [.run ok]) = written evs := by simp [written_append, written]
    have hk : marks (evs ++ [.run ok]) 0 = marks evs 0 := by simp [marks_append, marks]
    refine ⟨done', g', h1, ⟨by rw [hw]; exact h2.split, h2.gle, h2.diskOk, h2.txnOk, h2.clean,
      by rw [hk]; exact h2.barriers, by rw [hk]; exact h2.pendingOk, h2.pendingTxn,
      by rw [hk]; exact h2.acked, ?_⟩⟩
    rw [h2.next]; simp [persists_append, persists]
  | write o =>
    refine ⟨done, g, Nat.le_refl _, ⟨?_, h.gle, h.diskOk, h.txnOk, h.clean, ?_, ?_, h.pendingTxn, ?_,
      ?_⟩⟩
    · rw [written_append, h.split]
      simp [step, queuedOps_append, queuedOps, written]
    · exact (h.barriers.mono hm).append trivial
    · exact fun b hb => let ⟨p, h1, h2⟩ := h.pendingOk b hb; ⟨p, hm b p h1, h2⟩
    · exact fun b hb => let ⟨p, h1, h2⟩ := h.acked b hb; ⟨p, hm b p h1, h2⟩
    · have := h.next; simp [step, persists_append, persists, this]
  | start =>
    refine ⟨done, g, Nat.le_refl _, ⟨?_, h.gle, h.diskOk, h.txnOk, h.clean, ?_, ?_, h.pendingTxn, ?_,
      ?_⟩⟩
    · rw [written_append, h.split]
      simp [step, queuedOps_append, queuedOps, written]
    · exact (h.barriers.mono hm).append trivial
    · exact fun b hb => let ⟨p, h1, h2⟩ := h.pendingOk b hb; ⟨p, hm b p h1, h2⟩
    · exact fun b hb => let ⟨p, h1, h2⟩ := h.acked b hb; ⟨p, hm b p h1, h2⟩
    · have := h.next; simp [step, persists_append, persists, this]
  | finish =>
    refine ⟨done, g, Nat.le_refl _, ⟨?_, h.gle, h.diskOk, h.txnOk, h.clean, ?_, ?_, h.pendingTxn, ?_,
      ?_⟩⟩
    · rw [written_append, h.split]
      simp [step, queuedOps_append, queuedOps, written]
    · exact (h.barriers.mono hm).append trivial
    · exact fun b hb => let ⟨p, h1, h2⟩ := h.pendingOk b hb; ⟨p, hm b p h1, h2⟩
    · exact fun b hb => let ⟨p, h1, h2⟩ := h.acked b hb; ⟨p, hm b p h1, h2⟩
    · have := h.next; simp [step, persists_append, persists, this]
  | persist =>
    refine ⟨done, g, Nat.le_refl _, ⟨?_, h.gle, h.diskOk, h.txnOk, h.clean, ?_, ?_, h.pendingTxn, ?_,
      ?_⟩⟩
    · rw [written_append, h.split]
      simp [step, queuedOps_append, queuedOps, written]
    · refine (h.barriers.mono hm).append ⟨⟨(written evs).length, ?_, ?_⟩, trivial⟩
      · rw [marks_append, h.next, ← marks_length evs 0,
          List.getElem?_append_right (Nat.le_refl _)]
        simp [marks]
      · rw [h.split]; simp
    · exact fun b hb => let ⟨p, h1, h2⟩ := h.pendingOk b hb; ⟨p, hm b p h1, h2⟩
    · exact fun b hb => let ⟨p, h1, h2⟩ := h.acked b hb; ⟨p, hm b p h1, h2⟩
    · have := h.next; simp [step, persists_append, persists, this]

theorem inv_exec (full : Bool) (d0 : KV V) (evs : List (Ev V)) :
    ∃ done g, Inv d0 evs (exec (openDb full d0) evs) done g := by
  induction evs using List.reverseRecOn with
  | nil =>
    exact ⟨[], 0, ⟨rfl, Nat.le_refl _, ⟨[], by simp, rfl⟩, (by intro s n h; cases h),
      fun _ _ => ⟨rfl, rfl⟩, trivial, (by intro b hb; cases hb), fun _ => rfl,
      (by intro b hb; cases hb), rfl⟩⟩
  | append_singleton evs e ih =>
    obtain ⟨done, g, h⟩ := ih
    obtain ⟨done', g', _, h2⟩ := inv_step h e
    exact ⟨done', g', by rw [exec_append]; exact h2⟩

/-- **C33, durability.** Take any run of a process on a database that held `d0`: writes,
overlapping transactions, barriers and steps of the background thread (any of whose physical
operations may fail) in any order. If a `persist` call has been answered with success, the
persistent database holds *all* the writes issued before that call — followed by some of the later ones
in their order. So this is also what is there after a crash at any such moment. -/
theorem persist_durable (full : Bool) (d0 : KV V) (pre post : List (Ev V))
    (hack : (persists pre, true) ∈ (exec (openDb full d0) (pre ++ .persist :: post)).acks) :
    ∃ l : List (Op V), l.Sublist (written post) ∧
      (exec (openDb full d0) (pre ++ .persist :: post)).disk = applyOps d0 (written pre ++ l) := by
  obtain ⟨done, g, h⟩ := inv_exec full d0 (pre ++ .persist :: post)
  obtain ⟨p, h1, h2⟩ := h.acked _ hack
  have hp : p = (written pre).length := by
    rw [marks_append, ← marks_length pre 0, List.getElem?_append_right (Nat.le_refl _)] at h1
    simpa [marks] using h1.symm
  obtain ⟨l, h3, h4⟩ := h.diskOk
  have hw : written (pre ++ .persist :: post) = written pre ++ written post := by
    simp [written_append, written]
  have hs := h.split
  rw [hw] at hs
  -- the certain writes are all of `written pre` and a prefix of `written post`
  have hlen : (written pre).length ≤ done.length := by have := h.gle; omega
  have hdone : done.take (written pre).length = written pre := by
    have := congrArg (List.take (written pre).length) hs
    rw [List.take_left, List.take_append_of_le_length hlen] at this
    exact this.symm
  have hdone2 : (done.drop (written pre).length).Sublist (written post) := by
    have := congrArg (List.drop (written pre).length) hs
    rw [List.drop_left, List.drop_append_of_le_length hlen] at this
    rw [this]; exact List.sublist_append_left _ _
  refine ⟨(done.drop (written pre).length).take (g - (written pre).length) ++ l, ?_, ?_⟩
  · refine List.Sublist.trans ?_ hdone2
    conv_rhs => rw [← List.take_append_drop (g - (written pre).length)
      (done.drop (written pre).length)]
    refine List.Sublist.append (List.Sublist.refl _) ?_
    rw [List.drop_drop]
    have : (written pre).length + (g - (written pre).length) = g := by omega
    rw [this]; exact h3
  · rw [h4, ← List.append_assoc]
    congr 1
    congr 1
    conv_lhs => rw [← List.take_append_drop (written pre).length (done.take g)]
    rw [List.take_take, Nat.min_eq_left (by omega), hdone, List.drop_take]

/-- When the thread has caught up (nothing queued, no transaction open) and no physical operation
has failed, the persistent database holds exactly what was written. -/
theorem drained_disk (full : Bool) (d0 : KV V) (evs : List (Ev V))
    (hq : (exec (openDb full d0) evs).queue = []) (ht : (exec (openDb full d0) evs).txn = none)
    (hf : (exec (openDb full d0) evs).failed = false) :
    (exec (openDb full d0) evs).disk = applyOps d0 (written evs) := by
  obtain ⟨done, g, h⟩ := inv_exec full d0 evs
  rw [(h.clean ht hf).1, h.split, hq]; simp [queuedOps]

end Layered
end Verif
