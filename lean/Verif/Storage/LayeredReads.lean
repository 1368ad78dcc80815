import Verif.Storage.LayeredProps
/-
Reads of the layered database, answers to barriers, retained inserts.
-/
namespace Verif
namespace Layered

variable {V : Type}

theorem endTxn_mem (d : DB V) (ok : Bool) : (endTxn d ok).full = d.full ∧
    ((endTxn d ok).mem = d.mem ∨ (d.full = false ∧ ∃ ks, (endTxn d ok).mem = dropMem d.mem ks)) := by
  unfold endTxn
  rcases d.txn with _ | ⟨s, n⟩
  · exact ⟨rfl, .inl rfl⟩
  · dsimp only
    split
    · split
      · cases hf : d.full
        · exact ⟨hf.symm ▸ rfl, .inr ⟨rfl, d.retained, by simp⟩⟩
        · exact ⟨hf.symm ▸ rfl, .inl (by simp)⟩
      · exact ⟨rfl, .inl rfl⟩
    · exact ⟨rfl, .inl rfl⟩

theorem runOp_mem (d : DB V) (o : Op V) (ok : Bool) : (runOp d o ok).full = d.full ∧
    ((runOp d o ok).mem = d.mem ∨ (d.full = false ∧ ∃ ks, (runOp d o ok).mem = dropMem d.mem ks)) := by
  unfold runOp
  rcases d.txn with _ | ⟨s, n⟩
  · dsimp only
    split
    · cases hf : d.full
      · exact ⟨hf.symm ▸ rfl, .inr ⟨rfl, o.insKey, by simp⟩⟩
      · exact ⟨hf.symm ▸ rfl, .inl (by simp)⟩
    · exact ⟨rfl, .inl rfl⟩
  · dsimp only
    split
    · exact ⟨rfl, .inl rfl⟩
    · exact ⟨rfl, .inl rfl⟩

/-- The background thread only ever drops keys from the memory layer, and only in cache mode. -/
theorem handle_mem (d : DB V) (m : Msg V) (ok : Bool) : (handle d m ok).full = d.full ∧
    ((handle d m ok).mem = d.mem ∨ (d.full = false ∧ ∃ ks, (handle d m ok).mem = dropMem d.mem ks)) := by
  cases m with
  | start =>
    unfold handle
    rcases d.txn with _ | ⟨s, n⟩
    · dsimp only; split <;> exact ⟨rfl, .inl rfl⟩
    · exact ⟨rfl, .inl rfl⟩
  | finish =>
    have := endTxn_mem d ok
    simp only [handle]
    split
    · exact this
    · exact this
  | op o => exact runOp_mem d o ok
  | barrier b =>
    simp only [handle]
    split <;> exact ⟨rfl, .inl rfl⟩

theorem step_run_mem (d : DB V) (ok : Bool) : (step d (.run ok)).full = d.full ∧
    ((step d (.run ok)).mem = d.mem ∨
      (d.full = false ∧ ∃ ks, (step d (.run ok)).mem = dropMem d.mem ks)) := by
  simp only [step]
  cases hq : d.queue with
  | nil => exact ⟨rfl, .inl rfl⟩
  | cons m q => exact handle_mem { d with queue := q } m ok

theorem exec_full (full : Bool) (d0 : KV V) (evs : List (Ev V)) :
    (exec (openDb full d0) evs).full = full := by
  induction evs using List.reverseRecOn with
  | nil => rfl
  | append_singleton evs e ih =>
    rw [exec_append]
    show (step _ e).full = full
    cases e with
    | run ok => rw [(step_run_mem _ ok).1, ih]
    | _ => exact ih

/-- The memory layer of a full-memory database is always exactly what the client wrote, in any run. -/
theorem mem_full (d0 : KV V) (evs : List (Ev V)) :
    (exec (openDb true d0) evs).mem = applyOps d0 (written evs) := by
  induction evs using List.reverseRecOn with
  | nil => rfl
  | append_singleton evs e ih =>
    rw [exec_append, written_append]
    show (step _ e).mem = _
    cases e with
    | run ok =>
      rcases (step_run_mem (exec (openDb true d0) evs) ok).2 with h | ⟨h, _⟩
      · rw [h, ih]; simp [written]
      · rw [exec_full] at h; cases h
    | write o => simp only [step, ih, written, applyOps_append]; rfl
    | start => simpa [step, written] using ih
    | finish => simpa [step, written] using ih
    | persist => simpa [step, written] using ih

theorem Op.apply_congr {m m' : KV V} {t k : Nat} (h : m t k = m' t k) (o : Op V) :
    o.apply m t k = o.apply m' t k := by
  cases o <;> simp only [Op.apply] <;> split <;> first | rfl | exact h

/-- What the memory layer of a cache-mode database answers is the last value written. -/
theorem mem_cache (full : Bool) (d0 : KV V) (evs : List (Ev V)) (t k : Nat) (v : V)
    (h : (exec (openDb full d0) evs).mem t k = some v) :
    applyOps d0 (written evs) t k = some v := by
  induction evs using List.reverseRecOn generalizing v with
  | nil =>
    cases full with
    | true => exact h
    | false => cases h
  | append_singleton evs e ih =>
    rw [exec_append] at h
    rw [written_append]
    change (step _ e).mem t k = _ at h
    cases e with
    | run ok =>
      have : (exec (openDb full d0) evs).mem t k = some v := by
        rcases (step_run_mem (exec (openDb full d0) evs) ok).2 with hm | ⟨_, ks, hm⟩
        · rw [hm] at h; exact h
        · rw [hm] at h
          simp only [dropMem] at h
          split at h
          · cases h
          · exact h
      simpa [written] using ih v this
    | write o =>
      simp only [written, applyOps_append]
      show Op.apply (applyOps d0 (written evs)) o t k = some v
      have h : o.apply (exec (openDb full d0) evs).mem t k = some v := h
      revert h
      cases o <;> simp only [Op.apply] <;> split <;> intro h <;> first | exact h | exact ih v h
    | start => simpa [written] using ih v h
    | finish => simpa [written] using ih v h
    | persist => simpa [written] using ih v h

/-- **C34, reads.** In a full-memory database (`Epoch` and `Kad` tables) a key that was last written
with `v` reads as `v`, whatever the background thread has done so far; in particular a read never
misses an earlier write of this process, also when the disk fails. -/
theorem get_full_written (d0 : KV V) (evs : List (Ev V)) (t k : Nat) (v : V)
    (h : applyOps d0 (written evs) t k = some v) :
    (exec (openDb true d0) evs).get t k = some v ∧
    (exec (openDb true d0) evs).containsKey t k = true := by
  have hm := mem_full d0 evs
  constructor
  · simp [DB.get, hm, h]
  · simp [DB.containsKey, exec_full, hm, h]

/-- A key last removed (or never written) is absent for `contains_key`; `get` answers whatever the
persistent layer still has. -/
theorem get_full_removed (d0 : KV V) (evs : List (Ev V)) (t k : Nat)
    (h : applyOps d0 (written evs) t k = none) :
    (exec (openDb true d0) evs).containsKey t k = false ∧
    (exec (openDb true d0) evs).get t k = (exec (openDb true d0) evs).disk t k := by
  have hm := mem_full d0 evs
  constructor
  · simp [DB.containsKey, exec_full, hm, h]
  · simp [DB.get, hm, h]

/-- **C34, reads after the thread caught up**, in both modes: exactly what was written. -/
theorem get_drained (full : Bool) (d0 : KV V) (evs : List (Ev V)) (t k : Nat)
    (hq : (exec (openDb full d0) evs).queue = []) (ht : (exec (openDb full d0) evs).txn = none)
    (hf : (exec (openDb full d0) evs).failed = false) :
    (exec (openDb full d0) evs).get t k = applyOps d0 (written evs) t k := by
  have hd := drained_disk full d0 evs hq ht hf
  unfold DB.get
  cases hm : (exec (openDb full d0) evs).mem t k with
  | some v => exact (mem_cache full d0 evs t k v hm).symm
  | none => simp only [hd]

/-- Reopening a database after a crash: reads are what had reached the disk. -/
theorem get_crash (d : DB V) (t k : Nat) : d.crash.get t k = d.disk t k := by
  unfold DB.crash openDb DB.get
  cases d.full <;> simp
  cases d.disk t k <;> rfl

/-! ### Barriers are answered -/

/-- Transactions begun and ended in a run. -/
def starts : List (Ev V) → Nat
  | [] => 0
  | .start :: es => starts es + 1
  | _ :: es => starts es

/-- See `starts`. -/
def finishes : List (Ev V) → Nat
  | [] => 0
  | .finish :: es => finishes es + 1
  | _ :: es => finishes es

/-- At every moment of the run no more transactions were ended than begun — what `TxnGuard`
(layered_db.rs:42-70) ensures: one end per begun transaction. -/
def Balanced (evs : List (Ev V)) : Prop :=
  ∀ pre post, evs = pre ++ post → finishes pre ≤ starts pre

theorem starts_append (a b : List (Ev V)) : starts (a ++ b) = starts a + starts b := by
  induction a with
  | nil => simp [starts]
  | cons m a ih => cases m <;> simp [starts, ih]; omega

theorem finishes_append (a b : List (Ev V)) : finishes (a ++ b) = finishes a + finishes b := by
  induction a with
  | nil => simp [finishes]
  | cons m a ih => cases m <;> simp [finishes, ih]; omega

/-- Starts and ends still queued: after each prefix of the queue, the overlap count cannot go below
what is open. `c` bounds the count of the open transaction. -/
def QBal : List (Msg V) → Nat → Prop
  | [], _ => True
  | .start :: q, c => QBal q (c + 1)
  | .finish :: q, c => 1 ≤ c ∧ QBal q (c - 1)
  | .op _ :: q, c => QBal q c
  | .barrier _ :: q, c => QBal q c

/-- Count after the queue is drained. -/
def qEnd : List (Msg V) → Nat → Nat
  | [], c => c
  | .start :: q, c => qEnd q (c + 1)
  | .finish :: q, c => qEnd q (c - 1)
  | .op _ :: q, c => qEnd q c
  | .barrier _ :: q, c => qEnd q c

theorem QBal.append {q r : List (Msg V)} {c : Nat} (h : QBal q c) (h2 : QBal r (qEnd q c)) :
    QBal (q ++ r) c := by
  induction q generalizing c with
  | nil => exact h2
  | cons m q ih =>
    cases m with
    | finish => exact ⟨h.1, ih h.2 h2⟩
    | _ => exact ih h h2

theorem qEnd_append (q r : List (Msg V)) (c : Nat) : qEnd (q ++ r) c = qEnd r (qEnd q c) := by
  induction q generalizing c with
  | nil => rfl
  | cons m q ih => cases m <;> exact ih _

/-- The overlap count of the open transaction (0 if none). -/
def openCount (d : DB V) : Nat :=
  match d.txn with
  | none => 0
  | some (_, n) => n

theorem handle_openCount_le (d : DB V) (m : Msg V) (ok : Bool) (c : Nat) (h : openCount d ≤ c) :
    openCount (handle d m ok) ≤ (match m with | .start => c + 1 | .finish => c - 1 | _ => c) := by
  obtain ⟨full, mem, disk, queue, txn, failed, retained, pending, acks, nb⟩ := d
  rcases txn with _ | ⟨s, n⟩
  · cases m with
    | start => cases ok <;> simp [handle, openCount]
    | finish => simp [handle, endTxn, ackPending, openCount]
    | op o => cases ok <;> simp [handle, runOp, openCount]
    | barrier b => simp [handle, openCount]
  · have h : n ≤ c := h
    cases m with
    | start => simp only [handle, openCount]; omega
    | finish =>
      by_cases hn : n ≤ 1
      · cases ok <;> simp [handle, endTxn, hn, ackPending, openCount]
      · simp [handle, endTxn, hn, openCount]; omega
    | op o => cases ok <;> simpa [handle, runOp, openCount] using h
    | barrier b => simpa [handle, openCount] using h

/-- Every barrier issued is queued, waiting or answered, and the count is bounded. -/
structure Inv2 (evs : List (Ev V)) (d : DB V) (c : Nat) : Prop where
  where_ : ∀ b < d.nextBarrier, (∃ r, (b, r) ∈ d.acks) ∨ b ∈ d.pending ∨ .barrier b ∈ d.queue
  waits : d.txn = none → d.pending = []
  cnt : openCount d ≤ c
  pos : ∀ s n, d.txn = some (s, n) → 1 ≤ n
  tot : qEnd d.queue c + finishes evs = starts evs
  bal : QBal d.queue c

theorem handle_where (d : DB V) (m : Msg V) (ok : Bool) (b : Nat)
    (h : (∃ r, (b, r) ∈ d.acks) ∨ b ∈ d.pending ∨ b ∈ (match m with | .barrier x => [x] | _ => [])) :
    (∃ r, (b, r) ∈ (handle d m ok).acks) ∨ b ∈ (handle d m ok).pending := by
  obtain ⟨full, mem, disk, queue, txn, failed, retained, pending, acks, nb⟩ := d
  rcases txn with _ | ⟨s, n⟩
  · cases m with
    | start => cases ok <;> simpa [handle] using h
    | finish =>
      simp only [handle, endTxn, ackPending, Option.isNone, if_true]
      rcases h with ⟨r, h⟩ | h | h
      · exact .inl ⟨r, by simp [h]⟩
      · exact .inl ⟨!failed, by simp; exact .inr h⟩
      · cases h
    | op o => cases ok <;> simpa [handle, runOp] using h
    | barrier x =>
      simp only [handle, Option.isSome, Bool.false_eq_true, if_false]
      rcases h with ⟨r, h⟩ | h | h
      · exact .inl ⟨r, by simp [h]⟩
      · exact .inr h
      · simp at h; subst h; exact .inl ⟨!failed, by simp⟩
  · cases m with
    | start => simpa [handle] using h
    | finish =>
      by_cases hn : n ≤ 1
      · cases ok <;> simp only [handle, endTxn, hn, if_true, ackPending, Option.isNone,
          Bool.false_eq_true, if_false] <;>
        · rcases h with ⟨r, h⟩ | h | h
          · exact .inl ⟨r, by simp [h]⟩
          · exact .inl ⟨_, List.mem_append_right _ (List.mem_map.mpr ⟨b, h, rfl⟩)⟩
          · cases h
      · simp only [handle, endTxn, hn, if_false, Option.isNone, Bool.false_eq_true]
        rcases h with h | h | h
        · exact .inl h
        · exact .inr h
        · cases h
    | op o => cases ok <;> simpa [handle, runOp] using h
    | barrier x =>
      simp only [handle, Option.isSome, if_true]
      rcases h with h | h | h
      · exact .inl h
      · exact .inr (by simp [h])
      · simp at h; subst h; exact .inr (by simp)

theorem handle_waits (d : DB V) (m : Msg V) (ok : Bool) (h : d.txn = none → d.pending = [])
    (ht : (handle d m ok).txn = none) : (handle d m ok).pending = [] := by
  obtain ⟨full, mem, disk, queue, txn, failed, retained, pending, acks, nb⟩ := d
  rcases txn with _ | ⟨s, n⟩
  · have hp : pending = [] := h rfl
    subst hp
    cases m <;> cases ok <;> simp_all [handle, runOp, endTxn, ackPending]
  · cases m with
    | start => simp [handle] at ht
    | finish =>
      by_cases hn : n ≤ 1
      · cases ok <;> simp [handle, endTxn, hn, ackPending]
      · simp [handle, endTxn, hn] at ht
    | op o => cases ok <;> simp [handle, runOp] at ht
    | barrier b => simp [handle] at ht

theorem handle_pos (d : DB V) (m : Msg V) (ok : Bool) (h : ∀ s n, d.txn = some (s, n) → 1 ≤ n)
    (s : KV V) (n : Nat) (ht : (handle d m ok).txn = some (s, n)) : 1 ≤ n := by
  obtain ⟨full, mem, disk, queue, txn, failed, retained, pending, acks, nb⟩ := d
  rcases txn with _ | ⟨s', n'⟩
  · cases m <;> cases ok <;> simp_all [handle, runOp, endTxn, ackPending]
  · have h1 : 1 ≤ n' := h s' n' rfl
    by_cases hn : n' ≤ 1 <;> cases m <;> cases ok <;>
      simp [handle, runOp, endTxn, ackPending, hn] at ht <;> omega

theorem handle_next (d : DB V) (m : Msg V) (ok : Bool) :
    (handle d m ok).nextBarrier = d.nextBarrier ∧ (handle d m ok).queue = d.queue := by
  obtain ⟨full, mem, disk, queue, txn, failed, retained, pending, acks, nb⟩ := d
  rcases txn with _ | ⟨s, n⟩
  · cases m <;> cases ok <;> simp [handle, runOp, endTxn, ackPending]
  · by_cases hn : n ≤ 1 <;> cases m <;> cases ok <;> simp [handle, runOp, endTxn, ackPending, hn]

theorem inv2_exec (full : Bool) (d0 : KV V) (evs : List (Ev V)) (hb : Balanced evs) :
    ∃ c, Inv2 evs (exec (openDb full d0) evs) c := by
  induction evs using List.reverseRecOn with
  | nil =>
    refine ⟨0, ⟨?_, fun _ => rfl, Nat.le_refl _, (by intro s n h; cases h), rfl, trivial⟩⟩
    intro b hb; exact absurd hb (Nat.not_lt_zero _)
  | append_singleton evs e ih =>
    obtain ⟨c, h⟩ := ih (fun pre post he => hb pre (post ++ [e]) (by rw [he, List.append_assoc]))
    rw [exec_append]
    show ∃ c, Inv2 _ (step _ e) c
    generalize exec (openDb full d0) evs = d at h
    have ef := hb (evs ++ [e]) [] (by simp)
    rw [finishes_append, starts_append] at ef
    cases e with
    | write o =>
      refine ⟨c, ⟨?_, h.waits, h.cnt, h.pos, ?_, h.bal.append trivial⟩⟩
      · intro b hlt
        rcases h.where_ b hlt with h1 | h1 | h1
        · exact .inl h1
        · exact .inr (.inl h1)
        · exact .inr (.inr (List.mem_append_left _ h1))
      · have := h.tot; simpa [step, qEnd_append, qEnd, starts_append, finishes_append, starts,
          finishes] using this
    | start =>
      refine ⟨c, ⟨?_, h.waits, h.cnt, h.pos, ?_, h.bal.append trivial⟩⟩
      · intro b hlt
        rcases h.where_ b hlt with h1 | h1 | h1
        · exact .inl h1
        · exact .inr (.inl h1)
        · exact .inr (.inr (List.mem_append_left _ h1))
      · have := h.tot
        simp only [step, qEnd_append, qEnd, starts_append, finishes_append, starts, finishes]
        omega
    | finish =>
      have h0 := h.tot
      simp only [starts, finishes] at ef
      refine ⟨c, ⟨?_, h.waits, h.cnt, h.pos, ?_, h.bal.append ⟨by omega, trivial⟩⟩⟩
      · intro b hlt
        rcases h.where_ b hlt with h1 | h1 | h1
        · exact .inl h1
        · exact .inr (.inl h1)
        · exact .inr (.inr (List.mem_append_left _ h1))
      · simp only [step, qEnd_append, qEnd, starts_append, finishes_append, starts, finishes]
        omega
    | persist =>
      refine ⟨c, ⟨?_, h.waits, h.cnt, h.pos, ?_, h.bal.append trivial⟩⟩
      · intro b hlt
        have hlt : b < d.nextBarrier + 1 := hlt
        by_cases hbn : b = d.nextBarrier
        · subst hbn; exact .inr (.inr (by simp [step]))
        · rcases h.where_ b (by omega) with h1 | h1 | h1
          · exact .inl h1
          · exact .inr (.inl h1)
          · exact .inr (.inr (List.mem_append_left _ h1))
      · have := h.tot; simpa [step, qEnd_append, qEnd, starts_append, finishes_append, starts,
          finishes] using this
    | run ok =>
      have hst : starts (evs ++ [.run ok]) = starts evs := by simp [starts_append, starts]
      have hfi : finishes (evs ++ [.run ok]) = finishes evs := by simp [finishes_append, finishes]
      cases hq : d.queue with
      | nil =>
        have : step d (.run ok) = d := by simp [step, hq]
        rw [this]
        exact ⟨c, ⟨h.where_, h.waits, h.cnt, h.pos, by rw [hst, hfi]; exact h.tot, h.bal⟩⟩
      | cons m q =>
        have hs : step d (.run ok) = handle { d with queue := q } m ok := by simp [step, hq]
        have hcnt := handle_openCount_le { d with queue := q } m ok c h.cnt
        have hbal := h.bal
        have htot := h.tot
        rw [hq] at hbal htot
        rw [hs]
        have hn := handle_next { d with queue := q } m ok
        refine ⟨match (motive := Msg V → Nat) m with | .start => c + 1 | .finish => c - 1 | _ => c,
          ⟨?_, handle_waits _ m ok h.waits, ?_, handle_pos _ m ok h.pos, ?_, ?_⟩⟩
        · intro b hlt
          rw [hn.1] at hlt
          have hh := h.where_ b hlt
          rw [hq] at hh
          have : (.barrier b ∈ q) ∨ ((∃ r, (b, r) ∈ d.acks) ∨ b ∈ d.pending ∨
              b ∈ (match m with | .barrier x => [x] | _ => [])) := by
            rcases hh with hh | hh | hh
            · exact .inr (.inl hh)
            · exact .inr (.inr (.inl hh))
            · rcases List.mem_cons.mp hh with hh | hh
              · subst hh; exact .inr (.inr (.inr (by simp)))
              · exact .inl hh
          rcases this with hh | hh
          · exact .inr (.inr (by rw [hn.2]; exact hh))
          · rcases handle_where { d with queue := q } m ok b hh with h1 | h1
            · exact .inl h1
            · exact .inr (.inl h1)
        · cases m <;> exact hcnt
        · rw [hn.2, hst, hfi]; cases m <;> exact htot
        · rw [hn.2]; cases m <;> first | exact hbal | exact hbal.2

/-- **C33, barriers are answered.** If every transaction begun has been ended and the thread has
handled everything queued, every `persist` call made so far has its answer: durability requests
cannot hang behind an abandoned or failed transaction. -/
theorem persist_answered (full : Bool) (d0 : KV V) (evs : List (Ev V)) (hb : Balanced evs)
    (hended : finishes evs = starts evs) (hq : (exec (openDb full d0) evs).queue = []) :
    ∀ b < persists evs, ∃ r, (b, r) ∈ (exec (openDb full d0) evs).acks := by
  obtain ⟨c, h⟩ := inv2_exec full d0 evs hb
  obtain ⟨done, g, h'⟩ := inv_exec full d0 evs
  intro b hlt
  have htot := h.tot
  rw [hq] at htot
  have hc : c = 0 := by simp only [qEnd] at htot; omega
  rw [← h'.next] at hlt
  rcases h.where_ b hlt with h1 | h1 | h1
  · exact h1
  · exfalso
    have hcnt := h.cnt
    cases hn : (exec (openDb full d0) evs).txn with
    | none => rw [h.waits hn] at h1; cases h1
    | some x =>
      have := h.pos x.1 x.2 hn
      simp only [openCount, hn] at hcnt
      omega
  · rw [hq] at h1; cases h1

/-! ### Memory kept by the thread -/

/-- A full-memory database retains no inserts; a cache-mode database retains none once no transaction is
open, unless a physical operation failed. -/
theorem retained_released (full : Bool) (d0 : KV V) (evs : List (Ev V)) :
    let d := exec (openDb full d0) evs
    (full = true → d.retained = []) ∧ (d.txn = none → d.failed = false → d.retained = []) := by
  dsimp only
  induction evs using List.reverseRecOn with
  | nil => exact ⟨fun _ => rfl, fun _ _ => rfl⟩
  | append_singleton evs e ih =>
    have hfull := exec_full full d0 evs
    rw [exec_append]
    show (full = true → (step _ e).retained = []) ∧ ((step _ e).txn = none → (step _ e).failed = false →
      (step _ e).retained = [])
    generalize exec (openDb full d0) evs = d at ih hfull
    subst hfull
    cases e with
    | run ok =>
      cases hq : d.queue with
      | nil =>
        have : step d (.run ok) = d := by simp [step, hq]
        rw [this]; exact ih
      | cons m q =>
        have hs : step d (.run ok) = handle { d with queue := q } m ok := by simp [step, hq]
        rw [hs]
        obtain ⟨full, mem, disk, queue, txn, failed, retained, pending, acks, nb⟩ := d
        obtain ⟨i1, i2⟩ := ih
        dsimp only at i1 i2
        rcases txn with _ | ⟨s', n'⟩
        · cases m <;> cases ok <;> cases failed <;> cases full <;>
            simp_all [handle, runOp, endTxn, ackPending]
        · by_cases hn : n' ≤ 1 <;> cases m <;> cases ok <;> cases failed <;> cases full <;>
            simp [handle, runOp, endTxn, ackPending, hn] at i1 ⊢ <;> exact i1
    | _ => exact ih

/-! ### What does not hold (cache mode), and examples -/

/-- Cache mode, no failure: after two writes to one key, with the first one persisted and the second one
still queued, `get` answers the *first* value: persisting an insert clears the key from the
memory layer even when the memory layer already holds a newer value (layered_db.rs:639-642). -/
theorem cache_stale_read :
    (exec (openDb false (fun _ _ => none)) [.write (.ins 0 0 1), .write (.ins 0 0 2), .run true]).get 0 0
      = some 1 ∧
    applyOps (fun _ _ => none) (written [.write (.ins 0 0 1), .write (.ins 0 0 2), .run true]) 0 0
      = some 2 := by
  constructor <;> rfl

/-- Cache mode: an insert whose staging fails inside a transaction is cleared from the memory layer
by the commit all the same, so the value is lost to readers although the failure is only supposed to
be a durability gap (comment at layered_db.rs:259-260). -/
theorem cache_failed_insert_lost :
    (exec (openDb false (fun _ _ => none))
      [.start, .write (.ins 0 0 7), .finish, .run true, .run false, .run true]).get 0 0 = none := by
  rfl

/-- Full memory: a removed key still reads as present through `get`, until the thread handles the
removal (documented at layered_db.rs:484-491); `contains_key` says absent. -/
theorem full_removed_still_read :
    (exec (openDb true (fun _ _ => some 5)) [.write (.rm 0 0)]).get 0 0 = some 5 ∧
    (exec (openDb true (fun _ _ => some 5)) [.write (.rm 0 0)]).containsKey 0 0 = false := by
  constructor <;> rfl

/-- Non-vacuity of `persist_durable`: a bare insert absorbed by an open transaction; the barrier is
answered only when the transaction commits. -/
example :
    let pre : List (Ev Nat) := [.start, .write (.ins 3 1 9)]
    let post : List (Ev Nat) := [.run true, .run true, .run true, .finish, .run true]
    (persists pre, true) ∈ (exec (openDb true (fun _ _ => none)) (pre ++ .persist :: post)).acks ∧
    (exec (openDb true (fun _ _ => none)) (pre ++ .persist :: post)).disk 3 1 = some 9 := by
  decide

/-- …and before the commit there is no answer. -/
example :
    (exec (openDb true (fun _ _ => none))
      ([.start, .write (.ins 3 1 9), .persist, .run true, .run true, .run true] : List (Ev Nat))).acks
      = [] := by
  decide

/-- A failed write is never followed by a successful barrier. -/
example :
    (exec (openDb true (fun _ _ => none))
      ([.write (.ins 3 1 9), .persist, .run false, .run true] : List (Ev Nat))).acks = [(0, false)] := by
  decide

/-- Non-vacuity of `persist_answered`: overlapping transactions, one of them failing to begin. -/
example :
    let evs : List (Ev Nat) := [.start, .start, .write (.ins 0 0 1), .persist, .finish, .finish,
      .run false, .run true, .run true, .run true, .run true, .run true]
    finishes evs = starts evs ∧ (exec (openDb true (fun _ _ => none)) evs).queue.length = 0 ∧
    (exec (openDb true (fun _ _ => none)) evs).acks = [(0, true)] := by
  decide

end Layered
end Verif
