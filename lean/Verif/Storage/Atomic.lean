import Verif.Storage.LayeredReads
/-
All or nothing: what the persistent database of a `LayeredDatabase` (`crates/storage/src/layered_db.rs`, C33) holds
at any moment, with respect to the transactions of the client.
-/
namespace Verif
namespace Layered
variable {V : Type}

/-- Transactions open after one client call. -/
def depthStep : Nat → Ev V → Nat
  | n, .start => n + 1
  | n, .finish => n - 1
  | n, .write _ => n
  | n, .persist => n
  | n, .run _ => n

/-- Transactions begun and not ended after a list of client calls. -/
def depth (evs : List (Ev V)) : Nat := evs.foldl depthStep 0

/-- What the client asked for by a message. -/
def Msg.ev : Msg V → Ev V
  | .start => .start
  | .finish => .finish
  | .op o => .write o
  | .barrier _ => .persist

/-- The events that are client calls. -/
def Ev.client : Ev V → Bool
  | .run _ => false
  | _ => true

/-- The thread met no failure. -/
def NoFailure (evs : List (Ev V)) : Prop := Ev.run false ∉ evs

theorem depth_snoc (evs : List (Ev V)) (e : Ev V) : depth (evs ++ [e]) = depthStep (depth evs) e := by
  unfold depth
  rw [List.foldl_append]
  rfl

theorem depth_client (evs : List (Ev V)) : depth (evs.filter Ev.client) = depth evs := by
  induction evs using List.reverseRecOn with
  | nil => rfl
  | append_singleton evs e ih =>
    rw [List.filter_append, depth_snoc]
    cases e with
    | run ok => rw [show [Ev.run ok].filter (Ev.client (V := V)) = [] from rfl, List.append_nil]; exact ih
    | _ => exact (depth_snoc _ _).trans (congrArg (fun n => depthStep n _) ih)

theorem written_client (evs : List (Ev V)) : written (evs.filter Ev.client) = written evs := by
  induction evs with
  | nil => rfl
  | cons e evs ih =>
    cases e with
    | run ok => exact ih
    | write o => exact congrArg (o :: ·) ih
    | start => exact ih
    | finish => exact ih
    | persist => exact ih

/-- A part of the client calls is the calls of a part of the run. -/
theorem client_prefix : ∀ (evs a b : List (Ev V)), evs.filter Ev.client = a ++ b →
    ∃ l1 l2, evs = l1 ++ l2 ∧ l1.filter Ev.client = a
  | evs, [], _, _ => ⟨[], evs, rfl, rfl⟩
  | [], x :: a, b, h => nomatch h
  | e :: evs, x :: a, b, h => by
    by_cases hc : Ev.client e = true
    · rw [List.filter_cons_of_pos hc] at h
      obtain ⟨h1, h2⟩ := List.cons.inj h
      obtain ⟨l1, l2, h3, h4⟩ := client_prefix evs a b h2
      exact ⟨e :: l1, l2, by rw [h3]; rfl, by rw [List.filter_cons_of_pos hc, h4, h1]⟩
    · rw [List.filter_cons_of_neg hc] at h
      obtain ⟨l1, l2, h3, h4⟩ := client_prefix evs (x :: a) b h
      exact ⟨e :: l1, l2, by rw [h3]; rfl, by rw [List.filter_cons_of_neg hc, h4]⟩

/-- `hist` is what the thread has handled. -/
structure Whole (d0 : KV V) (d : DB V) (hist : List (Ev V)) : Prop where
  closed : d.txn = none → depth hist = 0 ∧ d.disk = applyOps d0 (written hist)
  open_ : ∀ s n, d.txn = some (s, n) → n = depth hist ∧ 1 ≤ n ∧ s = applyOps d0 (written hist) ∧
    ∃ h1 h2, hist = h1 ++ h2 ∧ depth h1 = 0 ∧ d.disk = applyOps d0 (written h1)

theorem written_snoc (l : List (Ev V)) (o : Op V) : written (l ++ [.write o]) = written l ++ [o] := by
  rw [written_append]; rfl

theorem written_snoc_start (l : List (Ev V)) : written (l ++ [.start]) = written l := by
  rw [written_append]; exact List.append_nil _
theorem written_snoc_finish (l : List (Ev V)) : written (l ++ [.finish]) = written l := by
  rw [written_append]; exact List.append_nil _
theorem written_snoc_persist (l : List (Ev V)) : written (l ++ [.persist]) = written l := by
  rw [written_append]; exact List.append_nil _

theorem applyOps_snoc (m : KV V) (l : List (Op V)) (o : Op V) : applyOps m (l ++ [o]) = o.apply (applyOps m l) := by
  rw [applyOps_append]; rfl

theorem whole_handle {d0 : KV V} {d : DB V} {hist : List (Ev V)} (h : Whole d0 d hist) (m : Msg V) :
    Whole d0 (handle d m true) (hist ++ [m.ev]) := by
  obtain ⟨full, mem, disk, queue, txn, failed, retained, pending, acks, nb⟩ := d
  rcases txn with _ | ⟨s, n⟩
  · obtain ⟨hz, hd⟩ := h.closed rfl
    dsimp only at hd
    cases m with
    | start =>
      refine ⟨fun e => (nomatch e), fun s n e => ?_⟩
      cases e
      refine ⟨?_, Nat.le_refl _, ?_, hist, [.start], rfl, hz, hd⟩
      · show 1 = depth (hist ++ [.start]); rw [depth_snoc, hz]; rfl
      · show disk = applyOps d0 (written (hist ++ [.start])); rw [written_snoc_start]; exact hd
    | finish =>
      refine ⟨fun _ => ⟨?_, ?_⟩, fun s n e => (nomatch e)⟩
      · show depth (hist ++ [.finish]) = 0; rw [depth_snoc, hz]; rfl
      · show disk = applyOps d0 (written (hist ++ [.finish])); rw [written_snoc_finish]; exact hd
    | op o =>
      refine ⟨fun _ => ⟨?_, ?_⟩, fun s n e => (nomatch e)⟩
      · show depth (hist ++ [.write o]) = 0; rw [depth_snoc, hz]; rfl
      · show o.apply disk = applyOps d0 (written (hist ++ [.write o])); rw [written_snoc, applyOps_snoc, hd]
    | barrier b =>
      refine ⟨fun _ => ⟨?_, ?_⟩, fun s n e => (nomatch e)⟩
      · show depth (hist ++ [.persist]) = 0; rw [depth_snoc, hz]; rfl
      · show disk = applyOps d0 (written (hist ++ [.persist])); rw [written_snoc_persist]; exact hd
  · obtain ⟨hn, hp, hs, h1, h2, e1, e2, e3⟩ := h.open_ s n rfl
    dsimp only at e3
    cases m with
    | start =>
      refine ⟨fun e => (nomatch e), fun s' n' e => ?_⟩
      cases e
      refine ⟨?_, by omega, ?_, h1, h2 ++ [.start], by rw [e1, List.append_assoc]; rfl, e2, e3⟩
      · show n + 1 = depth (hist ++ [.start]); rw [depth_snoc, ← hn]; rfl
      · show s = applyOps d0 (written (hist ++ [.start])); rw [written_snoc_start]; exact hs
    | finish =>
      by_cases hn1 : n ≤ 1
      · simp only [handle, endTxn, hn1, if_true, ackPending, Option.isNone]
        refine ⟨fun _ => ⟨?_, ?_⟩, fun s n e => (nomatch e)⟩
        · show depth (hist ++ [.finish]) = 0
          rw [depth_snoc, ← hn]
          show n - 1 = 0
          omega
        · show s = applyOps d0 (written (hist ++ [.finish])); rw [written_snoc_finish]; exact hs
      · simp only [handle, endTxn, hn1, if_false, Option.isNone]
        refine ⟨fun e => (nomatch e), fun s' n' e => ?_⟩
        cases e
        refine ⟨?_, by omega, ?_, h1, h2 ++ [.finish], by rw [e1, List.append_assoc]; rfl, e2, e3⟩
        · show n - 1 = depth (hist ++ [.finish]); rw [depth_snoc, ← hn]; rfl
        · show s = applyOps d0 (written (hist ++ [.finish])); rw [written_snoc_finish]; exact hs
    | op o =>
      refine ⟨fun e => (nomatch e), fun s' n' e => ?_⟩
      cases e
      refine ⟨?_, hp, ?_, h1, h2 ++ [.write o], by rw [e1, List.append_assoc]; rfl, e2, e3⟩
      · show n = depth (hist ++ [.write o]); rw [depth_snoc, ← hn]; rfl
      · show o.apply s = applyOps d0 (written (hist ++ [.write o])); rw [written_snoc, applyOps_snoc, hs]
    | barrier b =>
      refine ⟨fun e => (nomatch e), fun s' n' e => ?_⟩
      cases e
      refine ⟨?_, hp, ?_, h1, h2 ++ [.persist], by rw [e1, List.append_assoc]; rfl, e2, e3⟩
      · show n = depth (hist ++ [.persist]); rw [depth_snoc, ← hn]; rfl
      · show s = applyOps d0 (written (hist ++ [.persist])); rw [written_snoc_persist]; exact hs

theorem whole_exec (full : Bool) (d0 : KV V) (evs : List (Ev V)) (hf : NoFailure evs) :
    ∃ hist, evs.filter Ev.client = hist ++ (exec (openDb full d0) evs).queue.map Msg.ev ∧
      Whole d0 (exec (openDb full d0) evs) hist := by
  induction evs using List.reverseRecOn with
  | nil => exact ⟨[], rfl, fun _ => ⟨rfl, rfl⟩, fun _ _ h => (nomatch h)⟩
  | append_singleton evs e ih =>
    obtain ⟨hist, h1, h2⟩ := ih (fun h => hf (List.mem_append_left _ h))
    have hok : e ≠ .run false := fun h => hf (List.mem_append_right _ (h ▸ List.mem_singleton.mpr rfl))
    rw [exec_append, List.filter_append]
    show ∃ hist, _ = hist ++ (step (exec (openDb full d0) evs) e).queue.map Msg.ev ∧ Whole d0 (step _ e) hist
    generalize exec (openDb full d0) evs = d at h1 h2
    cases e with
    | run ok =>
      cases ok with
      | false => exact absurd rfl hok
      | true =>
        rw [show [Ev.run true].filter (Ev.client (V := V)) = [] from rfl, List.append_nil, h1]
        cases hq : d.queue with
        | nil =>
          have : step d (.run true) = d := by simp [step, hq]
          rw [this, hq]
          exact ⟨hist, rfl, h2⟩
        | cons m q =>
          have : step d (.run true) = handle { d with queue := q } m true := by simp [step, hq]
          rw [this]
          have hq' : (handle { d with queue := q } m true).queue = q := by
            obtain ⟨full, mem, disk, queue, txn, failed, retained, pending, acks, nb⟩ := d
            rcases txn with _ | ⟨s, n⟩
            · cases m <;> rfl
            · by_cases hn : n ≤ 1 <;> cases m <;> simp [handle, endTxn, ackPending, runOp, hn]
          rw [hq']
          refine ⟨hist ++ [m.ev], by rw [List.append_assoc]; rfl, whole_handle ?_ m⟩
          exact ⟨h2.closed, h2.open_⟩
    | write o =>
      refine ⟨hist, ?_, h2.closed, h2.open_⟩
      show _ = hist ++ (d.queue ++ [Msg.op o]).map Msg.ev
      rw [List.map_append, ← List.append_assoc, h1]; rfl
    | start =>
      refine ⟨hist, ?_, h2.closed, h2.open_⟩
      show _ = hist ++ (d.queue ++ [Msg.start]).map Msg.ev
      rw [List.map_append, ← List.append_assoc, h1]; rfl
    | finish =>
      refine ⟨hist, ?_, h2.closed, h2.open_⟩
      show _ = hist ++ (d.queue ++ [Msg.finish]).map Msg.ev
      rw [List.map_append, ← List.append_assoc, h1]; rfl
    | persist =>
      refine ⟨hist, ?_, h2.closed, h2.open_⟩
      show _ = hist ++ (d.queue ++ [Msg.barrier d.nextBarrier]).map Msg.ev
      rw [List.map_append, ← List.append_assoc, h1]; rfl

/-- At every moment of a run without failures the persistent database is the result of all the writes of a first
part of the run that ends with no transaction open. -/
theorem disk_whole (full : Bool) (d0 : KV V) (evs : List (Ev V)) (hf : NoFailure evs) :
    ∃ pre post, evs = pre ++ post ∧ depth pre = 0 ∧
      (exec (openDb full d0) evs).disk = applyOps d0 (written pre) := by
  obtain ⟨hist, h1, h2⟩ := whole_exec full d0 evs hf
  have key : ∃ a b, evs.filter Ev.client = a ++ b ∧ depth a = 0 ∧
      (exec (openDb full d0) evs).disk = applyOps d0 (written a) := by
    cases ht : (exec (openDb full d0) evs).txn with
    | none => exact ⟨hist, _, h1, (h2.closed ht).1, (h2.closed ht).2⟩
    | some x =>
      obtain ⟨s, n⟩ := x
      obtain ⟨_, _, _, a, b, e1, e2, e3⟩ := h2.open_ s n ht
      exact ⟨a, b ++ _, by rw [h1, e1, List.append_assoc], e2, e3⟩
  obtain ⟨a, b, e1, e2, e3⟩ := key
  obtain ⟨l1, l2, e4, e5⟩ := client_prefix evs a b e1
  exact ⟨l1, l2, e4, by rw [← depth_client, e5, e2], by rw [e3, ← e5, written_client]⟩

end Layered
end Verif
