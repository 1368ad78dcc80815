import Verif.Tx.LifeMain

/-!
# C64: no transaction is invented, and the windows in which one is lost
-/

namespace Verif
namespace Tx
namespace Life

variable {content : Nat → List Nat}

/-- Every transaction the node holds is in `A`. -/
structure From (content : Nat → List Nat) (A : List Nat) (s : Node) : Prop where
  pool : ∀ t ∈ s.pool, t ∈ A
  own : ∀ d ∈ s.own, ∀ t ∈ content d, t ∈ A
  job : ∀ j, s.job = some j → ∀ t ∈ content j.dig, t ∈ A
  fwd : ∀ f ∈ s.fwd, ∀ t ∈ f.todo, t ∈ A
  orphan : ∀ d ∈ s.orphan, ∀ t ∈ content d, t ∈ A
  delivered : ∀ t ∈ s.delivered, t ∈ A
  rejected : ∀ t ∈ s.rejected, t ∈ A
  dropped : ∀ t ∈ s.dropped, t ∈ A

theorem from_mono {A B : List Nat} {s : Node} (h : From content A s) (hab : ∀ t ∈ A, t ∈ B) : From content B s :=
  ⟨fun t ht => hab t (h.pool t ht), fun d hd t ht => hab t (h.own d hd t ht), fun j hj t ht => hab t (h.job j hj t ht),
    fun f hf t ht => hab t (h.fwd f hf t ht), fun d hd t ht => hab t (h.orphan d hd t ht),
    fun t ht => hab t (h.delivered t ht), fun t ht => hab t (h.rejected t ht), fun t ht => hab t (h.dropped t ht)⟩

theorem from_stage {A : List Nat} {s : Node} (h : From content A s) {d : Nat} {a b : Stage}
    (hj : s.job = some ⟨d, a⟩) : From content A { s with job := some ⟨d, b⟩ } := by
  refine ⟨h.pool, h.own, fun j hj' t ht => ?_, h.fwd, h.orphan, h.delivered, h.rejected, h.dropped⟩
  dsimp only at hj'
  injection hj' with hj'
  subst hj'
  exact h.job _ hj t ht

theorem step_from {A : List Nat} {s s' : Node} (h : From content A s) {e : Ev}
    (ha : ∀ t, e = .accept t → t ∈ A) (hs : e.run content s = some s') : From content A s' := by
  have moved : ∀ {a b : Stage}, s.move a b (fun _ s => s) = some s' → From content A s' := by
    intro a b hm
    obtain ⟨d, hj, rfl⟩ := move_some hm
    exact from_stage h hj
  have hnone : From content A { s with job := none } :=
    ⟨h.pool, h.own, (by intro j hj; cases hj), h.fwd, h.orphan, h.delivered, h.rejected, h.dropped⟩
  cases e with
  | accept u =>
    injection hs with hs; subst hs
    refine { h with pool := ?_ }
    intro t ht
    rcases List.mem_cons.mp ht with rfl | ht
    · exact ha t rfl
    · exact h.pool t ht
  | evict u =>
    dsimp only [Ev.run] at hs
    rw [Option.ite_none_right_eq_some] at hs
    obtain ⟨hu, hs⟩ := hs
    injection hs with hs; subst hs
    refine { h with pool := ?_, dropped := ?_ }
    · intro t ht; exact h.pool t ((List.mem_filter.mp ht).1)
    · intro t ht
      rcases List.mem_cons.mp ht with rfl | ht
      · exact h.pool t hu
      · exact h.dropped t ht
  | build d =>
    dsimp only [Ev.run] at hs
    rw [Option.ite_none_right_eq_some] at hs
    obtain ⟨hb, hs⟩ := hs
    injection hs with hs; subst hs
    refine { h with job := ?_ }
    intro j hj t ht
    injection hj with hj
    subst hj
    exact h.pool t (hb.2 t ht)
  | insertOwn =>
    dsimp only [Ev.run] at hs
    obtain ⟨d, hj, rfl⟩ := move_some hs
    refine { from_stage (b := .waiting) h hj with own := ?_ }
    intro d' hd t ht
    rcases List.mem_cons.mp hd with rfl | hd
    · exact h.job _ hj t ht
    · exact h.own d' hd t ht
  | insertOwnFails => exact moved hs
  | quorumOk => exact moved hs
  | quorumFails =>
    dsimp only [Ev.run] at hs
    obtain ⟨d, hj, rfl⟩ := move_some hs
    exact { from_stage (b := .failed) h hj with own := fun d' hd => h.own d' ((List.mem_filter.mp hd).1) }
  | storeFails => exact moved hs
  | report => exact moved hs
  | reportFails => exact moved hs
  | refuse => exact moved hs
  | admitted =>
    dsimp only [Ev.run] at hs
    obtain ⟨d, hj, rfl⟩ := move_some hs
    refine { from_stage (b := .done) h hj with fwd := ?_ }
    intro f hf t ht
    rcases List.mem_append.mp hf with hf | hf
    · exact h.fwd f hf t ht
    · rw [List.mem_singleton] at hf
      subst hf
      exact h.job _ hj t ht
  | settle =>
    dsimp only [Ev.run] at hs
    split at hs
    · injection hs with hs; subst hs
      exact { hnone with pool := fun t ht => h.pool t ((List.mem_filter.mp ht).1) }
    · injection hs with hs; subst hs
      exact hnone
    · cases hs
  | commit d =>
    injection hs with hs; subst hs
    exact ⟨h.pool, fun d' hd => h.own d' ((List.mem_filter.mp hd).1), h.job, h.fwd, h.orphan, h.delivered, h.rejected,
      h.dropped⟩
  | walk i f =>
    dsimp only [Ev.run] at hs
    split at hs
    · next d u r hg =>
      have hmem : (⟨d, u :: r⟩ : FTask) ∈ s.fwd := List.mem_of_getElem? hg
      have hu : u ∈ A := h.fwd _ hmem u List.mem_cons_self
      have hfwd : ∀ g ∈ s.fwd.set i ⟨d, r⟩, ∀ t ∈ g.todo, t ∈ A := by
        intro g hg' t ht
        rcases List.mem_or_eq_of_mem_set hg' with hg' | rfl
        · exact h.fwd g hg' t ht
        · exact h.fwd _ hmem t (List.mem_cons_of_mem _ ht)
      have hcons : ∀ l : List Nat, (∀ t ∈ l, t ∈ A) → ∀ t ∈ u :: l, t ∈ A := by
        intro l hl t ht
        rcases List.mem_cons.mp ht with rfl | ht
        · exact hu
        · exact hl t ht
      cases f with
      | delivered => injection hs with hs; subst hs; exact { h with fwd := hfwd, delivered := hcons _ h.delivered }
      | rejected => injection hs with hs; subst hs; exact { h with fwd := hfwd, rejected := hcons _ h.rejected }
      | requeued => injection hs with hs; subst hs; exact { h with fwd := hfwd, pool := hcons _ h.pool }
      | refused => injection hs with hs; subst hs; exact { h with fwd := hfwd, dropped := hcons _ h.dropped }
    · cases hs
  | epochEnd =>
    injection hs with hs; subst hs
    exact { hnone with fwd := by intro f hf; cases hf
                       orphan := by intro f hf; cases hf }
  | collect =>
    injection hs with hs; subst hs
    refine { h with own := ?_, orphan := ?_ }
    · intro d hd; cases hd
    · intro d hd
      rcases List.mem_append.mp hd with hd | hd
      · exact h.orphan d hd
      · exact h.own d hd
  | repool acc =>
    dsimp only [Ev.run] at hs
    split at hs
    · next d r ho =>
      injection hs with hs; subst hs
      have hd : ∀ t ∈ content d, t ∈ A := h.orphan d (by rw [ho]; exact List.mem_cons_self)
      refine { h with pool := ?_, orphan := ?_, dropped := ?_ }
      · intro t ht
        rcases List.mem_append.mp ht with ht | ht
        · exact hd t ((List.mem_filter.mp ht).1)
        · exact h.pool t ht
      · intro d' hd'; exact h.orphan d' (by rw [ho]; exact List.mem_cons_of_mem _ hd')
      · intro t ht
        rcases List.mem_append.mp ht with ht | ht
        · exact hd t ((List.mem_filter.mp ht).1)
        · exact h.dropped t ht
    · cases hs
  | reforward =>
    dsimp only [Ev.run] at hs
    split at hs
    · next d r ho =>
      injection hs with hs; subst hs
      refine { h with fwd := ?_, orphan := ?_ }
      · intro f hf t ht
        rcases List.mem_append.mp hf with hf | hf
        · exact h.fwd f hf t ht
        · rw [List.mem_singleton] at hf
          subst hf
          exact h.orphan d (by rw [ho]; exact List.mem_cons_self) t ht
      · intro d' hd'; exact h.orphan d' (by rw [ho]; exact List.mem_cons_of_mem _ hd')
    · cases hs
  | crash keep =>
    injection hs with hs; subst hs
    exact { hnone with pool := by intro t ht; cases ht
                       own := fun d hd => h.own d ((List.mem_filter.mp hd).1)
                       fwd := by intro t ht; cases ht
                       orphan := by intro t ht; cases ht }

theorem run_from : ∀ (l : List Ev) {A : List Nat} {s s' : Node}, From content A s → (∀ t ∈ accepted l, t ∈ A) →
    run content l s = some s' → From content A s'
  | [], _, _, _, hf, _, h => by injection h with h; subst h; exact hf
  | e :: l, A, s, s', hf, ha, h => by
    rw [run] at h
    split at h
    · next s1 h1 =>
      refine run_from l (step_from hf ?_ h1) ?_ h
      · rintro t rfl; exact ha t List.mem_cons_self
      · intro t ht
        refine ha t ?_
        cases e with
        | accept u => exact List.mem_cons_of_mem _ ht
        | _ => exact ht
    · cases h

/-- **C64 (nothing is invented).**  After any run - calm or not, with crashes - every transaction in the pool, in a
batch of this node, with a forward or the recovery, or reported as delivered, rejected or dropped was handed in by a
user. -/
theorem nothing_invented {l : List Ev} {s : Node} (h : run content l {} = some s) {t : Nat}
    (ht : t ∈ s.pool ∨ (∃ d ∈ s.own, t ∈ content d) ∨ (∃ f ∈ s.fwd, t ∈ f.todo) ∨
      (∃ d ∈ s.orphan, t ∈ content d) ∨ t ∈ s.delivered ∨ t ∈ s.rejected ∨ t ∈ s.dropped) : t ∈ accepted l := by
  have hf : From content (accepted l) s := by
    refine run_from l ?_ (fun t ht => ht) h
    refine ⟨?_, ?_, ?_, ?_, ?_, ?_, ?_, ?_⟩ <;> (intro x hx; cases hx)
  rcases ht with h | ⟨d, h, ht⟩ | ⟨f, h, ht⟩ | ⟨d, h, ht⟩ | h | h | h
  · exact hf.pool t h
  · exact hf.own d h t ht
  · exact hf.fwd f h t ht
  · exact hf.orphan d h t ht
  · exact hf.delivered t h
  · exact hf.rejected t h
  · exact hf.dropped t h

/-! ### What an untimely end loses -/

/-- **C64 (what the end of an epoch can lose).**  Whatever is under way when the tasks of an epoch are aborted, only
transactions that are nowhere but with a forward or the recovery task are lost: those in the pool, in the batch under
way and in the node's own batches are not. -/
theorem epochEnd_loses_only {s : Node} {t : Nat} (h : Kept content s t)
    (hf : ∀ f ∈ s.fwd, t ∉ f.todo) (ho : ∀ d ∈ s.orphan, t ∉ content d) :
    ∃ s', Ev.epochEnd.run content s = some s' ∧ Kept content s' t := by
  refine ⟨_, rfl, ?_⟩
  exact kept_mono h (fun h => .pool h) (fun _ h ht => .own h ht) (fun f h ht => absurd ht (hf f h))
    (fun d h ht => absurd ht (ho d h)) (fun _ h => h) id id id

/-- **C64 (what a crash leaves).**  The transactions of own batches on the disk survive a crash at any moment, and the
recovery at the next start gives them back to the pool or to a forward task, or finds that the pool refuses them. -/
theorem crash_keeps_own {s : Node} {keep : List Nat} {d t : Nat} (hd : d ∈ s.own) (hk : d ∈ keep)
    (ht : t ∈ content d) :
    ∃ s₁ s₂, (Ev.crash keep).run content s = some s₁ ∧ Ev.collect.run content s₁ = some s₂ ∧
      d ∈ s₂.orphan ∧ s₂.own = [] ∧
      ∀ (pre post : List Nat), s₂.orphan = pre ++ d :: post → ∀ acc : Nat → Bool, ∃ s₃,
        run content (List.replicate (pre.length + 1) (.repool acc)) s₂ = some s₃ ∧
        (if acc t then t ∈ s₃.pool else t ∈ s₃.dropped) := by
  refine ⟨_, _, rfl, rfl, ?_, rfl, ?_⟩
  · exact List.mem_append_right _ (List.mem_filter.mpr ⟨hd, by simpa using hk⟩)
  · intro pre post
    generalize ({ s with pool := [], job := none, fwd := [], orphan := [], own := s.own.filter (· ∈ keep) } : Node) = s₁
    show ({ s₁ with orphan := s₁.orphan ++ s₁.own, own := [] } : Node).orphan = _ → _
    generalize ({ s₁ with orphan := s₁.orphan ++ s₁.own, own := [] } : Node) = s₂
    intro ho acc
    induction pre generalizing s₂ with
    | nil =>
      refine ⟨{ s₂ with orphan := post, pool := (content d).filter acc ++ s₂.pool,
                        dropped := (content d).filter (fun t => !acc t) ++ s₂.dropped }, ?_, ?_⟩
      · rw [List.length_nil, Nat.zero_add, List.replicate_one, run]
        dsimp only [Ev.run]
        rw [ho]
        rfl
      · split
        · next ha => exact List.mem_append_left _ (List.mem_filter.mpr ⟨ht, ha⟩)
        · next ha => exact List.mem_append_left _ (List.mem_filter.mpr ⟨ht, by simpa using ha⟩)
    | cons p pre ih =>
      obtain ⟨s₃, h1, h2⟩ := ih ({ s₂ with
        orphan := pre ++ d :: post
        pool := (content p).filter acc ++ s₂.pool
        dropped := (content p).filter (fun t => !acc t) ++ s₂.dropped } : Node) rfl
      refine ⟨s₃, ?_, h2⟩
      rw [List.length_cons, List.replicate_succ, run]
      dsimp only [Ev.run]
      rw [ho]
      exact h1

/-! ### The windows -/

/-- batch 1 consists of transactions 10 and 11 -/
def two : Nat → List Nat := fun d => if d = 1 then [10, 11] else []

/-- a validator's batch is certified, misses the epoch, is recovered and committed in the next one: a calm run, and
nothing is lost -/
def good : List Ev :=
  [.accept 10, .accept 11, .build 1, .insertOwn, .quorumOk, .report, .settle, .epochEnd, .collect,
   .repool (fun _ => true), .build 1, .insertOwn, .quorumOk, .commit 1, .report, .settle]

/-- a checker for `Ev.calm` -/
def calmB (s : Node) : Ev → Bool
  | .epochEnd => (s.fwd.all fun f => f.todo.isEmpty) && s.orphan.isEmpty
  | .collect => match s.job with | some j => decide (j.stage = .built) | none => true
  | .walk i .requeued => match s.fwd[i]? with | some f => decide (s.job ≠ some ⟨f.dig, .done⟩) | none => true
  | .crash _ => false
  | _ => true

theorem calm_of_B {s : Node} {e : Ev} (h : calmB s e = true) : e.calm s := by
  cases e with
  | epochEnd =>
    rw [calmB, Bool.and_eq_true] at h
    exact ⟨fun f hf => List.isEmpty_iff.mp (List.all_eq_true.mp h.1 f hf), List.isEmpty_iff.mp h.2⟩
  | collect =>
    intro j hj
    rw [calmB, hj] at h
    exact of_decide_eq_true h
  | walk i f =>
    cases f with
    | requeued =>
      intro f hf
      rw [calmB, hf] at h
      exact of_decide_eq_true h
    | _ => exact trivial
  | crash k => cases h
  | _ => exact trivial

/-- a checker for `Calm` -/
def CalmB (content : Nat → List Nat) : List Ev → Node → Bool
  | [], _ => true
  | e :: l, s => calmB s e && match e.run content s with | some s' => CalmB content l s' | none => true

theorem Calm_of_B : ∀ {l : List Ev} {s : Node}, CalmB content l s = true → Calm content l s
  | [], _, _ => trivial
  | e :: l, s, h => by
    rw [CalmB, Bool.and_eq_true] at h
    refine ⟨calm_of_B h.1, fun s' hs => ?_⟩
    have h2 := h.2
    rw [hs] at h2
    exact Calm_of_B h2

theorem good_calm : Calm two good {} := Calm_of_B (by decide +kernel)

/-- `nothing_lost` on it; both transactions end as committed -/
example : ∃ s, run two good {} = some s ∧ s.pool = [] ∧ s.committed = [1] ∧ Kept two s 10 ∧ Kept two s 11 := by
  obtain ⟨s, hs, h1, h2⟩ : ∃ s, run two good {} = some s ∧ s.pool = [] ∧ s.committed = [1] :=
    ⟨_, rfl, by decide +kernel, by decide +kernel⟩
  exact ⟨s, hs, h1, h2, nothing_lost good_calm hs 10 (by simp [good, accepted]),
    nothing_lost good_calm hs 11 (by simp [good, accepted])⟩

/-- an observer's batch is handed to a forward task: one transaction is delivered, the other comes back -/
def observer : List Ev :=
  [.accept 10, .accept 11, .build 1, .refuse, .settle, .build 1, .admitted, .settle, .walk 0 .delivered, .walk 0 .requeued,
   .epochEnd]

theorem observer_calm : Calm two observer {} := Calm_of_B (by decide +kernel)

example : run two observer {} =
    some { pool := [11], delivered := [10] } := by decide +kernel

/-- a transaction is nowhere -/
def lost (content : Nat → List Nat) (s : Node) (t : Nat) : Bool :=
  !(s.pool.contains t || s.own.any (fun d => (content d).contains t) || s.fwd.any (fun f => f.todo.contains t) ||
    s.orphan.any (fun d => (content d).contains t) || s.committed.any (fun d => (content d).contains t) ||
    s.delivered.contains t || s.rejected.contains t || s.dropped.contains t)

theorem not_kept_of_lost {s : Node} {t : Nat} (h : lost content s t = true) : ¬ Kept content s t := by
  intro hk
  have := hk.somewhere
  simp only [lost, Bool.not_eq_true', Bool.or_eq_false_iff, List.any_eq_false, List.contains_eq_mem,
    decide_eq_true_eq, decide_eq_false_iff_not] at h
  obtain ⟨⟨⟨⟨⟨⟨⟨h1, h2⟩, h3⟩, h4⟩, h5⟩, h6⟩, h7⟩, h8⟩ := h
  rcases this with h | ⟨d, h, ht⟩ | ⟨f, h, ht⟩ | ⟨d, h, ht⟩ | ⟨d, h, ht⟩ | h | h | h
  · exact h1 h
  · exact h2 d h ht
  · exact h3 f h ht
  · exact h4 d h ht
  · exact h5 d h ht
  · exact h6 h
  · exact h7 h
  · exact h8 h

/-- **C64 (finding: the end of an epoch during a forward).**  The transactions of an admitted batch that were not yet
walked are lost when the epoch ends. -/
theorem lost_in_forward : ∃ s, run two [.accept 10, .accept 11, .build 1, .admitted, .settle, .epochEnd] {} = some s ∧
    ¬ Kept two s 10 ∧ ¬ Kept two s 11 :=
  ⟨_, rfl, not_kept_of_lost (by decide +kernel), not_kept_of_lost (by decide +kernel)⟩

/-- **C64 (finding: an end, or crash, during the recovery).**  The table of own batches is cleared before its
transactions are back: if the process dies, or the next epoch ends, before the recovery task has come to them, they
are lost although the batch was on the disk. -/
theorem lost_in_recovery :
    (∃ s, run two [.accept 10, .accept 11, .build 1, .insertOwn, .quorumOk, .report, .settle, .epochEnd, .collect,
      .crash [1]] {} = some s ∧ ¬ Kept two s 10 ∧ ¬ Kept two s 11) ∧
    (∃ s, run two [.accept 10, .accept 11, .build 1, .insertOwn, .quorumOk, .report, .settle, .epochEnd, .collect,
      .epochEnd] {} = some s ∧ ¬ Kept two s 10 ∧ ¬ Kept two s 11) :=
  ⟨⟨_, rfl, not_kept_of_lost (by decide +kernel), not_kept_of_lost (by decide +kernel)⟩,
   ⟨_, rfl, not_kept_of_lost (by decide +kernel), not_kept_of_lost (by decide +kernel)⟩⟩

/-- **C64 (finding: a batch under way when the table is read).**  The builder of the new epoch is started before the
table of own batches is read and cleared.  A batch that it has stored by then is treated as left over: its
transactions are given back to the pool, from which the builder then prunes them, and no table holds the batch any more: if
the epoch ends before it is committed, its transactions are lost. -/
theorem lost_at_start : ∃ s, run two [.accept 10, .accept 11, .build 1, .insertOwn, .collect, .quorumOk,
      .repool (fun _ => true), .report, .settle, .epochEnd] {} = some s ∧ ¬ Kept two s 10 ∧ ¬ Kept two s 11 :=
  ⟨_, rfl, not_kept_of_lost (by decide +kernel), not_kept_of_lost (by decide +kernel)⟩

/-- **C64 (finding: a requeue before the prune).**  If the builder consumes the acknowledgement later than the grace
period of a forward task, it prunes transactions the task has already given back. -/
theorem lost_before_prune : ∃ s, run two [.accept 10, .accept 11, .build 1, .admitted, .walk 0 .requeued,
      .walk 0 .requeued, .settle] {} = some s ∧ ¬ Kept two s 10 ∧ ¬ Kept two s 11 :=
  ⟨_, rfl, not_kept_of_lost (by decide +kernel), not_kept_of_lost (by decide +kernel)⟩

end Life
end Tx
end Verif
