import Verif.Rpc.BlockingProps
/-
Property C102: the theorems about the `tn` RPC namespace.
-/
namespace Verif
namespace Rpc

variable {R V K : Type}

/-! ### The bound -/

theorem countP_le_of_imp {α : Type} (p q : α → Bool) (h : ∀ x, p x = true → q x = true) (l : List α) :
    l.countP p ≤ l.countP q := by
  induction l with
  | nil => exact Nat.le_refl _
  | cons x l ih =>
    simp only [List.countP_cons]
    cases hp : p x with
    | false => simp only [Bool.false_eq_true, if_false]; omega
    | true => rw [h x hp]; simp only [if_true]; omega

/-- **C102.** At every moment of every history, with any requests, disconnects, panics and commits, at most 64 places of
the blocking pool are taken by this namespace. -/
theorem occupied_le {e : Env R V K} {s : St R V} (h : Reach e s) : occupied s ≤ 64 := by
  have h1 := (reach_inv h).perm
  have h2 : occupied s ≤ held s := countP_le_of_imp _ _ (fun c hc => by
    cases hj : c.job <;> rw [hj] at hc <;> simp_all [occupies, holds]) s.calls
  have h3 : maxWork = 64 := rfl
  omega

/-- **C102.** No permit is lost or made up: the free ones and those of the calls are 64 together. -/
theorem permits_conserved {e : Env R V K} {s : St R V} (h : Reach e s) : s.free + held s = 64 := by
  have h1 := (reach_inv h).perm
  have h3 : maxWork = 64 := rfl
  omega

/-- **C102.** When no call has a permit the whole capacity is free and nobody waits for it. -/
theorem idle_full {e : Env R V K} {s : St R V} (h : Reach e s) (hz : held s = 0) : s.free = 64 ∧ s.queue = [] := by
  have h1 := permits_conserved h
  exact ⟨by omega, (reach_inv h).idle (by omega)⟩

/-- **C102.** A client that goes away while the work of its call has a place of the pool frees nothing: the permits, the
queue, the work itself and all other calls stay as they are. -/
theorem leave_frees_nothing {e : Env R V K} {s t : St R V} {i : Nat} {c : Call V} (hc : s.calls[i]? = some c)
    (ho : occupies c.job = true) (hs : step e s (.leave i) = some t) :
    t.free = s.free ∧ t.queue = s.queue ∧ held t = held s ∧ occupied t = occupied s ∧
      (t.calls[i]?.map fun x => x.job) = some c.job ∧ ∀ j : Nat, j ≠ i → t.calls[j]? = s.calls[j]? := by
  have key : ∀ d : Call V, d.job = c.job → t = setCall s i d → 
      t.free = s.free ∧ t.queue = s.queue ∧ held t = held s ∧ occupied t = occupied s ∧
      (t.calls[i]?.map fun x => x.job) = some c.job ∧ ∀ j : Nat, j ≠ i → t.calls[j]? = s.calls[j]? := by
    intro d hd ht
    subst ht
    refine ⟨rfl, rfl, ?_, ?_, ?_, ?_⟩
    · have h1 := countP_set' (fun x : Call V => holds x.job) d s.calls i c hc
      rw [hd] at h1
      show (s.calls.set i d).countP (fun x => holds x.job) = s.calls.countP (fun x => holds x.job)
      omega
    · have h1 := countP_set' (fun x : Call V => occupies x.job) d s.calls i c hc
      rw [hd] at h1
      show (s.calls.set i d).countP (fun x => occupies x.job) = s.calls.countP (fun x => occupies x.job)
      omega
    · show ((s.calls.set i d)[i]?.map fun x => x.job) = some c.job
      rw [set_get s.calls i i c d hc, if_pos rfl]
      simp [hd]
    · intro j hj
      show (s.calls.set i d)[j]? = s.calls[j]?
      rw [set_get s.calls i j c d hc, if_neg hj]
  dsimp only [step] at hs
  rw [hc] at hs
  dsimp only at hs
  cases hcl : c.client with
  | gone => rw [hcl] at hs; simp at hs
  | answered r => rw [hcl] at hs; simp at hs
  | waiting =>
    rw [hcl] at hs
    dsimp only at hs
    cases hj : c.job with
    | queued => rw [hj] at ho; simp [occupies] at ho
    | granted => rw [hj] at ho; simp [occupies] at ho
    | over => rw [hj] at ho; simp [occupies] at ho
    | finished w => rw [hj] at ho; simp [occupies] at ho
    | spawned =>
      rw [hj] at hs
      simp only [Option.some.injEq] at hs
      rw [← hj]
      exact key _ hj.symm hs.symm
    | running tip =>
      rw [hj] at hs
      simp only [Option.some.injEq] at hs
      rw [← hj]
      exact key _ hj.symm hs.symm

/-- **C102.** A client that has its answer finds the permit of its call returned. -/
theorem answered_returned {e : Env R V K} {s : St R V} (h : Reach e s) {i : Nat} {c : Call V} (hc : s.calls[i]? = some c)
    {r : Reply V} (ha : c.client = .answered r) : holds c.job = false ∧ occupies c.job = false := by
  have := (((reach_inv h).good i c hc).answered r ha).1
  rw [this]
  exact ⟨rfl, rfl⟩

/-! ### Malformed keys -/

/-- **C102.** A key of a length that no encoding has is refused at once, also when all permits are taken, and leaves the
permits, the queue and all other calls alone; no later state has it queued or running. -/
theorem malformed_costs_nothing (e : Env R V K) (s : St R V) (key address : List Nat) (h96 : key.length ≠ 96)
    (h192 : key.length ≠ 192) : ∃ t, step e s (.call (.popMessage key address)) = some t ∧
      t.free = s.free ∧ t.queue = s.queue ∧ held t = held s ∧
      t.calls = s.calls ++ [⟨.popMessage key address, s.chain.length, .answered .invalidParams, .over⟩] := by
  have hp : plausible key = false := by simp [plausible, h96, h192]
  have hsc : (screen (.popMessage key address) : Option (Reply V)) = some .invalidParams := by simp [screen, hp]
  refine ⟨{ s with calls := s.calls ++ [⟨.popMessage key address, s.chain.length, .answered .invalidParams, .over⟩] },
    ?_, rfl, rfl, ?_, rfl⟩
  · dsimp only [step]
    rw [hsc]
  · show (s.calls ++ [_]).countP (fun x : Call V => holds x.job) = s.calls.countP (fun x => holds x.job)
    rw [List.countP_append, List.countP_cons, List.countP_nil]
    rfl

/-- **C102.** Nothing else is refused for want of capacity: every other request is taken, with a permit or in the queue,
and its client waits. -/
theorem others_are_taken (e : Env R V K) (s : St R V) (q : Req) (hq : (screen q : Option (Reply V)) = none) :
    ∃ t c, step e s (.call q) = some t ∧ t.calls = s.calls ++ [c] ∧ c.req = q ∧ c.client = .waiting ∧
      ((0 < s.free ∧ c.job = .spawned ∧ t.queue = s.queue) ∨
        (s.free = 0 ∧ c.job = .queued ∧ t.queue = s.queue ++ [s.calls.length])) := by
  by_cases hf : 0 < s.free
  · refine ⟨{ s with free := s.free - 1, calls := s.calls ++ [⟨q, s.chain.length, .waiting, .spawned⟩] },
      ⟨q, s.chain.length, .waiting, .spawned⟩, ?_, rfl, rfl, rfl, Or.inl ⟨hf, rfl, rfl⟩⟩
    dsimp only [step]
    rw [hq]
    exact if_pos hf
  · refine ⟨{ s with queue := s.queue ++ [s.calls.length], calls := s.calls ++ [⟨q, s.chain.length, .waiting, .queued⟩] },
      ⟨q, s.chain.length, .waiting, .queued⟩, ?_, rfl, rfl, rfl, Or.inr ⟨by omega, rfl, rfl⟩⟩
    dsimp only [step]
    rw [hq]
    exact if_neg hf

/-! ### The queue -/

/-- Specification: the calls that wait before `i`. -/
def ahead (s : St R V) (i : Nat) : Nat := s.queue.countP (fun j => decide (j < i))

/-- Specification: the work of a call ended and gave its permit back. -/
def isEnd : Ev R → Bool
  | .finish _ _ => true
  | .panic _ => true
  | .cancel _ => true
  | _ => false

theorem setCall_queue (s : St R V) (i : Nat) (c : Call V) : (setCall s i c).queue = s.queue := rfl

/-- What a returned permit does to a call that waits. -/
theorem release_waiting {e : Env R V K} {s : St R V} (h : Inv e 1 s) {i : Nat}
    (hi : i ∈ (release s).queue) : i ∈ s.queue ∧ ahead (release s) i + 1 ≤ ahead s i := by
  cases hq : s.queue with
  | nil =>
    rw [release_nil hq] at hi
    change i ∈ s.queue at hi
    rw [hq] at hi
    exact absurd hi (by simp)
  | cons j q =>
    have hjq : j ∈ s.queue := by rw [hq]; exact List.mem_cons_self
    obtain ⟨c, hc, hcq⟩ := (h.mem j).mp hjq
    have hs := h.sorted
    rw [hq] at hs
    rw [release_cons hq hc] at hi ⊢
    change i ∈ q at hi
    have hlt := (List.pairwise_cons.mp hs).1 i hi
    refine ⟨List.mem_cons_of_mem _ hi, ?_⟩
    show q.countP (fun j => decide (j < i)) + 1 ≤ ahead s i
    unfold ahead
    rw [hq, List.countP_cons]
    simp [hlt]

/-- An event never moves a waiting call back, and the end of any work moves it forward. -/
theorem step_ahead {e : Env R V K} {s t : St R V} {v : Ev R} (h : Inv e 0 s) (hs : step e s v = some t) {i : Nat}
    (hi : i < s.calls.length) (hi' : i ∈ t.queue) :
    i ∈ s.queue ∧ ahead t i + (if isEnd v then 1 else 0) ≤ ahead s i := by
  cases v with
  | commit r =>
    simp only [step, Option.some.injEq] at hs
    subst hs
    exact ⟨hi', Nat.le_refl _⟩
  | call q =>
    dsimp only [step] at hs
    cases hsc : (screen q : Option (Reply V)) with
    | some r =>
      rw [hsc] at hs
      simp only [Option.some.injEq] at hs
      subst hs
      exact ⟨hi', Nat.le_refl _⟩
    | none =>
      rw [hsc] at hs
      dsimp only at hs
      by_cases hf : 0 < s.free
      · rw [if_pos hf] at hs
        simp only [Option.some.injEq] at hs
        subst hs
        exact ⟨hi', Nat.le_refl _⟩
      · rw [if_neg hf] at hs
        simp only [Option.some.injEq] at hs
        subst hs
        change i ∈ s.queue ++ [s.calls.length] at hi'
        rw [List.mem_append, List.mem_singleton] at hi'
        refine ⟨by rcases hi' with hi' | hi'; exacts [hi', absurd hi' (by omega)], ?_⟩
        show (s.queue ++ [s.calls.length]).countP (fun j => decide (j < i)) + 0 ≤ _
        rw [List.countP_append, List.countP_cons, List.countP_nil]
        have : ¬ (s.calls.length < i) := by omega
        simp only [this, decide_false, Bool.false_eq_true, if_false]
        exact Nat.le_refl _
  | poll j =>
    dsimp only [step] at hs
    cases hc : s.calls[j]? with
    | none => rw [hc] at hs; cases hs
    | some c =>
      rw [hc] at hs
      dsimp only at hs
      cases hj : c.job with
      | granted =>
        rw [hj] at hs
        simp only [if_true, Option.some.injEq] at hs
        subst hs
        exact ⟨hi', Nat.le_refl _⟩
      | _ => rw [hj] at hs; simp at hs
  | start j =>
    dsimp only [step] at hs
    cases hc : s.calls[j]? with
    | none => rw [hc] at hs; cases hs
    | some c =>
      rw [hc] at hs
      dsimp only at hs
      cases hj : c.job with
      | spawned =>
        rw [hj] at hs
        simp only [if_true, Option.some.injEq] at hs
        subst hs
        exact ⟨hi', Nat.le_refl _⟩
      | _ => rw [hj] at hs; simp at hs
  | finish j fault =>
    dsimp only [step] at hs
    cases hc : s.calls[j]? with
    | none => rw [hc] at hs; cases hs
    | some c =>
      rw [hc] at hs
      dsimp only at hs
      have g := h.good j c hc
      cases hj : c.job with
      | running tip =>
        rw [hj] at hs
        simp only [Option.some.injEq] at hs
        subst hs
        have h1 : Inv e 1 (setCall s j { c with job := .finished (work e (if fault then none else s.chain[tip - 1]?) c.req) }) := by
          refine h.replace hc (by rw [hj]; simp) (by simp) ?_ (by rw [hj]; rfl)
          refine g.toJob (by rw [hj]; simp) _ (by simp) (by simp) (fun _ h' => by (cases h')) ?_ (by simp)
          intro v hv
          cases hv
          obtain ⟨a, b⟩ := g.running tip hj
          refine ⟨tip, a, b, ?_⟩
          cases fault with
          | true => exact Or.inr rfl
          | false =>
            have hp := g.pos
            have hlt : tip - 1 < s.chain.length := by omega
            refine Or.inl ⟨s.chain[tip - 1], List.getElem?_eq_getElem hlt, ?_⟩
            simp only [Bool.false_eq_true, if_false, List.getElem?_eq_getElem hlt]
        exact release_waiting h1 hi'
      | _ => rw [hj] at hs; simp at hs
  | panic j =>
    dsimp only [step] at hs
    cases hc : s.calls[j]? with
    | none => rw [hc] at hs; cases hs
    | some c =>
      rw [hc] at hs
      dsimp only at hs
      have g := h.good j c hc
      cases hj : c.job with
      | running tip =>
        rw [hj] at hs
        simp only [Option.some.injEq] at hs
        subst hs
        have hno : c.job ≠ .over := by rw [hj]; simp
        have h1 : Inv e 1 (setCall s j { c with job := .over, client := failClient c.client }) := by
          refine h.replace hc (by rw [hj]; simp) (by simp) ?_ (by rw [hj]; rfl)
          exact g.toOver hno _ (failClient_ne _) (fun r hr => Or.inl (failClient_ans (g.notAnswered hno) hr))
        exact release_waiting h1 hi'
      | _ => rw [hj] at hs; simp at hs
  | cancel j =>
    dsimp only [step] at hs
    cases hc : s.calls[j]? with
    | none => rw [hc] at hs; cases hs
    | some c =>
      rw [hc] at hs
      dsimp only at hs
      have g := h.good j c hc
      cases hj : c.job with
      | spawned =>
        rw [hj] at hs
        simp only [if_true, Option.some.injEq] at hs
        subst hs
        have hno : c.job ≠ .over := by rw [hj]; simp
        have h1 : Inv e 1 (setCall s j { c with job := .over, client := failClient c.client }) := by
          refine h.replace hc (by rw [hj]; simp) (by simp) ?_ (by rw [hj]; rfl)
          exact g.toOver hno _ (failClient_ne _) (fun r hr => Or.inl (failClient_ans (g.notAnswered hno) hr))
        exact release_waiting h1 hi'
      | _ => rw [hj] at hs; simp at hs
  | send j =>
    dsimp only [step] at hs
    cases hc : s.calls[j]? with
    | none => rw [hc] at hs; cases hs
    | some c =>
      rw [hc] at hs
      dsimp only at hs
      cases hj : c.job with
      | finished w =>
        rw [hj] at hs
        simp only [Option.some.injEq] at hs
        subst hs
        exact ⟨hi', Nat.le_refl _⟩
      | _ => rw [hj] at hs; simp at hs
  | leave j =>
    dsimp only [step] at hs
    cases hc : s.calls[j]? with
    | none => rw [hc] at hs; cases hs
    | some c =>
      rw [hc] at hs
      dsimp only at hs
      have g := h.good j c hc
      cases hcl : c.client with
      | gone => rw [hcl] at hs; simp at hs
      | answered r => rw [hcl] at hs; simp at hs
      | waiting =>
        rw [hcl] at hs
        dsimp only at hs
        cases hj : c.job with
        | queued =>
          rw [hj] at hs
          simp only [Option.some.injEq] at hs
          subst hs
          change i ∈ s.queue.filter (· != j) at hi'
          refine ⟨(List.mem_filter.mp hi').1, ?_⟩
          show (s.queue.filter (· != j)).countP _ + 0 ≤ s.queue.countP _
          exact List.Sublist.countP_le List.filter_sublist
        | granted =>
          rw [hj] at hs
          simp only [Option.some.injEq] at hs
          subst hs
          have h1 : Inv e 1 (setCall s j { c with job := .over, client := .gone }) := by
            refine h.replace hc (by rw [hj]; simp) (by simp) ?_ (by rw [hj]; rfl)
            exact g.toOver (by rw [hj]; simp) _ (by simp) (fun r hr => by (cases hr))
          obtain ⟨a, b⟩ := release_waiting h1 hi'
          refine ⟨a, ?_⟩
          change ahead _ i + 0 ≤ _
          change _ ≤ ahead s i at b
          omega
        | over => exact absurd hcl (g.over hj)
        | spawned =>
          rw [hj] at hs
          simp only [Option.some.injEq] at hs
          subst hs
          exact ⟨hi', Nat.le_refl _⟩
        | running tip =>
          rw [hj] at hs
          simp only [Option.some.injEq] at hs
          subst hs
          exact ⟨hi', Nat.le_refl _⟩
        | finished w =>
          rw [hj] at hs
          simp only [Option.some.injEq] at hs
          subst hs
          exact ⟨hi', Nat.le_refl _⟩

theorem release_length (s : St R V) : (release s).calls.length = s.calls.length := by
  unfold release
  split
  · rfl
  · split
    · simp [setCall]
    · rfl

theorem step_length {e : Env R V K} {s t : St R V} {v : Ev R} (hs : step e s v = some t) :
    s.calls.length ≤ t.calls.length := by
  cases v with
  | commit r => simp only [step, Option.some.injEq] at hs; subst hs; exact Nat.le_refl _
  | call q =>
    dsimp only [step] at hs
    cases hsc : (screen q : Option (Reply V)) with
    | some r => rw [hsc] at hs; simp only [Option.some.injEq] at hs; subst hs; simp
    | none =>
      rw [hsc] at hs
      dsimp only at hs
      by_cases hf : 0 < s.free
      · rw [if_pos hf] at hs
        simp only [Option.some.injEq] at hs; subst hs; simp
      · rw [if_neg hf] at hs
        simp only [Option.some.injEq] at hs; subst hs; simp
  | poll j | start j | cancel j =>
    dsimp only [step] at hs
    split at hs
    · split at hs
      · simp only [if_true, Option.some.injEq] at hs
        subst hs
        simp [setCall, release_length]
      · simp at hs
    · cases hs
  | finish j fault | panic j | send j =>
    dsimp only [step] at hs
    split at hs
    · split at hs
      · simp only [Option.some.injEq] at hs
        subst hs
        simp [setCall, release_length]
      · cases hs
    · cases hs
  | leave j =>
    dsimp only [step] at hs
    split at hs
    · split at hs
      · split at hs
        all_goals
          simp only [Option.some.injEq] at hs
          subst hs
          simp [setCall, release_length]
      · cases hs
    · cases hs

/-- **C102.** A burst is served late, not refused, and in the order of arrival: while a call waits for a permit, at most
as many works can end as calls waited before it when it came to the queue; later arrivals never pass it. -/
theorem wait_bounded {e : Env R V K} : ∀ (vs : List (Ev R)) {s t : St R V}, Reach e s → run e s vs = some t →
    ∀ {i : Nat}, i ∈ s.queue → i ∈ t.queue → ahead t i + vs.countP isEnd ≤ ahead s i
  | [], s, t, _, hr, i, _, _ => by
      simp only [run, Option.some.injEq] at hr
      subst hr
      exact Nat.le_refl _
  | v :: vs, s, t, h, hr, i, hi, hi' => by
      rw [run] at hr
      cases hst : step e s v with
      | none => rw [hst] at hr; cases hr
      | some m =>
        rw [hst] at hr
        have hreach : Reach e m := Reach.step v h hst
        have hil : i < s.calls.length := by
          obtain ⟨c, hc, _⟩ := ((reach_inv h).mem i).mp hi
          exact (List.getElem?_eq_some_iff.mp hc).1
        have back : ∀ (ws : List (Ev R)) {a b : St R V}, Reach e a → run e a ws = some b → i < a.calls.length →
            i ∈ b.queue → i ∈ a.queue := by
          intro ws
          induction ws with
          | nil =>
            intro a b _ hab _ hb
            simp only [run, Option.some.injEq] at hab
            subst hab
            exact hb
          | cons w ws ih =>
            intro a b ha hab hal hb
            rw [run] at hab
            cases hw : step e a w with
            | none => rw [hw] at hab; cases hab
            | some m' =>
              rw [hw] at hab
              have h1 := ih (Reach.step w ha hw) hab (Nat.lt_of_lt_of_le hal (step_length hw)) hb
              exact (step_ahead (reach_inv ha) hw hal h1).1
        have him : i ∈ m.queue := back vs hreach hr (Nat.lt_of_lt_of_le hil (step_length hst)) hi'
        have h1 := wait_bounded vs hreach hr him hi'
        have h2 := (step_ahead (reach_inv h) hst hil him).2
        rw [List.countP_cons]
        omega

/-! ### Everyone is served -/

/-- Specification: what is left to do for a call. -/
def left : Job V → Nat
  | .queued => 5
  | .granted => 4
  | .spawned => 3
  | .running _ => 2
  | .finished _ => 1
  | .over => 0

/-- **C102.** While any call is unfinished something can run: of the calls with a permit each can take its next step by
itself, and a call that waits for one means that 64 others have theirs. -/
theorem never_stuck {e : Env R V K} {s : St R V} (h : Reach e s) {i : Nat} {c : Call V} (hc : s.calls[i]? = some c)
    (hj : c.job ≠ .over) :
    (c.job = .queued → held s = 64 ∧ c.client = .waiting) ∧
    (c.job = .granted → (step e s (.poll i)).isSome) ∧
    (c.job = .spawned → (step e s (.start i)).isSome) ∧
    (∀ tip, c.job = .running tip → ∀ f, (step e s (.finish i f)).isSome) ∧
    (∀ v, c.job = .finished v → (step e s (.send i)).isSome) := by
  refine ⟨?_, ?_, ?_, ?_, ?_⟩
  · intro hq
    have hi : i ∈ s.queue := ((reach_inv h).mem i).mpr ⟨c, hc, hq⟩
    refine ⟨?_, ((reach_inv h).good i c hc).queued hq⟩
    have h1 := permits_conserved h
    have h2 : s.free = 0 := by
      by_contra hne
      have h3 := (reach_inv h).idle (by omega)
      rw [h3] at hi
      exact absurd hi (by simp)
    omega
  · intro hq
    dsimp only [step]
    rw [hc]
    simp [hq]
  · intro hq
    dsimp only [step]
    rw [hc]
    simp [hq]
  · intro tip hq f
    dsimp only [step]
    rw [hc]
    simp [hq]
  · intro v hq
    dsimp only [step]
    rw [hc]
    simp [hq]

/-- **C102.** When nothing more can run, every client that stayed has its answer and the whole capacity is free. -/
theorem settled {e : Env R V K} {s : St R V} (h : Reach e s)
    (hn : ∀ i, step e s (.poll i) = none ∧ step e s (.start i) = none ∧ (∀ f, step e s (.finish i f) = none) ∧
      step e s (.send i) = none) :
    (∀ (i : Nat) (c : Call V), s.calls[i]? = some c → c.client = .gone ∨ ∃ r, c.client = .answered r) ∧ s.free = 64 := by
  have hjob : ∀ (i : Nat) (c : Call V), s.calls[i]? = some c → c.job = .over ∨ c.job = .queued := by
    intro i c hc
    by_cases ho : c.job = .over
    · exact Or.inl ho
    · have hs := never_stuck h hc ho
      obtain ⟨a, b, d, f⟩ := hn i
      cases hj : c.job with
      | over => exact Or.inl rfl
      | queued => exact Or.inr rfl
      | granted => have := hs.2.1 hj; rw [a] at this; cases this
      | spawned => have := hs.2.2.1 hj; rw [b] at this; cases this
      | running tip => have := hs.2.2.2.1 tip hj true; rw [d] at this; cases this
      | finished v => have := hs.2.2.2.2 v hj; rw [f] at this; cases this
  have hheld : held s = 0 := by
    unfold held
    rw [List.countP_eq_zero]
    intro c hc
    obtain ⟨i, hi⟩ := List.getElem?_of_mem hc
    rcases hjob i c hi with hj | hj <;> rw [hj] <;> simp [holds]
  have hfree : s.free = 64 := (idle_full h hheld).1
  refine ⟨?_, hfree⟩
  intro i c hc
  rcases hjob i c hc with hj | hj
  · have := ((reach_inv h).good i c hc).over hj
    cases hcl : c.client with
    | waiting => exact absurd hcl this
    | gone => exact Or.inl rfl
    | answered r => exact Or.inr ⟨r, rfl⟩
  · have := (never_stuck h hc (by rw [hj]; simp)).1 hj
    omega

theorem sum_set' {α : Type} (f : α → Nat) (d : α) : ∀ (l : List α) (i : Nat) (c : α), l[i]? = some c →
    ((l.set i d).map f).sum + f c = (l.map f).sum + f d
  | [], _, _, h => by simp at h
  | x :: l, 0, c, h => by
      simp only [List.getElem?_cons_zero, Option.some.injEq] at h
      subst h
      simp only [List.set_cons_zero, List.map_cons, List.sum_cons]
      omega
  | x :: l, i + 1, c, h => by
      simp only [List.getElem?_cons_succ] at h
      have := sum_set' f d l i c h
      simp only [List.set_cons_succ, List.map_cons, List.sum_cons]
      omega

/-- Specification: what is left to do for all calls. -/
def total (s : St R V) : Nat := (s.calls.map fun c => left c.job).sum

theorem total_set {s : St R V} {i : Nat} {c : Call V} (d : Call V) (hc : s.calls[i]? = some c) :
    total (setCall s i d) + left c.job = total s + left d.job :=
  sum_set' (fun c : Call V => left c.job) d s.calls i c hc

theorem release_total {e : Env R V K} {s : St R V} (h : Inv e 1 s) : total (release s) ≤ total s := by
  cases hq : s.queue with
  | nil => rw [release_nil hq]; exact Nat.le_refl _
  | cons j q =>
    have hjq : j ∈ s.queue := by rw [hq]; exact List.mem_cons_self
    obtain ⟨c, hc, hcq⟩ := (h.mem j).mp hjq
    rw [release_cons hq hc]
    have := total_set { c with job := .granted } hc
    rw [hcq] at this
    change total (setCall s j { c with job := .granted }) + 5 = total s + 4 at this
    show total (setCall s j { c with job := .granted }) ≤ total s
    omega

/-- Specification: a step of the node's own, of a call that is under way. -/
def isWork : Ev R → Bool
  | .poll _ => true
  | .start _ => true
  | .finish _ _ => true
  | .panic _ => true
  | .cancel _ => true
  | .send _ => true
  | _ => false

/-- Specification: a new request. -/
def isCall : Ev R → Bool
  | .call _ => true
  | _ => false

theorem step_total {e : Env R V K} {s t : St R V} {v : Ev R} (h : Inv e 0 s) (hs : step e s v = some t) :
    total t + (if isWork v then 1 else 0) ≤ total s + (if isCall v then 5 else 0) := by
  cases v with
  | commit r =>
    simp only [step, Option.some.injEq] at hs
    subst hs
    exact Nat.le_refl _
  | call q =>
    have key : ∀ d : Call V, t.calls = s.calls ++ [d] → left d.job ≤ 5 → total t + 0 ≤ total s + 5 := by
      intro d hd hl
      unfold total
      rw [hd]
      simp only [List.map_append, List.map_cons, List.map_nil, List.sum_append, List.sum_cons, List.sum_nil]
      omega
    dsimp only [step] at hs
    cases hsc : (screen q : Option (Reply V)) with
    | some r =>
      rw [hsc] at hs
      simp only [Option.some.injEq] at hs
      exact key _ (by rw [← hs]) (Nat.zero_le _)
    | none =>
      rw [hsc] at hs
      dsimp only at hs
      by_cases hf : 0 < s.free
      · rw [if_pos hf] at hs
        simp only [Option.some.injEq] at hs
        exact key _ (by rw [← hs]) (by simp [left])
      · rw [if_neg hf] at hs
        simp only [Option.some.injEq] at hs
        exact key _ (by rw [← hs]) (by simp [left])
  | poll j =>
    dsimp only [step] at hs
    cases hc : s.calls[j]? with
    | none => rw [hc] at hs; cases hs
    | some c =>
      rw [hc] at hs
      dsimp only at hs
      cases hj : c.job with
      | granted =>
        rw [hj] at hs
        simp only [if_true, Option.some.injEq] at hs
        subst hs
        have := total_set { c with job := .spawned } hc
        rw [hj] at this
        change total (setCall s j { c with job := .spawned }) + 4 = total s + 3 at this
        show total (setCall s j { c with job := .spawned }) + 1 ≤ total s + 0
        omega
      | _ => rw [hj] at hs; simp at hs
  | start j =>
    dsimp only [step] at hs
    cases hc : s.calls[j]? with
    | none => rw [hc] at hs; cases hs
    | some c =>
      rw [hc] at hs
      dsimp only at hs
      cases hj : c.job with
      | spawned =>
        rw [hj] at hs
        simp only [if_true, Option.some.injEq] at hs
        subst hs
        have := total_set { c with job := .running s.chain.length } hc
        rw [hj] at this
        change total (setCall s j { c with job := .running s.chain.length }) + 3 = total s + 2 at this
        show total (setCall s j { c with job := .running s.chain.length }) + 1 ≤ total s + 0
        omega
      | _ => rw [hj] at hs; simp at hs
  | finish j fault =>
    dsimp only [step] at hs
    cases hc : s.calls[j]? with
    | none => rw [hc] at hs; cases hs
    | some c =>
      rw [hc] at hs
      dsimp only at hs
      have g := h.good j c hc
      cases hj : c.job with
      | running tip =>
        rw [hj] at hs
        simp only [Option.some.injEq] at hs
        subst hs
        generalize hw : work e (if fault then none else s.chain[tip - 1]?) c.req = w
        have h1 : Inv e 1 (setCall s j { c with job := .finished w }) := by
          refine h.replace hc (by rw [hj]; simp) (by simp) ?_ (by rw [hj]; rfl)
          refine g.toJob (by rw [hj]; simp) _ (by simp) (by simp) (fun _ h' => by (cases h')) ?_ (by simp)
          intro v hv
          cases hv
          subst hw
          obtain ⟨a, b⟩ := g.running tip hj
          refine ⟨tip, a, b, ?_⟩
          cases fault with
          | true => exact Or.inr rfl
          | false =>
            have hp := g.pos
            have hlt : tip - 1 < s.chain.length := by omega
            refine Or.inl ⟨s.chain[tip - 1], List.getElem?_eq_getElem hlt, ?_⟩
            simp only [Bool.false_eq_true, if_false, List.getElem?_eq_getElem hlt]
        have h2 := release_total h1
        have := total_set { c with job := .finished w } hc
        rw [hj] at this
        change total (setCall s j { c with job := .finished w }) + 2 = total s + 1 at this
        show total (release (setCall s j { c with job := .finished w })) + 1 ≤ total s + 0
        omega
      | _ => rw [hj] at hs; simp at hs
  | panic j =>
    dsimp only [step] at hs
    cases hc : s.calls[j]? with
    | none => rw [hc] at hs; cases hs
    | some c =>
      rw [hc] at hs
      dsimp only at hs
      have g := h.good j c hc
      cases hj : c.job with
      | running tip =>
        rw [hj] at hs
        simp only [Option.some.injEq] at hs
        subst hs
        have hno : c.job ≠ .over := by rw [hj]; simp
        have h1 : Inv e 1 (setCall s j { c with job := .over, client := failClient c.client }) := by
          refine h.replace hc (by rw [hj]; simp) (by simp) ?_ (by rw [hj]; rfl)
          exact g.toOver hno _ (failClient_ne _) (fun r hr => Or.inl (failClient_ans (g.notAnswered hno) hr))
        have h2 := release_total h1
        have := total_set { c with job := .over, client := failClient c.client } hc
        rw [hj] at this
        change total (setCall s j { c with job := .over, client := failClient c.client }) + 2 = total s + 0 at this
        show total (release (setCall s j { c with job := .over, client := failClient c.client })) + 1 ≤ total s + 0
        omega
      | _ => rw [hj] at hs; simp at hs
  | cancel j =>
    dsimp only [step] at hs
    cases hc : s.calls[j]? with
    | none => rw [hc] at hs; cases hs
    | some c =>
      rw [hc] at hs
      dsimp only at hs
      have g := h.good j c hc
      cases hj : c.job with
      | spawned =>
        rw [hj] at hs
        simp only [if_true, Option.some.injEq] at hs
        subst hs
        have hno : c.job ≠ .over := by rw [hj]; simp
        have h1 : Inv e 1 (setCall s j { c with job := .over, client := failClient c.client }) := by
          refine h.replace hc (by rw [hj]; simp) (by simp) ?_ (by rw [hj]; rfl)
          exact g.toOver hno _ (failClient_ne _) (fun r hr => Or.inl (failClient_ans (g.notAnswered hno) hr))
        have h2 := release_total h1
        have := total_set { c with job := .over, client := failClient c.client } hc
        rw [hj] at this
        change total (setCall s j { c with job := .over, client := failClient c.client }) + 3 = total s + 0 at this
        show total (release (setCall s j { c with job := .over, client := failClient c.client })) + 1 ≤ total s + 0
        omega
      | _ => rw [hj] at hs; simp at hs
  | send j =>
    dsimp only [step] at hs
    cases hc : s.calls[j]? with
    | none => rw [hc] at hs; cases hs
    | some c =>
      rw [hc] at hs
      dsimp only at hs
      cases hj : c.job with
      | finished w =>
        rw [hj] at hs
        simp only [Option.some.injEq] at hs
        subst hs
        have := total_set { c with job := .over, client := giveClient w c.client } hc
        rw [hj] at this
        change total (setCall s j { c with job := .over, client := giveClient w c.client }) + 1 = total s + 0 at this
        show total (setCall s j { c with job := .over, client := giveClient w c.client }) + 1 ≤ total s + 0
        omega
      | _ => rw [hj] at hs; simp at hs
  | leave j =>
    dsimp only [step] at hs
    cases hc : s.calls[j]? with
    | none => rw [hc] at hs; cases hs
    | some c =>
      rw [hc] at hs
      dsimp only at hs
      have g := h.good j c hc
      cases hcl : c.client with
      | gone => rw [hcl] at hs; simp at hs
      | answered r => rw [hcl] at hs; simp at hs
      | waiting =>
        rw [hcl] at hs
        dsimp only at hs
        have same : ∀ d : Call V, left d.job ≤ left c.job → total (setCall s j d) ≤ total s := by
          intro d hd
          have := total_set d hc
          omega
        cases hj : c.job with
        | queued =>
          rw [hj] at hs
          simp only [Option.some.injEq] at hs
          subst hs
          exact same { c with job := .over, client := .gone } (Nat.zero_le _)
        | granted =>
          rw [hj] at hs
          simp only [Option.some.injEq] at hs
          subst hs
          have h1 : Inv e 1 (setCall s j { c with job := .over, client := .gone }) := by
            refine h.replace hc (by rw [hj]; simp) (by simp) ?_ (by rw [hj]; rfl)
            exact g.toOver (by rw [hj]; simp) _ (by simp) (fun r hr => by (cases hr))
          exact Nat.le_trans (release_total h1) (same _ (Nat.zero_le _))
        | over => exact absurd hcl (g.over hj)
        | spawned | running tip | finished w =>
          rw [hj] at hs
          simp only [Option.some.injEq] at hs
          subst hs
          exact same _ (by rw [hj]; exact Nat.le_refl _)

/-- **C102.** The node's own steps cannot go on for ever without new requests: in any history they are at most five for
each request, so with `never_stuck` and `settled` every client that stays is answered. -/
theorem work_bounded {e : Env R V K} : ∀ (vs : List (Ev R)) {s t : St R V}, Reach e s → run e s vs = some t →
    total t + vs.countP isWork ≤ total s + 5 * vs.countP isCall
  | [], s, t, _, hr => by
      simp only [run, Option.some.injEq] at hr
      subst hr
      simp
  | v :: vs, s, t, h, hr => by
      rw [run] at hr
      cases hst : step e s v with
      | none => rw [hst] at hr; cases hr
      | some m =>
        rw [hst] at hr
        have h1 := work_bounded vs (Reach.step v h hst) hr
        have h2 := step_total (reach_inv h) hst
        rw [List.countP_cons, List.countP_cons]
        cases hw : isWork v <;> cases hcl : isCall v <;> rw [hw, hcl] at h2 <;>
          simp only [Bool.false_eq_true, if_false, if_true] at h2 ⊢ <;> omega

/-! ### The answers -/

/-- **C102.** An answer handed over is the answer to the request of this call, computed on one block, and that block was
the tip at some moment between the arrival of the call and the hand-over. -/
theorem answer_from_one_tip {e : Env R V K} {s t : St R V} (h : Reach e s) {i : Nat} {c d : Call V} {r : Reply V}
    (hc : s.calls[i]? = some c) (hw : c.client = .waiting) (hs : step e s (.send i) = some t)
    (hd : t.calls[i]? = some d) (hr : d.client = .answered r) :
    d.req = c.req ∧ ∃ tip, c.since ≤ tip ∧ tip ≤ s.chain.length ∧
      ((∃ b, s.chain[tip - 1]? = some b ∧ r = work e (some b) c.req) ∨ r = work e none c.req) := by
  have g := (reach_inv h).good i c hc
  dsimp only [step] at hs
  rw [hc] at hs
  dsimp only at hs
  cases hj : c.job with
  | finished w =>
    rw [hj] at hs
    simp only [Option.some.injEq] at hs
    subst hs
    change (s.calls.set i _)[i]? = some d at hd
    rw [set_get s.calls i i c _ hc, if_pos rfl] at hd
    simp only [Option.some.injEq] at hd
    subst hd
    refine ⟨rfl, ?_⟩
    have : r = w := giveClient_ans (g.notAnswered (by rw [hj]; simp)) hr
    rw [this]
    exact g.finished w hj
  | _ => rw [hj] at hs; simp at hs

/-- **C102.** Whatever answer a client ever has: it was refused for the length of the key, or the node failed, or it is
the work of its own request on one block of the chain that is not older than the request. -/
theorem answers {e : Env R V K} {s : St R V} (h : Reach e s) {i : Nat} {c : Call V} {r : Reply V}
    (hc : s.calls[i]? = some c) (hr : c.client = .answered r) :
    (screen c.req : Option (Reply V)) = some r ∨ r = .internal ∨
      ∃ tip, c.since ≤ tip ∧ tip ≤ s.chain.length ∧
        ((∃ b, s.chain[tip - 1]? = some b ∧ r = work e (some b) c.req) ∨ r = work e none c.req) :=
  (((reach_inv h).good i c hc).answered r hr).2

end Rpc
end Verif
