import Verif.Rpc.BlockingInv
/-
Property C102: the invariant holds in every state that occurs.
-/
namespace Verif
namespace Rpc

variable {R V K : Type}

theorem start_inv (e : Env R V K) (chain : List R) (h : chain ≠ []) : Inv e 0 (start chain : St R V) := by
  refine ⟨rfl, fun _ => rfl, ?_, List.Pairwise.nil, ?_, h⟩
  · intro j
    constructor
    · intro hj
      exact absurd hj (by simp [start])
    · rintro ⟨c, hc, _⟩
      simp [start] at hc
  · intro i c hc
    simp [start] at hc

/-- A job that has begun to use a permit stays with a call whose client is there or gone. -/
theorem Good.notAnswered {e : Env R V K} {chain : List R} {c : Call V} (g : Good e chain c) (h : c.job ≠ .over) (r : Reply V) :
    c.client ≠ .answered r := fun hr => h (g.answered r hr).1

theorem Good.unscreened {e : Env R V K} {chain : List R} {c : Call V} (g : Good e chain c) (h : c.job ≠ .over) :
    (screen c.req : Option (Reply V)) = none := by
  cases hs : (screen c.req : Option (Reply V)) with
  | none => rfl
  | some r => exact absurd (g.screened r hs).1 h

/-- The call moves to a job that is not over, with the same client. -/
theorem Good.toJob {e : Env R V K} {chain : List R} {c : Call V} (g : Good e chain c) (h : c.job ≠ .over) (j : Job V)
    (h1 : j ≠ .queued) (h2 : j ≠ .granted) (h3 : ∀ tip, j = .running tip → c.since ≤ tip ∧ tip ≤ chain.length)
    (h4 : ∀ v, j = .finished v → FromOneTip e chain c v) (h5 : j ≠ .over) : Good e chain { c with job := j } := by
  refine ⟨g.pos, g.since, ?_, fun h' => absurd h' h1, fun h' => absurd h' h2, h3, h4, fun h' => absurd h' h5, ?_⟩
  · intro r hr
    exact absurd ((g.unscreened h).symm.trans hr) (by simp)
  · intro r hr
    exact absurd hr (g.notAnswered h r)

/-- The call is over: the client is gone or has an answer that may be given. -/
theorem Good.toOver {e : Env R V K} {chain : List R} {c : Call V} (g : Good e chain c) (h : c.job ≠ .over) (cl : Client V)
    (h1 : cl ≠ .waiting) (h2 : ∀ r, cl = .answered r → r = .internal ∨ FromOneTip e chain c r) :
    Good e chain { c with job := .over, client := cl } := by
  refine ⟨g.pos, g.since, ?_, (fun h' => by (cases h')), (fun h' => by (cases h')), (fun _ h' => by (cases h')),
    (fun _ h' => by (cases h')), fun _ => h1, ?_⟩
  · intro r hr
    exact absurd ((g.unscreened h).symm.trans hr) (by simp)
  · intro r hr
    exact ⟨rfl, Or.inr (h2 r hr)⟩

/-- The client goes, the work goes on. -/
theorem Good.toGone {e : Env R V K} {chain : List R} {c : Call V} (g : Good e chain c) (h : c.job ≠ .over)
    (hq : c.job ≠ .queued) (hg : c.job ≠ .granted) : Good e chain { c with client := .gone } := by
  refine ⟨g.pos, g.since, ?_, fun h' => absurd h' hq, fun h' => absurd h' hg, g.running, g.finished,
    fun h' => absurd h' h, ?_⟩
  · intro r hr
    exact absurd ((g.unscreened h).symm.trans hr) (by simp)
  · intro r hr
    cases hr

theorem failClient_ne (c : Client V) : failClient c ≠ .waiting := by
  cases c <;> simp [failClient]

theorem giveClient_ne (v : Reply V) (c : Client V) : giveClient v c ≠ .waiting := by
  cases c <;> simp [giveClient]

theorem failClient_ans {c : Client V} {r : Reply V} (hc : ∀ r, c ≠ .answered r) (h : failClient c = .answered r) :
    r = .internal := by
  cases c with
  | waiting => simp only [failClient, Client.answered.injEq] at h; exact h.symm
  | gone => simp [failClient] at h
  | answered x => exact absurd rfl (hc x)

theorem giveClient_ans {c : Client V} {v r : Reply V} (hc : ∀ r, c ≠ .answered r) (h : giveClient v c = .answered r) :
    r = v := by
  cases c with
  | waiting => simp only [giveClient, Client.answered.injEq] at h; exact h.symm
  | gone => simp [giveClient] at h
  | answered x => exact absurd rfl (hc x)

theorem step_inv {e : Env R V K} {s t : St R V} (v : Ev R) (h : Inv e 0 s) (hs : step e s v = some t) : Inv e 0 t := by
  cases v with
  | commit r =>
    simp only [step, Option.some.injEq] at hs
    subst hs
    exact ⟨h.perm, h.idle, h.mem, h.sorted, fun i c hc => (h.good i c hc).mono r, by simp⟩
  | call q =>
    have hlen : 1 ≤ s.chain.length := List.length_pos_iff.mpr h.chain
    dsimp only [step] at hs
    cases hsc : (screen q : Option (Reply V)) with
    | some r =>
      rw [hsc] at hs
      simp only [Option.some.injEq] at hs
      subst hs
      refine h.push (d := ⟨q, s.chain.length, .answered r, .over⟩) ?_ (by simp) s.free (Nat.le_refl _) rfl
      refine ⟨hlen, Nat.le_refl _, ?_, (fun h' => by (cases h')), (fun h' => by (cases h')), (fun _ h' => by (cases h')),
        (fun _ h' => by (cases h')), (fun _ h' => by (cases h')), ?_⟩
      · intro x hx
        change (screen q : Option (Reply V)) = some x at hx
        rw [hsc] at hx
        cases hx
        exact ⟨rfl, rfl⟩
      · intro x hx
        cases hx
        exact ⟨rfl, Or.inl hsc⟩
    | none =>
      rw [hsc] at hs
      dsimp only at hs
      by_cases hf : 0 < s.free
      · rw [if_pos hf] at hs
        simp only [Option.some.injEq] at hs
        subst hs
        refine h.push (d := ⟨q, s.chain.length, .waiting, .spawned⟩) ?_ (by simp) (s.free - 1) (Nat.sub_le _ _)
          (by show s.free = s.free - 1 + 1 + 0; omega)
        refine ⟨hlen, Nat.le_refl _, ?_, (fun _ => rfl), (fun _ => rfl), (fun _ h' => by (cases h')),
          (fun _ h' => by (cases h')), (fun h' => by (cases h')), (fun _ h' => by (cases h'))⟩
        intro x hx
        change (screen q : Option (Reply V)) = some x at hx
        rw [hsc] at hx
        cases hx
      · rw [if_neg hf] at hs
        simp only [Option.some.injEq] at hs
        subst hs
        refine h.enqueue (d := ⟨q, s.chain.length, .waiting, .queued⟩) ?_ rfl (by omega)
        refine ⟨hlen, Nat.le_refl _, ?_, (fun _ => rfl), (fun _ => rfl), (fun _ h' => by (cases h')),
          (fun _ h' => by (cases h')), (fun h' => by (cases h')), (fun _ h' => by (cases h'))⟩
        intro x hx
        change (screen q : Option (Reply V)) = some x at hx
        rw [hsc] at hx
        cases hx
  | poll i =>
    dsimp only [step] at hs
    cases hc : s.calls[i]? with
    | none => rw [hc] at hs; cases hs
    | some c =>
      rw [hc] at hs
      dsimp only at hs
      have g := h.good i c hc
      cases hj : c.job with
      | granted =>
        rw [hj] at hs
        simp only [if_true, Option.some.injEq] at hs
        subst hs
        refine h.replace hc (by rw [hj]; simp) (by simp) ?_ (by rw [hj]; rfl)
        exact g.toJob (by rw [hj]; simp) _ (by simp) (by simp) (fun _ h' => by (cases h')) (fun _ h' => by (cases h')) (by simp)
      | _ => rw [hj] at hs; simp at hs
  | start i =>
    dsimp only [step] at hs
    cases hc : s.calls[i]? with
    | none => rw [hc] at hs; cases hs
    | some c =>
      rw [hc] at hs
      dsimp only at hs
      have g := h.good i c hc
      cases hj : c.job with
      | spawned =>
        rw [hj] at hs
        simp only [if_true, Option.some.injEq] at hs
        subst hs
        refine h.replace hc (by rw [hj]; simp) (by simp) ?_ (by rw [hj]; rfl)
        refine g.toJob (by rw [hj]; simp) _ (by simp) (by simp) ?_ (fun _ h' => by (cases h')) (by simp)
        intro tip ht
        cases ht
        exact ⟨g.since, Nat.le_refl _⟩
      | _ => rw [hj] at hs; simp at hs
  | finish i fault =>
    dsimp only [step] at hs
    cases hc : s.calls[i]? with
    | none => rw [hc] at hs; cases hs
    | some c =>
      rw [hc] at hs
      dsimp only at hs
      have g := h.good i c hc
      cases hj : c.job with
      | running tip =>
        rw [hj] at hs
        simp only [Option.some.injEq] at hs
        subst hs
        refine Inv.release ?_
        refine h.replace hc (by rw [hj]; simp) (by simp) ?_ (by rw [hj]; rfl)
        refine g.toJob (by rw [hj]; simp) _ (by simp) (by simp) (fun _ h' => by (cases h')) ?_ (by simp)
        intro v hv
        cases hv
        obtain ⟨h1, h2⟩ := g.running tip hj
        refine ⟨tip, h1, h2, ?_⟩
        cases fault with
        | true => exact Or.inr rfl
        | false =>
          have hp := g.pos
          have hlt : tip - 1 < s.chain.length := by omega
          refine Or.inl ⟨s.chain[tip - 1], List.getElem?_eq_getElem hlt, ?_⟩
          simp only [Bool.false_eq_true, if_false, List.getElem?_eq_getElem hlt]
      | _ => rw [hj] at hs; simp at hs
  | panic i =>
    dsimp only [step] at hs
    cases hc : s.calls[i]? with
    | none => rw [hc] at hs; cases hs
    | some c =>
      rw [hc] at hs
      dsimp only at hs
      have g := h.good i c hc
      cases hj : c.job with
      | running tip =>
        rw [hj] at hs
        simp only [Option.some.injEq] at hs
        subst hs
        have hno : c.job ≠ .over := by rw [hj]; simp
        refine Inv.release ?_
        refine h.replace hc (by rw [hj]; simp) (by simp) ?_ (by rw [hj]; rfl)
        exact g.toOver hno _ (failClient_ne _) (fun r hr => Or.inl (failClient_ans (g.notAnswered hno) hr))
      | _ => rw [hj] at hs; simp at hs
  | cancel i =>
    dsimp only [step] at hs
    cases hc : s.calls[i]? with
    | none => rw [hc] at hs; cases hs
    | some c =>
      rw [hc] at hs
      dsimp only at hs
      have g := h.good i c hc
      cases hj : c.job with
      | spawned =>
        rw [hj] at hs
        simp only [if_true, Option.some.injEq] at hs
        subst hs
        have hno : c.job ≠ .over := by rw [hj]; simp
        refine Inv.release ?_
        refine h.replace hc (by rw [hj]; simp) (by simp) ?_ (by rw [hj]; rfl)
        exact g.toOver hno _ (failClient_ne _) (fun r hr => Or.inl (failClient_ans (g.notAnswered hno) hr))
      | _ => rw [hj] at hs; simp at hs
  | send i =>
    dsimp only [step] at hs
    cases hc : s.calls[i]? with
    | none => rw [hc] at hs; cases hs
    | some c =>
      rw [hc] at hs
      dsimp only at hs
      have g := h.good i c hc
      cases hj : c.job with
      | finished w =>
        rw [hj] at hs
        simp only [Option.some.injEq] at hs
        subst hs
        have hno : c.job ≠ .over := by rw [hj]; simp
        refine h.replace hc (by rw [hj]; simp) (by simp) ?_ (by rw [hj]; rfl)
        refine g.toOver hno _ (giveClient_ne _ _) (fun r hr => Or.inr ?_)
        rw [giveClient_ans (g.notAnswered hno) hr]
        exact g.finished w hj
      | _ => rw [hj] at hs; simp at hs
  | leave i =>
    dsimp only [step] at hs
    cases hc : s.calls[i]? with
    | none => rw [hc] at hs; cases hs
    | some c =>
      rw [hc] at hs
      dsimp only at hs
      have g := h.good i c hc
      cases hcl : c.client with
      | gone => rw [hcl] at hs; simp at hs
      | answered r => rw [hcl] at hs; simp at hs
      | waiting =>
        rw [hcl] at hs
        dsimp only at hs
        cases hj : c.job with
        | queued =>
          rw [hj] at hs
          simp only [Option.some.injEq] at hs
          subst hs
          exact h.dequeue hc hj (by simp) rfl
            (g.toOver (by rw [hj]; simp) _ (by simp) (fun r hr => by (cases hr)))
        | granted =>
          rw [hj] at hs
          simp only [Option.some.injEq] at hs
          subst hs
          refine Inv.release ?_
          refine h.replace hc (by rw [hj]; simp) (by simp) ?_ (by rw [hj]; rfl)
          exact g.toOver (by rw [hj]; simp) _ (by simp) (fun r hr => by (cases hr))
        | over => exact absurd hcl (g.over hj)
        | spawned =>
          rw [hj] at hs
          simp only [Option.some.injEq] at hs
          subst hs
          have hno : c.job ≠ .over := by rw [hj]; simp
          refine h.replace hc (by rw [hj]; simp) (by rw [← hj]; simp [hj]) ?_ (by rw [← hj])
          rw [← hj]
          exact g.toGone hno (by rw [hj]; simp) (by rw [hj]; simp)
        | running tip =>
          rw [hj] at hs
          simp only [Option.some.injEq] at hs
          subst hs
          have hno : c.job ≠ .over := by rw [hj]; simp
          refine h.replace hc (by rw [hj]; simp) (by rw [← hj]; simp [hj]) ?_ (by rw [← hj])
          rw [← hj]
          exact g.toGone hno (by rw [hj]; simp) (by rw [hj]; simp)
        | finished w =>
          rw [hj] at hs
          simp only [Option.some.injEq] at hs
          subst hs
          have hno : c.job ≠ .over := by rw [hj]; simp
          refine h.replace hc (by rw [hj]; simp) (by rw [← hj]; simp [hj]) ?_ (by rw [← hj])
          rw [← hj]
          exact g.toGone hno (by rw [hj]; simp) (by rw [hj]; simp)

theorem reach_inv {e : Env R V K} {s : St R V} (h : Reach e s) : Inv e 0 s := by
  induction h with
  | start chain hne => exact start_inv e chain hne
  | step v _ hs ih => exact step_inv v ih hs

end Rpc
end Verif
