import Verif.Proposer.CertifierProps
/-
C98: the certifier never lets two different certificates for the same header leave the node through its
main path, whatever crashes happen; what a re-publication may do.
-/
namespace Verif.Crt

open Verif

theorem Inv.acquire {E : Env} (hc : E.c.WF) {s : S} (i : Inv E s) {k : Nat} {t : Task}
    (hk : s.tasks[k]? = some t) (hl : lockFree s = true) (ok : Bool) :
    Inv E { Crt.setTask s k { t with stage := (acquire E s.log t.h ok).2 } with
              log := (acquire E s.log t.h ok).1 } := by
  unfold Crt.acquire
  cases hf : findCert s.log t.h.digest with
  | some x => exact i.setTask (t' := { t with stage := .again x }) hk rfl (fun _ => .inr hl) (findCert_some hf)
  | none =>
    dsimp only
    have hd := i.setTask (t' := { t with stage := .done }) hk rfl (fun h => by cases h) trivial
    split
    · exact hd
    · rename_i he
      have he : t.h.epoch = E.c.epoch := not_not.mp he
      split
      · exact hd
      · exact i.feed hc hk (.inr hl) he (findCert_none hf) [] (ownVote E t.h) rfl ok

theorem supersedes_of {E : Env} {s : S} (i : Inv E s) {h : Header} (hm : mayPropose E s h = true) :
    ∀ h0, Rec.last h0 ∈ s.log → h0.epoch = E.c.epoch → h0.round ≤ h.round := by
  intro h0 hh he
  simp only [mayPropose, Bool.and_eq_true, decide_eq_true_eq] at hm
  have := i.bound h0 hh he
  omega

theorem mayPropose_epoch {E : Env} {s : S} {h : Header} (hm : mayPropose E s h = true) :
    h.epoch = E.c.epoch := by
  simp only [mayPropose, Bool.and_eq_true, decide_eq_true_eq] at hm
  exact hm.1.1.1.2

theorem mayPropose_round {E : Env} {s : S} {h : Header} (hm : mayPropose E s h = true) :
    h.round = max (s.round + 1) (s.primary + 1) := by
  simp only [mayPropose, Bool.and_eq_true, decide_eq_true_eq] at hm
  exact hm.1.1.1.1

theorem TInv.notice {E : Env} {log : List Rec} {n : Nat} {t : Task} (h : TInv E log n t) :
    TInv E log n (notice t) := by
  unfold Crt.notice; split <;> exact h

theorem notice_stage (t : Task) : (notice t).stage = t.stage := by unfold notice; split <;> rfl

theorem notice_h (t : Task) : (notice t).h = t.h := by unfold notice; split <;> rfl

/-- Every step keeps the invariant. -/
theorem Inv.step {E : Env} (hc : E.c.WF) {s s' : S} {e : Ev} (i : Inv E s) (h : step E s e = some s') :
    Inv E s' := by
  cases e with
  | propose hd =>
    simp only [Crt.step] at h
    split at h
    · rename_i hm
      cases h
      have hep := mayPropose_epoch hm.2
      have hr := mayPropose_round hm.2
      have j : Inv E { s with round := hd.round, primary := hd.round } := { i with
        bound := fun h0 hh he => by
          have := supersedes_of i hm.2 h0 hh he
          show h0.round ≤ max (hd.round + 1) hd.round; omega }
      refine j.beginStore hd (fun _ => ?_) (fun h0 hh he => ⟨hep, supersedes_of i hm.2 h0 hh he⟩)
      show hd.round ≤ max (hd.round + 1) hd.round; omega
    · cases h
  | repropose =>
    simp only [Crt.step] at h
    split at h
    · rename_i w hw
      split at h
      · cases h
        exact i.beginStore w (fun he => i.bound w (lastProposed_mem hw) he)
          (fun h0 hh he => lastProposed_top i.lasts hw hh he)
      · cases h
    · cases h
  | stored ok =>
    simp only [Crt.step] at h
    split at h
    · split at h
      · split at h
        · cases h; exact { i with }
        · cases h
      · cases h; exact { i with }
    · cases h
  | send =>
    simp only [Crt.step] at h
    split at h
    · rename_i hd _
      cases h
      refine { i with wf := ?_, task := ?_, que := ?_, extp := ?_ }
      · exact fun d x hx => ⟨(i.wf d x hx).1, fun he =>
          ⟨((i.wf d x hx).2 he).1, List.mem_cons_of_mem _ ((i.wf d x hx).2 he).2⟩⟩
      · exact fun t ht => ⟨List.mem_cons_of_mem _ (i.task t ht).1, (i.task t ht).2⟩
      · intro g hg
        rcases List.mem_append.mp hg with hg | hg
        · exact List.mem_cons_of_mem _ (i.que g hg)
        · rw [List.mem_singleton.mp hg]; exact List.mem_cons_self
      · exact fun w x hx he => ⟨(i.extp w x hx he).1, List.mem_cons_of_mem _ (i.extp w x hx he).2⟩
    · cases h
  | flush n =>
    simp only [Crt.step] at h
    split at h
    · rename_i hn
      cases h
      exact { i with
        dl := hn.2
        task := fun t ht => ⟨(i.task t ht).1, (i.task t ht).2.disk hn.1⟩
        ext := fun w x hx hw => mem_take_mono hn.1 (i.ext w x hx hw) }
    · cases h
  | recv =>
    simp only [Crt.step] at h
    split at h
    · rename_i hd q hq
      cases h
      have hdh : hd ∈ s.handed := i.que hd (by rw [hq]; simp)
      refine { i with lock := ?_, task := ?_, que := ?_ }
      · intro a b t u ht hu lt lu
        have key : ∀ (a : Nat) (t : Task), (s.tasks.map notice ++ [{ h := hd }])[a]? = some t →
            t.stage.locked = true → ∃ t0, s.tasks[a]? = some t0 ∧ t0.stage.locked = true := by
          intro a t ht lt
          rw [List.getElem?_append] at ht
          split at ht
          · rw [List.getElem?_map] at ht
            cases h0 : s.tasks[a]? with
            | none => rw [h0] at ht; cases ht
            | some t0 =>
              rw [h0] at ht
              cases ht
              exact ⟨t0, rfl, by rw [← notice_stage]; exact lt⟩
          · rw [List.mem_singleton.mp (List.mem_of_getElem? ht)] at lt
            cases lt
        obtain ⟨t0, h1, h2⟩ := key a t ht lt
        obtain ⟨u0, h3, h4⟩ := key b u hu lu
        exact i.lock a b t0 u0 h1 h3 h2 h4
      · intro t ht
        rcases List.mem_append.mp ht with ht | ht
        · obtain ⟨t0, h0, e⟩ := List.mem_map.mp ht
          rw [← e, notice_h]
          exact ⟨(i.task t0 h0).1, (i.task t0 h0).2.notice⟩
        · rw [List.mem_singleton.mp ht]; exact ⟨hdh, trivial⟩
      · intro g hg; exact i.que g (by rw [hq]; exact List.mem_cons_of_mem _ hg)
    · cases h
  | start k =>
    simp only [Crt.step] at h
    split at h
    · rename_i t hk
      split at h
      · cases h
        exact i.setTask (t' := { t with stage := .waiting }) hk rfl (fun h => by cases h) trivial
      · cases h
    · cases h
  | acquire k ok =>
    simp only [Crt.step] at h
    split at h
    · rename_i t hk
      split at h
      · rename_i hw
        cases h
        exact i.acquire hc hk hw.2 ok
      · cases h
    · cases h
  | vote k v ok =>
    simp only [Crt.step] at h
    split at h
    · rename_i t hk
      split at h
      · rename_i st hst
        cases h
        have ti := (i.task t (List.mem_of_getElem? hk)).2
        unfold TInv at ti
        rw [hst] at ti
        obtain ⟨he, hn, vs, hv, rfl⟩ := ti
        have hl : t.stage.locked = true := by rw [hst]; rfl
        refine i.feed hc hk (.inl hl) he hn vs v ?_ ok
        cases vs with
        | nil => cases hv
        | cons a vs => exact hv
      · cases h
    · cases h
  | exhausted k =>
    simp only [Crt.step] at h
    split at h
    · rename_i t hk
      split at h
      · cases h
        exact i.setTask (t' := { t with stage := .done }) hk rfl (fun h => by cases h) trivial
      · cases h
    · cases h
  | cancel k =>
    simp only [Crt.step] at h
    split at h
    · rename_i t hk
      split at h
      · split at h
        · cases h
          exact i.setTask (t' := { t with stage := .done }) hk rfl (fun h => by cases h) trivial
        · cases h
      · cases h
    · cases h
  | ack k ok =>
    simp only [Crt.step] at h
    split at h
    · rename_i t hk
      split at h
      · rename_i x pos hst
        have ti := (i.task t (List.mem_of_getElem? hk)).2
        unfold TInv at ti
        rw [hst] at ti
        split at h
        · split at h
          · rename_i hp
            cases h
            exact i.setTask (t' := { t with stage := .durable x }) hk rfl (fun h => by cases h)
              ⟨mem_take_mono hp ti.1, ti.2⟩
          · cases h
        · cases h
          exact i.setTask (t' := { t with stage := .done }) hk rfl (fun h => by cases h) trivial
      · cases h
    · cases h
  | process k ok =>
    simp only [Crt.step] at h
    split at h
    · rename_i t hk
      split at h
      · rename_i x hst
        cases h
        have ti := (i.task t (List.mem_of_getElem? hk)).2
        unfold TInv at ti
        rw [hst] at ti
        have hw := i.wf _ _ (List.mem_of_mem_take ti.1)
        have j := i.setTask (t' := { t with stage := if ok then .processed x else .done }) hk rfl
          (fun h => by cases ok <;> cases h) (by
            cases ok with
            | false => trivial
            | true => exact ti)
        refine { j with ext := ?_, extp := ?_, own := ?_ }
        · intro w y hy hwy
          rcases List.mem_cons.mp hy with hy | hy
          · cases hy; rw [hw.1]; exact ti.1
          · exact i.ext w y hy hwy
        · intro w y hy
          rcases List.mem_cons.mp hy with hy | hy
          · cases hy; exact hw.2
          · exact i.extp w y hy
        · intro w y hy hne
          rcases List.mem_cons.mp hy with hy | hy
          · cases hy; exact ti.2
          · exact i.own w y hy hne
      · cases h
    · cases h
  | publish k =>
    simp only [Crt.step] at h
    split at h
    · rename_i t hk
      have ti := (i.task t (List.mem_of_getElem? hk)).2
      unfold TInv at ti
      have j := i.setTask (t' := { t with stage := .done }) hk rfl (fun h => by cases h) trivial
      split at h
      · rename_i x hst
        cases h
        rw [hst] at ti
        have hw := i.wf _ _ (List.mem_of_mem_take ti.1)
        refine { j with ext := ?_, extp := ?_, own := ?_ }
        · intro w y hy hwy
          rcases List.mem_cons.mp hy with hy | hy
          · cases hy; rw [hw.1]; exact ti.1
          · exact i.ext w y hy hwy
        · intro w y hy
          rcases List.mem_cons.mp hy with hy | hy
          · cases hy; exact hw.2
          · exact i.extp w y hy
        · intro w y hy hne
          rcases List.mem_cons.mp hy with hy | hy
          · cases hy; exact ti.2
          · exact i.own w y hy hne
      · rename_i x hst
        cases h
        rw [hst] at ti
        have hw := i.wf _ _ ti
        refine { j with ext := ?_, extp := ?_, own := ?_ }
        · intro w y hy hwy
          have hor : w ≠ How.again ∨ s.early = false := by
            rcases hwy with h | h
            · exact .inl h
            · simp only [Bool.or_eq_false_iff] at h; exact .inr h.1
          rcases List.mem_cons.mp hy with hy | hy
          · cases hy
            rcases hwy with h | h
            · exact absurd rfl h
            · simp only [Bool.or_eq_false_iff, Bool.not_eq_false', onDisk, decide_eq_true_eq] at h
              exact h.2
          · exact i.ext w y hy hor
        · intro w y hy
          rcases List.mem_cons.mp hy with hy | hy
          · cases hy; exact hw.2
          · exact i.extp w y hy
        · intro w y hy hne
          rcases List.mem_cons.mp hy with hy | hy
          · cases hy; exact absurd rfl hne
          · exact i.own w y hy hne
      · cases h
    · cases h
  | primary p =>
    simp only [Crt.step] at h
    split at h
    · rename_i hp
      cases h
      refine { i with bound := ?_ }
      intro h0 hh he
      have := i.bound h0 hh he
      show h0.round ≤ max (s.round + 1) p; omega
    · cases h
  | restart p =>
    simp only [Crt.step] at h
    cases h
    exact { i with
      lock := fun a b t u ht => by cases ht
      task := fun t ht => by cases ht
      que := fun t ht => by cases ht
      bound := fun h0 hh he => recovered_bound i.lasts p hh he }
  | crash k p =>
    simp only [Crt.step] at h
    split at h
    · rename_i hk
      cases h
      have hp := i.lasts.sublist (List.take_sublist k s.log)
      have hmem : ∀ r, r ∈ s.log.take k → r ∈ s.log := fun r => List.mem_of_mem_take
      refine { dl := ?_, uniq := ?_, wf := fun d x hx => i.wf d x (hmem _ hx),
               lock := (fun a b t u ht => by cases ht),
               task := (fun t ht => by cases ht),
               que := (fun t ht => by cases ht), ext := ?_, extp := i.extp, own := i.own, lasts := hp,
               bound := fun h0 hh he => recovered_bound hp p hh he }
      · show k ≤ (s.log.take k).length
        rw [List.length_take]; omega
      · exact i.uniq.sublist ((List.take_sublist k s.log).filterMap _)
      · intro w x hx hw
        show _ ∈ (s.log.take k).take k
        rw [List.take_take, Nat.min_self]
        exact mem_take_mono hk.1 (i.ext w x hx hw)
    · cases h

theorem Inv.init {E : Env} {s : S} (h : Init E s) : Inv E s where
  dl := by rw [h.durable]
  uniq := h.uniq
  wf := fun d x hx => by
    obtain ⟨h1, h2, -⟩ := h.stale _ hx
    exact ⟨h1, fun e => absurd e h2⟩
  lock := fun i j t u ht => by rw [h.tasks] at ht; cases ht
  task := fun t ht => by rw [h.tasks] at ht; cases ht
  que := fun t ht => by rw [h.queue] at ht; cases ht
  ext := fun w x hx => by rw [h.ext] at hx; cases hx
  extp := fun w x hx => by rw [h.ext] at hx; cases hx
  own := fun w x hx => by rw [h.ext] at hx; cases hx
  lasts := by
    refine List.Pairwise.imp_of_mem (R := fun _ _ => True) ?_ (List.pairwise_of_forall (fun _ _ => trivial))
    intro a b ha _ _ h1 h2 e1 _ he
    subst e1
    exact absurd he (h.stale _ ha).1
  bound := fun h0 hh he => absurd he (h.stale _ hh).1

theorem Inv.runs {E : Env} (hc : E.c.WF) {s s' : S} {es : List Ev} (i : Inv E s)
    (h : runs E s es = some s') : Inv E s' := by
  induction es generalizing s with
  | nil => cases h; exact i
  | cons e es ih =>
    obtain ⟨s1, h1, h2⟩ := Option.bind_eq_some_iff.mp h
    exact ih (i.step hc h1) h2

theorem Reach.inv {E : Env} (hc : E.c.WF) {s : S} (h : Reach E s) : Inv E s := by
  obtain ⟨s0, es, h0, hr⟩ := h
  exact (Inv.init h0).runs hc hr

end Verif.Crt
