import Verif.Proposer.Model
/-
The invariant behind C08: what a proposer sends is what the stored record says.
-/
namespace Verif
namespace Proposer

open Layered

/-- The stored headers of this run of the process, oldest first. -/
abbrev recsOf (n : Node) : List Header :=
  Guard.recs lastProposedTable lastProposalKey n.disk0 (written n.evs)

/-- The protection of the sent headers. -/
abbrev OkOf (n : Node) : Prop :=
  Guard.Ok Header.epoch Header.round lastProposedTable lastProposalKey n.epoch n.disk0 n.evs n.sent

/-- The order of headers. -/
abbrev leH (a b : Header) : Prop := Guard.le Header.epoch Header.round a b

/-- `h` is recorded, and nothing of this epoch is above it. -/
def Top (n : Node) (h : Header) : Prop :=
  h ∈ recsOf n ∧ ∀ w ∈ recsOf n, w.epoch = n.epoch → leH w h

/-- Barrier `b` protects `h`. -/
abbrev BehindOf (n : Node) (h : Header) (b : Nat) : Prop :=
  Guard.Behind Header.epoch Header.round lastProposedTable lastProposalKey n.epoch n.disk0 n.evs h b

/-- What is known of the proposal task. -/
def TaskOk (n : Node) (r : Run) : Task → Prop
  | .start h => Top n h ∨
      (h.epoch = n.epoch ∧ h.round ≤ r.round ∧
        ∀ w ∈ recsOf n, w.epoch = n.epoch → w.round < h.round)
  | .barrier h b => Top n h ∧ BehindOf n h b
  | .ready h => Top n h ∧ (h.epoch = n.epoch →
      ∃ b, BehindOf n h b ∧ (b, true) ∈ (Guard.db n.disk0 n.evs).acks)
  | .done _ => True

/-- What is known of a running proposer. -/
structure RunOk (n : Node) (r : Run) : Prop where
  bound : ∀ w ∈ recsOf n, w.epoch = n.epoch → w.round ≤ max r.round r.pr + 1
  task : ∀ t, r.task = some t → TaskOk n r t
  outRec : ∀ h ∈ r.out, h ∈ recsOf n
  outSent : ∀ h ∈ r.out, h ∈ n.sent
  outOrder : r.out.Pairwise (fun a b => a.epoch = n.epoch → b.epoch = n.epoch → leH b a)

/-- The invariant. -/
structure Inv (n : Node) : Prop where
  ok : OkOf n
  run : ∀ r, n.run = some r → RunOk n r

/-- The stored header is recorded. -/
theorem stored_mem {n : Node} {w : Header} (h : n.stored = some w) : w ∈ recsOf n := Guard.get_mem h

/-- What is stored tops everything of the epoch. -/
theorem stored_top {n : Node} (hi : OkOf n) {w : Header} (h : n.stored = some w) : Top n w := by
  refine ⟨stored_mem h, ?_⟩
  intro v hv he
  obtain ⟨w', h1, h2⟩ := hi.rec_le hv he
  have : n.stored = some w' := h1
  rw [h] at this
  cases this
  exact h2

theorem Top.congr {n n' : Node} {h : Header} (hr : recsOf n' = recsOf n) (he : n'.epoch = n.epoch)
    (ht : Top n h) : Top n' h := by
  unfold Top at ht ⊢
  rw [hr, he]; exact ht

theorem TaskOk.mono {n : Node} {r r' : Run} {t : Task} (hr : r.round ≤ r'.round) (h : TaskOk n r t) :
    TaskOk n r' t := by
  cases t with
  | start h' =>
    rcases h with h | ⟨h1, h2, h3⟩
    · exact .inl h
    · exact .inr ⟨h1, by omega, h3⟩
  | _ => exact h

theorem TaskOk.ext {n : Node} {r : Run} {t : Task} {x : Ev Header} (hx : Guard.foreign lastProposedTable x)
    (h : TaskOk n r t) : TaskOk { n with evs := n.evs ++ [x] } r t := by
  have hrec : recsOf { n with evs := n.evs ++ [x] } = recsOf n := Guard.recs_foreign hx _ _
  cases t with
  | start h' =>
    rcases h with h | ⟨h1, h2, h3⟩
    · exact .inl (h.congr hrec rfl)
    · exact .inr ⟨h1, h2, fun w hw => h3 w (by rw [← hrec]; exact hw)⟩
  | barrier h' b => exact ⟨h.1.congr hrec rfl, h.2.ext⟩
  | ready h' =>
    refine ⟨h.1.congr hrec rfl, fun he => ?_⟩
    obtain ⟨b, h1, h2⟩ := h.2 he
    exact ⟨b, h1.ext, Guard.acks_ext h2⟩
  | done h' => exact trivial

theorem processParents_round (r : Run) (ps : List Digest) (round : Round) :
    r.round ≤ (processParents r ps round).round := by
  unfold processParents; split
  · show r.round ≤ round; omega
  · split <;> exact Nat.le_refl _

theorem processParents_same (r : Run) (ps : List Digest) (round : Round) :
    (processParents r ps round).task = r.task ∧ (processParents r ps round).out = r.out := by
  unfold processParents; split
  · exact ⟨rfl, rfl⟩
  · split <;> exact ⟨rfl, rfl⟩

theorem processCommitted_same (r : Run) (rounds : List Round) :
    (processCommitted r rounds).task = r.task ∧ (processCommitted r rounds).out = r.out ∧
    (processCommitted r rounds).round = r.round ∧ (processCommitted r rounds).pr = r.pr := by
  unfold processCommitted; dsimp only; split <;> exact ⟨rfl, rfl, rfl, rfl⟩

theorem step_inv {mb : Nat} {n n' : Node} {a : Act} (hi : Inv n) (ha : a.Assumed n)
    (hs : Step mb n a n') : Inv n' := by
  obtain ⟨hok, hrun⟩ := hi
  cases hs with
  | start readOk pr genesis hr =>
    have ha : readOk = true := ha
    subst ha
    refine ⟨hok, ?_⟩
    intro r hr'
    cases hr'
    refine ⟨?_, ?_, ?_, ?_, ?_⟩
    · intro w hw he
      obtain ⟨s, h1, h2⟩ := hok.rec_le hw he
      have hst : n.stored = some s := h1
      have hse : s.epoch = n.epoch := by
        have := hok.stored_epoch h1
        have he' : w.epoch = n.epoch := he
        rcases h2 with h2 | h2 <;> omega
      have hle : w.round ≤ s.round := by
        rcases h2 with h2 | ⟨_, h2 | h2⟩
        · have he' : w.epoch = n.epoch := he
          omega
        · omega
        · rw [h2]; exact Nat.le_refl _
      show w.round ≤ max (recoveredRound true n.stored n.epoch pr) pr + 1
      rw [hst]
      unfold recoveredRound
      dsimp only
      rw [if_pos hse]
      split <;> omega
    · intro t ht; cases ht
    · intro h hh; cases hh
    · intro h hh; cases hh
    · exact List.Pairwise.nil
  | digest r d hr =>
    refine ⟨hok, ?_⟩
    intro r' hr'
    cases hr'
    have := hrun r hr
    exact ⟨this.bound, this.task, this.outRec, this.outSent, this.outOrder⟩
  | parents r ps round hr =>
    refine ⟨hok, ?_⟩
    intro r' hr'
    cases hr'
    have h := hrun r hr
    obtain ⟨ht, ho⟩ := processParents_same r ps round
    refine ⟨?_, ?_, ?_, ?_, ?_⟩
    · intro w hw he
      unfold processParents
      split
      · rename_i hlt
        obtain ⟨s, h1, h2⟩ := hok.rec_le hw he
        have hse : s.epoch = n.epoch := by
          have := hok.stored_epoch h1
          have he' : w.epoch = n.epoch := he
          rcases h2 with h2 | h2 <;> omega
        have := ha r s hr hlt h1 hse
        have hle : w.round ≤ s.round := by
          rcases h2 with h2 | ⟨_, h2 | h2⟩
          · have he' : w.epoch = n.epoch := he
            omega
          · omega
          · rw [h2]; exact Nat.le_refl _
        show w.round ≤ max round round + 1
        omega
      · split <;> exact h.bound w hw he
    · intro t ht'
      rw [ht] at ht'
      exact (h.task t ht').mono (processParents_round r ps round)
    · rw [ho]; exact h.outRec
    · rw [ho]; exact h.outSent
    · rw [ho]; exact h.outOrder
  | committed r rounds hr =>
    refine ⟨hok, ?_⟩
    intro r' hr'
    cases hr'
    have h := hrun r hr
    obtain ⟨h1, h2, h3, h4⟩ := processCommitted_same r rounds
    refine ⟨by rw [h3, h4]; exact h.bound, ?_, by rw [h2]; exact h.outRec, by rw [h2]; exact h.outSent,
      by rw [h2]; exact h.outOrder⟩
    intro t ht
    rw [h1] at ht
    exact (h.task t ht).mono (by rw [h3]; exact Nat.le_refl _)
  | reuse r h hr ht hp hst hround he =>
    refine ⟨hok, ?_⟩
    intro r' hr'
    cases hr'
    have hh := hrun r hr
    refine ⟨?_, ?_, hh.outRec, hh.outSent, hh.outOrder⟩
    · intro w hw hwe
      have := hh.bound w hw hwe
      show w.round ≤ max (nextRound r) (nextRound r) + 1
      unfold nextRound
      omega
    · intro t ht'
      cases ht'
      exact .inl ((stored_top hok hst).congr rfl rfl)
  | fresh r h hr ht hp hst hround he hau hpay hpar =>
    refine ⟨hok, ?_⟩
    intro r' hr'
    cases hr'
    have hh := hrun r hr
    refine ⟨?_, ?_, hh.outRec, hh.outSent, hh.outOrder⟩
    · intro w hw hwe
      have := hh.bound w hw hwe
      show w.round ≤ max (nextRound r) (nextRound r) + 1
      unfold nextRound
      omega
    · intro t ht'
      cases ht'
      refine .inr ⟨he, by rw [hround]; exact Nat.le_refl _, ?_⟩
      intro w hw hwe
      have hb := hh.bound w hw hwe
      obtain ⟨s, h1, h2⟩ := hok.rec_le hw hwe
      have hsm : s ∈ recsOf n := Guard.get_mem h1
      have hse : s.epoch = n.epoch := by
        have := hok.stored_epoch h1
        have he' : w.epoch = n.epoch := hwe
        rcases h2 with h2 | h2 <;> omega
      have hsb := hh.bound s hsm hse
      have hle : w.round ≤ s.round := by
        rcases h2 with h2 | ⟨_, h2 | h2⟩
        · have he' : w.epoch = n.epoch := hwe
          omega
        · omega
        · rw [h2]; exact Nat.le_refl _
      have hne : ¬ s.round = nextRound r := fun hc => hst s h1 ⟨hc, hse⟩
      rw [hround]
      unfold nextRound at hne ⊢
      omega
  | again r h hr ht hst =>
    refine ⟨hok, ?_⟩
    intro r' hr'
    cases hr'
    have hh := hrun r hr
    refine ⟨hh.bound, ?_, hh.outRec, hh.outSent, hh.outOrder⟩
    intro t ht'
    cases ht'
    exact .inl ((stored_top hok hst).congr rfl rfl)
  | store r h hr ht hsup =>
    have hh := hrun r hr
    have htask := hh.task _ ht
    have hrecs : recsOf { n with evs := n.evs ++ [.write (.ins lastProposedTable lastProposalKey h)] } =
        recsOf n ++ [h] := by
      show Guard.recs _ _ _ (written _) = _
      rw [written_append, Guard.recs_append]; simp [written, Guard.insAt]
    have hle : ∀ w ∈ recsOf n, w.epoch = n.epoch → leH w h := by
      rcases htask with htop | ⟨h1, _, h3⟩
      · exact htop.2
      · intro w hw hwe
        exact .inr ⟨by rw [hwe, h1], .inl (h3 w hw hwe)⟩
    have hepo : h.epoch ≤ n.epoch := by
      rcases htask with htop | ⟨h1, _, _⟩
      · exact hok.hist.epochs h htop.1
      · omega
    have hok1 : OkOf { n with evs := n.evs ++ [.write (.ins lastProposedTable lastProposalKey h)] } := by
      refine hok.record hepo hle ?_ ?_
      · intro w hw h1 h2
        rcases htask with htop | ⟨h4, _, h3⟩
        · exact hok.hist.uniq w hw h htop.1 h1 h2
        · have := h3 w hw (by omega)
          omega
      · intro hlt
        rcases htask with htop | ⟨h1, _, _⟩
        · exact htop.1
        · exact absurd h1 (by omega)
    have hok2 := hok1.foreignEv (x := .persist) trivial
    have hmem : h ∈ recsOf { n with evs := n.evs ++ [.write (.ins lastProposedTable lastProposalKey h)] } := by
      rw [hrecs]; simp
    have hb := hok1.behindNow hmem
    have hrecs2 : Guard.recs lastProposedTable lastProposalKey n.disk0
        (written (n.evs ++ [.write (.ins lastProposedTable lastProposalKey h), .persist])) = recsOf n ++ [h] := by
      rw [written_append, Guard.recs_append]; simp [written, Guard.insAt]
    have hpers : persists (n.evs ++ [.write (.ins lastProposedTable lastProposalKey h)]) = persists n.evs := by
      rw [persists_append]; rfl
    rw [List.append_assoc] at hok2
    refine ⟨hok2, ?_⟩
    intro r' hr'
    cases hr'
    refine ⟨?_, ?_, ?_, hh.outSent, hh.outOrder⟩
    · intro w hw hwe
      rw [show recsOf _ = _ from hrecs2] at hw
      rcases List.mem_append.mp hw with hw | hw
      · exact hh.bound w hw hwe
      · rw [List.mem_singleton.mp hw] at hwe ⊢
        rcases htask with htop | ⟨_, h2, _⟩
        · exact hh.bound h htop.1 hwe
        · show h.round ≤ max r.round r.pr + 1
          omega
    · intro t ht'
      cases ht'
      refine ⟨⟨?_, ?_⟩, ?_⟩
      · show h ∈ Guard.recs _ _ _ _
        rw [hrecs2]; simp
      · intro w hw hwe
        rw [show recsOf _ = _ from hrecs2] at hw
        rcases List.mem_append.mp hw with hw | hw
        · exact hle w hw hwe
        · rw [List.mem_singleton.mp hw]; exact Guard.le_refl _
      · dsimp only at hb
        rw [hpers, List.append_assoc] at hb
        exact hb
    · intro x hx
      rw [show recsOf _ = _ from hrecs2]
      exact List.mem_append_left _ (hh.outRec x hx)
  | skipStore r h hr ht hsup =>
    refine ⟨hok, ?_⟩
    intro r' hr'
    cases hr'
    have hh := hrun r hr
    have htask := hh.task _ ht
    have hold : ∀ w, n.stored = some w → w.epoch = h.epoch ∧ h.round < w.round := by
      intro w hw
      unfold supersedes at hsup
      rw [hw] at hsup
      have := of_decide_eq_false hsup
      push Not at this
      exact ⟨this.1, by have := this.2; omega⟩
    have hsome : ∃ w, n.stored = some w := by
      cases hw : n.stored with
      | none => rw [hw] at hsup; cases hsup
      | some w => exact ⟨w, rfl⟩
    obtain ⟨w, hw⟩ := hsome
    obtain ⟨h1, h2⟩ := hold w hw
    have hne : h.epoch ≠ n.epoch := by
      intro he
      have hwm := stored_mem hw
      rcases htask with htop | ⟨_, _, h3⟩
      · rcases htop.2 w hwm (by omega) with h4 | ⟨_, h4 | h4⟩
        · omega
        · omega
        · rw [h4] at h2; omega
      · have := h3 w hwm (by omega)
        omega
    refine ⟨hh.bound, ?_, hh.outRec, hh.outSent, hh.outOrder⟩
    intro t ht'
    cases ht'
    rcases htask with htop | ⟨h3, _, _⟩
    · exact ⟨htop.congr rfl rfl, fun he => absurd he hne⟩
    · exact absurd h3 hne
  | persisted r h b hr ht hack =>
    refine ⟨hok, ?_⟩
    intro r' hr'
    cases hr'
    have hh := hrun r hr
    have htask := hh.task _ ht
    refine ⟨hh.bound, ?_, hh.outRec, hh.outSent, hh.outOrder⟩
    intro t ht'
    cases ht'
    exact ⟨htask.1.congr rfl rfl, fun _ => ⟨b, htask.2, hack⟩⟩
  | send r h hr ht =>
    have hh := hrun r hr
    have htask := hh.task _ ht
    refine ⟨hok.send htask.1.1 htask.2, ?_⟩
    intro r' hr'
    cases hr'
    refine ⟨hh.bound, ?_, ?_, ?_, ?_⟩
    · intro t ht'
      cases ht'
      exact trivial
    · intro x hx
      rcases List.mem_cons.mp hx with hx | hx
      · rw [hx]; exact htask.1.1
      · exact hh.outRec x hx
    · intro x hx
      rcases List.mem_cons.mp hx with hx | hx
      · rw [hx]; exact List.mem_cons_self ..
      · exact List.mem_cons_of_mem _ (hh.outSent x hx)
    · refine List.Pairwise.cons ?_ hh.outOrder
      intro b hb _ hbe
      exact htask.1.2 b (hh.outRec b hb) hbe
  | result r h hr ht =>
    refine ⟨hok, ?_⟩
    intro r' hr'
    cases hr'
    have hh := hrun r hr
    exact ⟨hh.bound, fun t ht' => (by cases ht'), hh.outRec, hh.outSent, hh.outOrder⟩
  | stop => exact ⟨hok, fun r hr => by cases hr⟩
  | env x hx =>
    refine ⟨hok.foreignEv hx, ?_⟩
    intro r hr
    have hh := hrun r hr
    have hrec : recsOf { n with evs := n.evs ++ [x] } = recsOf n := Guard.recs_foreign hx _ _
    refine ⟨?_, fun t ht => (hh.task t ht).ext hx, ?_, hh.outSent, hh.outOrder⟩
    · intro w hw; exact hh.bound w (by rw [← hrec]; exact hw)
    · intro h hm; rw [hrec]; exact hh.outRec h hm
  | nextEpoch e he => exact ⟨hok.clear he, fun r hr => by cases hr⟩
  | crash e he => exact ⟨hok.crash he, fun r hr => by cases hr⟩

theorem reachable_inv {mb : Nat} {n : Node} (h : Reachable mb n) : Inv n := by
  induction h with
  | init self e => exact ⟨Guard.Ok.start e, fun r hr => by cases hr⟩
  | step _ ha hs ih => exact step_inv ih ha hs

end Proposer
end Verif
