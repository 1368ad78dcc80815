import Verif.Proposer.Timing

/-!
# When the proposer proposes: the invariant (C109)
-/

namespace Verif.Ptm

/-- What `ready` asks for, in version `v` of the schedule: in an even round the leader's certificate among
the parents; in an odd round that this node leads the next, or that there is no leader to vote for, or
enough votes one way or the other. -/
def Cfg.Ready (c : Cfg) (v round : Nat) (ps : List Cert) (ld : Option Nat) : Prop :=
  if round % 2 = 0 then ∃ x ∈ ps, x.origin = c.leader v round ∧ ld = some x.digest
  else c.leader v (round + 1) = c.me ∨ ld = none ∨
    ∃ d, ld = some d ∧ (c.validity ≤ c.votes ps d ∨ c.quorum ≤ c.noVotes ps d)

theorem evaluate_ready (c : Cfg) (s : Sys) :
    (c.evaluate s).advance = true ↔
      c.Ready s.ver s.round s.parents (c.evaluate s).lastLeader := by
  unfold Cfg.evaluate Cfg.Ready
  by_cases h : s.round % 2 = 0
  · rw [if_pos h, if_pos h]
    dsimp only
    unfold Cfg.leaderCert
    constructor
    · intro hs
      obtain ⟨x, hx⟩ := Option.isSome_iff_exists.mp hs
      have h1 := List.mem_of_find?_eq_some hx
      have h2 := List.find?_some hx
      have h2 : x.origin = c.leader s.ver s.round := of_decide_eq_true h2
      exact ⟨x, h1, h2, by rw [hx]; rfl⟩
    · rintro ⟨x, h1, h2, _⟩
      rw [List.find?_isSome]
      exact ⟨x, h1, decide_eq_true h2⟩
  · rw [if_neg h, if_neg h]
    dsimp only
    unfold Cfg.enoughVotes
    by_cases hl : c.leader s.ver (s.round + 1) = c.me
    · rw [if_pos hl]; exact ⟨fun _ => Or.inl hl, fun _ => rfl⟩
    · rw [if_neg hl]
      cases hd : s.lastLeader with
      | none => exact ⟨fun _ => Or.inr (Or.inl rfl), fun _ => rfl⟩
      | some d =>
          dsimp only
          rw [Bool.or_eq_true, decide_eq_true_eq, decide_eq_true_eq]
          constructor
          · intro h; exact Or.inr (Or.inr ⟨d, rfl, h⟩)
          · rintro (h | h | ⟨d', h, h'⟩)
            · exact absurd h hl
            · cases h
            · cases h; exact h'

structure MadeOk (c : Cfg) (m : Made) : Prop where
  /-- a header is made over parents, at the maximal delay or when it may advance and has enough batches
  or the minimal delay is up -/
  why : m.kind ≠ .again → m.parents ≠ [] ∧
    (m.timeout = true ∨ c.threshold ≤ m.digests ∨ m.minUp = true)
  ready : m.kind ≠ .again → m.timeout = false → ∀ v, m.eval = some v →
    c.Ready v m.base m.parents m.votesFor
  late : m.kind = .again → m.timeout = true
  up : m.kind ≠ .again → m.base < m.round

/-- The headers of new rounds, without the sending again of an old one. -/
def Sys.mine (s : Sys) : List Made := s.log.filter fun m => decide (m.kind ≠ .again)

/-- A later header of the list is of the next round, and `ready` was evaluated before it. -/
def Later (l : List Made) : Prop :=
  ∀ m ∈ l, l.head? = some m ∨ (m.round = m.base + 1 ∧ (m.timeout = false → m.eval ≠ none))

/-- What the end of the loop needs of the state it is given. -/
structure Pre (c : Cfg) (s : Sys) : Prop where
  maxLo : s.now ≤ s.nextMax
  maxHi : s.nextMax ≤ s.now + c.maxD
  minLo : s.now ≤ s.nextMin
  minHi : s.nextMin ≤ s.now + c.minD
  pr : s.mine ≠ [] → s.pr = s.round
  ready : s.pending = none → s.advance = true → ∀ v, s.eval = some v →
    c.Ready v s.round s.parents s.lastLeader
  fresh : s.pending = none → s.advance = true → s.eval = none → s.mine = []
  made : ∀ m ∈ s.log, MadeOk c m
  later : Later s.mine

structure Inv (c : Cfg) (s : Sys) : Prop extends Pre c s where
  idle : s.pending = none → c.shouldCreate s = false ∧ (s.maxFlag = true → s.stored = none)

theorem head_append {α : Type} {l : List α} {x m : α} (h : l.head? = some m) :
    (l ++ [x]).head? = some m := by
  cases l with
  | nil => cases h
  | cons a l => exact h

theorem shouldCreate_iff (c : Cfg) (s : Sys) :
    c.shouldCreate s = true ↔ s.parents ≠ [] ∧
      (s.maxFlag = true ∨ (s.advance = true ∧ (c.threshold ≤ s.digests ∨ s.minFlag = true))) := by
  unfold Cfg.shouldCreate
  cases s.parents <;> simp

/-- The entry of a proposal made now. -/
theorem made_ok {c : Cfg} {s : Sys} (i : Pre c s) (hp : s.pending = none)
    (hc : c.shouldCreate s = true) (k : Kind) (hk : k ≠ .again) :
    MadeOk c (s.made k s.nextRound) ∧ Later (s.mine ++ [s.made k s.nextRound]) := by
  have h := (shouldCreate_iff c s).mp hc
  refine ⟨⟨fun _ => ⟨h.1, ?_⟩, fun _ ht v hv => ?_, fun h' => absurd h' hk, fun _ => ?_⟩, ?_⟩
  · show s.maxFlag = true ∨ _
    rcases h.2 with h | h
    · exact Or.inl h
    · exact Or.inr h.2
  · have ht : s.maxFlag = false := ht
    rcases h.2 with h | h
    · rw [ht] at h; cases h
    · exact i.ready hp h.1 v hv
  · show s.round < max (s.round + 1) (s.pr + 1)
    omega
  · intro m hm
    rcases List.mem_append.mp hm with hm | hm
    · rcases i.later m hm with h | h
      · exact Or.inl (head_append h)
      · exact Or.inr h
    · rw [List.mem_singleton] at hm; subst hm
      by_cases hl : s.mine = []
      · left; rw [hl]; rfl
      · right
        refine ⟨?_, fun ht => ?_⟩
        · show max (s.round + 1) (s.pr + 1) = s.round + 1
          rw [i.pr hl]; omega
        · have ht : s.maxFlag = false := ht
          intro he
          have he : s.eval = none := he
          rcases h.2 with h | h
          · rw [ht] at h; cases h
          · exact hl (i.fresh hp h.1 he)

theorem mem_snoc {α : Type} {P : α → Prop} {l : List α} {x : α} (h : ∀ m ∈ l, P m) (hx : P x) :
    ∀ m ∈ l ++ [x], P m := by
  intro m hm
  rcases List.mem_append.mp hm with hm | hm
  · exact h m hm
  · rw [List.mem_singleton] at hm; subst hm; exact hx

theorem act_inv {c : Cfg} {s : Sys} (i : Pre c s) : Inv c (c.act s) := by
  unfold Cfg.act
  by_cases hp : s.pending.isSome = true
  · rw [if_pos hp]
    refine { i with idle := fun h => ?_ }
    rw [h] at hp; cases hp
  · rw [if_neg hp]
    have hp : s.pending = none := by
      cases h : s.pending
      · rfl
      · rw [h] at hp; exact absurd rfl hp
    by_cases hc : c.shouldCreate s = true
    · rw [if_pos hc]
      unfold Cfg.propose
      dsimp only
      split
      · obtain ⟨m1, m2⟩ := made_ok i hp hc .reuse (by decide)
        exact { maxLo := i.maxLo, maxHi := i.maxHi, minLo := i.minLo, minHi := i.minHi,
                idle := fun h => (nomatch h), pr := fun _ => rfl, ready := fun h => (nomatch h),
                fresh := fun h => (nomatch h), made := mem_snoc i.made m1,
                later := by unfold Sys.mine at m2 ⊢; rw [List.filter_append]; exact m2 }
      · obtain ⟨m1, m2⟩ := made_ok i hp hc .create (by decide)
        exact { maxLo := i.maxLo, maxHi := i.maxHi, minLo := i.minLo, minHi := i.minHi,
                idle := fun h => (nomatch h), pr := fun _ => rfl, ready := fun h => (nomatch h),
                fresh := fun h => (nomatch h), made := mem_snoc i.made m1,
                later := by unfold Sys.mine at m2 ⊢; rw [List.filter_append]; exact m2 }
    · rw [if_neg hc]
      have hc : c.shouldCreate s = false := by
        cases h : c.shouldCreate s
        · rfl
        · exact absurd h hc
      by_cases hm : s.maxFlag = true
      · rw [if_pos hm]
        cases hs : s.stored with
        | none => exact { i with idle := fun _ => ⟨hc, fun _ => hs⟩ }
        | some r =>
            dsimp only
            have e : (s.again r).mine = s.mine := by
              unfold Sys.mine Sys.again
              dsimp only
              rw [List.filter_append]
              show _ ++ [] = _
              rw [List.append_nil]
            exact { maxLo := i.maxLo, maxHi := i.maxHi, minLo := i.minLo, minHi := i.minHi,
                    idle := fun h => (nomatch h), pr := by rw [e]; exact i.pr,
                    ready := fun h => (nomatch h), fresh := fun h => (nomatch h),
                    made := mem_snoc i.made ⟨fun h => absurd rfl h, fun h => absurd rfl h,
                      fun _ => hm, fun h => absurd rfl h⟩,
                    later := by rw [e]; exact i.later }
      · rw [if_neg hm]
        exact { i with idle := fun _ => ⟨hc, fun h => absurd h hm⟩ }

/-! ## The steps -/

theorem calcMax_le (c : Cfg) (s : Sys) : c.calcMax s ≤ c.maxD := by
  unfold Cfg.calcMax; split <;> omega

theorem calcMin_le (c : Cfg) (s : Sys) : c.calcMin s ≤ c.minD := by
  unfold Cfg.calcMin; split <;> omega

/-- The evaluation changes only the leader voted on and the flag. -/
theorem evaluate_frame (c : Cfg) (s : Sys) :
    ∃ l a, c.evaluate s = { s with lastLeader := l, advance := a, eval := some s.ver } := by
  unfold Cfg.evaluate
  split
  · exact ⟨_, _, rfl⟩
  · exact ⟨s.lastLeader, _, rfl⟩

theorem evaluate_pre {c : Cfg} {s : Sys} (h1 : s.now ≤ s.nextMax) (h2 : s.nextMax ≤ s.now + c.maxD)
    (h3 : s.now ≤ s.nextMin) (h4 : s.nextMin ≤ s.now + c.minD) (h5 : s.mine ≠ [] → s.pr = s.round)
    (h6 : ∀ m ∈ s.log, MadeOk c m) (h7 : Later s.mine) : Pre c (c.evaluate s) := by
  have hr := evaluate_ready c s
  obtain ⟨l, a, e⟩ := evaluate_frame c s
  rw [e] at hr ⊢
  exact { maxLo := h1, maxHi := h2, minLo := h3, minHi := h4, pr := h5, made := h6, later := h7,
          ready := fun _ ha v hv => by
            have hv : s.ver = v := Option.some.inj hv
            rw [← hv]; exact hr.mp ha,
          fresh := fun _ _ h => (nomatch h) }

theorem takeParents_pre {c : Cfg} {s : Sys} (i : Inv c s) (cs : List Cert) (r : Nat) :
    Pre c (c.takeParents s cs r) := by
  unfold Cfg.takeParents
  have hm := calcMax_le c { s with round := r }
  split
  · refine evaluate_pre ?_ ?_ ?_ ?_ (fun _ => rfl) i.made i.later
    · show s.now ≤ s.now + _; omega
    · show s.now + c.calcMax { s with round := r } ≤ s.now + c.maxD; omega
    · exact Nat.le_refl _
    · show s.now ≤ s.now + c.minD; omega
  · split
    · exact evaluate_pre i.maxLo i.maxHi i.minLo i.minHi i.pr i.made i.later
    · refine evaluate_pre i.maxLo i.maxHi ?_ ?_ i.pr i.made i.later
      · show s.now ≤ if c.calcMin s = 0 then s.now else s.nextMin
        split
        · exact Nat.le_refl _
        · exact i.minLo
      · show (if c.calcMin s = 0 then s.now else s.nextMin) ≤ s.now + c.minD
        split
        · omega
        · exact i.minHi

theorem step_inv {c : Cfg} {s : Sys} (i : Inv c s) (e : Ev) : Inv c (c.step s e) := by
  cases e with
  | pass d =>
      dsimp only [Cfg.step]
      split
      · rename_i h
        have a := i.maxHi; have b := i.minHi
        exact { maxLo := h.1, maxHi := (show s.nextMax ≤ s.now + d + c.maxD by omega), minLo := h.2,
                minHi := (show s.nextMin ≤ s.now + d + c.minD by omega), pr := i.pr, ready := i.ready,
                fresh := i.fresh, made := i.made, later := i.later, idle := i.idle }
      · exact i
  | digest =>
      exact act_inv { maxLo := i.maxLo, maxHi := i.maxHi, minLo := i.minLo, minHi := i.minHi, pr := i.pr,
                      ready := i.ready, fresh := i.fresh, made := i.made, later := i.later }
  | parents cs r => exact act_inv (takeParents_pre i cs r)
  | requeue k =>
      exact act_inv { maxLo := i.maxLo, maxHi := i.maxHi, minLo := i.minLo, minHi := i.minHi, pr := i.pr,
                      ready := i.ready, fresh := i.fresh, made := i.made, later := i.later }
  | done =>
      dsimp only [Cfg.step]
      cases hp : s.pending with
      | none => exact i
      | some r =>
          dsimp only
          refine act_inv ?_
          have a := calcMax_le c s; have b := calcMin_le c s
          exact { maxLo := (show s.now ≤ s.now + c.calcMax s by omega),
                  maxHi := (show s.now + c.calcMax s ≤ s.now + c.maxD by omega),
                  minLo := (show s.now ≤ s.now + c.calcMin s by omega),
                  minHi := (show s.now + c.calcMin s ≤ s.now + c.minD by omega), pr := i.pr,
                  ready := fun _ h => (nomatch h), fresh := fun _ h => (nomatch h), made := i.made,
                  later := i.later }
  | tickMax =>
      dsimp only [Cfg.step]
      split
      · rename_i h
        have a := i.maxLo; have b := i.maxHi
        exact act_inv { maxLo := (show s.now ≤ s.nextMax + c.maxD by omega),
                        maxHi := (show s.nextMax + c.maxD ≤ s.now + c.maxD by omega), minLo := i.minLo,
                        minHi := i.minHi, pr := i.pr, ready := i.ready, fresh := i.fresh,
                        made := i.made, later := i.later }
      · exact i
  | tickMin =>
      dsimp only [Cfg.step]
      split
      · rename_i h
        have a := i.minLo; have b := i.minHi
        exact act_inv { maxLo := i.maxLo, maxHi := i.maxHi,
                        minLo := (show s.now ≤ s.nextMin + c.minD by omega),
                        minHi := (show s.nextMin + c.minD ≤ s.now + c.minD by omega), pr := i.pr,
                        ready := i.ready, fresh := i.fresh, made := i.made, later := i.later }
      · exact i
  | schedule v =>
      exact { maxLo := i.maxLo, maxHi := i.maxHi, minLo := i.minLo, minHi := i.minHi, pr := i.pr,
              ready := i.ready, fresh := i.fresh, made := i.made, later := i.later, idle := i.idle }

theorem start_idle {c : Cfg} (ht : 0 < c.threshold) (g : List Cert) (t r p : Nat) (w : Option Nat) :
    c.shouldCreate (c.start g t r p w) = false := by
  cases h : c.shouldCreate (c.start g t r p w) with
  | false => rfl
  | true =>
      rcases ((shouldCreate_iff _ _).mp h).2 with h | ⟨_, h | h⟩
      · cases h
      · have h : c.threshold ≤ 0 := h
        omega
      · cases h

theorem start_inv {c : Cfg} (ht : 0 < c.threshold) (g : List Cert) (t r p : Nat) (w : Option Nat) :
    Inv c (c.start g t r p w) :=
  { maxLo := Nat.le_refl _, maxHi := Nat.le_add_right _ _, minLo := Nat.le_refl _,
    minHi := Nat.le_add_right _ _, pr := fun h => absurd rfl h, ready := fun _ _ v h => (nomatch h),
    fresh := fun _ _ _ => rfl, made := fun m hm => (nomatch hm), later := fun m hm => (nomatch hm),
    idle := fun _ => ⟨start_idle ht g t r p w, fun h => (nomatch h)⟩ }

theorem exec_inv {c : Cfg} {s : Sys} (i : Inv c s) (es : List Ev) : Inv c (c.exec s es) := by
  unfold Cfg.exec
  induction es generalizing s with
  | nil => exact i
  | cons e es ih => exact ih (step_inv i e)

theorem Cfg.Reach.inv {c : Cfg} {s : Sys} (ht : 0 < c.threshold) (h : c.Reach s) : Inv c s := by
  obtain ⟨g, t, r, p, w, es, rfl⟩ := h
  exact exec_inv (start_inv ht g t r p w) es

end Verif.Ptm
