import Verif.Proposer.TimingInv
import Mathlib.Data.List.Nodup
import Mathlib.Data.List.Perm.Subperm

/-!
# When the proposer proposes: the theorems (C109)
-/

namespace Verif.Ptm

/-! ## Every header has a reason -/

/-- A header of a new round is made over parents, after the maximal delay or with enough batches or after
the minimal delay. -/
theorem why {c : Cfg} (ht : 0 < c.threshold) {s : Sys} (h : c.Reach s) {m : Made} (hm : m ∈ s.log)
    (hk : m.kind ≠ .again) :
    m.parents ≠ [] ∧ (m.timeout = true ∨ c.threshold ≤ m.digests ∨ m.minUp = true) :=
  ((h.inv ht).made m hm).why hk

/-- An old header is sent again only after the maximal delay. -/
theorem again_late {c : Cfg} (ht : 0 < c.threshold) {s : Sys} (h : c.Reach s) {m : Made}
    (hm : m ∈ s.log) (hk : m.kind = .again) : m.timeout = true :=
  ((h.inv ht).made m hm).late hk

/-- After the first header of the run each is of the round after the one it is based on. -/
theorem right_round {c : Cfg} (ht : 0 < c.threshold) {s : Sys} (h : c.Reach s) {m : Made}
    (hm : m ∈ s.mine) : s.mine.head? = some m ∨ m.round = m.base + 1 := by
  rcases (h.inv ht).later m hm with h | h
  · exact Or.inl h
  · exact Or.inr h.1

/-- A header over an even round made before the maximal delay, but the first of the run: the leader's
certificate of that round is among its parents. -/
theorem leader_included {c : Cfg} (ht : 0 < c.threshold) {s : Sys} (h : c.Reach s) {m : Made}
    (hm : m ∈ s.mine) (hf : s.mine.head? ≠ some m) (hr : m.base % 2 = 0) (hn : m.timeout = false) :
    ∃ v, ∃ x ∈ m.parents, x.origin = c.leader v m.base ∧ m.eval = some v := by
  have hl := List.mem_filter.mp hm
  rcases (h.inv ht).later m hm with h' | h'
  · exact absurd h' hf
  · cases he : m.eval with
    | none => exact absurd he (h'.2 hn)
    | some v =>
        have := ((h.inv ht).made m hl.1).ready (of_decide_eq_true hl.2) hn v he
        unfold Cfg.Ready at this
        rw [if_pos hr] at this
        obtain ⟨x, hx, ho, _⟩ := this
        exact ⟨v, x, hx, ho, rfl⟩

/-- A header over an odd round made before the maximal delay, but the first of the run: this node leads
the next round, or there is no leader certificate to vote on, or the parents hold a validity threshold of
votes for it or a quorum without. -/
theorem votes_in {c : Cfg} (ht : 0 < c.threshold) {s : Sys} (h : c.Reach s) {m : Made}
    (hm : m ∈ s.mine) (hf : s.mine.head? ≠ some m) (hr : m.base % 2 = 1) (hn : m.timeout = false) :
    ∃ v, m.eval = some v ∧ (c.leader v (m.base + 1) = c.me ∨ m.votesFor = none ∨
      ∃ d, m.votesFor = some d ∧
        (c.validity ≤ c.votes m.parents d ∨ c.quorum ≤ c.noVotes m.parents d)) := by
  have hl := List.mem_filter.mp hm
  rcases (h.inv ht).later m hm with h' | h'
  · exact absurd h' hf
  · cases he : m.eval with
    | none => exact absurd he (h'.2 hn)
    | some v =>
        have := ((h.inv ht).made m hl.1).ready (of_decide_eq_true hl.2) hn v he
        unfold Cfg.Ready at this
        rw [if_neg (by omega)] at this
        exact ⟨v, rfl, this⟩

/-! ## Never idle -/

/-- Between events, with no header in hand: either there are no parents, or the node is waiting for the
leader (or votes), or it has too few batches and the minimal delay is not up; and the maximal delay is
not up, unless there is nothing to send. -/
theorem never_idle {c : Cfg} (ht : 0 < c.threshold) {s : Sys} (h : c.Reach s) (hp : s.pending = none) :
    (s.parents = [] ∨ (s.maxFlag = false ∧
      (s.advance = false ∨ (s.digests < c.threshold ∧ s.minFlag = false)))) ∧
    (s.maxFlag = true → s.parents = [] ∧ s.stored = none) := by
  have i := (h.inv ht).idle hp
  have hn : ¬ (c.shouldCreate s = true) := by rw [i.1]; decide
  rw [shouldCreate_iff] at hn
  have h1 : s.parents = [] ∨ (s.maxFlag = false ∧
      (s.advance = false ∨ (s.digests < c.threshold ∧ s.minFlag = false))) := by
    by_cases hq : s.parents = []
    · exact Or.inl hq
    · right
      have hn := fun h => hn ⟨hq, h⟩
      cases hm : s.maxFlag with
      | true => exact absurd (Or.inl hm) hn
      | false =>
          refine ⟨rfl, ?_⟩
          cases ha : s.advance with
          | false => exact Or.inl rfl
          | true =>
              right
              refine ⟨?_, ?_⟩
              · by_cases hd : c.threshold ≤ s.digests
                · exact absurd (Or.inr ⟨ha, Or.inl hd⟩) hn
                · omega
              · cases hx : s.minFlag with
                | false => rfl
                | true => exact absurd (Or.inr ⟨ha, Or.inr hx⟩) hn
  refine ⟨h1, fun hm => ⟨?_, i.2 hm⟩⟩
  rcases h1 with h1 | h1
  · exact h1
  · rw [hm] at h1; exact nomatch h1.1

/-! ## In time -/

theorem propose_len (c : Cfg) (s : Sys) : s.log.length < (c.propose s).log.length := by
  unfold Cfg.propose
  dsimp only
  split <;> (rw [List.length_append]; exact Nat.lt_succ_self _)

/-- The end of the loop does nothing or makes a header. -/
theorem act_cases (c : Cfg) (s : Sys) : c.act s = s ∨ s.log.length < (c.act s).log.length := by
  unfold Cfg.act
  split
  · exact Or.inl rfl
  · split
    · exact Or.inr (propose_len c s)
    · split
      · cases s.stored with
        | none => exact Or.inl rfl
        | some r =>
            right
            show s.log.length < (s.log ++ [_]).length
            rw [List.length_append]; exact Nat.lt_succ_self _
      · exact Or.inl rfl

theorem act_create {c : Cfg} {s : Sys} (hp : s.pending = none) (h : c.shouldCreate s = true) :
    s.log.length < (c.act s).log.length := by
  unfold Cfg.act
  rw [hp, if_neg (by decide), if_pos h]
  exact propose_len c s

theorem act_max {c : Cfg} {s : Sys} (hp : s.pending = none) (hm : s.maxFlag = true)
    (hx : s.parents ≠ [] ∨ s.stored ≠ none) : s.log.length < (c.act s).log.length := by
  by_cases hc : c.shouldCreate s = true
  · exact act_create hp hc
  · unfold Cfg.act
    rw [hp, if_neg (by decide), if_neg hc, if_pos hm]
    cases hs : s.stored with
    | none =>
        rcases hx with hx | hx
        · exact absurd ((shouldCreate_iff c s).mpr ⟨hx, Or.inl hm⟩) hc
        · exact absurd hs hx
    | some r =>
        show s.log.length < (s.log ++ [_]).length
        rw [List.length_append]; exact Nat.lt_succ_self _

theorem evaluate_log (c : Cfg) (s : Sys) : (c.evaluate s).log = s.log := by
  obtain ⟨l, a, e⟩ := evaluate_frame c s
  rw [e]

theorem takeParents_log (c : Cfg) (s : Sys) (cs : List Cert) (r : Nat) :
    (c.takeParents s cs r).log = s.log := by
  unfold Cfg.takeParents
  split
  · exact evaluate_log c _
  · split <;> exact evaluate_log c _

theorem act_len (c : Cfg) (s : Sys) : s.log.length ≤ (c.act s).log.length := by
  rcases act_cases c s with h | h
  · rw [h]; exact Nat.le_refl _
  · omega

theorem step_len (c : Cfg) (s : Sys) (e : Ev) : s.log.length ≤ (c.step s e).log.length := by
  cases e with
  | pass d => dsimp only [Cfg.step]; split <;> exact Nat.le_refl _
  | digest => exact act_len c { s with digests := s.digests + 1 }
  | parents cs r =>
      have := act_len c (c.takeParents s cs r)
      rw [takeParents_log] at this
      exact this
  | requeue k => exact act_len c { s with digests := s.digests + k }
  | done =>
      dsimp only [Cfg.step]
      cases s.pending with
      | none => exact Nat.le_refl _
      | some r => exact act_len c (c.result s r)
  | tickMax =>
      dsimp only [Cfg.step]
      split
      · exact act_len c { s with maxFlag := true, nextMax := s.nextMax + c.maxD }
      · exact Nat.le_refl _
  | tickMin =>
      dsimp only [Cfg.step]
      split
      · exact act_len c { s with minFlag := true, nextMin := s.nextMin + c.minD }
      · exact Nat.le_refl _
  | schedule v => exact Nat.le_refl _

theorem exec_len (c : Cfg) (s : Sys) (es : List Ev) : s.log.length ≤ (c.exec s es).log.length := by
  unfold Cfg.exec
  induction es generalizing s with
  | nil => exact Nat.le_refl _
  | cons e es ih => exact Nat.le_trans (step_len c s e) (ih _)

/-- Waiting for the maximal delay. -/
structure Wait (R T : Nat) (s : Sys) : Prop where
  pending : s.pending = none
  some' : s.parents ≠ [] ∨ s.stored ≠ none
  round : s.round = R
  due : s.nextMax = T

theorem old_parents {c : Cfg} {R T : Nat} {s : Sys} (w : Wait R T s) (cs : List Cert) {r : Nat}
    (hr : r ≤ R) : Wait R T (c.takeParents s cs r) := by
  unfold Cfg.takeParents
  rw [if_neg (show ¬ s.round < r by rw [w.round]; omega)]
  split
  · obtain ⟨l, a, e⟩ := evaluate_frame c s
    rw [e]
    exact ⟨w.pending, w.some', w.round, w.due⟩
  · obtain ⟨l, a, e⟩ := evaluate_frame c (c.extend s cs)
    rw [e]
    refine ⟨w.pending, ?_, w.round, w.due⟩
    rcases w.some' with h | h
    · exact Or.inl (fun h' => h (List.append_eq_nil_iff.mp h').1)
    · exact Or.inr h

theorem wait_step {c : Cfg} {R T : Nat} {s : Sys} (w : Wait R T s) (e : Ev)
    (hj : ∀ cs r, e = .parents cs r → r ≤ R) :
    s.log.length < (c.step s e).log.length ∨ Wait R T (c.step s e) := by
  cases e with
  | pass d =>
      right
      dsimp only [Cfg.step]
      split
      · exact ⟨w.pending, w.some', w.round, w.due⟩
      · exact w
  | digest =>
      rcases act_cases c { s with digests := s.digests + 1 } with h | h
      · right
        show Wait R T (c.act _)
        rw [h]
        exact ⟨w.pending, w.some', w.round, w.due⟩
      · exact Or.inl h
  | parents cs r =>
      rcases act_cases c (c.takeParents s cs r) with h | h
      · right
        show Wait R T (c.act _)
        rw [h]
        exact old_parents w cs (hj cs r rfl)
      · left
        rw [takeParents_log] at h
        exact h
  | requeue k =>
      rcases act_cases c { s with digests := s.digests + k } with h | h
      · right
        show Wait R T (c.act _)
        rw [h]
        exact ⟨w.pending, w.some', w.round, w.due⟩
      · exact Or.inl h
  | done =>
      right
      dsimp only [Cfg.step]
      rw [w.pending]
      exact w
  | tickMax =>
      dsimp only [Cfg.step]
      split
      · left
        exact act_max (s := { s with maxFlag := true, nextMax := s.nextMax + c.maxD }) w.pending rfl
          w.some'
      · exact Or.inr w
  | tickMin =>
      dsimp only [Cfg.step]
      split
      · rcases act_cases c { s with minFlag := true, nextMin := s.nextMin + c.minD } with h | h
        · right
          rw [h]
          exact ⟨w.pending, w.some', w.round, w.due⟩
        · exact Or.inl h
      · exact Or.inr w
  | schedule v => exact Or.inr ⟨w.pending, w.some', w.round, w.due⟩

theorem wait_exec {c : Cfg} {R T : Nat} {s : Sys} (i : Inv c s) (w : Wait R T s) (es : List Ev)
    (hj : ∀ cs r, Ev.parents cs r ∈ es → r ≤ R) :
    s.log.length < (c.exec s es).log.length ∨ (c.exec s es).now ≤ T := by
  induction es generalizing s with
  | nil => exact Or.inr (by have := i.maxLo; rw [w.due] at this; exact this)
  | cons e es ih =>
      have hl := step_len c s e
      have hx := exec_len c (c.step s e) es
      rcases wait_step (c := c) w e (fun cs r h => hj cs r (by rw [h]; exact List.mem_cons_self)) with h | h
      · left
        show s.log.length < (c.exec (c.step s e) es).log.length
        omega
      · rcases ih (step_inv i e) h (fun cs r h => hj cs r (List.mem_cons_of_mem _ h)) with h' | h'
        · left
          show s.log.length < (c.exec (c.step s e) es).log.length
          omega
        · exact Or.inr h'

/-- With parents for its round, or a header it proposed before, and none in hand, the proposer makes or
sends one within the maximal delay, whatever arrives, unless parents of a later round do. -/
theorem in_time {c : Cfg} (ht : 0 < c.threshold) {s : Sys} (h : c.Reach s) (hp : s.pending = none)
    (hx : s.parents ≠ [] ∨ s.stored ≠ none) (es : List Ev)
    (hj : ∀ cs r, Ev.parents cs r ∈ es → r ≤ s.round) :
    s.log.length < (c.exec s es).log.length ∨ (c.exec s es).now ≤ s.now + c.maxD := by
  have i := h.inv ht
  rcases wait_exec i ⟨hp, hx, rfl, rfl⟩ es hj with h | h
  · exact Or.inl h
  · exact Or.inr (Nat.le_trans h i.maxHi)

/-- The tick itself: when it is due it is taken, and the header made. -/
theorem in_time_tick {c : Cfg} {s : Sys} (hp : s.pending = none)
    (hx : s.parents ≠ [] ∨ s.stored ≠ none) (hd : s.nextMax ≤ s.now) :
    s.log.length < (c.step s .tickMax).log.length := by
  dsimp only [Cfg.step]
  rw [if_pos hd]
  exact act_max (s := { s with maxFlag := true, nextMax := s.nextMax + c.maxD }) hp rfl hx

/-! ## Sooner when the leader is in -/

theorem filter_stake_mono {c : Cfg} (p : Cert → Bool) (ps cs : List Cert) :
    (ps.filter p).foldr (fun x n => c.stake x + n) 0 ≤
      ((ps ++ cs).filter p).foldr (fun x n => c.stake x + n) 0 := by
  induction ps with
  | nil => exact Nat.zero_le _
  | cons a l ih =>
      rw [List.cons_append, List.filter_cons, List.filter_cons]
      split
      · show c.stake a + _ ≤ c.stake a + _
        omega
      · exact ih

theorem ready_mono {c : Cfg} {v round : Nat} {ps : List Cert} {ld : Option Nat} (cs : List Cert)
    (h : c.Ready v round ps ld) : c.Ready v round (ps ++ cs) ld := by
  unfold Cfg.Ready at h ⊢
  split at h
  · rename_i he
    rw [if_pos he]
    obtain ⟨x, hx, h1, h2⟩ := h
    exact ⟨x, List.mem_append_left _ hx, h1, h2⟩
  · rename_i he
    rw [if_neg he]
    rcases h with h | h | ⟨d, h, h'⟩
    · exact Or.inl h
    · exact Or.inr (Or.inl h)
    · refine Or.inr (Or.inr ⟨d, h, ?_⟩)
      rcases h' with h' | h'
      · exact Or.inl (Nat.le_trans h' (filter_stake_mono _ ps cs))
      · exact Or.inr (Nat.le_trans h' (filter_stake_mono _ ps cs))

/-- A state that is ready is found ready when it is evaluated. -/
theorem evaluate_of_ready {c : Cfg} {s : Sys} (h : c.Ready s.ver s.round s.parents s.lastLeader) :
    (c.evaluate s).advance = true := by
  rw [evaluate_ready]
  unfold Cfg.Ready at h ⊢
  by_cases he : s.round % 2 = 0
  · rw [if_pos he] at h ⊢
    obtain ⟨x, hx, ho, _⟩ := h
    have hs : (c.leaderCert s).isSome = true := by
      unfold Cfg.leaderCert
      rw [List.find?_isSome]
      exact ⟨x, hx, decide_eq_true ho⟩
    obtain ⟨y, hy⟩ := Option.isSome_iff_exists.mp hs
    have h1 := List.mem_of_find?_eq_some hy
    have h2 := List.find?_some hy
    have h2 : y.origin = c.leader s.ver s.round := of_decide_eq_true h2
    refine ⟨y, h1, h2, ?_⟩
    unfold Cfg.evaluate
    rw [if_pos he]
    show (c.leaderCert s).map _ = _
    rw [hy]; rfl
  · rw [if_neg he] at h ⊢
    unfold Cfg.evaluate
    rw [if_neg he]
    exact h

/-- Ready, waiting for the minimal delay. -/
structure Soon (v R T : Nat) (c : Cfg) (s : Sys) : Prop where
  pending : s.pending = none
  some' : s.parents ≠ []
  round : s.round = R
  ver : s.ver = v
  adv : s.advance = true
  ready : c.Ready v R s.parents s.lastLeader
  due : s.nextMin ≤ T

theorem evaluate_soon {v R T : Nat} {c : Cfg} {s : Sys} (hp : s.pending = none) (hs : s.parents ≠ [])
    (hR : s.round = R) (hv : s.ver = v) (hr : c.Ready v R s.parents s.lastLeader)
    (hd : s.nextMin ≤ T) : Soon v R T c (c.evaluate s) := by
  have h1 := evaluate_of_ready (c := c) (s := s) (by rw [hv, hR]; exact hr)
  have h2 := (evaluate_ready c s).mp h1
  obtain ⟨l, a, e⟩ := evaluate_frame c s
  rw [e] at h1 h2 ⊢
  exact ⟨hp, hs, hR, hv, h1, by rw [hv, hR] at h2; exact h2, hd⟩

theorem soon_parents {v R T : Nat} {c : Cfg} {s : Sys} (i : Inv c s) (w : Soon v R T c s)
    (cs : List Cert) {r : Nat} (hr : r ≤ R) : Soon v R T c (c.takeParents s cs r) := by
  unfold Cfg.takeParents
  rw [if_neg (show ¬ s.round < r by rw [w.round]; omega)]
  split
  · exact evaluate_soon w.pending w.some' w.round w.ver w.ready w.due
  · refine evaluate_soon (s := c.extend s cs) w.pending ?_ w.round w.ver (ready_mono cs w.ready) ?_
    · exact fun h' => w.some' (List.append_eq_nil_iff.mp h').1
    · show (if c.calcMin s = 0 then s.now else s.nextMin) ≤ T
      have := i.minLo; have := w.due
      split <;> omega

theorem soon_step {v R T : Nat} {c : Cfg} {s : Sys} (i : Inv c s) (w : Soon v R T c s) (e : Ev)
    (hj : ∀ cs r, e = .parents cs r → r ≤ R) (hv : ∀ u, e = .schedule u → u = v) :
    s.log.length < (c.step s e).log.length ∨ Soon v R T c (c.step s e) := by
  cases e with
  | pass d =>
      right
      dsimp only [Cfg.step]
      split
      · exact ⟨w.pending, w.some', w.round, w.ver, w.adv, w.ready, w.due⟩
      · exact w
  | digest =>
      rcases act_cases c { s with digests := s.digests + 1 } with h | h
      · right
        show Soon v R T c (c.act _)
        rw [h]
        exact ⟨w.pending, w.some', w.round, w.ver, w.adv, w.ready, w.due⟩
      · exact Or.inl h
  | parents cs r =>
      rcases act_cases c (c.takeParents s cs r) with h | h
      · right
        show Soon v R T c (c.act _)
        rw [h]
        exact soon_parents i w cs (hj cs r rfl)
      · left
        rw [takeParents_log] at h
        exact h
  | requeue k =>
      rcases act_cases c { s with digests := s.digests + k } with h | h
      · right
        show Soon v R T c (c.act _)
        rw [h]
        exact ⟨w.pending, w.some', w.round, w.ver, w.adv, w.ready, w.due⟩
      · exact Or.inl h
  | done =>
      right
      dsimp only [Cfg.step]
      rw [w.pending]
      exact w
  | tickMax =>
      dsimp only [Cfg.step]
      split
      · left
        exact act_max (s := { s with maxFlag := true, nextMax := s.nextMax + c.maxD }) w.pending rfl
          (Or.inl w.some')
      · exact Or.inr w
  | tickMin =>
      dsimp only [Cfg.step]
      split
      · left
        refine act_create (s := { s with minFlag := true, nextMin := s.nextMin + c.minD }) w.pending ?_
        exact (shouldCreate_iff _ _).mpr ⟨w.some', Or.inr ⟨w.adv, Or.inr rfl⟩⟩
      · exact Or.inr w
  | schedule u =>
      exact Or.inr ⟨w.pending, w.some', w.round, hv u rfl, w.adv, w.ready, w.due⟩

theorem soon_exec {v R T : Nat} {c : Cfg} {s : Sys} (i : Inv c s) (w : Soon v R T c s) (es : List Ev)
    (hj : ∀ cs r, Ev.parents cs r ∈ es → r ≤ R) (hv : ∀ u, Ev.schedule u ∈ es → u = v) :
    s.log.length < (c.exec s es).log.length ∨ (c.exec s es).now ≤ T := by
  induction es generalizing s with
  | nil => exact Or.inr (Nat.le_trans i.minLo w.due)
  | cons e es ih =>
      have hl := step_len c s e
      have hx := exec_len c (c.step s e) es
      rcases soon_step i w e (fun cs r h => hj cs r (by rw [h]; exact List.mem_cons_self))
          (fun u h => hv u (by rw [h]; exact List.mem_cons_self)) with h | h
      · left
        show s.log.length < (c.exec (c.step s e) es).log.length
        omega
      · rcases ih (step_inv i e) h (fun cs r h => hj cs r (List.mem_cons_of_mem _ h))
          (fun u h => hv u (List.mem_cons_of_mem _ h)) with h' | h'
        · left
          show s.log.length < (c.exec (c.step s e) es).log.length
          omega
        · exact Or.inr h'

/-- Parents that hold the leader's certificate (or the votes): the header is made within the minimal
delay, as long as the schedule stays and no parents of a later round arrive. -/
theorem in_time_ready {c : Cfg} (ht : 0 < c.threshold) {s : Sys} (h : c.Reach s)
    (hp : s.pending = none) (hx : s.parents ≠ []) (ha : s.advance = true) (he : s.eval = some s.ver)
    (es : List Ev) (hj : ∀ cs r, Ev.parents cs r ∈ es → r ≤ s.round)
    (hv : ∀ u, Ev.schedule u ∈ es → u = s.ver) :
    s.log.length < (c.exec s es).log.length ∨ (c.exec s es).now ≤ s.now + c.minD := by
  have i := h.inv ht
  rcases soon_exec i ⟨hp, hx, rfl, rfl, ha, i.ready hp ha _ he, Nat.le_refl _⟩ es hj hv with h | h
  · exact Or.inl h
  · exact Or.inr (Nat.le_trans h i.minHi)

/-- Parents of a later round that are ready: the header is made before any time passes. -/
theorem catch_up_prompt {c : Cfg} (ht : 0 < c.threshold) {s : Sys} (h : c.Reach s)
    (hp : s.pending = none) (cs : List Cert) (r : Nat) (hr : s.round < r) (hx : cs ≠ [])
    (hd : (r % 2 = 0 ∧ ∃ x ∈ cs, x.origin = c.leader s.ver r) ∨
      (r % 2 = 1 ∧ c.Ready s.ver r cs s.lastLeader))
    (es : List Ev) (hj : ∀ cs' r', Ev.parents cs' r' ∈ es → r' ≤ r)
    (hv : ∀ u, Ev.schedule u ∈ es → u = s.ver) :
    s.log.length < (c.exec s (.parents cs r :: es)).log.length ∨
      (c.exec s (.parents cs r :: es)).now ≤ s.now := by
  have i := h.inv ht
  have h1 : (c.evaluate (c.jump s cs r)).advance = true := by
    rcases hd with ⟨h0, x, hx, ho⟩ | ⟨_, hd⟩
    · unfold Cfg.evaluate
      rw [if_pos (show (c.jump s cs r).round % 2 = 0 from h0)]
      show (c.leaderCert (c.jump s cs r)).isSome = true
      unfold Cfg.leaderCert
      rw [List.find?_isSome]
      exact ⟨x, hx, decide_eq_true ho⟩
    · exact evaluate_of_ready (s := c.jump s cs r) hd
  have hd := (evaluate_ready c (c.jump s cs r)).mp h1
  have i' := step_inv i (.parents cs r)
  have hs := exec_len c (c.step s (.parents cs r)) es
  rcases act_cases c (c.takeParents s cs r) with h' | h'
  · have e : c.step s (.parents cs r) = c.evaluate (c.jump s cs r) := by
      show c.act _ = _
      rw [h']
      unfold Cfg.takeParents
      rw [if_pos hr]
    have hl := evaluate_log c (c.jump s cs r)
    obtain ⟨l, a, f⟩ := evaluate_frame c (c.jump s cs r)
    have w : Soon s.ver r s.now c (c.step s (.parents cs r)) := by
      rw [e]
      rw [f] at h1 hd ⊢
      exact ⟨hp, hx, rfl, rfl, h1, hd, Nat.le_refl _⟩
    rcases soon_exec i' w es hj hv with h2 | h2
    · left
      have : (c.step s (.parents cs r)).log = s.log := by rw [e, hl]; rfl
      rw [this] at h2
      exact h2
    · exact Or.inr h2
  · left
    rw [takeParents_log] at h'
    show s.log.length < (c.exec (c.step s (.parents cs r)) es).log.length
    have : c.step s (.parents cs r) = c.act (c.takeParents s cs r) := rfl
    rw [← this] at h'
    omega

/-! ## All certificates are enough -/

theorem stake_sum (c : Cfg) (ps : List Cert) (d : Nat) :
    c.votes ps d + c.noVotes ps d = (ps.filter fun x => decide (x.origin ∈ c.members)).length := by
  unfold Cfg.votes Cfg.noVotes
  induction ps with
  | nil => rfl
  | cons a l ih =>
      rw [List.filter_cons, List.filter_cons, List.filter_cons]
      by_cases h : d ∈ a.parents
      · rw [if_pos (decide_eq_true h), if_neg (by simpa using h), List.foldr_cons]
        by_cases hm : a.origin ∈ c.members
        · rw [if_pos (decide_eq_true hm), List.length_cons]
          unfold Cfg.stake at ih ⊢
          rw [if_pos hm]; omega
        · rw [if_neg (by simpa using hm)]
          unfold Cfg.stake at ih ⊢
          rw [if_neg hm]; omega
      · rw [if_neg (by simpa using h), if_pos (decide_eq_true h), List.foldr_cons]
        by_cases hm : a.origin ∈ c.members
        · rw [if_pos (decide_eq_true hm), List.length_cons]
          unfold Cfg.stake at ih ⊢
          rw [if_pos hm]; omega
        · rw [if_neg (by simpa using hm)]
          unfold Cfg.stake at ih ⊢
          rw [if_neg hm]; omega

/-- With a certificate of every member among the parents there is nothing to wait for. -/
theorem all_certs {c : Cfg} (hn : c.members.Nodup) (h0 : c.members ≠ []) {s : Sys}
    (hl : ∀ m ∈ c.members, ∃ x ∈ s.parents, x.origin = m)
    (hlead : c.leader s.ver s.round ∈ c.members) : (c.evaluate s).advance = true := by
  unfold Cfg.evaluate
  split
  · show (c.leaderCert s).isSome = true
    unfold Cfg.leaderCert
    rw [List.find?_isSome]
    obtain ⟨x, hx, ho⟩ := hl _ hlead
    exact ⟨x, hx, decide_eq_true ho⟩
  · show c.enoughVotes s = true
    unfold Cfg.enoughVotes
    split
    · rfl
    · cases s.lastLeader with
      | none => rfl
      | some d =>
          have hs := stake_sum c s.parents d
          have hsub : c.members ⊆
              ((s.parents.filter fun x => decide (x.origin ∈ c.members)).map (·.origin)) := by
            intro m hm
            obtain ⟨x, hx, ho⟩ := hl m hm
            exact List.mem_map.mpr ⟨x, List.mem_filter.mpr ⟨hx, decide_eq_true (ho ▸ hm)⟩, ho⟩
          have hle := (List.subperm_of_subset hn hsub).length_le
          rw [List.length_map] at hle
          have hpos := List.length_pos_iff.mpr h0
          show (decide (c.validity ≤ c.votes s.parents d) ||
            decide (c.quorum ≤ c.noVotes s.parents d)) = true
          rw [Bool.or_eq_true, decide_eq_true_eq, decide_eq_true_eq]
          unfold Cfg.validity Cfg.quorum
          omega

end Verif.Ptm
