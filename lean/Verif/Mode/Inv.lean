import Verif.Mode.Model

/-!
# The role of a node: the invariant (C106)
-/

namespace Verif.Mode

/-- Node `c` may take part in consensus in epoch `e`. -/
def Cfg.may (c : Cfg) (e : Nat) : Prop := c.member e = true ∧ c.observer = false

/-- What is claimed of one effect. -/
def Cfg.good (c : Cfg) : Act → Prop
  | .propose _ e => c.may e
  | .sequence _ e => c.may e
  | .cvvSave _ e => c.may e
  | .vote _ e _ => c.member e = true
  | .sealBatch _ e _ => c.member e = true
  | .disburse _ e => c.member e = false
  | .demote _ _ => c.observer = false
  | .rejoin _ _ n last age => c.observer = false ∧ n = last ∧ age < 5
  | .panic _ _ => False
  | .syncSave _ _ => True
  | .topic _ e on => on = true → c.observer = false

/-- The start an effect belongs to. -/
def Act.run : Act → Nat
  | .propose r _ => r
  | .sequence r _ => r
  | .cvvSave r _ => r
  | .syncSave r _ => r
  | .vote r _ _ => r
  | .sealBatch r _ _ => r
  | .disburse r _ => r
  | .demote r _ => r
  | .rejoin r _ _ _ _ => r
  | .topic r _ _ => r
  | .panic r _ => r

def Act.isCvvSave : Act → Bool
  | .cvvSave _ _ => true
  | _ => false

def Act.isSyncSave : Act → Bool
  | .syncSave _ _ => true
  | _ => false

/-- The node was demoted in an epoch in which it could take part. -/
def Cfg.demoted (c : Cfg) (acts : List Act) : Prop :=
  ∃ r e : Nat, Act.demote r e ∈ acts ∧ c.may e

theorem Cfg.demoted_mono {c : Cfg} {l : List Act} {a : Act} (h : c.demoted l) :
    c.demoted (l ++ [a]) := by
  obtain ⟨r, e, h, m⟩ := h
  exact ⟨r, e, List.mem_append_left _ h, m⟩

structure Inv (c : Cfg) (s : Sys) : Prop where
  good : ∀ a ∈ s.acts, c.good a
  runs : ∀ a ∈ s.acts, a.run ≤ s.run
  /-- an observer by configuration stays one -/
  obs : c.observer = true → s.mode = .observer
  /-- a mode of inactivity has its reason -/
  why : s.mode = .inactive → c.demoted s.acts
  /-- between epochs nothing runs -/
  idle : s.stage = .idle → s.consensus = false ∧ s.proposer = false ∧ s.sub = none ∧
    s.sync = false ∧ s.pending = 0
  entryActive : s.stage ≠ .idle → s.entry = .active → c.may s.epoch
  entryInactive : s.stage ≠ .idle → s.entry = .inactive → c.demoted s.acts ∧ c.observer = false
  entryObserver : s.stage ≠ .idle → s.entry = .observer → s.mode = .observer
  entryOut : s.stage ≠ .idle → s.entry = .observer → c.member s.epoch = false ∨ c.observer = true
  /-- as long as no signal is sent, the mode is the mode of the entry -/
  still : s.stage ≠ .idle → s.shut = false → s.mode = s.entry
  notObserver : s.stage ≠ .idle → s.entry ≠ .observer → s.mode ≠ .observer
  inactiveStays : s.stage ≠ .idle → s.entry = .inactive → s.rejoined = false →
    s.mode = .inactive
  rejoinedRuns : s.rejoined = true → s.stage ≠ .idle → s.stage = .running ∧ s.shut = true ∧
    s.entry ≠ .observer
  starting : s.stage = .started ∨ s.stage = .sequencing ∨ s.stage = .proposing → s.entry = .active
  consensusOn : s.consensus = true → s.entry = .active
  proposerOn : s.proposer = true → s.entry = .active
  subCvv : s.sub = some .cvv → s.entry = .active
  subRejoin : s.sub = some .rejoin → s.entry ≠ .observer ∧ s.rejoined = false ∧ s.mode = .inactive
  subFollow : s.sub = some .follow → s.entry = .observer
  subRuns : s.sub ≠ none → s.stage = .running
  pendingOn : s.pending ≠ 0 → s.entry ≠ .observer
  srcSub : s.sub ≠ none → s.src = s.sub
  srcRejoined : s.rejoined = true → s.src = some .rejoin
  srcNone : s.stage ≠ .idle → s.stage ≠ .running → s.src = none ∧ s.sub = none
  saves : ∀ a ∈ s.acts, a.isCvvSave = true → a.run = s.run → s.src = some .cvv
  syncs : ∀ a ∈ s.acts, a.isSyncSave = true → a.run = s.run →
    s.src = some .rejoin ∨ s.src = some .follow
  apart : ∀ a ∈ s.acts, ∀ b ∈ s.acts, a.isCvvSave = true → b.isSyncSave = true → a.run ≠ b.run

/-- An effect that saves no output can be appended. -/
theorem Inv.log {c : Cfg} {s : Sys} (i : Inv c s) (a : Act) (g : c.good a) (hr : a.run = s.run)
    (h1 : a.isCvvSave = true → s.src = some .cvv)
    (h2 : a.isSyncSave = true → s.src = some .rejoin ∨ s.src = some .follow) :
    Inv c (s.log a) := by
  refine { i with good := ?_, runs := ?_, why := ?_, entryInactive := ?_, saves := ?_, syncs := ?_,
                  apart := ?_ }
  · intro b hb
    rcases List.mem_append.mp hb with hb | hb
    · exact i.good b hb
    · rw [List.mem_singleton] at hb; subst hb; exact g
  · intro b hb
    rcases List.mem_append.mp hb with hb | hb
    · exact i.runs b hb
    · rw [List.mem_singleton] at hb; subst hb; exact Nat.le_of_eq hr
  · intro h; exact Cfg.demoted_mono (i.why h)
  · intro h1 h2; exact ⟨Cfg.demoted_mono (i.entryInactive h1 h2).1, (i.entryInactive h1 h2).2⟩
  · intro b hb k e
    rcases List.mem_append.mp hb with hb | hb
    · exact i.saves b hb k e
    · rw [List.mem_singleton] at hb; subst hb; exact h1 k
  · intro b hb k e
    rcases List.mem_append.mp hb with hb | hb
    · exact i.syncs b hb k e
    · rw [List.mem_singleton] at hb; subst hb; exact h2 k
  · intro x hx y hy kx ky e
    rcases List.mem_append.mp hx with ha | ha <;> rcases List.mem_append.mp hy with hb | hb
    · exact i.apart x ha y hb kx ky e
    · rw [List.mem_singleton] at hb
      rw [hb] at ky e
      have := i.saves x ha kx (e.trans hr)
      rcases h2 ky with h | h <;> rw [this] at h <;> cases h
    · rw [List.mem_singleton] at ha
      rw [ha] at kx e
      have := h1 kx
      rcases i.syncs y hb ky (e.symm.trans hr) with h | h <;> rw [this] at h <;> cases h
    · rw [List.mem_singleton] at ha hb
      rw [ha] at kx; rw [hb] at ky
      cases a <;> simp_all [Act.isCvvSave, Act.isSyncSave]

theorem initial_ne (c : Cfg) : c.initial ≠ .inactive := by
  unfold Cfg.initial; split <;> intro h <;> cases h

theorem initial_obs (c : Cfg) (h : c.observer = true) : c.initial = .observer := by
  unfold Cfg.initial; rw [if_pos h]

theorem boot_inv (c : Cfg) (e r : Nat) (acts : List Act) (g : ∀ a ∈ acts, c.good a)
    (hr : ∀ a ∈ acts, a.run < r)
    (ap : ∀ a ∈ acts, ∀ b ∈ acts, a.isCvvSave = true → b.isSyncSave = true → a.run ≠ b.run) :
    Inv c (c.boot e r acts) where
  good := g
  runs := fun a h => Nat.le_of_lt (hr a h)
  obs := initial_obs c
  why := fun h => absurd h (initial_ne c)
  idle := fun _ => ⟨rfl, rfl, rfl, rfl, rfl⟩
  entryActive := fun h => absurd rfl h
  entryInactive := fun h => absurd rfl h
  entryObserver := fun h => absurd rfl h
  entryOut := fun h => absurd rfl h
  still := fun h => absurd rfl h
  notObserver := fun h => absurd rfl h
  inactiveStays := fun h => absurd rfl h
  rejoinedRuns := fun h => nomatch h
  starting := fun h => by rcases h with h | h | h <;> cases h
  consensusOn := fun h => nomatch h
  proposerOn := fun h => nomatch h
  subCvv := fun h => nomatch h
  subRejoin := fun h => nomatch h
  subFollow := fun h => nomatch h
  subRuns := fun h => absurd rfl h
  pendingOn := fun h => absurd rfl h
  srcSub := fun h => absurd rfl h
  srcRejoined := fun h => nomatch h
  srcNone := fun h => absurd rfl h
  saves := fun a h _ he => absurd he (Nat.ne_of_lt (hr a h))
  syncs := fun a h _ he => absurd he (Nat.ne_of_lt (hr a h))
  apart := ap

theorem crash_inv {c : Cfg} {s : Sys} (i : Inv c s) : Inv c (c.boot s.epoch (s.run + 1) s.acts) :=
  boot_inv c _ _ _ i.good (fun a h => Nat.lt_succ_of_le (i.runs a h)) i.apart

theorem enter_inv {c : Cfg} {s : Sys} (i : Inv c s) : Inv c (c.enter s) := by
  have hm : c.identify s = .active → c.may s.epoch := by
    unfold Cfg.identify
    split
    · intro h; cases h
    · split
      · intro h; cases h
      · rename_i h; intro _
        cases hm : c.member s.epoch <;> cases ho : c.observer <;> simp_all [Cfg.may]
  have hi : c.identify s = .inactive → s.mode = .inactive := by
    unfold Cfg.identify
    split
    · intro _; assumption
    · split <;> intro h <;> cases h
  have hx : c.identify s = .observer → c.member s.epoch = false ∨ c.observer = true := by
    unfold Cfg.identify
    split
    · intro h; cases h
    · split
      · rename_i h; intro _
        cases hm : c.member s.epoch <;> cases ho : c.observer <;> simp_all
      · intro h; cases h
  have ho : s.mode = .inactive → c.observer = false := by
    intro h
    cases hc : c.observer
    · rfl
    · rw [i.obs hc] at h; cases h
  refine ⟨i.good, fun a h => Nat.le_succ_of_le (i.runs a h), ?_, fun h => i.why (hi h),
    fun h => (nomatch h), fun _ h => hm h, fun _ h => ⟨i.why (hi h), ho (hi h)⟩, fun _ h => h, fun _ h => hx h,
    fun _ _ => rfl, fun _ h => h, fun _ h _ => h, fun h => (nomatch h), ?_,
    fun h => (nomatch h), fun h => (nomatch h), fun h => (nomatch h), fun h => (nomatch h),
    fun h => (nomatch h), fun h => absurd rfl h, fun h => absurd rfl h, fun h => absurd rfl h,
    fun h => (nomatch h), fun _ _ => ⟨rfl, rfl⟩, ?_, ?_, i.apart⟩
  · intro h
    show c.identify s = _
    have := i.obs h
    unfold Cfg.identify
    rw [if_neg (by rw [this]; decide), if_pos (by simp [h])]
  · intro h; rcases h with h | h | h <;> cases h
  · intro a h _ e
    exact absurd e (Nat.ne_of_lt (Nat.lt_succ_of_le (i.runs a h)))
  · intro a h _ e
    exact absurd e (Nat.ne_of_lt (Nat.lt_succ_of_le (i.runs a h)))

/-- A node that goes inactive was not an observer; if the epoch was not entered as an active node,
it had been demoted before. -/
theorem demote_inv {c : Cfg} {s : Sys} (i : Inv c s) (hs : s.stage ≠ .idle)
    (he : s.entry ≠ .observer) : Inv c s.demote := by
  have hob : c.observer = false := by
    cases h : s.entry
    · exact (i.entryActive hs h).2
    · exact (i.entryInactive hs h).2
    · exact absurd h he
  have hd : c.demoted (s.acts ++ [Act.demote s.run s.epoch]) := by
    cases h : s.entry
    · exact ⟨s.run, s.epoch, List.mem_append_right _ (List.mem_singleton.mpr rfl),
        i.entryActive hs h⟩
    · exact Cfg.demoted_mono (i.entryInactive hs h).1
    · exact absurd h he
  have j := i.log (Act.demote s.run s.epoch) hob rfl (fun h => (nomatch h)) (fun h => (nomatch h))
  refine { j with obs := ?_, why := ?_, entryObserver := ?_, still := ?_, notObserver := ?_,
                  inactiveStays := ?_, rejoinedRuns := ?_, subRejoin := ?_ }
  · intro h; rw [hob] at h; cases h
  · intro _; exact hd
  · intro _ h; exact absurd h he
  · intro _ h; exact nomatch h
  · intro _ _ h; exact nomatch h
  · intro _ _ _; rfl
  · intro h1 h2; exact ⟨(i.rejoinedRuns h1 h2).1, rfl, he⟩
  · intro h; exact ⟨(i.subRejoin h).1, (i.subRejoin h).2.1, rfl⟩

theorem advance_inv {c : Cfg} {s : Sys} (i : Inv c s) : Inv c (c.advance s) := by
  unfold Cfg.advance
  split
  · exact i
  · -- entered
    rename_i hs
    have hidle : s.stage ≠ .idle := by rw [hs]; intro h; cases h
    have hrun : s.stage ≠ .running := by rw [hs]; intro h; cases h
    have k : Inv c { s with stage := .net } :=
      { i with
        idle := fun h => nomatch h
        entryActive := fun _ => i.entryActive hidle
        entryInactive := fun _ => i.entryInactive hidle
        entryObserver := fun _ => i.entryObserver hidle
        entryOut := fun _ => i.entryOut hidle
        still := fun _ => i.still hidle
        notObserver := fun _ => i.notObserver hidle
        inactiveStays := fun _ => i.inactiveStays hidle
        rejoinedRuns := fun h _ => absurd (i.rejoinedRuns h hidle).1 hrun
        starting := fun h => by (rcases h with h | h | h <;> cases h)
        subRuns := fun h => absurd (i.srcNone hidle hrun).2 h
        srcNone := fun _ _ => i.srcNone hidle hrun }
    refine k.log _ ?_ rfl (fun h => (nomatch h)) (fun h => (nomatch h))
    show s.mode.isCvv = true → c.observer = false
    intro h
    cases hc : c.observer
    · rfl
    · rw [i.obs hc] at h; exact nomatch h
  · -- net
    rename_i hs
    have hidle : s.stage ≠ .idle := by rw [hs]; intro h; cases h
    have hrun : s.stage ≠ .running := by rw [hs]; intro h; cases h
    have hre : s.rejoined = false := by
      cases h : s.rejoined
      · rfl
      · exact absurd (i.rejoinedRuns h hidle).1 hrun
    have key : ∀ st : Stage, st ≠ .idle → st ≠ .running →
        (st = .started ∨ st = .sequencing ∨ st = .proposing → s.entry = .active) →
        Inv c { s with stage := st } := fun st h0 h1 h2 =>
      { i with
        idle := fun h => absurd h h0
        entryActive := fun _ => i.entryActive hidle
        entryInactive := fun _ => i.entryInactive hidle
        entryObserver := fun _ => i.entryObserver hidle
        entryOut := fun _ => i.entryOut hidle
        still := fun _ => i.still hidle
        notObserver := fun _ => i.notObserver hidle
        inactiveStays := fun _ => i.inactiveStays hidle
        rejoinedRuns := fun h _ => absurd (i.rejoinedRuns h hidle).1 hrun
        starting := h2
        subRuns := fun h => absurd (i.srcNone hidle hrun).2 h
        srcNone := fun _ _ => i.srcNone hidle hrun }
    split
    · rename_i hm
      refine key _ (fun h => nomatch h) (fun h => nomatch h) (fun _ => ?_)
      cases h : s.entry
      · rfl
      · have := i.inactiveStays hidle h hre; rw [hm] at this; cases this
      · have := i.entryObserver hidle h; rw [hm] at this; cases this
    · refine key _ (fun h => nomatch h) (fun h => nomatch h) ?_
      intro h; rcases h with h | h | h <;> cases h
  · -- started
    rename_i hs
    have hidle : s.stage ≠ .idle := by rw [hs]; intro h; cases h
    have hrun : s.stage ≠ .running := by rw [hs]; intro h; cases h
    have hent := i.starting (Or.inl hs)
    have k : Inv c { s with stage := .sequencing } :=
      { i with
        idle := fun h => nomatch h
        entryActive := fun _ => i.entryActive hidle
        entryInactive := fun _ => i.entryInactive hidle
        entryObserver := fun _ => i.entryObserver hidle
        entryOut := fun _ => i.entryOut hidle
        still := fun _ => i.still hidle
        notObserver := fun _ => i.notObserver hidle
        inactiveStays := fun _ => i.inactiveStays hidle
        rejoinedRuns := fun h _ => absurd (i.rejoinedRuns h hidle).1 hrun
        starting := fun _ => hent
        subRuns := fun h => absurd (i.srcNone hidle hrun).2 h
        srcNone := fun _ _ => i.srcNone hidle hrun }
    split
    · exact { k with consensusOn := fun _ => hent, idle := fun h => nomatch h }
    · exact k
  · -- sequencing
    rename_i hs
    have hidle : s.stage ≠ .idle := by rw [hs]; intro h; cases h
    have hrun : s.stage ≠ .running := by rw [hs]; intro h; cases h
    have hent := i.starting (Or.inr (Or.inl hs))
    have key : ∀ st : Stage, st ≠ .idle → st ≠ .running → Inv c { s with stage := st } :=
      fun st h0 h1 =>
      { i with
        idle := fun h => absurd h h0
        entryActive := fun _ => i.entryActive hidle
        entryInactive := fun _ => i.entryInactive hidle
        entryObserver := fun _ => i.entryObserver hidle
        entryOut := fun _ => i.entryOut hidle
        still := fun _ => i.still hidle
        notObserver := fun _ => i.notObserver hidle
        inactiveStays := fun _ => i.inactiveStays hidle
        rejoinedRuns := fun h _ => absurd (i.rejoinedRuns h hidle).1 hrun
        starting := fun _ => hent
        subRuns := fun h => absurd (i.srcNone hidle hrun).2 h
        srcNone := fun _ _ => i.srcNone hidle hrun }
    split
    · rw [if_pos (i.entryActive hidle hent).1]
      exact key _ (fun h => nomatch h) (fun h => nomatch h)
    · exact key _ (fun h => nomatch h) (fun h => nomatch h)
  · -- proposing
    rename_i hs
    have hidle : s.stage ≠ .idle := by rw [hs]; intro h; cases h
    have hrun : s.stage ≠ .running := by rw [hs]; intro h; cases h
    have hent := i.starting (Or.inr (Or.inr hs))
    have k : Inv c { s with stage := .subscribing } :=
      { i with
        idle := fun h => nomatch h
        entryActive := fun _ => i.entryActive hidle
        entryInactive := fun _ => i.entryInactive hidle
        entryObserver := fun _ => i.entryObserver hidle
        entryOut := fun _ => i.entryOut hidle
        still := fun _ => i.still hidle
        notObserver := fun _ => i.notObserver hidle
        inactiveStays := fun _ => i.inactiveStays hidle
        rejoinedRuns := fun h _ => absurd (i.rejoinedRuns h hidle).1 hrun
        starting := fun _ => hent
        subRuns := fun h => absurd (i.srcNone hidle hrun).2 h
        srcNone := fun _ _ => i.srcNone hidle hrun }
    split
    · exact { k with proposerOn := fun _ => hent, idle := fun h => nomatch h }
    · exact k
  · -- subscribing
    rename_i hs
    have hidle : s.stage ≠ .idle := by rw [hs]; intro h; cases h
    have hrun : s.stage ≠ .running := by rw [hs]; intro h; cases h
    have hre : s.rejoined = false := by
      cases h : s.rejoined
      · rfl
      · exact absurd (i.rejoinedRuns h hidle).1 hrun
    have hsrc := i.srcNone hidle hrun
    refine { i with idle := ?_, entryActive := ?_, entryInactive := ?_, entryObserver := ?_,
                    entryOut := ?_, still := ?_, notObserver := ?_, inactiveStays := ?_, rejoinedRuns := ?_,
                    starting := ?_, subCvv := ?_, subRejoin := ?_, subFollow := ?_, subRuns := ?_,
                    srcSub := ?_, srcRejoined := ?_, srcNone := ?_, saves := ?_, syncs := ?_ }
    · intro h; exact nomatch h
    · intro _; exact i.entryActive hidle
    · intro _; exact i.entryInactive hidle
    · intro _; exact i.entryObserver hidle
    · intro _; exact i.entryOut hidle
    · intro _; exact i.still hidle
    · intro _; exact i.notObserver hidle
    · intro _; exact i.inactiveStays hidle
    · intro h; rw [show s.rejoined = true from h] at hre; cases hre
    · intro h; rcases h with h | h | h <;> cases h
    · intro h
      cases hm : s.mode
      · cases he : s.entry
        · rfl
        · have := i.inactiveStays hidle he hre; rw [hm] at this; cases this
        · have := i.entryObserver hidle he; rw [hm] at this; cases this
      · rw [hm] at h; cases h
      · rw [hm] at h; cases h
    · intro h
      have hm : s.mode = .inactive := by
        cases hm : s.mode
        · rw [hm] at h; cases h
        · rfl
        · rw [hm] at h; cases h
      refine ⟨?_, hre, hm⟩
      intro he
      have := i.entryObserver hidle he; rw [hm] at this; cases this
    · intro h
      have hm : s.mode = .observer := by
        cases hm : s.mode
        · rw [hm] at h; cases h
        · rw [hm] at h; cases h
        · rfl
      cases he : s.entry
      · exact absurd hm (i.notObserver hidle (by rw [he]; intro h; cases h))
      · exact absurd hm (i.notObserver hidle (by rw [he]; intro h; cases h))
      · rfl
    · intro _; rfl
    · intro _; rfl
    · intro h; rw [show s.rejoined = true from h] at hre; cases hre
    · intro _ h; exact absurd rfl h
    · intro a h1 h2 h3
      have := i.saves a h1 h2 h3; rw [hsrc.1] at this; cases this
    · intro a h1 h2 h3
      rcases i.syncs a h1 h2 h3 with h | h <;> rw [hsrc.1] at h <;> cases h
  · exact i

theorem output_inv {c : Cfg} {s : Sys} (i : Inv c s) (n : Nat) (last : Option Nat) (age : Nat) :
    Inv c (s.output n last age) := by
  have sv : ∀ k, s.sub = some k → (k = .rejoin ∨ k = .follow) →
      Inv c (s.log (.syncSave s.run s.epoch)) := by
    intro k hk hr
    refine i.log _ trivial rfl (fun h => (nomatch h)) (fun _ => ?_)
    rw [i.srcSub (by rw [hk]; intro h; cases h), hk]
    rcases hr with h | h <;> subst h
    · exact Or.inl rfl
    · exact Or.inr rfl
  unfold Sys.output
  split
  · rename_i hs; exact sv _ hs (Or.inr rfl)
  · rename_i hs
    split
    · exact sv _ hs (Or.inl rfl)
    · rename_i l
      split
      · rename_i hc
        have hrun : s.stage = .running := i.subRuns (by rw [hs]; intro h; cases h)
        have hidle : s.stage ≠ .idle := by rw [hrun]; intro h; cases h
        have hsrc : s.src = some .rejoin := by
          rw [i.srcSub (by rw [hs]; intro h; cases h), hs]
        have hne := (i.subRejoin hs).1
        have hob : c.observer = false := by
          cases h : c.observer
          · rfl
          · have := i.obs h; rw [(i.subRejoin hs).2.2] at this; cases this
        have k : Inv c { s with mode := .active, shut := true, sub := none, rejoined := true } := by
          refine { i with obs := ?_, why := ?_, idle := ?_, entryObserver := ?_, still := ?_,
                          notObserver := ?_, inactiveStays := ?_, rejoinedRuns := ?_, subCvv := ?_,
                          subRejoin := ?_, subFollow := ?_, subRuns := ?_, srcSub := ?_,
                          srcRejoined := ?_, srcNone := ?_ }
          · intro h; rw [hob] at h; cases h
          · intro h; cases h
          · intro h; exact absurd h hidle
          · intro _ h; exact absurd h hne
          · intro _ h; cases h
          · intro _ _ h; cases h
          · intro _ _ h; cases h
          · intro _ _; exact ⟨hrun, rfl, hne⟩
          · intro h; cases h
          · intro h; cases h
          · intro h; cases h
          · intro h; exact absurd rfl h
          · intro h; exact absurd rfl h
          · intro _; exact hsrc
          · intro _ h; exact absurd hrun h
        refine (k.log (.syncSave s.run s.epoch) trivial rfl (fun h => (nomatch h))
          (fun _ => Or.inl hsrc)).log _ ⟨hob, hc.1, hc.2⟩ rfl (fun h => (nomatch h))
          (fun h => (nomatch h))
      · exact sv _ hs (Or.inl rfl)
  · exact i

theorem step_inv {c : Cfg} {s : Sys} (i : Inv c s) (e : Ev) : Inv c (c.step s e) := by
  cases e with
  | start =>
      dsimp only [Cfg.step]
      split
      · exact enter_inv i
      · exact i
  | replayed =>
      dsimp only [Cfg.step]
      split
      · rename_i hs
        exact { i with
          entryActive := fun h => absurd hs h
          entryInactive := fun h => absurd hs h
          entryOut := fun h => absurd hs h }
      · exact i
  | next => exact advance_inv i
  | check =>
      dsimp only [Cfg.step]
      split
      · rename_i h
        have hidle : s.stage ≠ .idle := by
          intro hs; rw [hs] at h; exact nomatch h.1
        refine { i with idle := fun hs => absurd hs hidle, pendingOn := fun _ he => ?_ }
        have := i.entryObserver hidle he
        rw [h.2] at this; cases this
      · exact i
  | verdict behind =>
      dsimp only [Cfg.step]
      split
      · exact i
      · rename_i hp
        have hidle : s.stage ≠ .idle := fun hs => hp (i.idle hs).2.2.2.2
        have k : Inv c { s with pending := s.pending - 1 } :=
          { i with idle := fun hs => absurd hs hidle, pendingOn := fun _ => i.pendingOn hp }
        split
        · exact demote_inv k hidle (i.pendingOn hp)
        · exact k
  | bogus =>
      dsimp only [Cfg.step]
      split
      · rename_i h
        have hidle : s.stage ≠ .idle := by
          intro hs; rw [(i.idle hs).1] at h; cases h
        refine demote_inv i hidle ?_
        rw [i.consensusOn h]; intro h; cases h
      · exact i
  | sequence =>
      dsimp only [Cfg.step]
      split
      · rename_i h
        have hidle : s.stage ≠ .idle := by
          intro hs; rw [(i.idle hs).1] at h; cases h
        exact i.log _ (i.entryActive hidle (i.consensusOn h)) rfl (fun h => (nomatch h))
          (fun h => (nomatch h))
      · exact i
  | propose =>
      dsimp only [Cfg.step]
      split
      · rename_i h
        have hidle : s.stage ≠ .idle := by
          intro hs; rw [(i.idle hs).2.1] at h; cases h
        exact i.log _ (i.entryActive hidle (i.proposerOn h)) rfl (fun h => (nomatch h))
          (fun h => (nomatch h))
      · exact i
  | save =>
      dsimp only [Cfg.step]
      split
      · rename_i h
        have hidle : s.stage ≠ .idle := by
          intro hs; rw [(i.idle hs).2.2.1] at h; cases h
        refine i.log _ (i.entryActive hidle (i.subCvv h)) rfl (fun _ => ?_) (fun h => (nomatch h))
        rw [i.srcSub (by rw [h]; intro h; cases h), h]
      · exact i
  | spawnSync =>
      dsimp only [Cfg.step]
      split
      · rename_i h
        refine { i with idle := fun hs => ?_ }
        have := (i.idle hs).2.2.1
        rcases h.1 with h | h <;> rw [this] at h <;> cases h
      · exact i
  | output n last age =>
      dsimp only [Cfg.step]
      split
      · exact output_inv i n last age
      · exact i
  | voteReq =>
      dsimp only [Cfg.step]
      split
      · rename_i h
        exact i.log _ h.2 rfl (fun h => (nomatch h)) (fun h => (nomatch h))
      · exact i
  | batch =>
      dsimp only [Cfg.step]
      split
      · split
        · rename_i h
          exact i.log _ h rfl (fun h => (nomatch h)) (fun h => (nomatch h))
        · rename_i h
          refine i.log _ ?_ rfl (fun h => (nomatch h)) (fun h => (nomatch h))
          show c.member s.epoch = false
          cases hm : c.member s.epoch
          · rfl
          · exact absurd hm h
      · exact i
  | finish boundary =>
      dsimp only [Cfg.step]
      split
      · refine { i with idle := fun _ => ⟨rfl, rfl, rfl, rfl, rfl⟩,
                        entryActive := fun h => absurd rfl h,
                        entryInactive := fun h => absurd rfl h,
                        entryObserver := fun h => absurd rfl h,
                        entryOut := fun h => absurd rfl h,
                        still := fun h => absurd rfl h,
                        notObserver := fun h => absurd rfl h,
                        inactiveStays := fun h => absurd rfl h,
                        rejoinedRuns := fun _ h => absurd rfl h,
                        starting := fun h => by (rcases h with h | h | h <;> cases h),
                        consensusOn := fun h => (nomatch h),
                        proposerOn := fun h => (nomatch h),
                        subCvv := fun h => (nomatch h),
                        subRejoin := fun h => (nomatch h),
                        subFollow := fun h => (nomatch h),
                        subRuns := fun h => absurd rfl h,
                        pendingOn := fun h => absurd rfl h,
                        srcSub := fun h => absurd rfl h,
                        srcNone := fun h => absurd rfl h }
      · exact i
  | crash => exact crash_inv i

theorem exec_inv (c : Cfg) (e : Nat) (es : List Ev) : Inv c (c.exec e es) := by
  have : ∀ (es : List Ev) (s : Sys), Inv c s → Inv c (es.foldl c.step s) := by
    intro es
    induction es with
    | nil => intro s i; exact i
    | cons x l ih => intro s i; exact ih _ (step_inv i x)
  exact this es _ (boot_inv c e 0 [] (fun a h => nomatch h) (fun a h => nomatch h)
    (fun a h => nomatch h))

end Verif.Mode
