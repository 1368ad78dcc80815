/-
C50: through any number of crashes, restarts and re-entries, a consensus output is executed exactly once, in
the order of the archive, in its own epoch, and with the epoch closed exactly at the boundary outputs.
-/
import Verif.Exec.Pipeline

namespace Verif
namespace Pipe

/-! ## The expected chain -/

theorem effsFrom_append (n : Nat) (a b : List O) :
    effsFrom n (a ++ b) = effsFrom n a ++ effsFrom (n + a.length) b := by
  induction a generalizing n with
  | nil => simp [effsFrom]
  | cons o os ih =>
    show effect n o o.close ++ effsFrom (n + 1) (os ++ b)
      = (effect n o o.close ++ effsFrom (n + 1) os) ++ effsFrom (n + (os.length + 1)) b
    rw [ih (n + 1), List.append_assoc, Nat.add_assoc, Nat.add_comm 1]

theorem expected_succ {pack : List O} {m : Nat} {o : O} (h : pack[m]? = some o) :
    expected pack (m + 1) = expected pack m ++ effect (m + 1) o o.close := by
  have hlt : m < pack.length := (List.getElem?_eq_some_iff.mp h).1
  have ho : pack[m] = o := (List.getElem?_eq_some_iff.mp h).2
  unfold expected
  rw [List.take_succ_eq_append_getElem hlt, effsFrom_append, List.length_take, ho]
  have : 1 + min m pack.length = m + 1 := by omega
  rw [this]
  simp [effsFrom]

theorem expected_zero (pack : List O) : expected pack 0 = [] := by simp [expected, effsFrom]

theorem boundaries_succ {pack : List O} {m : Nat} {o : O} (h : pack[m]? = some o) :
    boundaries pack (m + 1) = boundaries pack m + (if o.close then 1 else 0) := by
  have hlt : m < pack.length := (List.getElem?_eq_some_iff.mp h).1
  have ho : pack[m] = o := (List.getElem?_eq_some_iff.mp h).2
  unfold boundaries
  rw [List.take_succ_eq_append_getElem hlt, List.filter_append, List.length_append, ho]
  cases hc : o.close <;> simp [hc]

theorem boundaries_zero (pack : List O) : boundaries pack 0 = 0 := by simp [boundaries]

theorem take_append_le (pack : List O) (o : O) {m : Nat} (h : m ≤ pack.length) :
    (pack ++ [o]).take m = pack.take m := List.take_append_of_le_length h

theorem expected_append (pack : List O) (o : O) {m : Nat} (h : m ≤ pack.length) :
    expected (pack ++ [o]) m = expected pack m := by
  unfold expected; rw [take_append_le pack o h]

theorem boundaries_append (pack : List O) (o : O) {m : Nat} (h : m ≤ pack.length) :
    boundaries (pack ++ [o]) m = boundaries pack m := by
  unfold boundaries; rw [take_append_le pack o h]

theorem EpochsOk.mono {pack : List O} {j k : Nat} (h : EpochsOk pack k) (hjk : j ≤ k) : EpochsOk pack j :=
  fun i o hi => h i o (Nat.lt_of_lt_of_le hi hjk)

theorem EpochsOk.append {pack : List O} {k : Nat} (h : EpochsOk pack k) (hk : k ≤ pack.length) (o : O) :
    EpochsOk (pack ++ [o]) k := by
  intro i x hi hx
  rw [boundaries_append pack o (by omega)]
  rw [List.getElem?_append_left (by omega)] at hx
  exact h i x hi hx

theorem EpochsOk.succ {pack : List O} {k : Nat} (h : EpochsOk pack k) {o : O} (ho : pack[k]? = some o)
    (he : o.epoch = boundaries pack k) : EpochsOk pack (k + 1) := by
  intro i x hi hx
  rcases Nat.lt_or_ge i k with hlt | hge
  · exact h i x hlt hx
  · have : i = k := by omega
    subst this
    rw [ho] at hx
    cases hx
    exact he

/-- The closings of the expected chain are the boundaries of the archive. -/
theorem closings_expected (pack : List O) (m : Nat) (h : m ≤ pack.length) :
    closings (expected pack m) = boundaries pack m := by
  induction m with
  | zero => rw [expected_zero, boundaries_zero]; rfl
  | succ m ih =>
    have hm : pack[m]? = some pack[m] := List.getElem?_eq_getElem (by omega)
    rw [expected_succ hm, boundaries_succ hm, ← ih (by omega)]
    unfold closings effect
    rw [List.filter_append, List.length_append]
    cases hc : (pack[m]).close <;> cases hb : (pack[m]).blocks <;> simp [hc]

theorem lastExec_append (a : List Ex) (e : Ex) : lastExec (a ++ [e]) = e.num := by
  unfold lastExec
  rw [List.getLast?_concat]

/-- The chain ends in a block of output `m` if that output is a boundary. -/
theorem lastExec_boundary {pack : List O} {m : Nat} {o : O} (h : pack[m]? = some o) (hc : o.close = true) :
    lastExec (expected pack (m + 1)) = m + 1 := by
  rw [expected_succ h]
  have : effect (m + 1) o o.close = [⟨m + 1, o, o.close⟩] := by
    unfold effect; rw [hc]; simp
  rw [this, lastExec_append]

theorem lastExec_le (pack : List O) (m : Nat) (h : m ≤ pack.length) : lastExec (expected pack m) ≤ m := by
  induction m with
  | zero => rw [expected_zero]; exact Nat.le_refl 0
  | succ m ih =>
    have hm : pack[m]? = some pack[m] := List.getElem?_eq_getElem (by omega)
    rw [expected_succ hm]
    unfold effect
    split
    · rw [lastExec_append]
      exact Nat.le_refl _
    · rw [List.append_nil]
      have := ih (by omega)
      omega

/-- What is left of the expected chain after a crash is the expected chain of the outputs up to the number
of its last block. -/
theorem prefix_expected {pack : List O} {m : Nat} (hm : m ≤ pack.length) {d t : List Ex}
    (h : d ++ t = expected pack m) : lastExec d ≤ m ∧ d = expected pack (lastExec d) := by
  induction m generalizing d t with
  | zero =>
    rw [expected_zero] at h
    have : d = [] := (List.append_eq_nil_iff.mp h).1
    subst this
    exact ⟨Nat.le_refl 0, (expected_zero pack).symm⟩
  | succ m ih =>
    have hg : pack[m]? = some pack[m] := List.getElem?_eq_getElem (by omega)
    rw [expected_succ hg] at h
    unfold effect at h
    split at h
    · rename_i hbc
      rcases t.eq_nil_or_concat with ht | ⟨t', x, ht⟩
      · subst ht
        rw [List.append_nil] at h
        have hl : lastExec d = m + 1 := by rw [h, lastExec_append]
        rw [hl]
        refine ⟨Nat.le_refl _, ?_⟩
        rw [h, expected_succ hg]
        unfold effect
        rw [if_pos hbc]
      · rw [List.concat_eq_append] at ht
        subst ht
        rw [← List.append_assoc] at h
        have := (List.append_inj' h rfl).1
        have r := ih (by omega) this
        exact ⟨by omega, r.2⟩
    · rw [List.append_nil] at h
      have r := ih (by omega) h
      exact ⟨by omega, r.2⟩

/-! ## The invariant -/

/-- The chain is that of the first `m` outputs; the queue holds the outputs that follow. -/
structure Core (s : St) (m : Nat) : Prop where
  chain : s.chain = expected s.pack m
  le : m + s.q.length ≤ s.pack.length
  queue : ∀ (i : Nat) (x : Msg), s.q[i]? = some x →
    x.num = m + i + 1 ∧ s.pack[m + i]? = some x.out ∧ x.close = x.out.close
  epochs : EpochsOk s.pack (m + s.q.length)

/-- What each phase adds; `e` outputs have been handed to the engine. -/
def PhaseOk (s : St) (e : Nat) : Prop :=
  match s.ph with
  | .live => s.fwd = e ∧ boundaries s.pack e = s.epoch ∧
      ∀ (i : Nat) (o : O), e ≤ i → s.pack[i]? = some o → o.epoch = s.epoch
  | .replay r => r = e + 1 ∧ boundaries s.pack e = s.epoch ∧ (s.fwd = e ∨ s.fwd = s.pack.length)
  | .closing => s.fwd = e ∧ boundaries s.pack e = s.epoch + 1 ∧
      ∃ o, 1 ≤ e ∧ s.pack[e - 1]? = some o ∧ o.close = true
  | .down => True

def Inv (s : St) : Prop := ∃ m, Core s m ∧ PhaseOk s (m + s.q.length)

theorem Core.forward {s : St} {m : Nat} (h : Core s m) {o : O} (ho : s.pack[m + s.q.length]? = some o)
    (he : o.epoch = boundaries s.pack (m + s.q.length)) : Core (s.forward (m + s.q.length + 1) o) m := by
  have hlt := (List.getElem?_eq_some_iff.mp ho).1
  refine ⟨h.chain, ?_, ?_, ?_⟩
  · show m + (s.q ++ [_]).length ≤ s.pack.length
    rw [List.length_append]
    simp only [List.length_cons, List.length_nil]
    omega
  · intro i x hx
    have hx' : (s.q ++ [(⟨m + s.q.length + 1, o, o.close⟩ : Msg)])[i]? = some x := hx
    rcases Nat.lt_or_ge i s.q.length with hlt | hge
    · rw [List.getElem?_append_left hlt] at hx'
      exact h.queue i x hx'
    · rw [List.getElem?_append_right hge] at hx'
      have hi : i - s.q.length = 0 := by
        have := (List.getElem?_eq_some_iff.mp hx').1
        simp only [List.length_cons, List.length_nil] at this
        omega
      have hi' : i = s.q.length := by omega
      rw [hi] at hx'
      cases hx'
      subst hi'
      exact ⟨rfl, ho, rfl⟩
  · show EpochsOk s.pack (m + (s.q ++ [_]).length)
    have : m + (s.q ++ [(⟨m + s.q.length + 1, o, o.close⟩ : Msg)]).length = m + s.q.length + 1 := by
      rw [List.length_append]; rfl
    rw [this]
    exact h.epochs.succ ho he

theorem forward_qlen (s : St) (n : Nat) (o : O) : (s.forward n o).q.length = s.q.length + 1 := by
  show (s.q ++ [_]).length = _
  rw [List.length_append]; rfl

/-- Handing the next output to the engine and going to the phase it leads to. -/
theorem Core.next {s : St} {m : Nat} (h : Core s m) (hb : boundaries s.pack (m + s.q.length) = s.epoch)
    {o : O} (ho : s.pack[m + s.q.length]? = some o) (he : o.epoch = s.epoch) :
    Core (s.forward (m + s.q.length + 1) o) m ∧
    (o.close = false → boundaries s.pack (m + s.q.length + 1) = s.epoch) ∧
    (o.close = true → boundaries s.pack (m + s.q.length + 1) = s.epoch + 1) := by
  refine ⟨h.forward ho (by rw [he, hb]), ?_, ?_⟩
  · intro hc; rw [boundaries_succ ho, hb, hc]; simp
  · intro hc; rw [boundaries_succ ho, hb, hc]; simp

theorem Core.withPhase {s : St} {m : Nat} (h : Core s m) (p : Phase) : Core { s with ph := p } m :=
  ⟨h.chain, h.le, h.queue, h.epochs⟩

theorem Core.withDone {s : St} {m : Nat} (h : Core s m) (b : Bool) : Core { s with done := b } m :=
  ⟨h.chain, h.le, h.queue, h.epochs⟩

theorem inv_live {s : St} (h : Inv s) (hl : s.ph = .live) :
    ∃ m, Core s m ∧ s.fwd = m + s.q.length ∧ boundaries s.pack (m + s.q.length) = s.epoch ∧
      ∀ (i : Nat) (o : O), m + s.q.length ≤ i → s.pack[i]? = some o → o.epoch = s.epoch := by
  obtain ⟨m, hc, hp⟩ := h
  unfold PhaseOk at hp
  rw [hl] at hp
  exact ⟨m, hc, hp⟩

theorem inv_of_live {s : St} (hl : s.ph = .live) {m : Nat} (hc : Core s m) (hf : s.fwd = m + s.q.length)
    (hb : boundaries s.pack (m + s.q.length) = s.epoch)
    (ht : ∀ (i : Nat) (o : O), m + s.q.length ≤ i → s.pack[i]? = some o → o.epoch = s.epoch) : Inv s := by
  refine ⟨m, hc, ?_⟩
  unfold PhaseOk
  rw [hl]
  exact ⟨hf, hb, ht⟩

theorem inv_closing_next {s : St} {m : Nat} (hc : Core s m)
    (hb : boundaries s.pack (m + s.q.length) = s.epoch)
    {o : O} (ho : s.pack[m + s.q.length]? = some o) (he : o.epoch = s.epoch) (hcl : o.close = true) :
    Inv { s.forward (m + s.q.length + 1) o with ph := .closing } := by
  have hn := hc.next hb ho he
  have hq := forward_qlen s (m + s.q.length + 1) o
  refine ⟨m, hn.1.withPhase _, ?_⟩
  show m + s.q.length + 1 = m + (s.forward (m + s.q.length + 1) o).q.length ∧
    boundaries s.pack (m + (s.forward (m + s.q.length + 1) o).q.length) = s.epoch + 1 ∧
    ∃ x, 1 ≤ m + (s.forward (m + s.q.length + 1) o).q.length ∧
      s.pack[m + (s.forward (m + s.q.length + 1) o).q.length - 1]? = some x ∧ x.close = true
  rw [hq]
  exact ⟨rfl, hn.2.2 hcl, o, by omega, ho, hcl⟩

theorem inv_live_next {s : St} {m : Nat} (hl : s.ph = .live) (hc : Core s m)
    (hb : boundaries s.pack (m + s.q.length) = s.epoch)
    (ht : ∀ (i : Nat) (o : O), m + s.q.length ≤ i → s.pack[i]? = some o → o.epoch = s.epoch)
    {o : O} (ho : s.pack[m + s.q.length]? = some o) (hcl : o.close = false) :
    Inv (s.forward (m + s.q.length + 1) o) := by
  have he := ht _ o (Nat.le_refl _) ho
  have hn := hc.next hb ho he
  have hq := forward_qlen s (m + s.q.length + 1) o
  refine inv_of_live hl (m := m) hn.1 ?_ ?_ ?_
  · rw [hq]; rfl
  · rw [hq]; exact hn.2.1 hcl
  · intro i x hi hx
    rw [hq] at hi
    exact ht i x (by omega) hx

theorem inv_receive {s : St} (h : Inv s) (hl : s.ph = .live) (n : Nat) (hn : 1 ≤ n) : Inv (s.receive n) := by
  obtain ⟨m, hc, hf, hb, ht⟩ := inv_live h hl
  unfold St.receive
  cases hp : s.pack[n - 1]? with
  | none => exact h
  | some o =>
    dsimp only
    split
    · exact h
    · split
      · rename_i hne heq
        have hidx : n - 1 = m + s.q.length := by omega
        rw [hidx] at hp
        have hnn : n = m + s.q.length + 1 := by omega
        rw [hnn]
        cases hcl : o.close with
        | true => exact inv_closing_next hc hb hp (ht _ o (Nat.le_refl _) hp) hcl
        | false =>
          have := inv_live_next hl hc hb ht hp hcl
          simp only [Bool.false_eq_true, if_false]
          have heq2 : ({ s.forward (m + s.q.length + 1) o with ph := .live } : St)
              = s.forward (m + s.q.length + 1) o := by
            rw [← hl]; rfl
          rw [heq2]
          exact this
      · exact ⟨m, hc.withPhase _, trivial⟩

theorem inv_leftover {s : St} (h : Inv s) (hl : s.ph = .live) (k : Nat) : Inv (s.leftover k) := by
  induction k generalizing s with
  | zero =>
    obtain ⟨m, hc, hf, hb, ht⟩ := inv_live h hl
    exact inv_of_live (s := { s with done := false }) hl (hc.withDone false) hf hb ht
  | succ k ih =>
    obtain ⟨m, hc, hf, hb, ht⟩ := inv_live h hl
    unfold St.leftover
    cases hp : s.pack[s.fwd]? with
    | none => exact inv_of_live (s := { s with done := false }) hl (hc.withDone false) hf hb ht
    | some o =>
      dsimp only
      rw [hf] at hp ⊢
      cases hcl : o.close with
      | true =>
        simp only [if_true]
        exact inv_closing_next hc hb hp (ht _ o (Nat.le_refl _) hp) hcl
      | false =>
        simp only [Bool.false_eq_true, if_false]
        exact ih (inv_live_next hl hc hb ht hp hcl) hl

theorem Core.exec {s : St} {m : Nat} (h : Core s m) {x : Msg} {q : List Msg} (hq : s.q = x :: q) :
    Core { s with mem := s.mem ++ effect x.num x.out x.close, q := q } (m + 1) ∧
      (m + 1) + q.length = m + s.q.length := by
  have hx := h.queue 0 x (by rw [hq]; rfl)
  have hlen : s.q.length = q.length + 1 := by rw [hq]; rfl
  have hsum : (m + 1) + q.length = m + s.q.length := by omega
  refine ⟨⟨?_, ?_, ?_, ?_⟩, hsum⟩
  · show s.dur ++ (s.mem ++ effect x.num x.out x.close) = expected s.pack (m + 1)
    rw [← List.append_assoc, expected_succ hx.2.1, hx.2.2, hx.1]
    have := h.chain
    unfold St.chain at this
    rw [this]
    rfl
  · show (m + 1) + q.length ≤ s.pack.length
    rw [hsum]; exact h.le
  · intro i y hy
    have hy' : q[i]? = some y := hy
    have := h.queue (i + 1) y (by rw [hq]; exact hy')
    refine ⟨by omega, ?_, this.2.2⟩
    have he : m + 1 + i = m + (i + 1) := by omega
    show s.pack[m + 1 + i]? = _
    rw [he]; exact this.2.1
  · show EpochsOk s.pack ((m + 1) + q.length)
    rw [hsum]; exact h.epochs

theorem inv_enter_restart {s : St} (h : Inv s) : Inv s.restart := by
  obtain ⟨m, hc, _⟩ := h
  have hle : m ≤ s.pack.length := by have := hc.le; omega
  have hpre := prefix_expected hle (d := s.dur) (t := s.mem) hc.chain
  have hk : lastExec s.dur ≤ s.pack.length := by omega
  have hch : s.restart.chain = s.dur := by
    show s.dur ++ [] = s.dur
    rw [List.append_nil]
  have hep : s.restart.epoch = closings s.dur := by
    show closings (s.dur ++ []) = _
    rw [List.append_nil]
  have hph : s.restart.ph = .replay (lastExec s.dur + 1) := by
    show Phase.replay (lastExec (s.dur ++ []) + 1) = _
    rw [List.append_nil]
  refine ⟨lastExec s.dur, ⟨?_, ?_, ?_, ?_⟩, ?_⟩
  · rw [hch]; exact hpre.2
  · show lastExec s.dur + 0 ≤ s.pack.length
    omega
  · intro i x hx
    have : ([] : List Msg)[i]? = some x := hx
    simp at this
  · exact hc.epochs.mono (by show lastExec s.dur + 0 ≤ _; omega)
  · unfold PhaseOk
    rw [hph, hep]
    show lastExec s.dur + 1 = lastExec s.dur + 0 + 1 ∧ boundaries s.pack (lastExec s.dur + 0) = closings s.dur ∧
      (max s.pack.length (lastExec s.dur) = lastExec s.dur + 0 ∨ max s.pack.length (lastExec s.dur) = s.pack.length)
    refine ⟨rfl, ?_, Or.inr (Nat.max_eq_left hk)⟩
    have hcl := closings_expected s.pack (lastExec s.dur) hk
    rw [← hpre.2] at hcl
    rw [hcl]; rfl

theorem inv_closed {s : St} (h : Inv s) (hp : s.ph = .closing) (hq : s.q = []) : Inv s.enter := by
  obtain ⟨m, hc, hph⟩ := h
  unfold PhaseOk at hph
  rw [hp] at hph
  obtain ⟨hf, hb, o, h1, ho, hcl⟩ := hph
  have hle := hc.le
  rw [hq] at hf hb h1 ho hle
  simp only [List.length_nil, Nat.add_zero] at hf hb h1 ho hle
  have hlast : lastExec s.chain = m := by
    rw [hc.chain]
    have := lastExec_boundary ho hcl
    have e : m - 1 + 1 = m := by omega
    rw [e] at this
    exact this
  have hclos : closings s.chain = boundaries s.pack m := by
    rw [hc.chain]; exact closings_expected s.pack m hle
  refine ⟨m, ⟨hc.chain, hc.le, hc.queue, hc.epochs⟩, ?_⟩
  show lastExec s.chain + 1 = m + s.q.length + 1 ∧ boundaries s.pack (m + s.q.length) = closings s.chain ∧
    (s.fwd = m + s.q.length ∨ s.fwd = s.pack.length)
  rw [hq, hlast, hclos, hf]
  exact ⟨rfl, rfl, Or.inl rfl⟩

theorem inv_replayOne {s : St} (h : Inv s) {r : Nat} {o : O} (hp : s.ph = .replay r)
    (ho : s.pack[r - 1]? = some o) : Inv (s.replayOne r o) := by
  obtain ⟨m, hc, hph⟩ := h
  unfold PhaseOk at hph
  rw [hp] at hph
  obtain ⟨hr, hb, _⟩ := hph
  unfold St.replayOne
  split
  · exact ⟨m, hc.withPhase _, trivial⟩
  · rename_i he
    have he : o.epoch = s.epoch := Classical.not_not.mp he
    subst hr
    have ho' : s.pack[m + s.q.length]? = some o := ho
    cases hcl : o.close with
    | true => exact inv_closing_next hc hb ho' he hcl
    | false =>
      have hn := hc.next hb ho' he
      have hq := forward_qlen s (m + s.q.length + 1) o
      refine ⟨m, hn.1.withPhase _, ?_⟩
      show m + s.q.length + 1 + 1 = m + (s.forward (m + s.q.length + 1) o).q.length + 1 ∧
        boundaries s.pack (m + (s.forward (m + s.q.length + 1) o).q.length) = s.epoch ∧
        (m + s.q.length + 1 = m + (s.forward (m + s.q.length + 1) o).q.length ∨ _)
      rw [hq]
      exact ⟨rfl, hn.2.1 hcl, Or.inl rfl⟩

theorem inv_replayed {s : St} (h : Inv s) {r : Nat} (hp : s.ph = .replay r) (hr : s.pack.length < r) :
    Inv { s with ph := .live } := by
  obtain ⟨m, hc, hph⟩ := h
  unfold PhaseOk at hph
  rw [hp] at hph
  obtain ⟨hr', hb, hf⟩ := hph
  have hle := hc.le
  have hlen : m + s.q.length = s.pack.length := by omega
  refine ⟨m, hc.withPhase _, ?_⟩
  show s.fwd = m + s.q.length ∧ boundaries s.pack (m + s.q.length) = s.epoch ∧ _
  refine ⟨by omega, hb, ?_⟩
  intro i o hi ho
  have hi' : m + s.q.length ≤ i := hi
  have := (List.getElem?_eq_some_iff.mp (show s.pack[i]? = some o from ho)).1
  omega

theorem inv_commit {s : St} (h : Inv s) (hl : s.ph = .live) {o : O} (he : o.epoch = s.epoch) (b : Bool) :
    Inv { s with pack := s.pack ++ [o], done := b } := by
  obtain ⟨m, hc, hf, hb, ht⟩ := inv_live h hl
  have hle := hc.le
  refine inv_of_live (s := { s with pack := s.pack ++ [o], done := b }) hl (m := m) ⟨?_, ?_, ?_, ?_⟩ hf ?_ ?_
  · show s.chain = expected (s.pack ++ [o]) m
    rw [expected_append _ _ (by omega)]; exact hc.chain
  · show m + s.q.length ≤ (s.pack ++ [o]).length
    rw [List.length_append]; omega
  · intro i x hx
    have hx' : s.q[i]? = some x := hx
    have hi := (List.getElem?_eq_some_iff.mp hx').1
    have := hc.queue i x hx'
    refine ⟨this.1, ?_, this.2.2⟩
    show (s.pack ++ [o])[m + i]? = _
    rw [List.getElem?_append_left (by omega)]
    exact this.2.1
  · exact hc.epochs.append hc.le o
  · show boundaries (s.pack ++ [o]) (m + s.q.length) = s.epoch
    rw [boundaries_append _ _ hle]; exact hb
  · intro i x hi hx
    have hx' : (s.pack ++ [o])[i]? = some x := hx
    rcases Nat.lt_or_ge i s.pack.length with hlt | hge
    · rw [List.getElem?_append_left hlt] at hx'
      exact ht i x hi hx'
    · rw [List.getElem?_append_right hge] at hx'
      have : x ∈ [o] := List.mem_of_getElem? hx'
      rw [List.mem_singleton] at this
      rw [this]; exact he

theorem inv_step {s t : St} (h : Inv s) (hs : Step s t) : Inv t := by
  cases hs with
  | commit o hl _ he => exact inv_commit h hl he _
  | receive n hl hn => exact inv_receive h hl n hn
  | leftover k hl => exact inv_leftover h hl k
  | exec x q hq =>
    obtain ⟨m, hc, hp⟩ := h
    have he := hc.exec hq
    refine ⟨m + 1, he.1, ?_⟩
    have : PhaseOk s (m + 1 + q.length) := by rw [he.2]; exact hp
    exact this
  | persist k =>
    obtain ⟨m, hc, hp⟩ := h
    refine ⟨m, ⟨?_, hc.le, hc.queue, hc.epochs⟩, hp⟩
    show s.dur ++ s.mem.take k ++ s.mem.drop k = _
    rw [List.append_assoc, List.take_append_drop]
    exact hc.chain
  | closed hp hq => exact inv_closed h hp hq
  | replay r o hp ho => exact inv_replayOne h hp ho
  | replayed r hp hr _ => exact inv_replayed h hp hr
  | restart => exact inv_enter_restart h

theorem inv_init : Inv init := by
  refine ⟨0, ⟨?_, ?_, ?_, ?_⟩, ?_⟩
  · show [] ++ [] = _
    rw [expected_zero]; rfl
  · exact Nat.zero_le _
  · intro i x hx
    have : ([] : List Msg)[i]? = some x := hx
    simp at this
  · intro i o hi
    exact absurd hi (Nat.not_lt_zero i)
  · exact ⟨rfl, rfl, Or.inl rfl⟩

theorem reach_inv {s : St} (h : Reach s) : Inv s := by
  induction h with
  | init => exact inv_init
  | step _ hs ih => exact inv_step ih hs

/-! ## C50 -/

/-- **C50**, exactly once. At every moment the chain is the one the first `m` outputs of the archive give,
each executed once, in order, with the epoch closed exactly at the boundary outputs, and each output in the
epoch it belongs to. -/
theorem exactly_once {s : St} (h : Reach s) :
    ∃ m, m ≤ s.pack.length ∧ s.chain = expected s.pack m ∧ EpochsOk s.pack m := by
  obtain ⟨m, hc, _⟩ := reach_inv h
  have := hc.le
  exact ⟨m, by omega, hc.chain, hc.epochs.mono (by omega)⟩

/-- **C50**, what a crash leaves. The durable chain is that of the outputs up to the number of its last
block, so that the first output to execute again is the next one. -/
theorem crash_prefix {s : St} (h : Reach s) :
    lastExec s.dur ≤ s.pack.length ∧ s.dur = expected s.pack (lastExec s.dur) ∧
      closings s.dur = boundaries s.pack (lastExec s.dur) := by
  obtain ⟨m, hc, _⟩ := reach_inv h
  have hle := hc.le
  have hp := prefix_expected (by omega) (d := s.dur) (t := s.mem) hc.chain
  have hk : lastExec s.dur ≤ s.pack.length := by omega
  refine ⟨hk, hp.2, ?_⟩
  have := closings_expected s.pack (lastExec s.dur) hk
  rw [← hp.2] at this
  exact this

theorem expected_prefix (pack : List O) {a b : Nat} (hab : a ≤ b) : expected pack a <+: expected pack b := by
  unfold expected
  have : pack.take b = pack.take a ++ (pack.take b).drop a := by
    conv => lhs; rw [← List.take_append_drop a (pack.take b)]
    rw [List.take_take, Nat.min_eq_left hab]
  rw [this, effsFrom_append]
  exact List.prefix_append _ _

theorem expected_congr {p p' : List O} (h : p <+: p') {m : Nat} (hm : m ≤ p.length) :
    expected p m = expected p' m := by
  obtain ⟨t, rfl⟩ := h
  unfold expected
  rw [List.take_append_of_le_length hm]

/-- **C50**, two nodes. If one archive extends the other, one chain extends the other. -/
theorem agree {s t : St} (hs : Reach s) (ht : Reach t) (h : s.pack <+: t.pack) :
    s.chain <+: t.chain ∨ t.chain <+: s.chain := by
  obtain ⟨a, ha, hca, _⟩ := exactly_once hs
  obtain ⟨b, _, hcb, _⟩ := exactly_once ht
  rw [hca, hcb, expected_congr h ha]
  rcases Nat.le_total a b with hab | hab
  · exact Or.inl (expected_prefix _ hab)
  · exact Or.inr (expected_prefix _ hab)

/-! ## Recovery -/

/-- Runs in which nothing new is committed and nothing crashes. -/
inductive Runs : St → St → Prop
  | refl (s : St) : Runs s s
  | exec {s t : St} (x : Msg) (q : List Msg) : s.q = x :: q →
      Runs { s with mem := s.mem ++ effect x.num x.out x.close, q := q } t → Runs s t
  | closed {s t : St} : s.ph = .closing → s.q = [] → Runs s.enter t → Runs s t
  | replay {s t : St} (r : Nat) (o : O) : s.ph = .replay r → s.pack[r - 1]? = some o →
      Runs (s.replayOne r o) t → Runs s t
  | replayed {s t : St} (r : Nat) : s.ph = .replay r → s.pack.length < r → s.q = [] →
      Runs { s with ph := .live } t → Runs s t

theorem Runs.reach {s t : St} (h : Runs s t) (hs : Reach s) : Reach t := by
  induction h with
  | refl => exact hs
  | exec x q hq _ ih => exact ih (hs.step (.exec x q hq))
  | closed hp hq _ ih => exact ih (hs.step (.closed hp hq))
  | replay r o hp ho _ ih => exact ih (hs.step (.replay r o hp ho))
  | replayed r hp hr hq _ ih => exact ih (hs.step (.replayed r hp hr hq))

theorem Runs.trans {s t u : St} (h : Runs s t) (h2 : Runs t u) : Runs s u := by
  induction h with
  | refl => exact h2
  | exec x q hq _ ih => exact .exec x q hq (ih h2)
  | closed hp hq _ ih => exact .closed hp hq (ih h2)
  | replay r o hp ho _ ih => exact .replay r o hp ho (ih h2)
  | replayed r hp hr hq _ ih => exact .replayed r hp hr hq (ih h2)

theorem drain (s : St) : ∃ t, Runs s t ∧ t.q = [] ∧ t.ph = s.ph ∧ t.pack = s.pack ∧ t.epoch = s.epoch ∧
    t.fwd = s.fwd := by
  generalize hq : s.q = q
  induction q generalizing s with
  | nil => exact ⟨s, .refl s, hq, rfl, rfl, rfl, rfl⟩
  | cons x q ih =>
    obtain ⟨t, h1, h2⟩ := ih { s with mem := s.mem ++ effect x.num x.out x.close, q := q } rfl
    exact ⟨t, .exec x q hq h1, h2⟩

theorem replay_to_live {s : St} (h : Reach s) (hok : EpochsOk s.pack s.pack.length) (d r : Nat)
    (hp : s.ph = .replay r) (hq : s.q = []) (hd : s.pack.length + 1 = r + d) :
    ∃ t, Runs s t ∧ t.ph = .live ∧ t.q = [] ∧ t.pack = s.pack ∧ t.fwd = t.pack.length := by
  induction d generalizing s r with
  | zero =>
    obtain ⟨m, hc, hph⟩ := reach_inv h
    unfold PhaseOk at hph
    rw [hp, hq] at hph
    obtain ⟨hr, _, hf⟩ := hph
    simp only [List.length_nil, Nat.add_zero] at hr hf
    exact ⟨_, .replayed r hp (by omega) hq (.refl _), rfl, hq, rfl, by show s.fwd = s.pack.length; omega⟩
  | succ d ih =>
    obtain ⟨m, hc, hph⟩ := reach_inv h
    unfold PhaseOk at hph
    rw [hp, hq] at hph
    obtain ⟨hr, hb, hf⟩ := hph
    simp only [List.length_nil, Nat.add_zero] at hr hf hb
    have hlt : r - 1 < s.pack.length := by omega
    have ho : s.pack[r - 1]? = some s.pack[r - 1] := List.getElem?_eq_getElem hlt
    have hidx : r - 1 = m := by omega
    have he : (s.pack[r - 1]).epoch = s.epoch := by
      rw [hok _ _ hlt ho, hidx, hb]
    have hrun1 : Reach (s.replayOne r s.pack[r - 1]) := h.step (.replay r _ hp ho)
    have heq : s.replayOne r s.pack[r - 1] = { s.forward r s.pack[r - 1] with
        ph := if (s.pack[r - 1]).close then .closing else .replay (r + 1) } := by
      unfold St.replayOne
      rw [if_neg (fun hh => hh he)]
    obtain ⟨t, hrt, htq, htp, htpk, hte, htf⟩ := drain (s.replayOne r s.pack[r - 1])
    have hrt' : Reach t := hrt.reach hrun1
    have hpk : t.pack = s.pack := by rw [htpk, heq]; rfl
    cases hcl : (s.pack[r - 1]).close with
    | false =>
      have hph2 : t.ph = .replay (r + 1) := by rw [htp, heq]; simp [hcl]
      obtain ⟨u, hu1, hu2, hu3, hu4, hu5⟩ := ih hrt' (by rw [hpk]; exact hok) (r + 1) hph2 htq (by rw [hpk]; omega)
      exact ⟨u, .replay r _ hp ho (hrt.trans hu1), hu2, hu3, by rw [hu4, hpk], hu5⟩
    | true =>
      have hph2 : t.ph = .closing := by rw [htp, heq]; simp [hcl]
      have hent : Reach t.enter := hrt'.step (.closed hph2 htq)
      obtain ⟨m2, hc2, hp2⟩ := reach_inv hrt'
      unfold PhaseOk at hp2
      rw [hph2, htq] at hp2
      obtain ⟨hf2, _, o2, h1, ho2, hcl2⟩ := hp2
      simp only [List.length_nil, Nat.add_zero] at hf2 h1 ho2
      have hfr : t.fwd = r := by rw [htf, heq]; rfl
      have hm2 : m2 = r := by omega
      have hl : lastExec t.chain = r := by
        rw [hc2.chain]
        have := lastExec_boundary ho2 hcl2
        have e : m2 - 1 + 1 = m2 := by omega
        rw [e] at this
        rw [this, hm2]
      have hph3 : t.enter.ph = .replay (r + 1) := by
        show Phase.replay (lastExec t.chain + 1) = _
        rw [hl]
      obtain ⟨u, hu1, hu2, hu3, hu4, hu5⟩ :=
        ih hent (by show EpochsOk t.pack t.pack.length; rw [hpk]; exact hok) (r + 1) hph3 htq
          (by show t.pack.length + 1 = _; rw [hpk]; omega)
      exact ⟨u, .replay r _ hp ho (hrt.trans (.closed hph2 htq hu1)), hu2, hu3,
        by rw [hu4]; exact hpk, hu5⟩

/-- **C50**, recovery. A node restarted at any moment gets back to work with every output of its archive
executed, provided each output of the archive belongs to the epoch its predecessors lead to. -/
theorem recovers {s : St} (h : Reach s) (hok : EpochsOk s.pack s.pack.length) :
    ∃ t, Runs s.restart t ∧ t.ph = .live ∧ t.pack = s.pack ∧ t.chain = expected s.pack s.pack.length := by
  have hr : Reach s.restart := h.step .restart
  have hle := (crash_prefix h).1
  have hph : s.restart.ph = .replay (lastExec s.dur + 1) := by
    show Phase.replay (lastExec (s.dur ++ []) + 1) = _
    rw [List.append_nil]
  obtain ⟨t, h1, h2, h3, h4, h5⟩ := replay_to_live hr hok (s.pack.length - lastExec s.dur) _ hph rfl
    (by show s.pack.length + 1 = _; omega)
  have h4' : t.pack = s.pack := h4
  obtain ⟨m, hc, hf, _, _⟩ := inv_live (reach_inv (h1.reach hr)) h2
  have hm : m = s.pack.length := by
    rw [h3, h5, h4'] at hf
    simp only [List.length_nil, Nat.add_zero] at hf
    exact hf.symm
  refine ⟨t, h1, h2, h4', ?_⟩
  rw [hc.chain, h4', hm]

/-! ## When the archive has the outputs in their epochs -/

/-- Runs in which, once the subscriber has seen the boundary output, the node does not go on with the epoch
as if it had not: the re-entry after `leftover` finds the boundary. -/
inductive CleanReach : St → Prop
  | init : CleanReach init
  | step {s t : St} : CleanReach s → Step s t → (s.ph = .live → t.ph = .live → s.done = true → t.done = true) →
      CleanReach t

theorem CleanReach.reach {s : St} (h : CleanReach s) : Reach s := by
  induction h with
  | init => exact .init
  | step _ hs _ ih => exact ih.step hs

theorem leftover_frame (k : Nat) (s : St) : (s.leftover k).pack = s.pack ∧ (s.leftover k).epoch = s.epoch ∧
    ((s.leftover k).ph = .closing ∨ ((s.leftover k).ph = s.ph ∧ (s.leftover k).done = false)) := by
  induction k generalizing s with
  | zero => exact ⟨rfl, rfl, Or.inr ⟨rfl, rfl⟩⟩
  | succ k ih =>
    unfold St.leftover
    cases s.pack[s.fwd]? with
    | none => exact ⟨rfl, rfl, Or.inr ⟨rfl, rfl⟩⟩
    | some o =>
      dsimp only
      split
      · exact ⟨rfl, rfl, Or.inl rfl⟩
      · exact ih (s.forward (s.fwd + 1) o)

theorem receive_frame (s : St) (n : Nat) : (s.receive n).pack = s.pack ∧ (s.receive n).epoch = s.epoch ∧
    (s.receive n).done = s.done := by
  unfold St.receive
  cases s.pack[n - 1]? with
  | none => exact ⟨rfl, rfl, rfl⟩
  | some o =>
    dsimp only
    split
    · exact ⟨rfl, rfl, rfl⟩
    · split <;> exact ⟨rfl, rfl, rfl⟩

theorem replayOne_frame (s : St) (r : Nat) (o : O) : (s.replayOne r o).pack = s.pack ∧
    (s.replayOne r o).done = s.done ∧ (s.replayOne r o).ph ≠ .live := by
  unfold St.replayOne
  split
  · exact ⟨rfl, rfl, fun h => by cases h⟩
  · refine ⟨rfl, rfl, ?_⟩
    dsimp only
    split <;> exact fun h => by cases h

structure CleanInv (s : St) : Prop where
  ok : EpochsOk s.pack s.pack.length
  live : s.ph = .live → boundaries s.pack s.pack.length = s.epoch + (if s.done then 1 else 0)
  replay : ∀ r, s.ph = .replay r → s.done = false

theorem clean_inv {s : St} (h : CleanReach s) : CleanInv s := by
  induction h with
  | init => exact ⟨fun i o hi => absurd hi (Nat.not_lt_zero i), (fun h => by cases h), fun _ _ => rfl⟩
  | @step s t hr hs hclean ih =>
    have hinv := reach_inv hr.reach
    cases hs with
    | commit o hl hd he =>
      have hb := ih.live hl
      rw [hd] at hb
      simp only [Bool.false_eq_true, if_false, Nat.add_zero] at hb
      have hlen : (s.pack ++ [o]).length = s.pack.length + 1 := by rw [List.length_append]; rfl
      have hget : (s.pack ++ [o])[s.pack.length]? = some o := by simp
      refine ⟨?_, ?_, ?_⟩
      · show EpochsOk (s.pack ++ [o]) (s.pack ++ [o]).length
        rw [hlen]
        refine (ih.ok.append (Nat.le_refl _) o).succ hget ?_
        rw [boundaries_append _ _ (Nat.le_refl _), he, hb]
      · intro _
        show boundaries (s.pack ++ [o]) (s.pack ++ [o]).length = s.epoch + _
        rw [hlen, boundaries_succ hget, boundaries_append _ _ (Nat.le_refl _), hb]
      · intro r hr
        have : s.ph = .replay r := hr
        rw [hl] at this
        cases this
    | receive n hl hn =>
      have hf := receive_frame s n
      refine ⟨?_, ?_, ?_⟩
      · rw [hf.1]; exact ih.ok
      · intro _
        rw [hf.1, hf.2.1, hf.2.2]
        exact ih.live hl
      · intro r hr
        exfalso
        unfold St.receive at hr
        cases hp : s.pack[n - 1]? with
        | none => rw [hp] at hr; dsimp only at hr; rw [hl] at hr; cases hr
        | some o =>
          rw [hp] at hr
          dsimp only at hr
          split at hr
          · rw [hl] at hr; cases hr
          · split at hr
            · dsimp only at hr
              split at hr <;> cases hr
            · cases hr
    | leftover k hl =>
      have hf := leftover_frame k s
      refine ⟨?_, ?_, ?_⟩
      · rw [hf.1]; exact ih.ok
      · intro hlive
        rcases hf.2.2 with hc | ⟨_, hd⟩
        · rw [hlive] at hc; cases hc
        · have hsd : s.done = false := by
            cases hsd : s.done with
            | false => rfl
            | true =>
              have := hclean hl hlive hsd
              rw [hd] at this
              cases this
          have := ih.live hl
          rw [hsd] at this
          rw [hf.1, hf.2.1, hd, this]
      · intro r hr
        rcases hf.2.2 with hc | ⟨hp, _⟩
        · rw [hr] at hc; cases hc
        · rw [hr, hl] at hp; cases hp
    | exec x q hq => exact ⟨ih.ok, ih.live, ih.replay⟩
    | persist k => exact ⟨ih.ok, ih.live, ih.replay⟩
    | closed hp hq => exact ⟨ih.ok, (fun h => by cases h), fun _ _ => rfl⟩
    | replay r o hp ho =>
      have hf := replayOne_frame s r o
      refine ⟨?_, fun h => absurd h hf.2.2, ?_⟩
      · rw [hf.1]; exact ih.ok
      · intro r' _
        rw [hf.2.1]
        exact ih.replay r hp
    | replayed r hp hr' hq =>
      refine ⟨ih.ok, ?_, fun r' h => by cases h⟩
      intro _
      obtain ⟨m, hc, hph⟩ := hinv
      unfold PhaseOk at hph
      rw [hp] at hph
      obtain ⟨h1, h2, _⟩ := hph
      have hle := hc.le
      have hlen : m + s.q.length = s.pack.length := by omega
      show boundaries s.pack s.pack.length = s.epoch + if s.done then 1 else 0
      rw [ih.replay r hp, ← hlen, h2]
      rfl
    | restart => exact ⟨ih.ok, (fun h => by cases h), fun _ _ => rfl⟩

/-- **C50**, recovery without assumptions on the archive: if no re-entry forgets a boundary output, a node
restarted at any moment executes everything its archive has and goes on. -/
theorem recovers_clean {s : St} (h : CleanReach s) :
    ∃ t, Runs s.restart t ∧ t.ph = .live ∧ t.pack = s.pack ∧ t.chain = expected s.pack s.pack.length :=
  recovers h.reach (clean_inv h).ok

/-! ## What happens otherwise -/

/-- The state from which no restart gets further: the archive holds, after a boundary output, an output of
the epoch that ended. -/
def Stuck (s : St) (n : Nat) : Prop :=
  ∃ o, s.pack[n]? = some o ∧ o.epoch ≠ boundaries s.pack n

theorem commit_keeps_stuck {s : St} {n : Nat} (h : Stuck s n) (o : O) :
    Stuck { s with pack := s.pack ++ [o] } n := by
  obtain ⟨x, hx, hne⟩ := h
  have hlt := (List.getElem?_eq_some_iff.mp hx).1
  refine ⟨x, ?_, ?_⟩
  · show (s.pack ++ [o])[n]? = some x
    rw [List.getElem?_append_left hlt]; exact hx
  · show x.epoch ≠ boundaries (s.pack ++ [o]) n
    rw [boundaries_append _ _ (by omega)]; exact hne

theorem step_pack {s t : St} (h : Step s t) : t.pack = s.pack ∨ ∃ o, t.pack = s.pack ++ [o] := by
  cases h with
  | commit o _ _ _ => exact Or.inr ⟨o, rfl⟩
  | receive n _ _ => exact Or.inl (receive_frame s n).1
  | leftover k _ => exact Or.inl (leftover_frame k s).1
  | replay r o _ _ => exact Or.inl (replayOne_frame s r o).1
  | exec _ _ _ => exact Or.inl rfl
  | persist _ => exact Or.inl rfl
  | closed _ _ => exact Or.inl rfl
  | replayed _ _ _ _ => exact Or.inl rfl
  | restart => exact Or.inl rfl

inductive Steps : St → St → Prop
  | refl (s : St) : Steps s s
  | step {s t u : St} : Steps s t → Step t u → Steps s u

theorem Steps.reach {s t : St} (h : Steps s t) (hs : Reach s) : Reach t := by
  induction h with
  | refl => exact hs
  | step _ h2 ih => exact ih.step h2

/-- **Finding.** Once the archive holds an output of another epoch than the one its predecessors lead to,
the node never executes that output nor any later one, however often it is restarted. -/
theorem stuck_forever {s t : St} {n : Nat} (hr : Reach s) (h : Stuck s n) (hst : Steps s t) :
    ∃ m, m ≤ n ∧ t.chain = expected t.pack m := by
  have hs : Stuck t n := by
    clear hr
    induction hst with
    | refl => exact h
    | step _ h2 ih =>
      rcases step_pack h2 with he | ⟨o, he⟩
      · obtain ⟨x, hx⟩ := ih
        exact ⟨x, by rw [he]; exact hx⟩
      · obtain ⟨x, hx⟩ := commit_keeps_stuck ih o
        exact ⟨x, by rw [he]; exact hx⟩
  obtain ⟨m, hm, hc, hok⟩ := exactly_once (hst.reach hr)
  obtain ⟨o, ho, hne⟩ := hs
  refine ⟨m, ?_, hc⟩
  rcases Nat.lt_or_ge n m with hlt | hge
  · exact absurd (hok n o hlt ho) hne
  · exact hge

/-! ## Deliveries from the subscriber -/

/-- **C50** A repeated delivery (an output already forwarded, for example by the replay or as a leftover) changes
nothing; the next output is forwarded to the engine exactly with its closing flag; a delivery that leaves a gap ends the
process before anything is forwarded. -/
theorem deliveries {s : St} {n : Nat} {o : O} (ho : s.pack[n - 1]? = some o) :
    (n ≤ s.fwd → s.receive n = s) ∧
    (n = s.fwd + 1 → (s.receive n).q = s.q ++ [⟨n, o, o.close⟩] ∧ (s.receive n).fwd = n ∧
      (s.receive n).ph = if o.close then .closing else .live) ∧
    (s.fwd + 1 < n → (s.receive n).q = s.q ∧ (s.receive n).ph = .down) := by
  unfold St.receive
  rw [ho]
  refine ⟨fun h => ?_, fun h => ?_, fun h => ?_⟩
  · dsimp only; rw [if_pos h]
  · dsimp only; rw [if_neg (by omega), if_pos h]; exact ⟨rfl, rfl, rfl⟩
  · dsimp only; rw [if_neg (by omega), if_neg (by omega)]; exact ⟨rfl, rfl⟩

/-- **C50** Deliveries in the order of the archive, with any repetitions of what came before, never end the process. -/
theorem in_order_never_down {s : St} {n : Nat} (hl : s.ph = .live) (h : n ≤ s.fwd + 1) :
    (s.receive n).ph ≠ .down := by
  cases ho : s.pack[n - 1]? with
  | none => unfold St.receive; rw [ho]; dsimp only; rw [hl]; exact fun h => by cases h
  | some o =>
    obtain ⟨h1, h2, -⟩ := deliveries ho
    rcases Nat.lt_or_ge s.fwd n with hn | hn
    · rw [(h2 (by omega)).2.2]
      cases o.close <;> exact fun h => by cases h
    · rw [h1 hn, hl]; exact fun h => by cases h

end Pipe
end Verif
