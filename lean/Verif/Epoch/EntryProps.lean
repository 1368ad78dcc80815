import Verif.Epoch.Entry
import Mathlib.Data.List.Infix
import Mathlib.Tactic

/-!
# Every entry into an epoch reads the same block

Proofs about `Verif.Epoch.Entry`.
-/
namespace Verif.Entry
open Verif

/-! ## Specification: the history of the registry -/

/-- An ordinary block: the epoch and the scalars of all epochs begun so far stay.  Committees (a
governance `burn`) and worker rows may change at will. -/
structure Normal (p b : Blk) : Prop where
  number : b.number = p.number + 1
  epoch : b.reg.epoch = p.reg.epoch
  info : ∀ e, e ≤ p.reg.epoch → b.reg.info e = p.reg.info e

/-- The closing block of an epoch: `concludeEpoch` runs inside it, and the new epoch begins with the
next block. -/
structure Close (p b : Blk) : Prop where
  number : b.number = p.number + 1
  epoch : b.reg.epoch = p.reg.epoch + 1
  height : (b.reg.info b.reg.epoch).height = b.number + 1
  info : ∀ e, e ≤ p.reg.epoch → b.reg.info e = p.reg.info e

/-- A canonical chain from genesis. -/
structure Valid (c : List Blk) : Prop where
  genesis : ∀ g, c[0]? = some g → g.number = 0 ∧ g.reg.epoch = 0 ∧ (g.reg.info 0).height = 0
  step : ∀ i p b, c[i]? = some p → c[i + 1]? = some b → Normal p b ∨ Close p b

/-- `b` is the block whose execution began epoch `e`: the first block of the chain after which the
registry reports epoch `e` (the closing block of epoch `e - 1`; genesis for epoch 0). -/
structure IsStart (c : List Blk) (e : Nat) (b : Blk) : Prop where
  mem : c[b.number]? = some b
  epoch : b.reg.epoch = e
  first : ∀ j p, c[j]? = some p → j < b.number → p.reg.epoch < e

/-! ## Basic facts -/

theorem getElem?_prev {c : List Blk} {i : Nat} {b : Blk} (h : c[i + 1]? = some b) :
    ∃ p, c[i]? = some p := by
  have hl : i + 1 < c.length := by
    by_contra hn
    rw [List.getElem?_eq_none (by omega)] at h
    cases h
  exact ⟨c[i], List.getElem?_eq_getElem (by omega)⟩

theorem number_eq {c : List Blk} (hv : Valid c) : ∀ {i : Nat} {b : Blk}, c[i]? = some b →
    b.number = i := by
  intro i
  induction i with
  | zero => intro b h; exact (hv.genesis b h).1
  | succ i ih =>
    intro b h
    obtain ⟨p, hp⟩ := getElem?_prev h
    have := ih hp
    rcases hv.step i p b hp h with hn | hn
    · rw [hn.number, this]
    · rw [hn.number, this]

theorem epoch_mono {c : List Blk} (hv : Valid c) {i : Nat} {p : Blk} (hp : c[i]? = some p) :
    ∀ {j : Nat} {b : Blk}, i ≤ j → c[j]? = some b → p.reg.epoch ≤ b.reg.epoch := by
  intro j
  induction j with
  | zero =>
    intro b hij hb
    obtain rfl : i = 0 := by omega
    rw [hp] at hb; cases hb; exact Nat.le_refl _
  | succ j ih =>
    intro b hij hb
    by_cases he : i = j + 1
    · subst he; rw [hp] at hb; cases hb; exact Nat.le_refl _
    · obtain ⟨q, hq⟩ := getElem?_prev hb
      have h1 := ih (show i ≤ j by omega) hq
      rcases hv.step j q b hq hb with hn | hn
      · rw [hn.epoch]; exact h1
      · rw [hn.epoch]; omega

theorem start_unique {c : List Blk} {e : Nat} {a b : Blk} (ha : IsStart c e a)
    (hb : IsStart c e b) : a = b := by
  have h1 : ¬ a.number < b.number := fun h => by
    have := hb.first _ _ ha.mem h
    rw [ha.epoch] at this; omega
  have h2 : ¬ b.number < a.number := fun h => by
    have := ha.first _ _ hb.mem h
    rw [hb.epoch] at this; omega
  have h3 : a.number = b.number := by omega
  have := ha.mem
  rw [h3, hb.mem] at this
  cases this; rfl

/-- At every block, the scalars of the current epoch are those its starting block wrote, and the
recorded height is the starting block's successor. -/
theorem start_exists {c : List Blk} (hv : Valid c) : ∀ {i : Nat} {b : Blk}, c[i]? = some b →
    ∃ p, IsStart c b.reg.epoch p ∧ p.number ≤ i ∧
      b.reg.info b.reg.epoch = p.reg.info b.reg.epoch ∧
      (b.reg.epoch = 0 → p.number = 0 ∧ (p.reg.info 0).height = 0) ∧
      (b.reg.epoch ≠ 0 → (p.reg.info b.reg.epoch).height = p.number + 1) := by
  intro i
  induction i with
  | zero =>
    intro b h
    obtain ⟨h1, h2, h3⟩ := hv.genesis b h
    refine ⟨b, ⟨by rw [h1]; exact h, rfl, fun j p _ hj => by omega⟩, by omega, rfl, ?_, ?_⟩
    · intro _; exact ⟨h1, h3⟩
    · intro hn; exact absurd h2 hn
  | succ i ih =>
    intro b h
    obtain ⟨q, hq⟩ := getElem?_prev h
    obtain ⟨p, hs, hle, hi, h0, h1⟩ := ih hq
    have hbn := number_eq hv h
    rcases hv.step i q b hq h with hn | hn
    · rw [hn.epoch]
      refine ⟨p, hs, by omega, ?_, h0, h1⟩
      rw [hn.info _ (Nat.le_refl _), hi]
    · refine ⟨b, ⟨by rw [hbn]; exact h, rfl, ?_⟩, by omega, rfl, ?_, ?_⟩
      · intro j r hr hj
        have := epoch_mono hv hr (show j ≤ i by omega) hq
        rw [hn.epoch]; omega
      · intro hz; rw [hn.epoch] at hz; omega
      · intro _; exact hn.height

/-! ## Retrying -/

theorem retryFrom_ok {α : Type} {read : Nat → Except Err α} {a : α} :
    ∀ {left i : Nat}, retryFrom read i left = .ok a → ∃ k, i ≤ k ∧ k ≤ i + left ∧ read k = .ok a := by
  intro left
  induction left with
  | zero => intro i h; exact ⟨i, Nat.le_refl _, Nat.le_refl _, h⟩
  | succ n ih =>
    intro i h
    rw [retryFrom] at h
    split at h
    · obtain ⟨k, h1, h2, h3⟩ := ih h
      exact ⟨k, by omega, by omega, h3⟩
    · exact ⟨i, Nat.le_refl _, by omega, h⟩

theorem retryFrom_succeeds {α : Type} {read : Nat → Except Err α} {a : α}
    (hr : ∀ i, read i = .ok a ∨ read i = .error .provider) :
    ∀ {left i : Nat} (k : Nat), i ≤ k → k ≤ i + left → read k = .ok a →
      retryFrom read i left = .ok a := by
  intro left
  induction left with
  | zero =>
    intro i k h1 h2 h3
    obtain rfl : k = i := by omega
    exact h3
  | succ n ih =>
    intro i k h1 h2 h3
    rw [retryFrom]
    rcases hr i with h | h
    · rw [h]
    · rw [h]
      have hne : k ≠ i := fun e => by rw [e, h] at h3; cases h3
      exact ih k (by omega) (by omega) h3

theorem retry_ok {α : Type} {read : Nat → Except Err α} {a : α} (h : retry read = .ok a) :
    ∃ k, k < 3 ∧ read k = .ok a := by
  obtain ⟨k, _, h2, h3⟩ := retryFrom_ok h
  exact ⟨k, by simp only [closeReadAttempts] at h2; omega, h3⟩

theorem retry_succeeds {α : Type} {read : Nat → Except Err α} {a : α}
    (hr : ∀ i, read i = .ok a ∨ read i = .error .provider) {k : Nat} (hk : k < 3)
    (h : read k = .ok a) : retry read = .ok a :=
  retryFrom_succeeds hr k (Nat.zero_le _) (by simp only [closeReadAttempts]; omega) h

/-- A deterministic error is returned by the first attempt that meets it and is never retried. -/
theorem retry_chainGlobal {α : Type} {read : Nat → Except Err α} (h : read 0 = .error .chainGlobal) :
    retry read = .error .chainGlobal := by
  show retryFrom read 0 2 = _
  rw [retryFrom, h]

/-- Three provider faults halt. -/
theorem retry_exhausted {α : Type} {read : Nat → Except Err α}
    (h : ∀ i, i < 3 → read i = .error .provider) : retry read = .error .provider := by
  show retryFrom read 0 2 = _
  rw [retryFrom, h 0 (by omega)]
  show retryFrom read 1 1 = _
  rw [retryFrom, h 1 (by omega)]
  exact h 2 (by omega)

/-! ## The pinned read -/

theorem lookup_cases (c : List Blk) (f : Bool) (n : Nat) :
    lookup c f n = .error .provider ∨ ∃ b, c[n]? = some b ∧ f = false ∧ lookup c f n = .ok b := by
  unfold lookup
  cases f with
  | true => exact .inl rfl
  | false =>
    cases h : c[n]? with
    | none => exact .inl rfl
    | some b => exact .inr ⟨b, rfl, rfl, rfl⟩

/-- What the block that starts an epoch says about it. -/
def stateOf (p : Blk) : EpochState :=
  ⟨p.reg.epoch, p.reg.info p.reg.epoch, p.reg.vals p.reg.epoch, p.reg.keys p.reg.epoch, p.time⟩

theorem epochStateAt_start (c : List Blk) (rf lf : Bool) (p : Blk)
    (hh : (p.reg.info p.reg.epoch).height - 1 = p.number) :
    epochStateAt c rf lf p = if rf then .error .provider else .ok (stateOf p) := by
  unfold epochStateAt infoAt
  cases rf with
  | true => rfl
  | false =>
    simp only [Bool.false_eq_true, if_false, startTime]
    rw [if_pos hh]
    rfl

theorem start_height {c : List Blk} (hv : Valid c) {i : Nat} {b p : Blk} (hb : c[i]? = some b)
    (hp : IsStart c b.reg.epoch p) :
    b.reg.info b.reg.epoch = p.reg.info p.reg.epoch ∧
    (p.reg.info p.reg.epoch).height - 1 = p.number ∧
    (b.reg.epoch = 0 → p.number = 0 ∧ (p.reg.info p.reg.epoch).height = 0) ∧
    (b.reg.epoch ≠ 0 → (p.reg.info p.reg.epoch).height = p.number + 1) := by
  obtain ⟨q, hq, _, h1, h2, h3⟩ := start_exists hv hb
  obtain rfl := start_unique hq hp
  have he := hp.epoch
  rw [he]
  refine ⟨h1, ?_, ?_, h3⟩
  · by_cases hz : b.reg.epoch = 0
    · have := h2 hz
      rw [hz]; omega
    · rw [h3 hz]; omega
  · intro hz; rw [hz]; exact h2 hz

/-- **The epoch-start read resolves the block that started the epoch, from any tip of the epoch and
under any faults**, or reports a provider fault; the consistency check never fires. -/
theorem epochStateAtStart_spec {c : List Blk} (hv : Valid c) {t : Nat} {tip p : Blk}
    (ht : c[t]? = some tip) (hp : IsStart c tip.reg.epoch p) (f : Faults) :
    epochStateAtStart c f tip =
      if f.tip ∨ f.pinLookup ∨ f.pinRead then .error .provider else .ok (stateOf p, p) := by
  obtain ⟨hi, hh, h0, h1⟩ := start_height hv ht hp
  unfold epochStateAtStart infoAt
  cases hft : f.tip with
  | true => simp
  | false =>
    have hpin : pinHeader c f.pinLookup tip.reg.epoch (tip.reg.info tip.reg.epoch)
        = if f.pinLookup then .error .provider else .ok p := by
      unfold pinHeader
      have hl : lookup c f.pinLookup p.number
          = if f.pinLookup then .error .provider else .ok p := by
        unfold lookup
        rw [hp.mem]
      by_cases hz : tip.reg.epoch = 0
      · rw [if_pos hz]
        have h2 := (h0 hz).1
        rw [h2] at hl
        exact hl
      · rw [if_neg hz, hi, if_neg (show ¬ (p.reg.info p.reg.epoch).height = 0 by rw [h1 hz]; omega),
          hh]
        exact hl
    cases hfl : f.pinLookup with
    | true => rw [hfl] at hpin; simp [hpin]
    | false =>
      rw [hfl] at hpin
      simp only [Bool.false_eq_true, if_false] at hpin ⊢
      rw [hpin]
      cases hfr : f.pinRead with
      | true => simp [epochStateAt_start c true f.closing p hh]
      | false =>
        simp only [epochStateAt_start c false f.closing p hh]
        simp [stateOf, hp.epoch]

/-! ## The whole entry -/

/-- What an entry must leave, in terms of the block `p` that started epoch `p.reg.epoch`. -/
structure EntryOf (decode : Nat → Option Nat) (file : Members) (s : Gas.Slots) (p : Blk)
    (r : Entered) : Prop where
  epoch : r.epoch = p.reg.epoch
  pin : r.pin = p.number
  boundary : r.boundary = p.time + (p.reg.info p.reg.epoch).duration
  committee : p.reg.epoch ≠ 0 →
    members decode (p.reg.vals p.reg.epoch) (p.reg.keys p.reg.epoch) = some r.committee
  committee0 : p.reg.epoch = 0 → r.committee = file
  fees : p.reg.epoch ≠ 0 → ∃ fees, Gas.readEntryFees p.reg.rows = some fees ∧
    r.slots = Gas.applyEntryFees fees s
  fees0 : p.reg.epoch = 0 → r.slots = Gas.setNumWorkers s p.reg.rows.length
  previous : r.previous = if p.reg.epoch = 0 then [] else p.reg.keys (p.reg.epoch - 1)
  next : r.next = p.reg.keys (p.reg.epoch + 1)

theorem readFees_spec {gf ff : Nat → Bool} {p : Blk} {fees : List Nat} {e : Nat}
    (h : readFees gf ff e p = .ok fees) :
    e ≠ 0 ∧ p.reg.epoch = e ∧ (p.reg.info p.reg.epoch).height = p.number + 1 ∧
      Gas.readEntryFees p.reg.rows = some fees := by
  unfold readFees at h
  split at h
  · cases h
  · rename_i hz
    split at h
    · cases h
    · rename_i ep info hr
      obtain ⟨k, _, hk⟩ := retry_ok hr
      simp only [infoAt] at hk
      split at hk
      · cases hk
      · cases hk
        split at h
        · cases h
        · rename_i hne
          have hne1 : p.reg.epoch = e := by by_contra hc; exact hne (.inl hc)
          have hne2 : (p.reg.info p.reg.epoch).height = p.number + 1 := by
            by_contra hc; exact hne (.inr hc)
          split at h
          · cases h
          · rename_i rows hr2
            obtain ⟨k2, _, hk2⟩ := retry_ok hr2
            split at hk2
            · cases hk2
            · cases hk2
              split at h
              · cases h
              · split at h
                · cases h
                · rename_i fees' hf
                  cases h
                  exact ⟨hz, hne1, hne2, hf⟩

/-- **C92.** A successful entry from any tip of the epoch, under any faults, is determined by the
block that started the epoch. -/
theorem enter_spec {decode : Nat → Option Nat} {file : Members} {has0 : Bool} {c : List Blk}
    (hv : Valid c) {t : Nat} {tip p : Blk} (ht : c[t]? = some tip)
    (hp : IsStart c tip.reg.epoch p) {sc : Sched} {s : Gas.Slots} {r : Entered}
    (h : enter decode file has0 c tip sc s = .ok r) : EntryOf decode file s p r := by
  unfold enter at h
  split at h
  · cases h
  · rename_i ep m info start pin hcw
    unfold committeeWithStart at hcw
    split at hcw
    · cases hcw
    · rename_i st pin' hr
      obtain ⟨k, _, hk⟩ := retry_ok hr
      rw [epochStateAtStart_spec hv ht hp] at hk
      split at hk
      · cases hk
      · cases hk
        split at hcw
        · cases hcw
        · rename_i m' hm
          obtain ⟨he1, he2, he3, he4, he5⟩ : (stateOf p).epoch = ep ∧
              (if (stateOf p).epoch = 0 then file else m') = m ∧ (stateOf p).info = info ∧
              (stateOf p).start = start ∧ p = pin := by
            have := Except.ok.inj hcw
            simp only [Prod.mk.injEq] at this
            exact this
          subst he1 he2 he3 he4 he5
          obtain ⟨_, _, h0, _⟩ := start_height hv ht hp
          split at h
          · cases h
          · rename_i s' hs
            split at h
            · cases h
            · split at h
              · cases h
              · rename_i prev next hn
                obtain ⟨k2, _, hk2⟩ := retry_ok hn
                split at hk2
                · cases hk2
                · cases hk2
                  cases h
                  have hm' : members decode (p.reg.vals p.reg.epoch) (p.reg.keys p.reg.epoch)
                      = some m' := hm
                  refine ⟨rfl, rfl, rfl, ?_, ?_, ?_, ?_, rfl, rfl⟩
                  · intro hz
                    show _ = some (if p.reg.epoch = 0 then file else m')
                    rw [if_neg hz]; exact hm'
                  · intro hz
                    show (if p.reg.epoch = 0 then file else m') = file
                    rw [if_pos hz]
                  · intro hz
                    have hz' : ¬ (stateOf p).epoch = 0 := hz
                    unfold entryFees at hs
                    rw [if_neg hz'] at hs
                    split at hs
                    · cases hs
                    · rename_i fees hf
                      cases hs
                      exact ⟨fees, (readFees_spec hf).2.2.2, rfl⟩
                  · intro hz
                    have hz' : (stateOf p).epoch = 0 := hz
                    unfold entryFees at hs
                    rw [if_pos hz'] at hs
                    unfold syncNumWorkers at hs
                    have hh0 : (stateOf p).info.height = 0 :=
                      (h0 (by rw [← hp.epoch]; exact hz)).2
                    have hpn : p.number = 0 := (h0 (by rw [← hp.epoch]; exact hz)).1
                    rw [hh0] at hs
                    have hmem := hp.mem
                    rw [hpn] at hmem
                    split at hs
                    · cases hs
                    · rename_i hd hl
                      rcases lookup_cases c sc.count (0 - 1) with hl' | ⟨b, hb, _, hl'⟩
                      · rw [hl'] at hl; cases hl
                      · rw [hl'] at hl
                        cases hl
                        have : hd = p := by
                          have hx : c[0]? = some hd := hb
                          rw [hmem] at hx; cases hx; rfl
                        subst this
                        split at hs
                        · cases hs
                        · rename_i rows hrw
                          obtain ⟨k3, _, hk3⟩ := retry_ok hrw
                          split at hk3
                          · cases hk3
                          · cases hk3
                            cases hs
                            rfl

theorem valid_prefix {c C : List Blk} (hv : Valid C) (h : c <+: C) : Valid c := by
  obtain ⟨t, rfl⟩ := h
  have key : ∀ i b, c[i]? = some b → (c ++ t)[i]? = some b := fun i b hb => by
    have hl : i < c.length := (List.getElem?_eq_some_iff.mp hb).1
    rw [List.getElem?_append_left hl]; exact hb
  exact ⟨fun g hg => hv.genesis g (key 0 g hg),
    fun i p b hp hb => hv.step i p b (key i p hp) (key (i + 1) b hb)⟩

theorem start_prefix {c C : List Blk} (hv : Valid C) (h : c <+: C) {e : Nat} {b : Blk}
    (hs : IsStart c e b) : IsStart C e b := by
  obtain ⟨t, rfl⟩ := h
  have hl : b.number < c.length := (List.getElem?_eq_some_iff.mp hs.mem).1
  refine ⟨by rw [List.getElem?_append_left hl]; exact hs.mem, hs.epoch, ?_⟩
  intro j p hp hj
  rw [List.getElem?_append_left (by omega)] at hp
  exact hs.first j p hp hj

/-- **C92.** Two nodes that hold prefixes of one chain (of any lengths), whose tips report the same
epoch, and whose reads meet any faults, enter the epoch with the same boundary, the same pin, the
same neighbours, the same committee and the same fees, or halt. -/
theorem enter_agree {decode : Nat → Option Nat} {file₁ file₂ : Members} {has₁ has₂ : Bool}
    {C c₁ c₂ : List Blk} (hv : Valid C) (h₁ : c₁ <+: C) (h₂ : c₂ <+: C)
    {t₁ t₂ : Nat} {tip₁ tip₂ : Blk} (ht₁ : c₁[t₁]? = some tip₁) (ht₂ : c₂[t₂]? = some tip₂)
    (he : tip₁.reg.epoch = tip₂.reg.epoch) {sc₁ sc₂ : Sched} {s₁ s₂ : Gas.Slots} {r₁ r₂ : Entered}
    (hr₁ : enter decode file₁ has₁ c₁ tip₁ sc₁ s₁ = .ok r₁)
    (hr₂ : enter decode file₂ has₂ c₂ tip₂ sc₂ s₂ = .ok r₂) :
    r₁.epoch = r₂.epoch ∧ r₁.pin = r₂.pin ∧ r₁.boundary = r₂.boundary ∧
    r₁.previous = r₂.previous ∧ r₁.next = r₂.next ∧
    (r₁.epoch ≠ 0 ∨ file₁ = file₂ → r₁.committee = r₂.committee) ∧
    (s₁ = s₂ → r₁.slots = r₂.slots) := by
  obtain ⟨p₁, hp₁, _⟩ := start_exists (valid_prefix hv h₁) ht₁
  obtain ⟨p₂, hp₂, _⟩ := start_exists (valid_prefix hv h₂) ht₂
  have e₁ := enter_spec (valid_prefix hv h₁) ht₁ hp₁ hr₁
  have e₂ := enter_spec (valid_prefix hv h₂) ht₂ hp₂ hr₂
  have hp₂' := start_prefix hv h₂ hp₂
  rw [← he] at hp₂'
  obtain rfl := start_unique (start_prefix hv h₁ hp₁) hp₂'
  refine ⟨e₁.epoch.trans e₂.epoch.symm, e₁.pin.trans e₂.pin.symm,
    e₁.boundary.trans e₂.boundary.symm, e₁.previous.trans e₂.previous.symm,
    e₁.next.trans e₂.next.symm, ?_, ?_⟩
  · intro ho
    by_cases hz : p₁.reg.epoch = 0
    · rcases ho with ho | ho
      · exact absurd (e₁.epoch.trans hz) ho
      · rw [e₁.committee0 hz, e₂.committee0 hz, ho]
    · exact Option.some.inj ((e₁.committee hz).symm.trans (e₂.committee hz))
  · rintro rfl
    by_cases hz : p₁.reg.epoch = 0
    · rw [e₁.fees0 hz, e₂.fees0 hz]
    · obtain ⟨f₁, hf₁, hs₁⟩ := e₁.fees hz
      obtain ⟨f₂, hf₂, hs₂⟩ := e₂.fees hz
      rw [hf₁] at hf₂
      cases hf₂
      rw [hs₁, hs₂]

/-- The reads of one entry meet a fault-free attempt among the three. -/
structure Tolerable (sc : Sched) : Prop where
  state : ∃ i, i < 3 ∧ (sc.state i).tip = false ∧ (sc.state i).pinLookup = false ∧
    (sc.state i).pinRead = false
  guard : ∃ i, i < 3 ∧ sc.guard i = false
  fees : ∃ i, i < 3 ∧ sc.fees i = false
  count : sc.count = false
  neigh : ∃ i, i < 3 ∧ sc.neigh i = false

theorem retry_const {α : Type} {f : Nat → Bool} {a : α} (h : ∃ i, i < 3 ∧ f i = false) :
    retry (fun i => if f i then .error Err.provider else .ok a) = .ok a := by
  obtain ⟨i, hi, hf⟩ := h
  refine retry_succeeds (fun j => ?_) hi (by simp [hf])
  cases hfj : f j <;> simp

/-- **C92.** When every read is answered in one of its three attempts, the entry succeeds from every
tip of the epoch: keys decode, the worker table is readable, and a record of epoch 0 exists. -/
theorem enter_ok {decode : Nat → Option Nat} {file : Members} {has0 : Bool} {c : List Blk}
    (hv : Valid c) {t : Nat} {tip p : Blk} (ht : c[t]? = some tip)
    (hp : IsStart c tip.reg.epoch p) {sc : Sched} (s : Gas.Slots) (hsc : Tolerable sc)
    (hk : (members decode (p.reg.vals p.reg.epoch) (p.reg.keys p.reg.epoch)).isSome)
    (hf : (Gas.readEntryFees p.reg.rows).isSome)
    (h0 : has0 = true ∨ tip.reg.epoch = 0) :
    ∃ r, enter decode file has0 c tip sc s = .ok r := by
  obtain ⟨m, hm⟩ := Option.isSome_iff_exists.mp hk
  obtain ⟨fees, hfe⟩ := Option.isSome_iff_exists.mp hf
  obtain ⟨_, _, hs0, hs1⟩ := start_height hv ht hp
  have hst : retry (fun i => epochStateAtStart c (sc.state i) tip) = .ok (stateOf p, p) := by
    obtain ⟨i, hi, h1, h2, h3⟩ := hsc.state
    refine retry_succeeds (fun j => ?_) hi ?_
    · rw [epochStateAtStart_spec hv ht hp]
      split
      · exact .inr rfl
      · exact .inl rfl
    · rw [epochStateAtStart_spec hv ht hp]
      simp [h1, h2, h3]
  have hcw : committeeWithStart decode file c sc.state tip
      = .ok (p.reg.epoch, (if p.reg.epoch = 0 then file else m), p.reg.info p.reg.epoch, p.time, p)
      := by
    unfold committeeWithStart
    rw [hst]
    have hm' : members decode (stateOf p).vals (stateOf p).keys = some m := hm
    simp only [hm']
    rfl
  have hfees : ∃ s', entryFees c sc p.reg.epoch (p.reg.info p.reg.epoch) p s = .ok s' := by
    unfold entryFees
    by_cases hz : p.reg.epoch = 0
    · rw [if_pos hz]
      have hz' : tip.reg.epoch = 0 := by rw [← hp.epoch]; exact hz
      obtain ⟨ha, hb⟩ := hs0 hz'
      have hmem := hp.mem
      rw [ha] at hmem
      refine ⟨Gas.setNumWorkers s p.reg.rows.length, ?_⟩
      unfold syncNumWorkers lookup
      rw [hb, hsc.count]
      simp only [Bool.false_eq_true, if_false, show (0 - 1 : Nat) = 0 from rfl, hmem]
      rw [retry_const hsc.fees]
    · rw [if_neg hz]
      have hz' : tip.reg.epoch ≠ 0 := by rw [← hp.epoch]; exact hz
      have hh := hs1 hz'
      refine ⟨Gas.applyEntryFees fees s, ?_⟩
      have : readFees sc.guard sc.fees p.reg.epoch p = .ok fees := by
        unfold readFees
        rw [if_neg hz]
        have hg : retry (fun i => infoAt (sc.guard i) p)
            = .ok (p.reg.epoch, p.reg.info p.reg.epoch) := retry_const hsc.guard
        simp only [hg]
        rw [if_neg (show ¬ (p.reg.epoch ≠ p.reg.epoch ∨
          (p.reg.info p.reg.epoch).height ≠ p.number + 1) by rw [hh]; simp)]
        rw [retry_const hsc.fees]
        have hlen : ¬ p.reg.rows.length = 0 := by
          intro hl
          unfold Gas.readEntryFees at hfe
          rw [if_pos hl] at hfe
          cases hfe
        simp only [if_neg hlen, hfe]
      simp only [this]
  obtain ⟨s', hs'⟩ := hfees
  unfold enter
  rw [hcw]
  simp only [hs']
  rw [if_neg (show ¬ (has0 = false ∧ p.reg.epoch ≠ 0) by
    rintro ⟨ha, hb⟩
    rcases h0 with h0 | h0
    · rw [h0] at ha; cases ha
    · exact hb (hp.epoch.trans h0))]
  rw [retry_const hsc.neigh]
  exact ⟨_, rfl⟩

/-- The guard of the fee read accepts exactly the block that started the epoch. -/
theorem readFees_guard {c : List Blk} (hv : Valid c) {i : Nat} {b : Blk} (hb : c[i]? = some b)
    {e : Nat} {gf ff : Nat → Bool} {fees : List Nat} (h : readFees gf ff e b = .ok fees) :
    IsStart c e b := by
  obtain ⟨hz, he, hh, _⟩ := readFees_spec h
  obtain ⟨p, hp, _⟩ := start_exists hv hb
  obtain ⟨hi, _, _, h1⟩ := start_height hv hb hp
  rw [hi, h1 (by rw [he]; exact hz)] at hh
  have hpn : p.number = b.number := by omega
  have hbn := number_eq hv hb
  have hm := hp.mem
  rw [hpn, hbn, hb] at hm
  cases hm
  rw [he] at hp
  exact hp

/-! ## Re-entry -/

/-- **C92.** Entering the same epoch again (a mode change) leaves an accumulator that already has this
epoch's fees untouched, whatever gas it has counted meanwhile. -/
theorem reentry_idempotent (fees : List Nat) (hne : fees ≠ []) (s : Gas.Slots)
    (hl : s.length = fees.length)
    (hf : ∀ (w : Nat) (sl : Gas.Slot), s[w]? = some sl → fees[w]? = some sl.fee) :
    Gas.applyEntryFees fees s = s := by
  have hpos : 1 ≤ fees.length := List.length_pos_of_ne_nil hne
  have hset : Gas.setNumWorkers s fees.length = s := by
    unfold Gas.setNumWorkers
    simp only [Nat.max_eq_left hpos, hl, Nat.sub_self, List.replicate_zero, List.append_nil]
    rw [← hl, List.take_length]
  unfold Gas.applyEntryFees
  rw [hset]
  apply List.ext_getElem?
  intro w
  rw [List.getElem?_mapIdx]
  cases hsw : s[w]? with
  | none => rfl
  | some sl =>
    simp only [Option.map_some, hf w sl hsw]

/-- After the entry every worker slot carries the fee read at the pin and keeps its gas counters. -/
theorem applyEntryFees_fee (fees : List Nat) (hne : fees ≠ []) (s : Gas.Slots) :
    (Gas.applyEntryFees fees s).length = fees.length ∧
    ∀ (w : Nat) (sl : Gas.Slot), (Gas.applyEntryFees fees s)[w]? = some sl → fees[w]? = some sl.fee ∧
      (∀ old : Gas.Slot, s[w]? = some old → sl.gasUsed = old.gasUsed ∧ sl.blocks = old.blocks ∧
        sl.gasLimit = old.gasLimit) ∧
      (s[w]? = none → sl.gasUsed = 0) := by
  have hpos : 1 ≤ fees.length := List.length_pos_of_ne_nil hne
  have hlen : (Gas.setNumWorkers s fees.length).length = fees.length := by
    unfold Gas.setNumWorkers
    simp only [Nat.max_eq_left hpos, List.length_append, List.length_take, List.length_replicate]
    omega
  refine ⟨by unfold Gas.applyEntryFees; rw [List.length_mapIdx, hlen], ?_⟩
  intro w sl h
  unfold Gas.applyEntryFees at h
  rw [List.getElem?_mapIdx, Option.map_eq_some_iff] at h
  obtain ⟨o, ho, hsl⟩ := h
  have hw : w < fees.length := by
    have := (List.getElem?_eq_some_iff.mp ho).1
    omega
  rw [List.getElem?_eq_getElem hw] at hsl ⊢
  simp only at hsl
  subst hsl
  refine ⟨rfl, ?_, ?_⟩
  · intro old hold
    unfold Gas.setNumWorkers at ho
    simp only [Nat.max_eq_left hpos] at ho
    have hwl : w < s.length := (List.getElem?_eq_some_iff.mp hold).1
    rw [List.getElem?_append_left (by rw [List.length_take]; omega), List.getElem?_take,
      if_pos hw, hold] at ho
    cases ho
    exact ⟨rfl, rfl, rfl⟩
  · intro hn
    unfold Gas.setNumWorkers at ho
    simp only [Nat.max_eq_left hpos] at ho
    have hwl : s.length ≤ w := by
      by_contra hc
      rw [List.getElem?_eq_getElem (by omega)] at hn
      cases hn
    rw [List.getElem?_append_right (by rw [List.length_take]; omega),
      List.getElem?_replicate] at ho
    split at ho
    · cases ho; rfl
    · cases ho

/-! ## The start-up scan -/

/-- **C92.** The scan covers exactly the blocks executed inside the epoch (those whose parent's state
is already in the epoch, plus genesis in epoch 0) up to the finalized block; the finalized block
being the closing block, nothing is scanned. -/
theorem range_spec {c : List Blk} (hv : Valid c) {i : Nat} {fin : Blk} (hf : c[i]? = some fin)
    (b : Blk) :
    b ∈ range c (fin.reg.info fin.reg.epoch).height fin.number ↔
      ∃ j, c[j]? = some b ∧ j ≤ i ∧
        ((j = 0 ∧ fin.reg.epoch = 0) ∨
          ∃ p, 0 < j ∧ c[j - 1]? = some p ∧ p.reg.epoch = fin.reg.epoch) := by
  obtain ⟨p, hp, hple, hi, _, _⟩ := start_exists hv hf
  obtain ⟨_, _, h0, h1⟩ := start_height hv hf hp
  have hpe := hp.epoch
  rw [hi, ← hpe]
  have hfn := number_eq hv hf
  unfold range
  rw [List.mem_filter, decide_eq_true_iff, List.mem_iff_getElem?]
  constructor
  · rintro ⟨⟨j, hj⟩, hlo, hhi⟩
    have hjn := number_eq hv hj
    refine ⟨j, hj, by omega, ?_⟩
    by_cases hz : j = 0
    · left
      refine ⟨hz, ?_⟩
      by_contra hc
      have := h1 (by rw [← hpe]; exact hc)
      omega
    · right
      obtain ⟨j', rfl⟩ : ∃ j', j = j' + 1 := ⟨j - 1, by omega⟩
      obtain ⟨q, hq⟩ := getElem?_prev hj
      refine ⟨q, by omega, hq, ?_⟩
      have hqle := epoch_mono hv hq (show j' ≤ i by omega) hf
      have hge : p.number ≤ j' := by
        by_cases hc : fin.reg.epoch = 0
        · have := (h0 hc).1; omega
        · have := h1 hc; omega
      have := epoch_mono hv hp.mem hge hq
      omega
  · rintro ⟨j, hj, hji, ho⟩
    have hjn := number_eq hv hj
    refine ⟨⟨j, hj⟩, ?_, by omega⟩
    rcases ho with ⟨hz, he⟩ | ⟨q, hpos, hq, he⟩
    · have := (h0 (by rw [← hpe]; exact he)).2
      omega
    · by_cases hc : fin.reg.epoch = 0
      · have := (h0 hc).2; omega
      · have h2 := h1 hc
        have : ¬ j - 1 < p.number := fun hlt => by
          have := hp.first _ _ hq hlt
          omega
        omega

/-- The scan of the closing block's own epoch state is empty. -/
theorem range_at_start {c : List Blk} (hv : Valid c) {p : Blk} {e : Nat} (hp : IsStart c e p)
    (he : e ≠ 0) : range c (p.reg.info p.reg.epoch).height p.number = [] := by
  have hpe := hp.epoch
  obtain ⟨_, _, _, h1⟩ := start_height hv hp.mem (by rw [hpe]; exact hp)
  rw [h1 (by rw [hpe]; exact he)]
  unfold range
  rw [List.filter_eq_nil_iff]
  intro b _ hb
  have := of_decide_eq_true hb
  omega

/-- The restore refuses a finalized block of another epoch than the canonical tip's. -/
theorem catchup_epoch {c : List Blk} {fin : Blk} {e : Nat} {s : Gas.Slots}
    {r : Gas.Slots × Option Nat} (h : catchup c (some fin) e s = .ok r) : fin.reg.epoch = e := by
  unfold catchup at h
  simp only at h
  split at h
  · cases h
  · rename_i st hst
    split at h
    · cases h
    · rename_i hne
      unfold epochStateAt infoAt at hst
      simp only [Bool.false_eq_true, if_false] at hst
      split at hst
      · cases hst
      · cases hst
        by_contra hc
        exact hne hc

/-- Leaders are counted up to the finalized block's round, exactly when that block was built in the
current epoch. -/
theorem catchup_leaders {c : List Blk} {fin : Blk} {e : Nat} {s s' : Gas.Slots} {o : Option Nat}
    (h : catchup c (some fin) e s = .ok (s', o)) (n : Nat) :
    o = some n ↔ 0 < n ∧ fin.nonceRound = n ∧ fin.nonceEpoch = e := by
  have he := catchup_epoch h
  unfold catchup at h
  simp only at h
  split at h
  · cases h
  · rename_i st hst
    have hse : st.epoch = fin.reg.epoch := by
      unfold epochStateAt infoAt at hst
      simp only [Bool.false_eq_true, if_false] at hst
      split at hst
      · cases hst
      · cases hst; rfl
    split at h
    · cases h
    · split at h
      · cases h
      · split at h
        · cases h
        · have hx := Except.ok.inj h
          have hx2 := congrArg Prod.snd hx
          simp only at hx2
          rw [← hx2, hse, he]
          split
          · rename_i hc
            constructor
            · intro hh; cases hh; exact ⟨hc.1, rfl, hc.2⟩
            · rintro ⟨_, h2, _⟩; rw [h2]
          · rename_i hc
            constructor
            · intro hh; cases hh
            · rintro ⟨h1, h2, h3⟩; exact absurd ⟨by omega, h3⟩ hc

/-- The epoch state at any block of the chain, without faults: the current epoch's scalars with the
time stamp of the block that started it. -/
theorem epochStateAt_any {c : List Blk} (hv : Valid c) {i : Nat} {b p : Blk} (hb : c[i]? = some b)
    (hp : IsStart c b.reg.epoch p) :
    epochStateAt c false false b = .ok ⟨b.reg.epoch, p.reg.info p.reg.epoch,
      b.reg.vals b.reg.epoch, b.reg.keys b.reg.epoch, p.time⟩ := by
  obtain ⟨hi, hh, _, _⟩ := start_height hv hb hp
  unfold epochStateAt infoAt
  simp only [Bool.false_eq_true, if_false]
  rw [hi, hh]
  have : startTime c false b p.number = .ok p.time := by
    unfold startTime
    split
    · rename_i he
      have hm := hp.mem
      rw [he, number_eq hv hb, hb] at hm
      cases hm; rfl
    · unfold lookup
      rw [hp.mem]
      rfl
  rw [this]

/-- The number of workers of an accumulator after the resize. -/
theorem setNumWorkers_length (s : Gas.Slots) (n : Nat) :
    (Gas.setNumWorkers s n).length = max n 1 := by
  unfold Gas.setNumWorkers
  simp only [List.length_append, List.length_take, List.length_replicate]
  omega

/-- **C92.** The restore from a finalized block of a chain: it is resized to the worker count at the
epoch's start and then counts exactly the blocks executed in the epoch, in order. -/
theorem catchup_spec {c : List Blk} (hv : Valid c) {i : Nat} {fin p : Blk} (hf : c[i]? = some fin)
    (hp : IsStart c fin.reg.epoch p) (e : Nat) (s : Gas.Slots) :
    ∃ bs : List Blk, bs.Sublist c ∧
      (∀ b, b ∈ bs ↔ ∃ j, c[j]? = some b ∧ j ≤ i ∧
        ((j = 0 ∧ fin.reg.epoch = 0) ∨
          ∃ q, 0 < j ∧ c[j - 1]? = some q ∧ q.reg.epoch = fin.reg.epoch)) ∧
      (∀ s', (∃ o, catchup c (some fin) e s = .ok (s', o)) ↔ fin.reg.epoch = e ∧
        Gas.catchup (Gas.setNumWorkers s p.reg.rows.length) (bs.map (·.exec)) = some s') := by
  obtain ⟨hi, hh, h0, h1⟩ := start_height hv hf hp
  refine ⟨range c (fin.reg.info fin.reg.epoch).height fin.number, List.filter_sublist,
    range_spec hv hf, ?_⟩
  intro s'
  have hsync : syncNumWorkers c false (fun _ => false) (p.reg.info p.reg.epoch).height s
      = .ok (Gas.setNumWorkers s p.reg.rows.length) := by
    unfold syncNumWorkers lookup
    rw [hh, hp.mem]
    simp only [Bool.false_eq_true, if_false]
    rw [show retry (fun _ => (Except.ok p.reg.rows : Except Err (List Gas.Row)))
      = .ok p.reg.rows from rfl]
  unfold catchup
  simp only [epochStateAt_any hv hf hp, hsync, hi]
  by_cases he : fin.reg.epoch = e
  · rw [if_neg (show ¬ fin.reg.epoch ≠ e by simpa using he)]
    cases hc : Gas.catchup (Gas.setNumWorkers s p.reg.rows.length)
        ((range c (p.reg.info p.reg.epoch).height fin.number).map (·.exec)) with
    | none =>
      simp
    | some s2 =>
      simp only [Except.ok.injEq, Prod.mk.injEq, Option.some.injEq]
      constructor
      · rintro ⟨_, h, _⟩; exact ⟨he, h⟩
      · rintro ⟨_, h⟩; exact ⟨_, h, rfl⟩
  · rw [if_pos he]
    constructor
    · rintro ⟨_, h⟩; cases h
    · rintro ⟨h, _⟩; exact absurd h he

/-- No finalized block (a fresh genesis): nothing is restored. -/
theorem catchup_fresh (c : List Blk) (e : Nat) (s : Gas.Slots) :
    catchup c none e s = .ok (s, none) := rfl

/-! ## The finalized marker -/

/-- **C92.** After the heal the marker is the persisted tip (or was never written and the tip is
genesis); a marker ahead of the tip is refused; healing twice changes nothing more. -/
theorem heal_spec (tip : Nat) (m : Marker) :
    (heal tip m = none ↔ ∃ f, m.disk = some f ∧ tip < f) ∧
    ∀ m', heal tip m = some m' →
      m'.disk.getD 0 = tip ∧ (m' ≠ m → m' = ⟨some tip, some tip⟩) ∧ heal tip m' = some m' := by
  unfold heal
  refine ⟨?_, ?_⟩
  · dsimp only
    constructor
    · intro h
      split at h
      · rename_i hlt
        cases hd : m.disk with
        | none => rw [hd] at hlt; simp at hlt
        | some f => rw [hd] at hlt; exact ⟨f, rfl, hlt⟩
      · split at h <;> cases h
    · rintro ⟨f, hf, hlt⟩
      rw [hf]
      rw [if_pos (show tip < (some f).getD 0 from hlt)]
  · intro m' h
    dsimp only at h ⊢
    split at h
    · cases h
    · rename_i hnlt
      split at h
      · rename_i heq
        cases h
        refine ⟨heq, fun hne => absurd rfl hne, ?_⟩
        rw [if_neg hnlt, if_pos heq]
      · cases h
        refine ⟨rfl, fun _ => rfl, ?_⟩
        simp

end Verif.Entry
