import Verif.Archive.Chain
/-
C49: what the two slot files remember, and what a restart makes of it.
-/
namespace Verif
namespace Chain
open Pack (Out Abs Meta)

/-! ## Specification -/

/-- The number of the last output in the archive (0: none). -/
def last : List (Meta × Abs) → Nat
  | [] => 0
  | (m, a) :: _ => m.start + a.outs.length - 1

/-- Where the subscriber is: between outputs, an output saved but the pack not yet persisted, the pack
persisted but the slots not yet. `handle_consensus_output`, subscriber.rs. -/
inductive Phase where
  | idle
  | saved
  | flushed
deriving DecidableEq

/-- The newest pack holds exactly one output and there is an older pack. -/
def first (c : CS) : Prop := ∃ m a ps, c.packs = (m, a) :: ps ∧ a.outs.length = 1 ∧ ps ≠ []

/-- Runs: outputs are saved with the number found at startup or the following one, each is persisted
before the next, the background thread works at any time, epochs change between outputs, and the node may
crash at any time, with any of the possible contents of the slot files. Two kinds of crashes are excluded:
(A) the pack was not yet persisted but the slot file already has the new output;
(B) the pack with the first output of an epoch after epoch 0 was persisted but no slot file has it.
`stuck`, `renumbered` show what happens then. -/
inductive Run : CS → Phase → Prop
  | fresh : Run CS.fresh .idle
  | save {c c' : CS} (x : Nat) (o : Out) : Run c .idle → x ≤ last c.packs →
      o.hdr.number = c.nextNumber x → c.save o = .ok c' → Run c' .saved
  | thread {c : CS} {p : Phase} : Run c p → Run c.thread p
  | packPersist {c : CS} : Run c .saved → Run c.packPersist .flushed
  | slotPersist {c : CS} : Run c .flushed → Run c.slotPersist .idle
  | newEpoch {c : CS} : Run c .idle → Run c.newEpoch .idle
  | crash {c : CS} {p : Phase} (v1 v2 : Val) : Run c p → c.s1.After v1 → c.s2.After v2 →
      (p = .saved → v1 ≠ c.lat ∧ v2 ≠ c.lat) →
      (p = .flushed → first c → v1 = c.lat ∨ v2 = c.lat) →
      Run (c.reopen v1 v2) .idle

/-! ## Order of slot values -/

def lt (v w : Val) : Prop := v.1 < w.1 ∨ (v.1 = w.1 ∧ v.2 < w.2)

theorem pick_cases (a b : Val) :
    (pick a b = (a, .one) ∧ lt b a) ∨ (pick a b = (b, .two) ∧ ¬ lt b a) := by
  unfold pick lt
  by_cases h1 : a.1 = b.1
  · rw [if_pos h1]
    by_cases h2 : b.2 < a.2
    · rw [if_pos h2]; exact Or.inl ⟨rfl, Or.inr ⟨h1.symm, h2⟩⟩
    · rw [if_neg h2]; exact Or.inr ⟨rfl, by omega⟩
  · rw [if_neg h1]
    by_cases h2 : b.1 < a.1
    · rw [if_pos h2]; exact Or.inl ⟨rfl, Or.inl h2⟩
    · rw [if_neg h2]; exact Or.inr ⟨rfl, by omega⟩

/-- The value picked is the greatest. -/
theorem pick_max (a b : Val) : ((pick a b).1 = a ∨ (pick a b).1 = b) ∧ ¬ lt (pick a b).1 a ∧
    ¬ lt (pick a b).1 b := by
  rcases pick_cases a b with ⟨h, hl⟩ | ⟨h, hl⟩ <;> rw [h] <;> unfold lt at *
  · exact ⟨Or.inl rfl, by dsimp only; omega, by dsimp only; omega⟩
  · refine ⟨Or.inr rfl, ?_, by dsimp only; omega⟩
    dsimp only; omega

theorem pick_left {a b : Val} (h : lt b a) : pick a b = (a, .one) := by
  rcases pick_cases a b with ⟨h', _⟩ | ⟨_, hl⟩
  · exact h'
  · exact absurd h hl

theorem pick_right {a b : Val} (h : lt a b) : pick a b = (b, .two) := by
  rcases pick_cases a b with ⟨_, hl⟩ | ⟨h', _⟩
  · unfold lt at *; omega
  · exact h'

theorem not_lt_zero (v : Val) : ¬ lt v (0, 0) := by unfold lt; dsimp only; omega

/-- A smaller or torn value beside the greatest does not change the choice of value. -/
theorem pick_val_left {a b b' : Val} (h : (pick a b).1 = a) (hb : b' = b ∨ b' = (0, 0)) :
    (pick a b').1 = a := by
  rcases hb with rfl | rfl
  · exact h
  · rcases pick_cases a (0, 0) with ⟨h', _⟩ | ⟨h', hl⟩
    · rw [h']
    · rw [h']
      unfold lt at hl
      dsimp only at hl ⊢
      have : a.1 = 0 ∧ a.2 = 0 := by omega
      exact Prod.ext this.1.symm this.2.symm

theorem pick_val_right {a a' b : Val} (h : (pick a b).1 = b) (ha : a' = a ∨ a' = (0, 0)) :
    (pick a' b).1 = b := by
  rcases ha with rfl | rfl
  · exact h
  · rcases pick_cases (0, 0) b with ⟨_, hl⟩ | ⟨h', _⟩
    · exact absurd hl (not_lt_zero b)
    · rw [h']

/-! ## The packs -/

/-- The packs follow each other: consecutive epochs, consecutive numbers, older packs persisted. -/
def Linked : List (Meta × Abs) → Prop
  | [] => False
  | [(m, a)] => m.epoch = 0 ∧ m.start = 1 ∧ (∀ (i : Nat) (o : Out), a.outs[i]? = some o → o.hdr.number = m.start + i)
  | (m, a) :: (m', a') :: ps => m.epoch = m'.epoch + 1 ∧ m.start = m'.start + a'.outs.length ∧
      (∀ (i : Nat) (o : Out), a.outs[i]? = some o → o.hdr.number = m.start + i) ∧ a'.kept = a'.outs.length ∧
      Linked ((m', a') :: ps)

theorem Linked.nums {m : Meta} {a : Abs} {ps : List (Meta × Abs)} (h : Linked ((m, a) :: ps)) (i : Nat)
    (o : Out) (ho : a.outs[i]? = some o) : o.hdr.number = m.start + i := by
  cases ps with
  | nil => exact h.2.2 i o ho
  | cons p ps => exact h.2.2.1 i o ho

theorem Linked.start {m : Meta} {a : Abs} {ps : List (Meta × Abs)} (h : Linked ((m, a) :: ps)) :
    1 ≤ m.start := by
  induction ps generalizing m a with
  | nil => have := h.2.1; omega
  | cons p ps ih =>
    obtain ⟨m', a'⟩ := p
    have := ih h.2.2.2.2
    have := h.2.1
    omega

/-- Another content of the newest pack. -/
theorem Linked.head {m : Meta} {a b : Abs} {ps : List (Meta × Abs)} (h : Linked ((m, a) :: ps))
    (hb : ∀ (i : Nat) (o : Out), b.outs[i]? = some o → o.hdr.number = m.start + i) : Linked ((m, b) :: ps) := by
  cases ps with
  | nil => exact ⟨h.1, h.2.1, hb⟩
  | cons p ps => exact ⟨h.1, h.2.1, hb, h.2.2.2.1, h.2.2.2.2⟩

/-- `v` is the value the slots should have: the epoch of the last nonempty pack, and a number that is
not above its last. -/
def Tip : List (Meta × Abs) → Val → Prop
  | [], _ => False
  | (m, a) :: ps, v => (a.outs ≠ [] ∧ v.1 = m.epoch ∧ v.2 + 1 ≤ m.start + a.outs.length) ∨
      (a.outs = [] ∧ Tip ps v) ∨ (a.outs = [] ∧ ps = [] ∧ v = (0, 0))

theorem Tip.le {ps : List (Meta × Abs)} {v : Val} (h : Tip ps v) (hl : Linked ps) :
    v.2 ≤ last ps ∧ ∀ m a qs, ps = (m, a) :: qs → v.1 ≤ m.epoch := by
  induction ps with
  | nil => exact absurd hl id
  | cons p ps ih =>
    obtain ⟨m, a⟩ := p
    have hst := hl.start
    refine ⟨?_, ?_⟩
    · rcases h with ⟨h1, h2, h3⟩ | ⟨h1, h2⟩ | ⟨h1, h2, h3⟩
      · show v.2 ≤ m.start + a.outs.length - 1
        omega
      · show v.2 ≤ m.start + a.outs.length - 1
        cases ps with
        | nil => exact absurd h2 id
        | cons p' ps' =>
          obtain ⟨m', a'⟩ := p'
          have := (ih h2 hl.2.2.2.2).1
          have e : last ((m', a') :: ps') = m'.start + a'.outs.length - 1 := rfl
          have := hl.2.1
          omega
      · rw [h3]; exact Nat.zero_le _
    · intro m0 a0 qs hq
      cases hq
      rcases h with ⟨h1, h2, h3⟩ | ⟨h1, h2⟩ | ⟨h1, h2, h3⟩
      · omega
      · cases ps with
        | nil => exact absurd h2 id
        | cons p' ps' =>
          obtain ⟨m', a'⟩ := p'
          have := (ih h2 hl.2.2.2.2).2 m' a' ps' rfl
          have := hl.1
          omega
      · rw [h3]; exact Nat.zero_le _

theorem lastNumber_eq {m : Meta} {a : Abs} {ps : List (Meta × Abs)} (hl : Linked ((m, a) :: ps))
    (hne : a.outs ≠ []) : lastNumber (m, a) = some (m.start + a.outs.length - 1) := by
  unfold lastNumber
  dsimp only
  have hlen : 0 < a.outs.length := List.length_pos_iff.mpr hne
  rw [List.getLast?_eq_getElem?, List.getElem?_eq_getElem (by omega)]
  have := hl.nums (a.outs.length - 1) _ (List.getElem?_eq_getElem (by omega))
  rw [Option.map_some, this]
  congr 1; omega

/-- The latest header found through the slots is the last output of the archive. -/
theorem find_tip {ps : List (Meta × Abs)} {v : Val} (hl : Linked ps) (h : Tip ps v) :
    ((ps.find? (fun p => p.1.epoch == v.1)).bind lastNumber =
      some (last ps)) ∨
    ((ps.find? (fun p => p.1.epoch == v.1)).bind lastNumber = none ∧
      last ps = 0) := by
  induction ps with
  | nil => exact absurd hl id
  | cons p ps ih =>
    obtain ⟨m, a⟩ := p
    rcases h with ⟨h1, h2, h3⟩ | ⟨h1, h2⟩ | ⟨h1, h2, h3⟩
    · left
      rw [List.find?_cons_of_pos (by simp [h2])]
      exact lastNumber_eq hl h1
    · cases ps with
      | nil => exact absurd h2 id
      | cons p' ps' =>
        obtain ⟨m', a'⟩ := p'
        have hle := (h2.le hl.2.2.2.2).2 m' a' ps' rfl
        have he := hl.1
        have hlast : last ((m, a) :: (m', a') :: ps') = last ((m', a') :: ps') := by
          show m.start + a.outs.length - 1 = m'.start + a'.outs.length - 1
          rw [h1, hl.2.1]; rfl
        rw [List.find?_cons_of_neg (by simp; omega), hlast]
        exact ih hl.2.2.2.2 h2
    · right
      subst h2
      have e : m.epoch = 0 := hl.1
      rw [List.find?_cons_of_pos (by simp [e, h3])]
      refine ⟨?_, ?_⟩
      · show (a.outs.getLast?.map _) = none
        rw [h1]; rfl
      · show m.start + a.outs.length - 1 = 0
        rw [h1, hl.2.1]; rfl

theorem next_eq {c : CS} (hl : Linked c.packs) (h : Tip c.packs c.lat) {x : Nat} (hx : x ≤ last c.packs) :
    c.nextNumber x = last c.packs + 1 := by
  unfold CS.nextNumber CS.headerLatest
  rcases find_tip hl h with h' | ⟨h', h0⟩
  · rw [h', Option.getD_some]; omega
  · rw [h', Option.getD_none]; omega

/-! ## The invariant -/

def kept (m : Meta) (a : Abs) : Meta × Abs := (m, { a with outs := a.outs.take a.kept })

/-- Between outputs: nothing is queued or unsynced, and the slots agree with the memory and the packs. -/
structure Idle (c : CS) : Prop where
  q : c.q = []
  o1 : c.s1.old = []
  o2 : c.s2.old = []
  lat : pick c.s1.cur c.s2.cur = (c.lat, c.sel)
  linked : Linked c.packs
  kept : ∀ m a ps, c.packs = (m, a) :: ps → a.kept = a.outs.length
  tip : Tip c.packs c.lat

/-- The slot files while an output is in flight; `v1`, `v2` are their contents before. -/
structure Slots (c : CS) (v1 v2 vo : Val) (so : Sel) : Prop where
  before : pick v1 v2 = (vo, so)
  sel : c.sel = so.other
  newer : lt vo c.lat
  files : (c.q = [⟨vo.1, c.lat, c.sel⟩] ∧ c.s1 = ⟨v1, []⟩ ∧ c.s2 = ⟨v2, []⟩) ∨
    (c.q = [] ∧ c.sel = .one ∧ c.s2 = ⟨v2, []⟩ ∧ c.s1.cur = c.lat ∧ (c.s1.old = [v1] ∨ c.s1.old = [])) ∨
    (c.q = [] ∧ c.sel = .two ∧ c.s1 = ⟨v1, []⟩ ∧ c.s2.cur = c.lat ∧ (c.s2.old = [v2] ∨ c.s2.old = []))

/-- An output is in flight. -/
structure Busy (c : CS) (flushed : Bool) : Prop where
  linked : Linked c.packs
  head : ∃ m outs o ps k cr, c.packs = (m, ⟨outs ++ [o], k, cr⟩) :: ps ∧
    c.lat = (m.epoch, m.start + outs.length) ∧ k = (if flushed then outs.length + 1 else outs.length) ∧
    ∃ v1 v2 vo so, Slots c v1 v2 vo so ∧ Tip ((m, ⟨outs, outs.length, cr⟩) :: ps) vo

def PInv (c : CS) : Phase → Prop
  | .idle => Idle c
  | .saved => Busy c false
  | .flushed => Busy c true

theorem Slots.thread {c : CS} {v1 v2 vo : Val} {so : Sel} (h : Slots c v1 v2 vo so) :
    Slots c.thread v1 v2 vo so := by
  rcases h.files with ⟨hq, h1, h2⟩ | h' | h'
  · have hs := h.sel
    cases so with
    | one =>
      have hsel : c.sel = .two := hs
      refine ⟨h.before, ?_, ?_, Or.inr (Or.inr ?_)⟩
      · unfold CS.thread; rw [hq]; rw [hsel]; exact hsel
      · unfold CS.thread; rw [hq]; rw [hsel]; exact h.newer
      · unfold CS.thread; rw [hq]
        dsimp only
        rw [hsel]
        refine ⟨rfl, hsel, h1, ?_, ?_⟩
        · show (if vo.1 ≠ c.lat.1 then (c.s2.write c.lat).sync else c.s2.write c.lat).cur = c.lat
          split <;> rfl
        · show (if vo.1 ≠ c.lat.1 then (c.s2.write c.lat).sync else c.s2.write c.lat).old = _ ∨
            (if vo.1 ≠ c.lat.1 then (c.s2.write c.lat).sync else c.s2.write c.lat).old = _
          split
          · exact Or.inr rfl
          · left; rw [h2]; rfl
    | two =>
      have hsel : c.sel = .one := hs
      refine ⟨h.before, ?_, ?_, Or.inr (Or.inl ?_)⟩
      · unfold CS.thread; rw [hq]; rw [hsel]; exact hsel
      · unfold CS.thread; rw [hq]; rw [hsel]; exact h.newer
      · unfold CS.thread; rw [hq]
        dsimp only
        rw [hsel]
        refine ⟨rfl, hsel, h2, ?_, ?_⟩
        · show (if vo.1 ≠ c.lat.1 then (c.s1.write c.lat).sync else c.s1.write c.lat).cur = c.lat
          split <;> rfl
        · show (if vo.1 ≠ c.lat.1 then (c.s1.write c.lat).sync else c.s1.write c.lat).old = _ ∨
            (if vo.1 ≠ c.lat.1 then (c.s1.write c.lat).sync else c.s1.write c.lat).old = _
          split
          · exact Or.inr rfl
          · left; rw [h1]; rfl
  · have : c.thread = c := by unfold CS.thread; rw [h'.1]
    rw [this]; exact h
  · have : c.thread = c := by unfold CS.thread; rw [h'.1]
    rw [this]; exact h

theorem thread_same (c : CS) : c.thread.packs = c.packs ∧ c.thread.lat = c.lat ∧ c.thread.sel = c.sel := by
  unfold CS.thread
  cases c.q with
  | nil => exact ⟨rfl, rfl, rfl⟩
  | cons u q =>
    dsimp only
    unfold CS.setSlot
    cases u.sel <;> exact ⟨rfl, rfl, rfl⟩

theorem Slots.congr {c d : CS} {v1 v2 vo : Val} {so : Sel} (h : Slots c v1 v2 vo so) (e1 : d.q = c.q)
    (e2 : d.s1 = c.s1) (e3 : d.s2 = c.s2) (e4 : d.lat = c.lat) (e5 : d.sel = c.sel) :
    Slots d v1 v2 vo so := by
  have := h
  refine ⟨h.before, by rw [e5]; exact h.sel, by rw [e4]; exact h.newer, ?_⟩
  rw [e1, e2, e3, e4, e5]; exact h.files

/-- What can be read of the slots after a crash: the new value or the one before. -/
theorem Slots.read {c : CS} {v1 v2 vo : Val} {so : Sel} (h : Slots c v1 v2 vo so) {w1 w2 : Val}
    (a1 : c.s1.After w1) (a2 : c.s2.After w2) :
    ((w1 = c.lat ∨ w2 = c.lat) ∧ (pick w1 w2).1 = c.lat) ∨
    ((w1 ≠ c.lat ∧ w2 ≠ c.lat) ∧ (pick w1 w2).1 = vo) := by
  have hmax := pick_max v1 v2
  rw [h.before] at hmax
  have hnew := h.newer
  have hne : ∀ w, ¬ lt vo w → w ≠ c.lat := by
    intro w hw he
    rw [he] at hw; exact hw hnew
  have n1 := hne v1 hmax.2.1
  have n2 := hne v2 hmax.2.2
  have n0 : (0, 0) ≠ c.lat := by
    intro he; rw [← he] at hnew; exact not_lt_zero _ hnew
  have hbef : (pick v1 v2).1 = vo := by rw [h.before]
  rcases h.files with ⟨hq, h1, h2⟩ | ⟨_, hs, h2, hc, ho⟩ | ⟨_, hs, h1, hc, ho⟩
  · right
    have e1 : w1 = v1 := by
      rw [h1] at a1; rcases a1 with a1 | a1 | a1
      · exact a1
      · cases a1
      · exact absurd rfl a1.1
    have e2 : w2 = v2 := by
      rw [h2] at a2; rcases a2 with a2 | a2 | a2
      · exact a2
      · cases a2
      · exact absurd rfl a2.1
    rw [e1, e2]
    exact ⟨⟨n1, n2⟩, hbef⟩
  · have hso : so = .two := by
      have := h.sel; rw [hs] at this; cases so
      · cases this
      · rfl
    have e2 : w2 = v2 := by
      rw [h2] at a2; rcases a2 with a2 | a2 | a2
      · exact a2
      · cases a2
      · exact absurd rfl a2.1
    have hv2 : vo = v2 := by
      rcases pick_cases v1 v2 with ⟨h', _⟩ | ⟨h', _⟩
      · rw [h.before, hso] at h'; cases h'
      · rw [h.before] at h'; exact (Prod.mk.inj h').1
    by_cases hw : w1 = c.lat
    · left
      refine ⟨Or.inl hw, ?_⟩
      rw [hw, e2, ← hv2, pick_left hnew]
    · right
      refine ⟨⟨hw, by rw [e2]; exact n2⟩, ?_⟩
      rw [e2, hv2]
      apply pick_val_right (a := v1) (by rw [hbef, hv2])
      rcases a1 with a1 | a1 | a1
      · rw [hc] at a1; exact absurd a1 hw
      · rcases ho with ho | ho
        · rw [ho] at a1; left; exact List.mem_singleton.mp a1
        · rw [ho] at a1; cases a1
      · right; exact a1.2
  · have hso : so = .one := by
      have := h.sel; rw [hs] at this; cases so
      · rfl
      · cases this
    have e1 : w1 = v1 := by
      rw [h1] at a1; rcases a1 with a1 | a1 | a1
      · exact a1
      · cases a1
      · exact absurd rfl a1.1
    have hv1 : vo = v1 := by
      rcases pick_cases v1 v2 with ⟨h', _⟩ | ⟨h', _⟩
      · rw [h.before] at h'; exact (Prod.mk.inj h').1
      · rw [h.before, hso] at h'; cases h'
    by_cases hw : w2 = c.lat
    · left
      refine ⟨Or.inr hw, ?_⟩
      rw [hw, e1, ← hv1, pick_right hnew]
    · right
      refine ⟨⟨by rw [e1]; exact n1, hw⟩, ?_⟩
      rw [e1, hv1]
      apply pick_val_left (b := v2) (by rw [hbef, hv1])
      rcases a2 with a2 | a2 | a2
      · rw [hc] at a2; exact absurd a2 hw
      · rcases ho with ho | ho
        · rw [ho] at a2; left; exact List.mem_singleton.mp a2
        · rw [ho] at a2; cases a2
      · right; exact a2.2

end Chain
end Verif
