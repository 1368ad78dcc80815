import Verif.Archive.ChainProps
/-
C49: the theorems about runs of the archive of the chain, and the two kinds of crashes that break it.
-/
namespace Verif
namespace Chain
open Pack (Out Abs Meta)

theorem crash_outs (a : Abs) : (a.crash false).outs = a.outs.take a.kept ∧ (a.crash false).kept = a.kept := by
  unfold Pack.Abs.crash
  rw [if_neg (by decide)]; exact ⟨rfl, rfl⟩

theorem crash_full {a : Abs} (h : a.kept = a.outs.length) : (a.crash false).outs = a.outs := by
  rw [(crash_outs a).1, h, List.take_length]

/-- A crash leaves the older packs as they are, and the newest with what is kept. -/
theorem linked_crash {m : Meta} {a b : Abs} {ps : List (Meta × Abs)} (h : Linked ((m, a) :: ps))
    (hb : ∀ (i : Nat) (o : Out), b.outs[i]? = some o → o.hdr.number = m.start + i) :
    Linked ((m, b) :: crashPacks ps) := by
  induction ps generalizing m a b with
  | nil => exact h.head hb
  | cons p ps ih =>
    obtain ⟨m', a'⟩ := p
    have hk := h.2.2.2.1
    have ho := crash_full hk
    refine ⟨h.1, ?_, hb, ?_, ?_⟩
    · show m.start = m'.start + (a'.crash false).outs.length
      rw [ho]; exact h.2.1
    · show (a'.crash false).kept = (a'.crash false).outs.length
      rw [ho, (crash_outs a').2, hk]
    · exact ih h.2.2.2.2 (by rw [ho]; exact h.2.2.2.2.nums)

theorem tip_crash {m : Meta} {a : Abs} {ps : List (Meta × Abs)} {v : Val} (hl : Linked ((m, a) :: ps))
    (h : Tip ps v) : Tip (crashPacks ps) v := by
  induction ps generalizing m a with
  | nil => exact h
  | cons p ps ih =>
    obtain ⟨m', a'⟩ := p
    have ho := crash_full hl.2.2.2.1
    show Tip ((m', a'.crash false) :: crashPacks ps) v
    unfold Tip
    rw [ho]
    rcases h with h | ⟨h1, h2⟩ | ⟨h1, h2, h3⟩
    · exact Or.inl h
    · exact Or.inr (Or.inl ⟨h1, ih hl.2.2.2.2 h2⟩)
    · exact Or.inr (Or.inr ⟨h1, by rw [h2]; rfl, h3⟩)

/-- A crash when the newest pack holds `outs` durably, `v` being right for `outs`. -/
theorem reopen_idle {c : CS} {m : Meta} {a : Abs} {ps : List (Meta × Abs)} {v1 v2 v : Val} {k : Nat} {cr : Bool}
    (hp : c.packs = (m, a) :: ps) (hl : Linked c.packs) (hk : a.kept ≤ a.outs.length)
    (hv : (pick v1 v2).1 = v) (ht : Tip ((m, ⟨a.outs.take a.kept, k, cr⟩) :: ps) v) : Idle (c.reopen v1 v2) := by
  rw [hp] at hl
  have ho := crash_outs a
  have hpk : (c.reopen v1 v2).packs = (m, a.crash false) :: crashPacks ps := by
    show crashPacks c.packs = _
    rw [hp]; rfl
  refine ⟨rfl, rfl, rfl, rfl, ?_, ?_, ?_⟩
  · rw [hpk]
    apply linked_crash hl
    rw [ho.1]
    intro i o hi
    rcases Nat.lt_or_ge i a.kept with h' | h'
    · rw [List.getElem?_take_of_lt h'] at hi; exact hl.nums i o hi
    · rw [List.getElem?_eq_none (by rw [List.length_take]; omega)] at hi; cases hi
  · intro m' a' ps' h'
    rw [hpk] at h'
    cases h'
    rw [ho.1, ho.2, List.length_take]; omega
  · rw [hpk]
    show Tip _ (pick v1 v2).1
    rw [hv]
    unfold Tip at ht ⊢
    rw [ho.1]
    rcases ht with h | ⟨h1, h2⟩ | ⟨h1, h2, h3⟩
    · exact Or.inl h
    · exact Or.inr (Or.inl ⟨h1, tip_crash hl h2⟩)
    · exact Or.inr (Or.inr ⟨h1, by rw [h2]; rfl, h3⟩)

theorem Idle.head {c : CS} (h : Idle c) : ∃ m a ps, c.packs = (m, a) :: ps := by
  cases hp : c.packs with
  | nil => have := h.linked; rw [hp] at this; exact absurd this id
  | cons p ps => exact ⟨p.1, p.2, ps, rfl⟩

/-- Between outputs the next one is accepted: this is the content of the save step. -/
theorem Idle.save {c : CS} (h : Idle c) {x : Nat} (hx : x ≤ last c.packs) {o : Out}
    (hn : o.hdr.number = c.nextNumber x) {m : Meta} {a : Abs} {ps : List (Meta × Abs)}
    (hp : c.packs = (m, a) :: ps) (he : o.hdr.epoch = m.epoch) :
    c.save o = .ok (({ c with packs := (m, { a with outs := a.outs ++ [o] }) :: ps } : CS).update
      (o.hdr.epoch, o.hdr.number)) ∧ o.hdr.number = m.start + a.outs.length := by
  have hn' := next_eq h.linked h.tip hx
  have hle := (h.tip.le h.linked).1
  have hl := h.linked
  rw [hp] at hl
  have hs := hl.start
  have hlast : last c.packs = m.start + a.outs.length - 1 := by rw [hp]; rfl
  have hnum : o.hdr.number = m.start + a.outs.length := by omega
  refine ⟨?_, hnum⟩
  unfold CS.save
  rw [hp]
  dsimp only
  rw [if_neg (by omega), if_neg (fun hh => hh he)]
  unfold absSave
  rw [if_neg (by omega), if_neg (by omega)]

theorem save_epoch {c c' : CS} {o : Out} {m : Meta} {a : Abs} {ps : List (Meta × Abs)}
    (hp : c.packs = (m, a) :: ps) (h : c.save o = .ok c') : o.hdr.epoch = m.epoch := by
  unfold CS.save at h
  rw [hp] at h
  dsimp only at h
  split at h
  · cases h
  · split at h
    · cases h
    · next he => exact Decidable.not_not.mp he

theorem Slots.drained {c : CS} {v1 v2 vo : Val} {so : Sel} (h : Slots c v1 v2 vo so) :
    Slots (c.drain c.q.length) v1 v2 vo so ∧ (c.drain c.q.length).q = [] := by
  have ht := h.thread
  rcases h.files with ⟨hq, h1, h2⟩ | h' | h'
  · rw [hq]
    refine ⟨ht, ?_⟩
    show c.thread.q = []
    unfold CS.thread; rw [hq]
  · rw [h'.1]; exact ⟨h, h'.1⟩
  · rw [h'.1]; exact ⟨h, h'.1⟩

theorem drain_same (c : CS) (n : Nat) : (c.drain n).packs = c.packs ∧ (c.drain n).lat = c.lat := by
  induction n generalizing c with
  | zero => exact ⟨rfl, rfl⟩
  | succ n ih =>
    have := thread_same c
    have h2 := ih c.thread
    exact ⟨h2.1.trans this.1, h2.2.trans this.2.1⟩

theorem fresh_idle : Idle CS.fresh := by
  refine ⟨rfl, rfl, rfl, rfl, ⟨rfl, rfl, ?_⟩, ?_, Or.inr (Or.inr ⟨rfl, rfl, rfl⟩)⟩
  · intro i o h; simp at h
  · intro m a ps h; cases h; rfl

theorem Run.inv {c : CS} {p : Phase} (h : Run c p) : PInv c p := by
  induction h with
  | fresh => exact fresh_idle
  | @save c c' x o _ hx hn hsv ih =>
    have hi : Idle c := ih
    obtain ⟨m, a, ps, hp⟩ := hi.head
    have he := save_epoch hp hsv
    obtain ⟨hs, hnum⟩ := hi.save hx hn hp he
    rw [hs] at hsv
    cases hsv
    have hl := hi.linked
    rw [hp] at hl
    have htip := hi.tip
    have hle := htip.le hi.linked
    have hst := hl.start
    have hlast : last c.packs = m.start + a.outs.length - 1 := by rw [hp]; rfl
    refine ⟨?_, m, a.outs, o, ps, a.kept, a.crashed, rfl, ?_, ?_, c.s1.cur, c.s2.cur, c.lat, c.sel, ?_, ?_⟩
    · apply hl.head
      intro i o' ho'
      rcases Nat.lt_or_ge i a.outs.length with h' | h'
      · rw [List.getElem?_append_left h'] at ho'; exact hl.nums i o' ho'
      · rw [List.getElem?_append_right h'] at ho'
        rcases Nat.eq_zero_or_pos (i - a.outs.length) with h0 | h0
        · rw [h0] at ho'
          simp only [List.getElem?_cons_zero, Option.some.injEq] at ho'
          rw [← ho', hnum]; omega
        · rw [List.getElem?_eq_none (by simp; omega)] at ho'; cases ho'
    · show (o.hdr.epoch, o.hdr.number) = _
      rw [he, hnum]
    · exact hi.kept m a ps hp
    · refine ⟨hi.lat, rfl, ?_, Or.inl ⟨?_, ?_, ?_⟩⟩
      · show lt c.lat (o.hdr.epoch, o.hdr.number)
        have := hle.2 m a ps hp
        unfold lt
        dsimp only
        omega
      · show c.q ++ _ = _
        rw [hi.q]; rfl
      · show c.s1 = ⟨c.s1.cur, []⟩
        rw [← hi.o1]
      · show c.s2 = ⟨c.s2.cur, []⟩
        rw [← hi.o2]
    · rw [hp] at htip
      exact htip
  | @thread c p _ ih =>
    cases p with
    | idle =>
      have hi : Idle c := ih
      have : c.thread = c := by unfold CS.thread; rw [hi.q]
      rw [this]; exact hi
    | saved =>
      obtain ⟨hl, m, outs, o, ps, k, cr, h1, h2, h3, v1, v2, vo, so, h4, h5⟩ := ih
      have ts := thread_same c
      exact ⟨by rw [ts.1]; exact hl, m, outs, o, ps, k, cr, by rw [ts.1]; exact h1, by rw [ts.2.1]; exact h2, h3,
        v1, v2, vo, so, h4.thread, h5⟩
    | flushed =>
      obtain ⟨hl, m, outs, o, ps, k, cr, h1, h2, h3, v1, v2, vo, so, h4, h5⟩ := ih
      have ts := thread_same c
      exact ⟨by rw [ts.1]; exact hl, m, outs, o, ps, k, cr, by rw [ts.1]; exact h1, by rw [ts.2.1]; exact h2, h3,
        v1, v2, vo, so, h4.thread, h5⟩
  | @packPersist c _ ih =>
    obtain ⟨hl, m, outs, o, ps, k, cr, h1, h2, h3, v1, v2, vo, so, h4, h5⟩ := ih
    have e : c.packPersist = { c with packs := (m, ⟨outs ++ [o], (outs ++ [o]).length, cr⟩) :: ps } := by
      unfold CS.packPersist; rw [h1]
    rw [e]
    refine ⟨?_, m, outs, o, ps, _, cr, rfl, h2, by simp, v1, v2, vo, so, h4.congr rfl rfl rfl rfl rfl, h5⟩
    show Linked ((m, _) :: ps)
    rw [h1] at hl
    exact hl.head hl.nums
  | @slotPersist c _ ih =>
    obtain ⟨hl, m, outs, o, ps, k, cr, h1, h2, h3, v1, v2, vo, so, h4, h5⟩ := ih
    obtain ⟨hd, hq⟩ := h4.drained
    obtain ⟨hpk, hlt⟩ := drain_same c c.q.length
    refine ⟨hq, rfl, rfl, ?_, ?_, ?_, ?_⟩
    · show pick (c.drain c.q.length).s1.cur (c.drain c.q.length).s2.cur =
        ((c.drain c.q.length).lat, (c.drain c.q.length).sel)
      have hn := hd.newer
      have hb := hd.before
      have hsel := hd.sel
      rcases hd.files with ⟨hq', _⟩ | ⟨_, hs, e2, e1, _⟩ | ⟨_, hs, e1, e2, _⟩
      · rw [hq] at hq'; cases hq'
      · rw [e1, e2, hs]
        have : vo = v2 := by
          rcases pick_cases v1 v2 with ⟨h', _⟩ | ⟨h', _⟩
          · rw [hb] at h'
            have h'' := (Prod.mk.inj h').2
            rw [h''] at hsel; rw [hs] at hsel; cases hsel
          · rw [hb] at h'; exact (Prod.mk.inj h').1
        rw [this] at hn
        exact pick_left hn
      · rw [e1, e2, hs]
        have : vo = v1 := by
          rcases pick_cases v1 v2 with ⟨h', _⟩ | ⟨h', _⟩
          · rw [hb] at h'; exact (Prod.mk.inj h').1
          · rw [hb] at h'
            have h'' := (Prod.mk.inj h').2
            rw [h''] at hsel; rw [hs] at hsel; cases hsel
        rw [this] at hn
        exact pick_right hn
    · show Linked (c.drain c.q.length).packs
      rw [hpk]; exact hl
    · intro m' a' ps' h'
      have h'' : (c.drain c.q.length).packs = (m', a') :: ps' := h'
      rw [hpk, h1] at h''
      cases h''
      rw [h3]; simp
    · show Tip (c.drain c.q.length).packs (c.drain c.q.length).lat
      rw [hpk, hlt, h1, h2]
      exact Or.inl ⟨by simp, rfl, by simp; omega⟩
  | @newEpoch c _ ih =>
    have hi : Idle c := ih
    obtain ⟨m, a, ps, hp⟩ := hi.head
    have e : c.newEpoch = { c with
        packs := (⟨m.epoch + 1, m.start + a.outs.length⟩, {}) :: (m, { a with kept := a.outs.length }) :: ps } := by
      unfold CS.newEpoch; rw [hp]
    have hl := hi.linked
    have ht := hi.tip
    rw [hp] at hl ht
    rw [e]
    refine ⟨hi.q, hi.o1, hi.o2, hi.lat, ⟨rfl, rfl, ?_, rfl, hl.head hl.nums⟩, ?_, Or.inr (Or.inl ⟨rfl, ht⟩)⟩
    · intro i o h; simp at h
    · intro m' a' ps' h; cases h; rfl
  | @crash c p v1 v2 _ a1 a2 hA hB ih =>
    cases p with
    | idle =>
      have hi : Idle c := ih
      obtain ⟨m, a, ps, hp⟩ := hi.head
      have e1 : v1 = c.s1.cur := by
        rcases a1 with h | h | h
        · exact h
        · rw [hi.o1] at h; cases h
        · exact absurd hi.o1 h.1
      have e2 : v2 = c.s2.cur := by
        rcases a2 with h | h | h
        · exact h
        · rw [hi.o2] at h; cases h
        · exact absurd hi.o2 h.1
      have hk := hi.kept m a ps hp
      refine reopen_idle (k := a.kept) (cr := a.crashed) hp hi.linked (by omega) (v := c.lat)
        (by rw [e1, e2, hi.lat]) ?_
      rw [hk, List.take_length]
      have := hi.tip
      rw [hp] at this
      exact this
    | saved =>
      obtain ⟨hl, m, outs, o, ps, k, cr, h1, h2, h3, w1, w2, vo, so, h4, h5⟩ := ih
      have hk : k = outs.length := h3
      rcases h4.read a1 a2 with ⟨h6, _⟩ | ⟨_, h7⟩
      · have := hA rfl
        rcases h6 with h6 | h6
        · exact absurd h6 this.1
        · exact absurd h6 this.2
      · refine reopen_idle (k := outs.length) (cr := cr) h1 hl (by simp [hk]) h7 ?_
        show Tip ((m, ⟨(outs ++ [o]).take k, _, _⟩) :: ps) vo
        rw [hk, List.take_left]; exact h5
    | flushed =>
      obtain ⟨hl, m, outs, o, ps, k, cr, h1, h2, h3, w1, w2, vo, so, h4, h5⟩ := ih
      have hk : k = (outs ++ [o]).length := by rw [h3]; simp
      rcases h4.read a1 a2 with ⟨h6, h7⟩ | ⟨h6, h7⟩
      · refine reopen_idle (k := outs.length) (cr := cr) h1 hl (by simp [hk]) h7 ?_
        show Tip ((m, ⟨(outs ++ [o]).take k, _, _⟩) :: ps) c.lat
        rw [hk, List.take_length, h2]
        exact Or.inl ⟨by simp, rfl, by simp; omega⟩
      · refine reopen_idle (k := outs.length) (cr := cr) h1 hl (by simp [hk]) h7 ?_
        show Tip ((m, ⟨(outs ++ [o]).take k, _, _⟩) :: ps) vo
        rw [hk, List.take_length]
        have hlen : outs ≠ [] ∨ ps = [] := by
          by_cases h0 : outs = []
          · by_cases h0' : ps = []
            · exact Or.inr h0'
            · exfalso
              have := hB rfl ⟨m, _, ps, h1, by rw [h0]; rfl, h0'⟩
              rcases this with h' | h'
              · exact h6.1 h'
              · exact h6.2 h'
          · exact Or.inl h0
        rcases h5 with ⟨_, h8, h9⟩ | ⟨h8, h9⟩ | ⟨h8, h9, h10⟩
        · refine Or.inl ⟨by simp, h8, ?_⟩
          dsimp only at h9 ⊢
          rw [List.length_append]; omega
        · rcases hlen with h' | h'
          · exact absurd h8 h'
          · rw [h'] at h9; exact absurd h9 id
        · subst h9
          rw [h1] at hl
          refine Or.inl ⟨by simp, by rw [h10]; exact hl.1.symm, ?_⟩
          rw [h10]
          dsimp only
          rw [List.length_append, List.length_singleton]; omega

/-! ## The theorems -/

/-- **C49 (part).** Between outputs, and after any restart outside the two windows: the number found at
startup is the one behind the last output in the archive, an output of the current epoch with that number
is accepted and becomes the last one, and the slots never claim an output the archive does not have. -/
theorem resume_partial {c : CS} (h : Run c .idle) {x : Nat} (hx : x ≤ last c.packs) :
    c.nextNumber x = last c.packs + 1 ∧ c.lat.2 ≤ last c.packs ∧
    ∃ m a ps, c.packs = (m, a) :: ps ∧ ∀ o : Out, o.hdr.number = c.nextNumber x → o.hdr.epoch = m.epoch →
      ∃ c', c.save o = .ok c' ∧ c'.packs = (m, { a with outs := a.outs ++ [o] }) :: ps ∧
        c'.lat = (o.hdr.epoch, o.hdr.number) := by
  have hi : Idle c := h.inv
  obtain ⟨m, a, ps, hp⟩ := hi.head
  refine ⟨next_eq hi.linked hi.tip hx, (hi.tip.le hi.linked).1, m, a, ps, hp, ?_⟩
  intro o hn he
  exact ⟨_, (hi.save hx hn hp he).1, rfl, rfl⟩

/-- The numbers in the archive are consecutive over all epochs, in every state of a run. -/
theorem numbers_consecutive {c : CS} {p : Phase} (h : Run c p) : Linked c.packs := by
  have := h.inv
  cases p with
  | idle => exact Idle.linked this
  | saved => exact Busy.linked this
  | flushed => exact Busy.linked this

/-- What the chain refuses, in any state: numbers that do not advance, other epochs, gaps. -/
theorem save_refuses {c : CS} {m : Meta} {a : Abs} {ps : List (Meta × Abs)} (hp : c.packs = (m, a) :: ps) (o : Out) :
    (o.hdr.number ≤ c.lat.2 → c.save o = .nonMonotonic) ∧
    (c.lat.2 < o.hdr.number → o.hdr.epoch ≠ m.epoch → c.save o = .wrongEpoch) ∧
    (c.lat.2 < o.hdr.number → o.hdr.epoch = m.epoch → m.start + a.outs.length < o.hdr.number →
      c.save o = .packError) := by
  unfold CS.save
  rw [hp]
  dsimp only
  refine ⟨fun h => if_pos h, fun h1 h2 => ?_, fun h1 h2 h3 => ?_⟩
  · rw [if_neg (by omega), if_pos h2]
  · rw [if_neg (by omega), if_neg (fun x => x h2)]
    unfold absSave
    rw [if_neg (by omega), if_pos (by omega)]

/-! ## Finding: the slot is ahead of the pack -/

/-- Operations of a node within an epoch. -/
inductive Op : CS → CS → Prop
  | save {c c' : CS} (o : Out) : c.save o = .ok c' → Op c c'
  | thread {c : CS} : Op c c.thread
  | packPersist {c : CS} : Op c c.packPersist
  | slotPersist {c : CS} : Op c c.slotPersist
  | crash {c : CS} (v1 v2 : Val) : c.s1.After v1 → c.s2.After v2 → Op c (c.reopen v1 v2)

inductive Ops : CS → CS → Prop
  | refl {c : CS} : Ops c c
  | step {c d e : CS} : Ops c d → Op d e → Ops c e

/-- The slots, synced, name an output that the pack does not have. -/
structure Ahead (m : Meta) (outs : List Out) (c : CS) : Prop where
  packs : ∃ a ps, c.packs = (m, a) :: ps ∧ a.outs = outs ∧ a.kept = outs.length
  ahead : m.start + outs.length ≤ c.lat.2
  q : c.q = []
  o1 : c.s1.old = []
  o2 : c.s2.old = []
  pick : (pick c.s1.cur c.s2.cur).1 = c.lat

theorem Ahead.refuses {m : Meta} {outs : List Out} {c : CS} (h : Ahead m outs c) (o : Out) :
    ∀ c', c.save o ≠ .ok c' := by
  obtain ⟨a, ps, hp, ho, _⟩ := h.packs
  have hr := save_refuses hp o
  intro c' hc
  have hah := h.ahead
  rw [← ho] at hah
  rcases Nat.lt_or_ge c.lat.2 o.hdr.number with h1 | h1
  · by_cases he : o.hdr.epoch = m.epoch
    · rw [hr.2.2 h1 he (by omega)] at hc; cases hc
    · rw [hr.2.1 h1 he] at hc; cases hc
  · rw [hr.1 h1] at hc; cases hc

theorem Ahead.op {m : Meta} {outs : List Out} {c d : CS} (h : Ahead m outs c) (hop : Op c d) :
    Ahead m outs d := by
  obtain ⟨a, ps, hp, ho, hk⟩ := h.packs
  cases hop with
  | save o hs => exact absurd hs (h.refuses o d)
  | thread =>
    have : c.thread = c := by unfold CS.thread; rw [h.q]
    rw [this]; exact h
  | packPersist =>
    have e : c.packPersist = { c with packs := (m, { a with kept := a.outs.length }) :: ps } := by
      unfold CS.packPersist; rw [hp]
    rw [e]
    exact ⟨⟨_, ps, rfl, ho, by show a.outs.length = _; rw [ho]⟩, h.ahead, h.q, h.o1, h.o2, h.pick⟩
  | slotPersist =>
    have e : c.slotPersist = { c with s1 := c.s1.sync, s2 := c.s2.sync } := by
      have hd : c.drain c.q.length = c := by rw [h.q]; rfl
      unfold CS.slotPersist
      rw [hd]
    rw [e]
    exact ⟨⟨a, ps, hp, ho, hk⟩, h.ahead, h.q, rfl, rfl, h.pick⟩
  | crash v1 v2 a1 a2 =>
    have e1 : v1 = c.s1.cur := by
      rcases a1 with h' | h' | h'
      · exact h'
      · rw [h.o1] at h'; cases h'
      · exact absurd h.o1 h'.1
    have e2 : v2 = c.s2.cur := by
      rcases a2 with h' | h' | h'
      · exact h'
      · rw [h.o2] at h'; cases h'
      · exact absurd h.o2 h'.1
    refine ⟨⟨a.crash false, crashPacks ps, ?_, ?_, ?_⟩, ?_, rfl, rfl, rfl, rfl⟩
    · show crashPacks c.packs = _
      rw [hp]; rfl
    · rw [crash_full (by rw [hk, ho]), ho]
    · rw [(crash_outs a).2, hk]
    · show m.start + outs.length ≤ (Chain.pick v1 v2).1.2
      rw [e1, e2, h.pick]; exact h.ahead

/-- **Finding.** In every run, a crash after an output was saved and the background thread wrote the slot,
but before the pack was persisted, leaves slots that are ahead of the pack (the slot's new content may
survive: it is written immediately, and synced immediately for the first output of an epoch). From then on
no output of that epoch can ever be saved again, through any restarts: the next number of the pack is
refused because the slots already claim it, any later one because the pack misses it. -/
theorem stuck {c : CS} (h : Run c .saved) (hq : c.q = []) :
    ∃ m outs, Ahead m outs (c.reopen c.s1.cur c.s2.cur) ∧
      (c.reopen c.s1.cur c.s2.cur).lat.2 = m.start + outs.length ∧
      ∀ d, Ops (c.reopen c.s1.cur c.s2.cur) d →
        (∃ a ps, d.packs = (m, a) :: ps ∧ a.outs = outs) ∧ ∀ o c', d.save o ≠ .ok c' := by
  obtain ⟨hl, m, outs, o, ps, k, cr, h1, h2, h3, v1, v2, vo, so, h4, h5⟩ := h.inv
  have hk : k = outs.length := h3
  have hlat : (c.lat = c.s1.cur ∨ c.lat = c.s2.cur) := by
    rcases h4.files with ⟨hq', _⟩ | ⟨_, _, _, e, _⟩ | ⟨_, _, _, e, _⟩
    · rw [hq] at hq'; cases hq'
    · exact Or.inl e.symm
    · exact Or.inr e.symm
  have hpick : (pick c.s1.cur c.s2.cur).1 = c.lat := by
    rcases h4.read (w1 := c.s1.cur) (w2 := c.s2.cur) (Or.inl rfl) (Or.inl rfl) with ⟨_, h7⟩ | ⟨h6, _⟩
    · exact h7
    · rcases hlat with e | e
      · exact absurd e.symm h6.1
      · exact absurd e.symm h6.2
  have hpk : (c.reopen c.s1.cur c.s2.cur).packs =
      (m, (⟨outs ++ [o], k, cr⟩ : Abs).crash false) :: crashPacks ps := by
    show crashPacks c.packs = _
    rw [h1]; rfl
  have hA : Ahead m outs (c.reopen c.s1.cur c.s2.cur) := by
    refine ⟨⟨_, _, hpk, ?_, ?_⟩, ?_, rfl, rfl, rfl, rfl⟩
    · rw [(crash_outs _).1]
      show (outs ++ [o]).take k = outs
      rw [hk, List.take_left]
    · rw [(crash_outs _).2]; exact hk
    · show m.start + outs.length ≤ (pick c.s1.cur c.s2.cur).1.2
      rw [hpick, h2]; exact Nat.le_refl _
  refine ⟨m, outs, hA, ?_, ?_⟩
  · show (pick c.s1.cur c.s2.cur).1.2 = _
    rw [hpick, h2]
  · intro d hd
    have : Ahead m outs d := by
      induction hd with
      | refl => exact hA
      | step _ hop ih => exact ih.op hop
    obtain ⟨a, ps', hp, ho, _⟩ := this.packs
    exact ⟨⟨a, ps', hp, ho⟩, fun o' => this.refuses o'⟩

/-! ## Finding: the slot is an epoch behind the pack -/

/-- **Finding.** In every run, a crash after the pack with the first output of an epoch was persisted but
before its slot was synced may leave the slots in the previous epoch. The number found at startup is then
one that the pack already has; an output saved with it is reported as saved but is dropped, and the slots
move on. (The consensus state is recovered from the pack, so the next output is not the one the pack has
under that number: consensus/state.rs:358-375 against state-sync/src/lib.rs:156-166.) -/
theorem renumbered {c : CS} (h : Run c .flushed) (hf : first c) {v1 v2 : Val} (a1 : c.s1.After v1)
    (a2 : c.s2.After v2) (hv : v1 ≠ c.lat ∧ v2 ≠ c.lat) {x : Nat} (hx : x + 1 ≤ last c.packs) :
    let d := c.reopen v1 v2
    d.nextNumber x = last d.packs ∧ last d.packs = last c.packs ∧
    ∃ m a ps, d.packs = (m, a) :: ps ∧ a.outs.length = 1 ∧
      ∀ o : Out, o.hdr.number = d.nextNumber x → o.hdr.epoch = m.epoch →
        ∃ d', d.save o = .ok d' ∧ d'.packs = d.packs := by
  obtain ⟨hl, m, outs, o, ps, k, cr, h1, h2, h3, w1, w2, vo, so, h4, h5⟩ := h.inv
  obtain ⟨m', a', ps', h1', hlen, hps⟩ := hf
  rw [h1] at h1'
  cases h1'
  have hnil : outs = [] := by
    have h6 : (outs ++ [o]).length = 1 := hlen
    rw [List.length_append] at h6
    exact List.length_eq_zero_iff.mp (by simpa using h6)
  subst hnil
  rw [h1] at hl
  have hk : k = 1 := by rw [h3]; simp
  have hpk : (c.reopen v1 v2).packs = (m, (⟨[] ++ [o], k, cr⟩ : Abs).crash false) :: crashPacks ps := by
    show crashPacks c.packs = _
    rw [h1]; rfl
  have ho : ((⟨[] ++ [o], k, cr⟩ : Abs).crash false).outs = [o] := by
    rw [(crash_outs _).1, hk]; rfl
  generalize hb : (⟨[] ++ [o], k, cr⟩ : Abs).crash false = b at hpk ho
  have hlat : (c.reopen v1 v2).lat = vo := by
    rcases h4.read a1 a2 with ⟨h6, _⟩ | ⟨_, h7⟩
    · rcases h6 with h6 | h6
      · exact absurd h6 hv.1
      · exact absurd h6 hv.2
    · exact h7
  have hst := hl.start
  have hlastc : last c.packs = m.start := by
    rw [h1]; show m.start + ([] ++ [o]).length - 1 = _
    simp
  have hlastd : last (c.reopen v1 v2).packs = m.start := by
    rw [hpk]; show m.start + b.outs.length - 1 = _
    rw [ho]; simp
  -- the latest header by the slots is the one before
  have hprev : Tip (crashPacks ps) vo := by
    rcases h5 with ⟨h6, _⟩ | ⟨_, h7⟩ | ⟨_, h7, _⟩
    · exact absurd rfl h6
    · exact tip_crash hl h7
    · exact absurd h7 hps
  intro d
  have hnext : d.nextNumber x = m.start := by
    unfold CS.nextNumber CS.headerLatest
    show max ((((c.reopen v1 v2).packs.find? (fun p => p.1.epoch == (c.reopen v1 v2).lat.1)).bind
      lastNumber).getD x) x + 1 = m.start
    rw [hlat, hpk]
    cases ps with
    | nil => exact absurd rfl hps
    | cons p ps' =>
      obtain ⟨m', a'⟩ := p
      have hlt : Linked (crashPacks ((m', a') :: ps')) :=
        linked_crash hl.2.2.2.2 (b := a'.crash false)
          (by rw [crash_full hl.2.2.2.1]; exact hl.2.2.2.2.nums)
      have hle := (hprev.le hlt).2 m' (a'.crash false) (crashPacks ps') rfl
      have he := hl.1
      have hst2 := hl.2.1
      have hlp : last (crashPacks ((m', a') :: ps')) = m.start - 1 := by
        show m'.start + (a'.crash false).outs.length - 1 = _
        rw [crash_full hl.2.2.2.1]; omega
      rw [List.find?_cons_of_neg (by simp; omega)]
      rcases find_tip hlt hprev with h' | ⟨h', h0⟩
      · rw [h', Option.getD_some, hlp]; omega
      · rw [h', Option.getD_none]; omega
  refine ⟨by rw [hnext]; exact hlastd.symm, by rw [hlastc]; exact hlastd, m, b, crashPacks ps, hpk, by rw [ho]; rfl, ?_⟩
  intro o' hn he
  have hvo : d.lat.2 < m.start := by
    show (c.reopen v1 v2).lat.2 < m.start
    rw [hlat]
    cases ps with
    | nil => exact absurd rfl hps
    | cons p ps' =>
      obtain ⟨m', a'⟩ := p
      have hlt : Linked (crashPacks ((m', a') :: ps')) :=
        linked_crash hl.2.2.2.2 (b := a'.crash false)
          (by rw [crash_full hl.2.2.2.1]; exact hl.2.2.2.2.nums)
      have hle := (hprev.le hlt).1
      have hst2 := hl.2.1
      have hlp : last (crashPacks ((m', a') :: ps')) = m.start - 1 := by
        show m'.start + (a'.crash false).outs.length - 1 = _
        rw [crash_full hl.2.2.2.1]; omega
      omega
  have hpd : d.packs = (m, b) :: crashPacks ps := hpk
  refine ⟨d.update (o'.hdr.epoch, o'.hdr.number), ?_, rfl⟩
  unfold CS.save
  rw [hpd]
  dsimp only
  rw [if_neg (by omega), if_neg (fun hh => hh he)]
  unfold absSave
  rw [if_pos (by rw [ho, hn, hnext]; simp)]

/-! ## Examples -/
namespace Ex

def o1 : Out := ⟨⟨1, 0, 2, 4, 9⟩, [3]⟩
def o2 : Out := ⟨⟨2, 1, 3, 2, 8⟩, []⟩

def okD : Res → CS
  | .ok c => c
  | _ => CS.fresh

def c1 : CS := okD (CS.fresh.save o1)
def c2 : CS := c1.thread.packPersist.slotPersist.newEpoch
def c3 : CS := okD (c2.save o2)

theorem run1 : Run c1 .saved :=
  Run.save 0 o1 Run.fresh (by decide) (by decide) rfl

theorem run2 : Run c2 .idle := run1.thread.packPersist.slotPersist.newEpoch

/-- An output of epoch 0, the change to epoch 1, its first output. -/
theorem run3 : Run c3 .saved := Run.save 0 o2 run2 (by decide) (by decide) rfl

/-- A crash outside the two windows: the slot of the second output was not yet written. -/
theorem crash_ok : Run (c3.reopen c3.s1.cur c3.s2.cur) .idle ∧
    (c3.reopen c3.s1.cur c3.s2.cur).nextNumber 1 = 2 := by
  refine ⟨run3.crash _ _ (Or.inl rfl) (Or.inl rfl) (fun _ => by decide) (fun h => by cases h), by decide⟩

/-- The hypotheses of `stuck` are met. -/
theorem stuck_reached : Run c3.thread .saved ∧ c3.thread.q = [] := ⟨run3.thread, by decide⟩

/-- The hypotheses of `renumbered` are met, with the first output of epoch 0 executed. -/
theorem renumbered_reached : Run c3.packPersist .flushed ∧ first c3.packPersist ∧
    c3.packPersist.s1.After (0, 1) ∧ c3.packPersist.s2.After (0, 0) ∧
    (0, 1) ≠ c3.packPersist.lat ∧ (0, 0) ≠ c3.packPersist.lat ∧ 1 + 1 ≤ last c3.packPersist.packs :=
  ⟨run3.packPersist, ⟨⟨1, 2⟩, ⟨[o2], 1, false⟩, [(⟨0, 1⟩, ⟨[o1], 1, false⟩)], rfl, rfl, by simp⟩,
    Or.inl rfl, Or.inl rfl, by decide, by decide, by decide⟩

end Ex

end Chain
end Verif
