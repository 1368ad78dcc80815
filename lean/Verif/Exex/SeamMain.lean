import Verif.Exex.SeamProof

/-!
# C67: no silent hole between replay and live delivery
-/

namespace Verif.Exex.Seam

open Verif.Exex

/-- Chunks in ascending order, above `lo` and up to `hi`, possibly with holes. -/
def Incr : Nat → List (Nat × Nat) → Nat → Prop
  | lo, [], hi => lo ≤ hi
  | lo, (a, b) :: r, hi => lo < a ∧ a ≤ b ∧ Incr b r hi

/-- Chunks that tile the blocks from `lo + 1` to `hi`. -/
def Contig : Nat → List (Nat × Nat) → Nat → Prop
  | lo, [], hi => lo = hi
  | lo, (a, b) :: r, hi => a = lo + 1 ∧ a ≤ b ∧ Contig b r hi

theorem incr_le {l : List (Nat × Nat)} : ∀ {lo hi : Nat}, Incr lo l hi → lo ≤ hi := by
  induction l with
  | nil => intro lo hi h; exact h
  | cons c r ih => intro lo hi h; have := ih h.2.2; have h1 := h.1; have h2 := h.2.1; omega

theorem incr_weaken {l : List (Nat × Nat)} {lo lo' hi : Nat} (h : Incr lo l hi) (hle : lo' ≤ lo) :
    Incr lo' l hi := by
  cases l with
  | nil => exact Nat.le_trans hle h
  | cons c r => exact ⟨by have := h.1; omega, h.2.1, h.2.2⟩

theorem incr_snoc {l : List (Nat × Nat)} : ∀ {lo hi : Nat} (k : Nat), Incr lo l hi →
    Incr lo (l ++ [(hi + 1, hi + (k + 1))]) (hi + (k + 1)) := by
  induction l with
  | nil => intro lo hi k h; exact ⟨Nat.lt_succ_of_le h, by omega, Nat.le_refl _⟩
  | cons c r ih => intro lo hi k h; exact ⟨h.1, h.2.1, ih k h.2.2⟩

theorem contig_snoc {l : List (Nat × Nat)} : ∀ {lo hi : Nat} (k : Nat), Contig lo l hi →
    Contig lo (l ++ [(hi + 1, hi + (k + 1))]) (hi + (k + 1)) := by
  induction l with
  | nil =>
    intro lo hi k h
    have h' : lo = hi := h
    exact ⟨by omega, by omega, rfl⟩
  | cons c r ih => intro lo hi k h; exact ⟨h.1, h.2.1, ih k h.2.2⟩

/-- The block the manager's bookkeeping has reached. -/
def Sys.base (t0 : Nat) (s : Sys) : Nat := s.lastTip.getD t0

/-- Where the reader behind the de-duplication will be when the replay part is over. -/
def Sys.front (s : Sys) (q : Pos) : Pos × Option Nat :=
  match s.phase with
  | .replay (.active n) last => if n ≤ last then (.at (last + 1), some last) else (q, s.lastHeight)
  | _ => (q, s.lastHeight)

/-- The stream on its way continues the reader's position without a silent hole. -/
def Sys.Ahead (s : Sys) (t0 : Nat) (σ0 : Pos × Option Nat) : Prop :=
  ∃ σ : Pos × Option Nat, dw σ0 (futSig s.h) = some σ ∧ Good σ (s.base t0)

/-- The cursor agrees with the reader. -/
def Sys.CursorOk (m : Nat) (s : Sys) (q : Pos) : Prop :=
  ∀ n last : Nat, s.phase = .replay (.active n) last →
    last ≤ m ∧ q = .at n ∧
      ((n = s.start ∧ s.lastHeight = none) ∨ (n ≤ last ∧ 1 ≤ n ∧ s.lastHeight = some (n - 1)))

/-- The invariant of the whole path. -/
structure Inv (m t0 : Nat) (s : Sys) : Prop where
  opened : s.h.closed = false
  tipmax : s.tip ≤ m
  ord : Incr (s.base t0) (s.bcast ++ s.pending) s.tip
  cont : s.lastTip = none → s.lostFirst = false → Contig t0 (s.bcast ++ s.pending) s.tip
  contA : s.lostAny = false → Contig (s.base t0) (s.bcast ++ s.pending) s.tip
  low : ∀ a b : Nat, Sig.chunk a b ∈ futSig s.h →
    ∃ t : Nat, s.lastTip = some t ∧ a ≤ b ∧ b ≤ t
  raw : ∃ p : Pos, walk .free (futSig s.h) = some p ∧ Cover p s.lastTip
  idle : s.phase = .idle → s.out = [] ∧ s.lastHeight = none
  reader : s.phase ≠ .idle → s.lostFirst = false →
    ∃ q : Pos, walk (.at s.start) (s.out.map sigI) = some q ∧ s.CursorOk m q ∧
      s.Ahead t0 (s.front q)

theorem fut_low {h : Handle Content} {ns : List (Note Content)} (hc : h.closed = false) :
    (sendAll h ns).closed = false ∧ ∀ a b : Nat, Sig.chunk a b ∈ futSig (sendAll h ns) →
      Sig.chunk a b ∈ futSig h ∨ Sig.chunk a b ∈ ns.map sigN := by
  induction ns generalizing h with
  | nil => exact ⟨hc, fun a b hm => Or.inl hm⟩
  | cons n r ih =>
    obtain ⟨hc1, hs⟩ := futSig_send h n hc
    obtain ⟨hc2, h2⟩ := ih hc1
    refine ⟨hc2, ?_⟩
    intro a b hm
    rcases h2 a b hm with h3 | h3
    · rcases hs with hs | hs | ⟨hs, _⟩
      · rw [hs] at h3
        rcases List.mem_append.mp h3 with h4 | h4
        · exact Or.inl h4
        · right; rw [List.mem_singleton.mp h4]; simp
      · rw [hs] at h3
        rcases List.mem_append.mp h3 with h4 | h4
        · exact Or.inl h4
        · cases List.mem_singleton.mp h4
      · rw [hs] at h3; exact Or.inl h3
    · right; simp only [List.map_cons, List.mem_cons]; right; exact h3

theorem yield_walk (s : Sys) (i : Item) {q q' : Pos} {l' : Option Nat}
    (hw : walk (.at s.start) (s.out.map sigI) = some q)
    (hd : d1 (q, s.lastHeight) (sigI i) = some (q', l')) :
    walk (.at (s.yield i).start) ((s.yield i).out.map sigI) = some q' ∧
      (s.yield i).lastHeight = l' := by
  unfold Sys.yield; dsimp only
  have hpush : ∀ p : Pos, walk1 q (sigI i) = some p →
      walk (.at s.start) ((s.out ++ [i]).map sigI) = some p := by
    intro p hp
    rw [List.map_append, walk_append, hw]
    simp [walk, hp]
  have hother : (sigI i = .mark ∨ sigI i = .other) → dedupStep s.lastHeight i = (true, s.lastHeight) := by
    intro h
    cases i with
    | err b => rfl
    | note n =>
      cases n with
      | lagged k => rfl
      | item c =>
        cases c with
        | cert x => rfl
        | output x => rfl
        | chain a b => rcases h with h | h <;> cases h
  cases hs : sigI i with
  | mark =>
    rw [hs] at hd hpush
    rw [hother (Or.inl hs), if_pos rfl]
    cases hd
    exact ⟨hpush .free (by cases q <;> rfl), rfl⟩
  | other =>
    rw [hs] at hd hpush
    rw [hother (Or.inr hs), if_pos rfl]
    cases hd
    exact ⟨hpush q (by cases q <;> rfl), rfl⟩
  | chunk a b =>
    rw [hs] at hd hpush
    have hi : i = .note (.item (.chain a b)) := by
      cases i with
      | err x => cases hs
      | note n =>
        cases n with
        | lagged k => cases hs
        | item c =>
          cases c with
          | cert x => cases hs
          | output x => cases hs
          | chain x y => cases hs; rfl
    subst hi
    change walk (.at s.start) ((if (keepHeight s.lastHeight b).1 = true then _ else _ : List Item).map
      sigI) = _ ∧ (keepHeight s.lastHeight b).2 = l'
    unfold d1 at hd; dsimp only at hd
    by_cases hk : (keepHeight s.lastHeight b).1 = true
    · rw [if_pos hk] at hd ⊢
      have h2 : (keepHeight s.lastHeight b).2 = some b := by
        unfold keepHeight at hk ⊢
        cases hl : s.lastHeight with
        | none => rfl
        | some l =>
          rw [hl] at hk; dsimp only at hk ⊢
          split
          · next h => rw [if_pos h] at hk; cases hk
          · rfl
      cases hx : walk1 q (.chunk a b) with
      | none => rw [hx] at hd; cases hd
      | some p =>
        rw [hx] at hd
        cases hd
        exact ⟨hpush _ hx, h2⟩
    · rw [if_neg hk] at hd ⊢
      cases hd
      refine ⟨hw, ?_⟩
      unfold keepHeight at hk ⊢
      cases hl : s.lastHeight with
      | none => rw [hl] at hk; exact absurd rfl hk
      | some l =>
        rw [hl] at hk; dsimp only at hk ⊢
        split
        · rfl
        · next h => rw [if_neg h] at hk; exact absurd rfl hk

/-- After an error the live part is still free of silent holes. -/
theorem ahead_after_gap {m t0 : Nat} {s : Sys} (hi : Inv m t0 s) (l : Option Nat) :
    s.Ahead t0 (.free, l) := by
  obtain ⟨p, hw, hc⟩ := hi.raw
  obtain ⟨τ, h1, hr⟩ := R_walk (futSig s.h) (σ := (.free, l)) hw (Or.inl ⟨rfl, rfl⟩)
  refine ⟨τ, h1, R_good hr hc ?_⟩
  intro x hx
  unfold Sys.base; rw [hx]; exact Nat.le_refl _

theorem inv_init (m t0 capacity : Nat) (h : t0 ≤ m) : Inv m t0 (Sys.init t0 capacity) where
  opened := rfl
  tipmax := h
  ord := Nat.le_refl _
  cont := fun _ _ => rfl
  contA := fun _ => rfl
  low := by intro a b hm; cases hm
  raw := ⟨.free, rfl, by intro e he; cases he⟩
  idle := fun _ => ⟨rfl, rfl⟩
  reader := fun hp => absurd rfl hp

theorem inv_handle {m t0 : Nat} {s : Sys} (hi : Inv m t0 s) {a b : Nat} {r : List (Nat × Nat)}
    (hb : s.bcast = (a, b) :: r) :
    Inv m t0 ({ s with
      bcast := r
      h := sendAll s.h (notesOf s.lastTip (.canon (some (a, b))))
      lastTip := tipAfter s.lastTip (.canon (some (a, b))) } : Sys) := by
  have hord := hi.ord
  rw [hb, List.cons_append] at hord
  have hlo : s.base t0 < a := hord.1
  have hab : a ≤ b := hord.2.1
  have htip : tipAfter s.lastTip (.canon (some (a, b))) = some b := by
    unfold tipAfter canonTip
    cases ht : s.lastTip with
    | none => rfl
    | some x =>
      have : s.base t0 = x := by unfold Sys.base; rw [ht]; rfl
      simp; omega
  have hlow := fut_low (ns := notesOf s.lastTip (.canon (some (a, b)))) hi.opened
  have hold : ∀ x : Nat, s.lastTip = some x → x < b := by
    intro x hx
    have : s.base t0 = x := by unfold Sys.base; rw [hx]; rfl
    omega
  obtain ⟨p, hw, hc⟩ := hi.raw
  rw [htip]
  refine ⟨hlow.1, hi.tipmax, hord.2.2, ?_, ?_, ?_, ?_, hi.idle, ?_⟩
  · intro hn; cases hn
  · intro hl
    have := hi.contA hl
    rw [hb, List.cons_append] at this
    exact this.2.2
  · intro x y hm
    rcases hlow.2 x y hm with h | h
    · obtain ⟨t, ht, h1, h2⟩ := hi.low x y h
      exact ⟨b, rfl, h1, by have := hold t ht; omega⟩
    · cases hg : canonGap s.lastTip a with
      | none =>
        rw [notes_fit hg] at h
        simp [sigN] at h
        exact ⟨b, rfl, by omega, by omega⟩
      | some k =>
        rw [notes_gap hg] at h
        simp [sigN] at h
        exact ⟨b, rfl, by omega, by omega⟩
  · obtain ⟨p', hw', hc'⟩ := cover_commit (a := a) hi.opened hw hc hold
    rw [htip] at hc'
    exact ⟨p', hw', hc'⟩
  · intro hp hl
    obtain ⟨q, hq, hcur, σ, hd, hg⟩ := hi.reader hp hl
    refine ⟨q, hq, hcur, ?_⟩
    have hfit : canonGap s.lastTip a = none → a ≤ s.base t0 + 1 := by
      intro hgap
      cases ht : s.lastTip with
      | none =>
        have := hi.cont ht hl
        rw [hb, List.cons_append] at this
        have h1 := this.1
        have : s.base t0 = t0 := by unfold Sys.base; rw [ht]; rfl
        omega
      | some x =>
        have hbx : s.base t0 = x := by unfold Sys.base; rw [ht]; rfl
        rw [ht] at hgap
        unfold canonGap at hgap; dsimp only at hgap
        split at hgap
        · cases hgap
        · omega
    obtain ⟨_, σ', hd', hg'⟩ := good_commit (b := b) hi.opened hd hg hfit
    exact ⟨σ', hd', hg'⟩

theorem inv_other {m t0 : Nat} {s : Sys} (hi : Inv m t0 s) {e : Ev} (he : isOther e = true) :
    Inv m t0 ({ s with h := sendAll s.h (notesOf s.lastTip e) } : Sys) := by
  have hlow := fut_low (ns := notesOf s.lastTip e) hi.opened
  obtain ⟨p, hw, hc⟩ := hi.raw
  refine ⟨hlow.1, hi.tipmax, hi.ord, hi.cont, hi.contA, ?_, ?_, hi.idle, ?_⟩
  · intro x y hm
    rcases hlow.2 x y hm with h | h
    · exact hi.low x y h
    · exfalso
      cases e with
      | cert b => cases b <;> simp [notesOf, bcastNote, sigN] at h
      | output b => cases b <;> simp [notesOf, bcastNote, sigN] at h
      | canon c => cases he
      | finished i k => cases he
      | recv i => cases he
      | close i => cases he
  · exact cover_other hi.opened hw hc he
  · intro hp hl
    obtain ⟨q, hq, hcur, σ, hd, hg⟩ := hi.reader hp hl
    obtain ⟨_, σ', hd', hg'⟩ := good_other (t := s.lastTip) hi.opened hd hg he
    exact ⟨q, hq, hcur, σ', hd', hg'⟩

theorem recv_fut {h : Handle Content} {n : Note Content} {r : List (Note Content)}
    (hch : h.chan = n :: r) : futSig h = sigN n :: futSig h.recv ∧ h.recv.closed = h.closed := by
  have hr : h.recv = { h with chan := r, got := h.got ++ [n] } := by
    unfold Handle.recv; rw [hch]
  rw [hr]
  unfold futSig
  rw [hch]
  exact ⟨rfl, rfl⟩

theorem inv_recv_raw {m t0 : Nat} {s : Sys} (hi : Inv m t0 s) {n : Note Content}
    {r : List (Note Content)} (hch : s.h.chan = n :: r) :
    s.h.recv.closed = false ∧
    (∀ a b : Nat, Sig.chunk a b ∈ futSig s.h.recv →
      ∃ t : Nat, s.lastTip = some t ∧ a ≤ b ∧ b ≤ t) ∧
    ∃ p : Pos, walk .free (futSig s.h.recv) = some p ∧ Cover p s.lastTip := by
  obtain ⟨hf, hcl⟩ := recv_fut hch
  refine ⟨by rw [hcl]; exact hi.opened, ?_, ?_⟩
  · intro a b hm
    exact hi.low a b (by rw [hf]; exact List.mem_cons_of_mem _ hm)
  · obtain ⟨p, hw, hc⟩ := hi.raw
    rw [hf] at hw
    unfold walk at hw
    cases hx : walk1 .free (sigN n) with
    | none => rw [hx] at hw; cases hw
    | some p0 =>
      rw [hx, Option.bind_some] at hw
      obtain ⟨p2, h2, ho⟩ := walk_free _ hw
      refine ⟨p2, h2, ?_⟩
      rcases ho with rfl | rfl
      · exact hc
      · intro e he; cases he

theorem d1_replay {n : Nat} {l : Option Nat} (h : l = none ∨ (1 ≤ n ∧ l = some (n - 1))) :
    d1 (.at n, l) (.chunk n n) = some (.at (n + 1), some n) := by
  have hk : (keepHeight l n).1 = true := by
    rcases h with rfl | ⟨h1, rfl⟩
    · rfl
    · rw [keep_some]; simp; omega
  unfold d1; dsimp only
  rw [if_pos hk, walk1_at, if_pos (Nat.le_refl _)]; rfl

theorem inv_step {m t0 : Nat} {s : Sys} (hi : Inv m t0 s) (o : Op) : Inv m t0 (s.step m o) := by
  cases o with
  | persist k =>
    dsimp only [Sys.step]
    split
    · next hk =>
      refine ⟨hi.opened, hk, ?_, ?_, ?_, hi.low, hi.raw, hi.idle, hi.reader⟩
      · rw [← List.append_assoc]; exact incr_snoc k hi.ord
      · intro h1 h2; rw [← List.append_assoc]; exact contig_snoc k (hi.cont h1 h2)
      · intro h1; rw [← List.append_assoc]; exact contig_snoc k (hi.contA h1)
    · exact hi
  | announce =>
    dsimp only [Sys.step]
    cases hp : s.pending with
    | nil => exact hi
    | cons c r =>
      dsimp only
      have he : (s.bcast ++ [c]) ++ r = s.bcast ++ s.pending := by rw [hp]; simp
      refine ⟨hi.opened, hi.tipmax, ?_, ?_, ?_, hi.low, hi.raw, hi.idle, hi.reader⟩
      · change Incr _ ((s.bcast ++ [c]) ++ r) _; rw [he]; exact hi.ord
      · intro h1 h2; change Contig _ ((s.bcast ++ [c]) ++ r) _; rw [he]; exact hi.cont h1 h2
      · intro h1; change Contig _ ((s.bcast ++ [c]) ++ r) _; rw [he]; exact hi.contA h1
  | overflow =>
    dsimp only [Sys.step]
    cases hb : s.bcast with
    | nil => exact hi
    | cons c r =>
      obtain ⟨a, b⟩ := c
      dsimp only
      have hord := hi.ord
      rw [hb, List.cons_append] at hord
      refine ⟨hi.opened, hi.tipmax, ?_, ?_, ?_, hi.low, hi.raw, hi.idle, ?_⟩
      · exact incr_weaken hord.2.2 (by have h1 := hord.1; have h2 := hord.2.1
                                       change s.base t0 ≤ b; omega)
      · intro h1 h2
        have h1' : s.lastTip = none := h1
        have h2' : (s.lostFirst || s.lastTip.isNone) = false := h2
        rw [h1'] at h2'
        simp at h2'
      · intro h; cases h
      · intro hp hl
        have hl' : (s.lostFirst || s.lastTip.isNone) = false := hl
        have hl2 : s.lostFirst = false := by
          cases hx : s.lostFirst with
          | false => rfl
          | true => rw [hx] at hl'; cases hl'
        exact hi.reader hp hl2
  | handle =>
    dsimp only [Sys.step]
    cases hb : s.bcast with
    | nil => exact hi
    | cons c r => exact inv_handle hi hb
  | other e =>
    dsimp only [Sys.step]
    split
    · next he => exact inv_other hi he
    · exact hi
  | skim =>
    dsimp only [Sys.step]
    split
    · next hp =>
      cases hch : s.h.chan with
      | nil =>
        have : s.h.recv = s.h := by unfold Handle.recv; rw [hch]
        rw [this]; exact hi
      | cons n r =>
        obtain ⟨h1, h2, h3⟩ := inv_recv_raw hi hch
        exact ⟨h1, hi.tipmax, hi.ord, hi.cont, hi.contA, h2, h3, hi.idle, fun h => absurd hp h⟩
    · exact hi
  | subscribe start tipOk =>
    dsimp only [Sys.step]
    split
    · next hp =>
      obtain ⟨hout, hlh⟩ := hi.idle hp
      cases tipOk with
      | false =>
        rw [if_neg (by decide)]
        have hd : d1 (.at start, s.lastHeight) (sigI (.err start)) = some (.free, s.lastHeight) := rfl
        have hw0 : walk (.at start) (s.out.map sigI) = some (.at start) := by rw [hout]; rfl
        obtain ⟨hw, hl⟩ := yield_walk ({ s with start := start, phase := .live } : Sys) (.err start)
          hw0 hd
        refine ⟨hi.opened, hi.tipmax, hi.ord, hi.cont, hi.contA, hi.low, hi.raw, ?_, ?_⟩
        · intro h; cases h
        · intro _ hlf
          refine ⟨.free, hw, ?_, ?_⟩
          · intro n last hh; cases hh
          · exact ahead_after_gap hi _
      | true =>
        rw [if_pos rfl]
        refine ⟨hi.opened, hi.tipmax, hi.ord, hi.cont, hi.contA, hi.low, hi.raw, ?_, ?_⟩
        · intro h; cases h
        · intro _ hlf
          refine ⟨.at start, by change walk (.at start) (s.out.map sigI) = _; rw [hout]; rfl, ?_, ?_⟩
          · intro n last hh
            cases hh
            exact ⟨hi.tipmax, rfl, Or.inl ⟨rfl, hlh⟩⟩
          · have hbase : s.base t0 ≤ s.tip := incr_le hi.ord
            change s.Ahead t0 (if start ≤ s.tip then (.at (s.tip + 1), some s.tip)
              else (.at start, s.lastHeight))
            by_cases hst : start ≤ s.tip
            · rw [if_pos hst]
              have hall : ∀ a b : Nat, Sig.chunk a b ∈ futSig s.h → b ≤ s.tip := by
                intro a b hm
                obtain ⟨t, ht, _, hb⟩ := hi.low a b hm
                have : s.base t0 = t := by unfold Sys.base; rw [ht]; rfl
                omega
              obtain ⟨q, hq, ho⟩ := dw_covered s.tip (futSig s.h) hall (.at (s.tip + 1))
              refine ⟨_, hq, ?_⟩
              rcases ho with rfl | rfl
              · intro e he; cases he
                exact ⟨by omega, by intro l hl; cases hl; exact Nat.le_refl _⟩
              · exact good_free rfl _
            · rw [if_neg hst, hlh]
              obtain ⟨p, hw, hc⟩ := hi.raw
              have hall : ∀ a b : Nat, Sig.chunk a b ∈ futSig s.h → a ≤ start := by
                intro a b hm
                obtain ⟨t, ht, hab, hb⟩ := hi.low a b hm
                have : s.base t0 = t := by unfold Sys.base; rw [ht]; rfl
                omega
              obtain ⟨τ, hd, ho⟩ := walk_above start (futSig s.h) hw hall
              refine ⟨τ, hd, ?_⟩
              rcases ho with rfl | hr
              · intro e he; cases he
                exact ⟨by omega, by intro l hl; cases hl⟩
              · refine R_good hr hc ?_
                intro x hx; unfold Sys.base; rw [hx]; exact Nat.le_refl _
    · exact hi
  | replayPoll ans =>
    dsimp only [Sys.step]
    cases hp : s.phase with
    | idle => exact hi
    | live => exact hi
    | replay c last =>
      dsimp only
      cases c with
      | done =>
        have he : Verif.Exex.replayPoll m last .done (fun _ => ans) = (none, .done) := rfl
        rw [he]; dsimp only
        refine ⟨hi.opened, hi.tipmax, hi.ord, hi.cont, hi.contA, hi.low, hi.raw, ?_, ?_⟩
        · intro h; cases h
        · intro _ hl
          obtain ⟨q, hq, _, ha⟩ := hi.reader (by rw [hp]; intro h; cases h) hl
          refine ⟨q, hq, (by intro n l hh; cases hh), ?_⟩
          unfold Sys.front at ha; rw [hp] at ha
          exact ha
      | active n =>
        by_cases hn : n > last
        · have he : Verif.Exex.replayPoll m last (.active n) (fun _ => ans) = (none, .done) := by
            simp only [Verif.Exex.replayPoll, if_pos hn]
          rw [he]; dsimp only
          refine ⟨hi.opened, hi.tipmax, hi.ord, hi.cont, hi.contA, hi.low, hi.raw, ?_, ?_⟩
          · intro h; cases h
          · intro _ hl
            obtain ⟨q, hq, _, ha⟩ := hi.reader (by rw [hp]; intro h; cases h) hl
            refine ⟨q, hq, (by intro n l hh; cases hh), ?_⟩
            unfold Sys.front at ha; rw [hp] at ha
            dsimp only at ha
            rw [if_neg (by omega)] at ha
            exact ha
        · have herr : ∀ s' : Sys, s' = ({ s with phase := .replay .done last } : Sys).yield (.err n) →
              Inv m t0 s' := by
            rintro s' rfl
            refine ⟨hi.opened, hi.tipmax, hi.ord, hi.cont, hi.contA, hi.low, hi.raw, ?_, ?_⟩
            · intro h; cases h
            · intro _ hl
              obtain ⟨q, hq, _, _⟩ := hi.reader (by rw [hp]; intro h; cases h) hl
              obtain ⟨hw, hl'⟩ := yield_walk ({ s with phase := .replay .done last } : Sys) (.err n)
                (q := q) hq (q' := .free) (l' := s.lastHeight) rfl
              exact ⟨.free, hw, (by intro x l hh; cases hh), ahead_after_gap hi _⟩
          cases ans with
          | missing =>
            have he : Verif.Exex.replayPoll m last (.active n) (fun _ => .missing) =
                (some (.err n), .done) := by
              simp only [Verif.Exex.replayPoll, if_neg hn]
            rw [he]; exact herr _ rfl
          | failed =>
            have he : Verif.Exex.replayPoll m last (.active n) (fun _ => .failed) =
                (some (.err n), .done) := by
              simp only [Verif.Exex.replayPoll, if_neg hn]
            rw [he]; exact herr _ rfl
          | block =>
            have he : Verif.Exex.replayPoll m last (.active n) (fun _ => .block) =
                (some (.note (.item (.chain n n))),
                  if n = last then .done else .active (min (n + 1) m)) := by
              simp only [Verif.Exex.replayPoll, if_neg hn]
            rw [he]; dsimp only
            refine ⟨hi.opened, hi.tipmax, hi.ord, hi.cont, hi.contA, hi.low, hi.raw, ?_, ?_⟩
            · intro h; split at h <;> cases h
            · intro _ hl
              obtain ⟨q, hq, hcur, ha⟩ := hi.reader (by rw [hp]; intro h; cases h) hl
              obtain ⟨hlm, hqn, hlast⟩ := hcur n last hp
              subst hqn
              have hkeep : s.lastHeight = none ∨ (1 ≤ n ∧ s.lastHeight = some (n - 1)) := by
                rcases hlast with ⟨_, h⟩ | ⟨_, h1, h2⟩
                · exact Or.inl h
                · exact Or.inr ⟨h1, h2⟩
              unfold Sys.front at ha; rw [hp] at ha
              dsimp only at ha
              rw [if_pos (by omega)] at ha
              obtain ⟨hw, hl'⟩ := yield_walk
                ({ s with phase := .replay (if n = last then .done else .active (min (n + 1) m)) last }
                  : Sys) (.note (.item (.chain n n))) hq (d1_replay hkeep)
              refine ⟨.at (n + 1), hw, ?_, ?_⟩
              · intro x l hh
                have hh' : Phase.replay (if n = last then .done else .active (min (n + 1) m)) last =
                    .replay (.active x) l := hh
                by_cases hnl : n = last
                · rw [if_pos hnl] at hh'; cases hh'
                · rw [if_neg hnl] at hh'
                  have hmin : min (n + 1) m = n + 1 := by omega
                  rw [hmin] at hh'
                  cases hh'
                  refine ⟨hlm, rfl, Or.inr ⟨by omega, by omega, ?_⟩⟩
                  rw [hl']; rfl
              · generalize hc' : (if n = last then Cursor.done else .active (min (n + 1) m)) = c' at hl' ⊢
                have hfront : (({ s with phase := .replay c' last } : Sys).yield
                    (.note (.item (.chain n n)))).front (.at (n + 1)) = (.at (last + 1), some last) := by
                  unfold Sys.front
                  have hph : (({ s with phase := .replay c' last } : Sys).yield
                    (.note (.item (.chain n n)))).phase = .replay c' last := rfl
                  rw [hph]
                  by_cases hnl : n = last
                  · rw [if_pos hnl] at hc'
                    subst hc'
                    dsimp only
                    rw [hl', hnl]
                  · rw [if_neg hnl] at hc'
                    have hmin : min (n + 1) m = n + 1 := by omega
                    rw [hmin] at hc'
                    subst hc'
                    dsimp only
                    rw [if_pos (by omega)]
                rw [hfront]
                exact ha
  | livePoll =>
    dsimp only [Sys.step]
    split
    · next hp =>
      cases hch : s.h.chan with
      | nil => exact hi
      | cons n r =>
        dsimp only
        obtain ⟨h1, h2, h3⟩ := inv_recv_raw hi hch
        refine ⟨h1, hi.tipmax, hi.ord, hi.cont, hi.contA, h2, h3, ?_, ?_⟩
        · intro h
          have h' : s.phase = .idle := h
          rw [hp] at h'; cases h'
        · intro hni hl
          obtain ⟨q, hq, hcur, ha⟩ := hi.reader hni hl
          unfold Sys.front at ha; rw [hp] at ha
          obtain ⟨σ, hd, hg⟩ := ha
          obtain ⟨hf, _⟩ := recv_fut hch
          rw [hf] at hd
          unfold dw at hd
          cases hx : d1 (q, s.lastHeight) (sigN n) with
          | none => rw [hx] at hd; cases hd
          | some τ =>
            rw [hx, Option.bind_some] at hd
            obtain ⟨q', l'⟩ := τ
            obtain ⟨hw, hl'⟩ := yield_walk ({ s with h := s.h.recv } : Sys) (.note n) hq hx
            refine ⟨q', hw, ?_, σ, ?_, hg⟩
            · intro x l hh
              have hh' : s.phase = .replay (.active x) l := hh
              rw [hp] at hh'; cases hh'
            · unfold Sys.front
              have : (({ s with h := s.h.recv } : Sys).yield (.note n)).phase = .live := hp
              rw [this]; dsimp only
              rw [hl']; exact hd
    · exact hi

theorem inv_run {m t0 : Nat} (ops : List Op) : ∀ {s : Sys}, Inv m t0 s → Inv m t0 (s.run m ops) := by
  induction ops with
  | nil => intro s h; exact h
  | cons o r ih => intro s h; exact ih (inv_step h o)

end Verif.Exex.Seam
