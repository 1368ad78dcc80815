import Verif.Exex.SeamMain

/-!
# C67: order, no repetition, and the headline theorems
-/

namespace Verif.Exex.Seam

open Verif.Exex

/-- The replay reported no error so far. -/
def NoErr (out : List Item) : Prop := ∀ b : Nat, Item.err b ∉ out

/-- The end of a committed output (or the tip at the subscription). -/
def Bnd (t0 : Nat) (outs : List (Nat × Nat)) (x : Nat) : Prop := x = t0 ∨ ∃ a : Nat, (a, x) ∈ outs

theorem contig_mem {l : List (Nat × Nat)} : ∀ {lo hi a b : Nat}, Contig lo l hi → (a, b) ∈ l →
    lo < a ∧ a ≤ b ∧ b ≤ hi := by
  induction l with
  | nil => intro lo hi a b _ h; cases h
  | cons c r ih =>
    obtain ⟨x, y⟩ := c
    intro lo hi a b h hm
    obtain ⟨h1, h2, h3⟩ := h
    have hyhi : y ≤ hi := by
      have : ∀ {l : List (Nat × Nat)} {lo hi : Nat}, Contig lo l hi → lo ≤ hi := by
        intro l
        induction l with
        | nil => intro lo hi h; exact Nat.le_of_eq h
        | cons c r ih2 =>
          intro lo hi h; have := ih2 h.2.2; have h1 := h.1; have h2 := h.2.1; omega
      exact this h3
    rcases List.mem_cons.mp hm with hm | hm
    · cases hm; exact ⟨by omega, h2, hyhi⟩
    · have := ih h3 hm; exact ⟨by omega, this.2.1, this.2.2⟩

theorem contig_bnd {l : List (Nat × Nat)} : ∀ {lo hi a b x : Nat}, Contig lo l hi → (a, b) ∈ l →
    Bnd lo l x → x < a ∨ b ≤ x := by
  induction l with
  | nil => intro lo hi a b x _ h; cases h
  | cons c r ih =>
    obtain ⟨u, v⟩ := c
    intro lo hi a b x h hm hx
    have hall := h
    obtain ⟨h1, h2, h3⟩ := h
    rcases hx with rfl | ⟨w, hw⟩
    · left; exact (contig_mem hall hm).1
    · rcases List.mem_cons.mp hm with hm | hm
      · cases hm
        right
        rcases List.mem_cons.mp hw with hw | hw
        · cases hw; exact Nat.le_refl _
        · have := contig_mem h3 hw; omega
      · rcases List.mem_cons.mp hw with hw | hw
        · cases hw
          exact ih h3 hm (Or.inl rfl)
        · exact ih h3 hm (Or.inr ⟨w, hw⟩)

theorem bnd_mono {t0 x : Nat} {l m : List (Nat × Nat)} (h : Bnd t0 l x) (hs : ∀ c ∈ l, c ∈ m) :
    Bnd t0 m x := by
  rcases h with h | ⟨a, h⟩
  · exact Or.inl h
  · exact Or.inr ⟨a, hs _ h⟩

theorem chains_append (l m : List Item) : chains (l ++ m) = chains l ++ chains m := by
  unfold chains; exact List.filterMap_append

/-- The second invariant. -/
structure Once (t0 : Nat) (s : Sys) : Prop where
  outsOk : Contig t0 s.outs s.tip
  sub : ∀ c ∈ s.bcast ++ s.pending, c ∈ s.outs
  opened : s.h.closed = false
  fut : ∀ a b : Nat, Sig.chunk a b ∈ futSig s.h → (a, b) ∈ s.outs
  last : ∀ (c : Cursor) (l : Nat), s.phase = .replay c l → Bnd t0 s.outs l ∧ l ≤ s.tip
  idle : s.phase = .idle → s.out = [] ∧ s.lastHeight = none
  ends : (chains s.out).Pairwise (fun x y => x.2 < y.2)
  top : ∀ c ∈ chains s.out, ∃ l : Nat, s.lastHeight = some l ∧ c.1 ≤ c.2 ∧ c.2 ≤ l
  below : ∀ l : Nat, s.lastHeight = some l → l ≤ s.tip
  above : ∀ c ∈ chains s.out, s.start ≤ c.1 ∨ t0 + 1 ≤ c.1
  once : NoErr s.out → (chains s.out).Pairwise (fun x y => x.2 < y.1)
  atEnd : NoErr s.out → (s.phase = .live ∨ ∃ l : Nat, s.phase = .replay .done l) →
    ∀ l : Nat, s.lastHeight = some l → Bnd t0 s.outs l
  cur : ∀ n l : Nat, s.phase = .replay (.active n) l →
    s.start ≤ n ∧ (s.lastHeight = none ∨ (n ≤ l ∧ ∀ h : Nat, s.lastHeight = some h → h < n))

theorem once_init (t0 capacity : Nat) : Once t0 (Sys.init t0 capacity) where
  outsOk := rfl
  sub := by intro c hc; cases hc
  opened := rfl
  fut := by intro a b hm; cases hm
  last := by intro c l h; cases h
  idle := fun _ => ⟨rfl, rfl⟩
  ends := List.Pairwise.nil
  top := by intro c hc; cases hc
  below := by intro l hl; cases hl
  above := by intro c hc; cases hc
  once := fun _ => List.Pairwise.nil
  atEnd := by intro _ _ l hl; cases hl
  cur := by intro n l h; cases h

/-- What an item does to the consumer's side. -/
theorem yield_cases (s : Sys) (i : Item) :
    ((∃ a b : Nat, i = .note (.item (.chain a b)) ∧
        ((∀ l : Nat, s.lastHeight = some l → l < b) ∧ (s.yield i).out = s.out ++ [i] ∧
            (s.yield i).lastHeight = some b ∧ chains (s.yield i).out = chains s.out ++ [(a, b)])) ∨
      ((s.yield i).lastHeight = s.lastHeight ∧ chains (s.yield i).out = chains s.out ∧
        ((s.yield i).out = s.out ∨ (s.yield i).out = s.out ++ [i]))) := by
  have hother : dedupStep s.lastHeight i = (true, s.lastHeight) → chains [i] = [] →
      ((s.yield i).lastHeight = s.lastHeight ∧ chains (s.yield i).out = chains s.out ∧
        ((s.yield i).out = s.out ∨ (s.yield i).out = s.out ++ [i])) := by
    intro h hch
    unfold Sys.yield; dsimp only
    rw [h]; dsimp only
    rw [if_pos rfl]
    exact ⟨rfl, by rw [chains_append, hch, List.append_nil], Or.inr rfl⟩
  cases i with
  | err b => exact Or.inr (hother rfl rfl)
  | note n =>
    cases n with
    | lagged k => exact Or.inr (hother rfl rfl)
    | item c =>
      cases c with
      | cert x => exact Or.inr (hother rfl rfl)
      | output x => exact Or.inr (hother rfl rfl)
      | chain a b =>
        have hkeep : (∀ l : Nat, s.lastHeight = some l → l < b) →
            dedupStep s.lastHeight (.note (.item (.chain a b))) = (true, some b) := by
          intro h
          change keepHeight s.lastHeight b = _
          cases hl : s.lastHeight with
          | none => rfl
          | some l => unfold keepHeight; dsimp only; rw [if_neg (by have := h l hl; omega)]
        by_cases hall : ∀ l : Nat, s.lastHeight = some l → l < b
        · left
          refine ⟨a, b, rfl, hall, ?_⟩
          have h := hkeep hall
          unfold Sys.yield; dsimp only
          rw [h]; dsimp only
          rw [if_pos rfl]
          exact ⟨rfl, rfl, by rw [chains_append]; rfl⟩
        · right
          have hskip : dedupStep s.lastHeight (.note (.item (.chain a b))) =
              (false, s.lastHeight) := by
            change keepHeight s.lastHeight b = _
            cases hl : s.lastHeight with
            | none => exact absurd (by intro l h; rw [hl] at h; cases h) hall
            | some l =>
              unfold keepHeight; dsimp only
              by_cases hb : b ≤ l
              · rw [if_pos hb]
              · exact absurd (by intro x h; rw [hl] at h; cases h; omega) hall
          unfold Sys.yield; dsimp only
          rw [hskip]; dsimp only
          rw [if_neg (by decide)]
          exact ⟨rfl, rfl, Or.inl rfl⟩

theorem noErr_of_append {l m : List Item} (h : NoErr (l ++ m)) : NoErr l :=
  fun b hb => h b (List.mem_append_left _ hb)

/-- The stream moved to another phase. -/
def Sys.goto (s : Sys) (ph : Phase) : Sys := { s with phase := ph }

/-- The consumer-side fields after an item, together with a change of phase. -/
theorem once_yield {t0 : Nat} {s : Sys} (hi : Once t0 s) (ph : Phase) (hph : ph ≠ .idle) (i : Item)
    (hlast : ∀ (c : Cursor) (l : Nat), ph = .replay c l → Bnd t0 s.outs l ∧ l ≤ s.tip)
    (hcur : ∀ n l : Nat, ph = .replay (.active n) l →
      s.start ≤ n ∧ (s.lastHeight = none ∨ (n ≤ l ∧ ∀ h : Nat, s.lastHeight = some h → h < n)))
    (hnew : ∀ a b : Nat, i = .note (.item (.chain a b)) → (∀ l : Nat, s.lastHeight = some l → l < b) →
      a ≤ b ∧ b ≤ s.tip ∧ (s.start ≤ a ∨ t0 + 1 ≤ a) ∧
      (NoErr s.out → ∀ l : Nat, s.lastHeight = some l → l < a) ∧
      ((ph = .live ∨ ∃ l : Nat, ph = .replay .done l) → NoErr s.out → Bnd t0 s.outs b) ∧
      (∀ n l : Nat, ph = .replay (.active n) l → n ≤ l ∧ b < n))
    (hlh : NoErr ((s.goto ph).yield i).out → (ph = .live ∨ ∃ l : Nat, ph = .replay .done l) →
      ((s.goto ph).yield i).lastHeight = s.lastHeight →
      ∀ l : Nat, s.lastHeight = some l → Bnd t0 s.outs l) : Once t0 ((s.goto ph).yield i) := by
  refine ⟨hi.outsOk, hi.sub, hi.opened, hi.fut, hlast, fun h => absurd h hph, ?_, ?_, ?_, ?_, ?_, ?_,
    ?_⟩
  all_goals rcases yield_cases (s.goto ph) i with ⟨a, b, rfl, hlt, ho, hl, hch⟩ | ⟨hl, hch, ho⟩
  · rw [hch]
    refine List.pairwise_append.mpr ⟨hi.ends, List.pairwise_singleton _ _, ?_⟩
    intro c hc d hd
    rw [List.mem_singleton.mp hd]
    obtain ⟨l, h1, _, h3⟩ := hi.top c hc
    have := hlt l h1; dsimp only; omega
  · rw [hch]; exact hi.ends
  · rw [hch, hl]
    intro c hc
    rcases List.mem_append.mp hc with hc | hc
    · obtain ⟨l, h1, h2, h3⟩ := hi.top c hc
      have := hlt l h1
      exact ⟨b, rfl, h2, by omega⟩
    · rw [List.mem_singleton.mp hc]
      exact ⟨b, rfl, (hnew a b rfl hlt).1, Nat.le_refl _⟩
  · rw [hch, hl]; exact hi.top
  · rw [hl]; intro l h; cases h; exact (hnew a b rfl hlt).2.1
  · rw [hl]; exact hi.below
  · rw [hch]
    intro c hc
    rcases List.mem_append.mp hc with hc | hc
    · exact hi.above c hc
    · rw [List.mem_singleton.mp hc]; exact (hnew a b rfl hlt).2.2.1
  · rw [hch]; exact hi.above
  · rw [hch, ho]
    intro hne
    have hne' := noErr_of_append hne
    refine List.pairwise_append.mpr ⟨hi.once hne', List.pairwise_singleton _ _, ?_⟩
    intro c hc d hd
    rw [List.mem_singleton.mp hd]
    obtain ⟨l, h1, _, h3⟩ := hi.top c hc
    have := (hnew a b rfl hlt).2.2.2.1 hne' l h1
    dsimp only; omega
  · rw [hch]
    intro hne
    apply hi.once
    rcases ho with ho | ho
    · rw [ho] at hne; exact hne
    · rw [ho] at hne; exact noErr_of_append hne
  · intro hne hpp l h
    rw [hl] at h; cases h
    rw [ho] at hne
    exact (hnew a _ rfl hlt).2.2.2.2.1 hpp (noErr_of_append hne)
  · intro hne hpp l h
    rw [hl] at h
    exact hlh hne hpp hl l h
  · intro n l h
    obtain ⟨h1, h2⟩ := (hnew a b rfl hlt).2.2.2.2.2 n l h
    refine ⟨(hcur n l h).1, Or.inr ⟨h1, ?_⟩⟩
    intro x hx; rw [hl] at hx; cases hx
    exact h2
  · intro n l h
    rw [hl]; exact hcur n l h

theorem once_handle {t0 : Nat} {s : Sys} (hi : Once t0 s) {c : Nat × Nat} {r : List (Nat × Nat)}
    (hb : s.bcast = c :: r) :
    Once t0 ({ s with
      bcast := r
      h := sendAll s.h (notesOf s.lastTip (.canon (some c)))
      lastTip := tipAfter s.lastTip (.canon (some c)) } : Sys) := by
  have hlow := fut_low (ns := notesOf s.lastTip (.canon (some c))) hi.opened
  refine ⟨hi.outsOk, ?_, hlow.1, ?_, hi.last, hi.idle, hi.ends, hi.top, hi.below, hi.above, hi.once,
    hi.atEnd, hi.cur⟩
  · intro x hx
    apply hi.sub
    rw [hb, List.cons_append]; exact List.mem_cons_of_mem _ hx
  · intro a b hm
    rcases hlow.2 a b hm with h | h
    · exact hi.fut a b h
    · have hc : c ∈ s.outs := hi.sub c (by rw [hb, List.cons_append]; exact List.mem_cons_self)
      obtain ⟨x, y⟩ := c
      cases hg : canonGap s.lastTip x with
      | none =>
        rw [notes_fit hg] at h
        simp [sigN] at h
        rw [h.1, h.2]; exact hc
      | some k =>
        rw [notes_gap hg] at h
        simp [sigN] at h
        rw [h.1, h.2]; exact hc

theorem once_step {m t0 : Nat} {s : Sys} (hi : Once t0 s) (hv : Inv m t0 s) (o : Op) :
    Once t0 (s.step m o) := by
  cases o with
  | persist k =>
    dsimp only [Sys.step]
    split
    · have hs : ∀ c ∈ s.outs, c ∈ s.outs ++ [(s.tip + 1, s.tip + (k + 1))] :=
        fun c hc => List.mem_append_left _ hc
      refine ⟨contig_snoc k hi.outsOk, ?_, hi.opened, fun a b h => hs _ (hi.fut a b h), ?_, hi.idle,
        hi.ends, hi.top, ?_, hi.above, hi.once, ?_, hi.cur⟩
      · intro c hc
        have hc' : c ∈ s.bcast ++ (s.pending ++ [(s.tip + 1, s.tip + (k + 1))]) := hc
        rw [← List.append_assoc] at hc'
        rcases List.mem_append.mp hc' with h | h
        · exact hs c (hi.sub c h)
        · exact List.mem_append_right _ h
      · intro c l h
        obtain ⟨h1, h2⟩ := hi.last c l h
        exact ⟨bnd_mono h1 hs, by change l ≤ s.tip + (k + 1); omega⟩
      · intro l h; have := hi.below l h; change l ≤ s.tip + (k + 1); omega
      · intro h1 h2 l h3; exact bnd_mono (hi.atEnd h1 h2 l h3) hs
    · exact hi
  | announce =>
    dsimp only [Sys.step]
    cases hp : s.pending with
    | nil => exact hi
    | cons c r =>
      refine ⟨hi.outsOk, ?_, hi.opened, hi.fut, hi.last, hi.idle, hi.ends, hi.top, hi.below, hi.above,
        hi.once, hi.atEnd, hi.cur⟩
      intro x hx
      apply hi.sub
      rw [hp]
      have hx' : x ∈ (s.bcast ++ [c]) ++ r := hx
      simpa using hx'
  | overflow =>
    dsimp only [Sys.step]
    cases hb : s.bcast with
    | nil => exact hi
    | cons c r =>
      refine ⟨hi.outsOk, ?_, hi.opened, hi.fut, hi.last, hi.idle, hi.ends, hi.top, hi.below, hi.above,
        hi.once, hi.atEnd, hi.cur⟩
      intro x hx
      apply hi.sub
      rw [hb, List.cons_append]; exact List.mem_cons_of_mem _ hx
  | handle =>
    dsimp only [Sys.step]
    cases hb : s.bcast with
    | nil => exact hi
    | cons c r => exact once_handle hi hb
  | other e =>
    dsimp only [Sys.step]
    split
    · next he =>
      have hlow := fut_low (ns := notesOf s.lastTip e) hi.opened
      refine ⟨hi.outsOk, hi.sub, hlow.1, ?_, hi.last, hi.idle, hi.ends, hi.top, hi.below, hi.above,
        hi.once, hi.atEnd, hi.cur⟩
      intro a b hm
      rcases hlow.2 a b hm with h | h
      · exact hi.fut a b h
      · exfalso
        cases e with
        | cert b => cases b <;> simp [notesOf, bcastNote, sigN] at h
        | output b => cases b <;> simp [notesOf, bcastNote, sigN] at h
        | canon c => cases he
        | finished i k => cases he
        | recv i => cases he
        | close i => cases he
    · exact hi
  | skim =>
    dsimp only [Sys.step]
    split
    · cases hch : s.h.chan with
      | nil =>
        have : s.h.recv = s.h := by unfold Handle.recv; rw [hch]
        rw [this]; exact hi
      | cons n r =>
        obtain ⟨hf, hcl⟩ := recv_fut hch
        refine ⟨hi.outsOk, hi.sub, by change s.h.recv.closed = false; rw [hcl]; exact hi.opened, ?_,
          hi.last, hi.idle, hi.ends, hi.top, hi.below, hi.above, hi.once, hi.atEnd, hi.cur⟩
        intro a b hm
        exact hi.fut a b (by rw [hf]; exact List.mem_cons_of_mem _ hm)
    · exact hi
  | subscribe start tipOk =>
    dsimp only [Sys.step]
    split
    · next hp =>
      obtain ⟨hout, hlh⟩ := hi.idle hp
      have hch : chains s.out = [] := by rw [hout]; rfl
      cases tipOk with
      | false =>
        rw [if_neg (by decide)]
        have hs : Once t0 ({ s with start := start } : Sys) := by
          refine ⟨hi.outsOk, hi.sub, hi.opened, hi.fut, hi.last, hi.idle, hi.ends, hi.top, hi.below,
            ?_, hi.once, hi.atEnd, ?_⟩
          · intro c hc
            have hc' : c ∈ chains s.out := hc
            rw [hch] at hc'; cases hc'
          · intro n l h
            have h' : s.phase = .replay (.active n) l := h
            rw [hp] at h'; cases h'
        refine once_yield hs .live (by intro h; cases h) (.err start) (by intro c l h; cases h)
          (by intro n l h; cases h) (by intro a b h; cases h) ?_
        intro _ _ _ l hl
        have hl' : s.lastHeight = some l := hl
        rw [hlh] at hl'; cases hl'
      | true =>
        rw [if_pos rfl]
        refine ⟨hi.outsOk, hi.sub, hi.opened, hi.fut, ?_, ?_, hi.ends, hi.top, hi.below, ?_, hi.once,
          ?_, ?_⟩
        · intro c l h
          cases h
          refine ⟨?_, Nat.le_refl _⟩
          have hend : ∀ {l : List (Nat × Nat)} {lo hi : Nat}, Contig lo l hi → Bnd lo l hi := by
            intro l
            induction l with
            | nil => intro lo hi h; exact Or.inl (h : lo = hi).symm
            | cons c r ih =>
              intro lo hi h
              rcases ih h.2.2 with h1 | ⟨a, h1⟩
              · right; exact ⟨c.1, by rw [h1]; exact List.mem_cons_self⟩
              · right; exact ⟨a, List.mem_cons_of_mem _ h1⟩
          exact hend hi.outsOk
        · intro h; cases h
        · intro c hc
          have hc' : c ∈ chains s.out := hc
          rw [hch] at hc'; cases hc'
        · intro _ _ l hl
          have hl' : s.lastHeight = some l := hl
          rw [hlh] at hl'; cases hl'
        · intro n l h
          cases h
          exact ⟨Nat.le_refl _, Or.inl hlh⟩
    · exact hi
  | replayPoll ans =>
    dsimp only [Sys.step]
    cases hp : s.phase with
    | idle => exact hi
    | live => exact hi
    | replay c last =>
      dsimp only
      obtain ⟨hbnd, hlt⟩ := hi.last c last hp
      cases c with
      | done =>
        have he : Verif.Exex.replayPoll m last .done (fun _ => ans) = (none, .done) := rfl
        rw [he]; dsimp only
        refine ⟨hi.outsOk, hi.sub, hi.opened, hi.fut, ?_, ?_, hi.ends, hi.top, hi.below, hi.above,
          hi.once, ?_, ?_⟩
        · intro c l h; cases h
        · intro h; cases h
        · intro h1 _; exact hi.atEnd h1 (Or.inr ⟨last, hp⟩)
        · intro n l h; cases h
      | active n =>
        obtain ⟨hsn, hln⟩ := hi.cur n last hp
        by_cases hn : n > last
        · have he : Verif.Exex.replayPoll m last (.active n) (fun _ => ans) = (none, .done) := by
            simp only [Verif.Exex.replayPoll, if_pos hn]
          rw [he]; dsimp only
          refine ⟨hi.outsOk, hi.sub, hi.opened, hi.fut, ?_, ?_, hi.ends, hi.top, hi.below, hi.above,
            hi.once, ?_, ?_⟩
          · intro c l h; cases h
          · intro h; cases h
          · intro _ _ l hl
            have hl' : s.lastHeight = some l := hl
            rcases hln with h | h
            · rw [h] at hl'; cases hl'
            · omega
          · intro n l h; cases h
        · have hnl : n ≤ last := by omega
          have herr : ∀ k : Nat, Once t0 ((s.goto (.replay .done last)).yield (.err k)) := by
            intro k
            refine once_yield hi _ (by intro h; cases h) (.err k)
              (by intro c l h; cases h; exact ⟨hbnd, hlt⟩)
              (by intro n l h; cases h) (by intro a b h; cases h) ?_
            intro hne
            exact absurd (by
              change Item.err k ∈ s.out ++ [Item.err k]
              simp) (hne k)
          cases ans with
          | missing =>
            have he : Verif.Exex.replayPoll m last (.active n) (fun _ => .missing) =
                (some (.err n), .done) := by
              simp only [Verif.Exex.replayPoll, if_neg hn]
            rw [he]; exact herr n
          | failed =>
            have he : Verif.Exex.replayPoll m last (.active n) (fun _ => .failed) =
                (some (.err n), .done) := by
              simp only [Verif.Exex.replayPoll, if_neg hn]
            rw [he]; exact herr n
          | block =>
            have hold : ∀ h : Nat, s.lastHeight = some h → h < n := by
              intro h hh
              rcases hln with h1 | h1
              · rw [h1] at hh; cases hh
              · exact h1.2 h hh
            by_cases hnl2 : n = last
            · have he : Verif.Exex.replayPoll m last (.active n) (fun _ => .block) =
                  (some (.note (.item (.chain n n))), .done) := by
                simp only [Verif.Exex.replayPoll, if_neg hn, if_pos hnl2]
              rw [he]; dsimp only
              refine once_yield hi (.replay .done last) (by intro h; cases h) _
                (by intro c l h; cases h; exact ⟨hbnd, hlt⟩)
                (by intro n l h; cases h) ?_ ?_
              · intro a b h _
                cases h
                refine ⟨Nat.le_refl _, by omega, Or.inl hsn, fun _ => hold, ?_, ?_⟩
                · intro _ _; rw [hnl2]; exact hbnd
                · intro n l h; cases h
              · intro _ _ heq l hl
                exfalso
                have hk : ((s.goto (.replay .done last)).yield
                    (.note (.item (.chain n n)))).lastHeight = some n := by
                  rcases yield_cases (s.goto (.replay .done last)) (.note (.item (.chain n n))) with
                    ⟨a, b, h, _, _, h2, _⟩ | ⟨_, h2, h3⟩
                  · cases h; exact h2
                  · exfalso
                    have hd : dedupStep s.lastHeight (.note (.item (.chain n n))) = (true, some n) := by
                      change keepHeight s.lastHeight n = _
                      cases hq : s.lastHeight with
                      | none => rfl
                      | some x =>
                        unfold keepHeight; dsimp only
                        rw [if_neg (by have := hold x hq; omega)]
                    have hout : ((s.goto (.replay .done last)).yield
                        (.note (.item (.chain n n)))).out =
                        s.out ++ [.note (.item (.chain n n))] := by
                      unfold Sys.yield Sys.goto; dsimp only
                      rw [hd]; rfl
                    rw [hout, chains_append] at h2
                    have h4 := congrArg List.length h2
                    change (chains s.out ++ [(n, n)]).length = (chains s.out).length at h4
                    rw [List.length_append] at h4
                    simp at h4
                rw [hk] at heq
                have := hold n heq.symm
                omega
            · have hmin : min (n + 1) m = n + 1 := by
                have := hv.tipmax; omega
              have he : Verif.Exex.replayPoll m last (.active n) (fun _ => .block) =
                  (some (.note (.item (.chain n n))), .active (n + 1)) := by
                simp only [Verif.Exex.replayPoll, if_neg hn, if_neg hnl2, hmin]
              rw [he]; dsimp only
              refine once_yield hi (.replay (.active (n + 1)) last) (by intro h; cases h) _
                (by intro c l h; cases h; exact ⟨hbnd, hlt⟩) ?_ ?_ ?_
              · intro x l h
                cases h
                refine ⟨by omega, Or.inr ⟨by omega, ?_⟩⟩
                intro y hy; have := hold y hy; omega
              · intro a b h _
                cases h
                refine ⟨Nat.le_refl _, by omega, Or.inl hsn, fun _ => hold, ?_, ?_⟩
                · rintro (h | ⟨l, h⟩) <;> cases h
                · intro x l h; cases h; omega
              · intro _ h; rcases h with h | ⟨l, h⟩ <;> cases h
  | livePoll =>
    dsimp only [Sys.step]
    split
    · next hp =>
      cases hch : s.h.chan with
      | nil => exact hi
      | cons n r =>
        dsimp only
        obtain ⟨hf, hcl⟩ := recv_fut hch
        have hs : Once t0 ({ s with h := s.h.recv } : Sys) := by
          refine ⟨hi.outsOk, hi.sub, by change s.h.recv.closed = false; rw [hcl]; exact hi.opened, ?_,
            hi.last, hi.idle, hi.ends, hi.top, hi.below, hi.above, hi.once, hi.atEnd, hi.cur⟩
          intro a b hm
          exact hi.fut a b (by rw [hf]; exact List.mem_cons_of_mem _ hm)
        have hgo : ({ s with h := s.h.recv } : Sys) = ({ s with h := s.h.recv } : Sys).goto .live := by
          unfold Sys.goto; rw [← hp]
        rw [hgo]
        refine once_yield hs .live (by intro h; cases h) _ (by intro c l h; cases h)
          (by intro n l h; cases h) ?_ ?_
        · intro a b h hlt
          cases h
          have hmem : (a, b) ∈ s.outs := hi.fut a b (by rw [hf]; exact List.mem_cons_self)
          obtain ⟨h1, h2, h3⟩ := contig_mem hi.outsOk hmem
          refine ⟨h2, h3, Or.inr h1, ?_, ?_, ?_⟩
          · intro hne l hl
            have hb := hi.atEnd hne (Or.inl hp) l hl
            have := hlt l hl
            rcases contig_bnd hi.outsOk hmem hb with h | h <;> omega
          · intro _ _; exact Or.inr ⟨a, hmem⟩
          · intro n l h; cases h
        · intro hne _ _ l hl
          refine hi.atEnd ?_ (Or.inl hp) l hl
          intro b hb
          refine hne b ?_
          rcases yield_cases (({ s with h := s.h.recv } : Sys).goto .live) (.note n) with
            ⟨_, _, _, _, ho, _⟩ | ⟨_, _, ho | ho⟩
          · rw [ho]; exact List.mem_append_left _ hb
          · rw [ho]; exact hb
          · rw [ho]; exact List.mem_append_left _ hb
    · exact hi

theorem once_run {m t0 : Nat} (ops : List Op) : ∀ {s : Sys}, Once t0 s → Inv m t0 s →
    Once t0 (s.run m ops) := by
  induction ops with
  | nil => intro s h _; exact h
  | cons o r ih => intro s h hv; exact ih (once_step h hv o) (inv_step hv o)

end Verif.Exex.Seam
