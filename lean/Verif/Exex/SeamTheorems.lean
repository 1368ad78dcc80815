import Verif.Exex.SeamProps

/-!
# C67: the headline theorems about replay followed by live delivery

All statements are about the list `out` of items the consumer of `replay_and_subscribe(start)` has
seen, after any run of the whole path: commits, announcements, overflow of the manager's receiver,
a full ExEx channel, failing database reads, in any interleaving.
-/

namespace Verif.Exex.Seam

open Verif.Exex

/-- The whole path from the subscription of the manager at committed tip `tip0`. -/
def reach (maxBlock tip0 capacity : Nat) (ops : List Op) : Sys :=
  (Sys.init tip0 capacity).run maxBlock ops

/-- Neither a chain nor a signal: a certificate or a consensus output. -/
def _root_.Verif.Exex.Item.isQuiet (i : Item) : Bool := !i.isSignal && !i.isChain

theorem reach_inv (m t0 cap : Nat) (ops : List Op) (h : t0 ≤ m) : Inv m t0 (reach m t0 cap ops) :=
  inv_run ops (inv_init m t0 cap h)

theorem reach_once (m t0 cap : Nat) (ops : List Op) (h : t0 ≤ m) : Once t0 (reach m t0 cap ops) :=
  once_run ops (once_init t0 cap) (inv_init m t0 cap h)

theorem quiet_sig {i : Item} (h : i.isQuiet = true) : sigI i = .other := by
  cases i with
  | err b => cases h
  | note n =>
    cases n with
    | lagged k => cases h
    | item c =>
      cases c with
      | cert x => rfl
      | output x => rfl
      | chain a b => cases h

theorem walk_quiet {l : List Item} (h : ∀ i ∈ l, i.isQuiet = true) (p : Pos) :
    walk p (l.map sigI) = some p := by
  induction l with
  | nil => rfl
  | cons i r ih =>
    rw [List.map_cons, quiet_sig (h i List.mem_cons_self), walk]
    have : walk1 p .other = some p := by cases p <;> rfl
    rw [this, Option.bind_some]
    exact ih (fun j hj => h j (List.mem_cons_of_mem _ hj))

theorem walk_split {p q : Pos} {l m : List Sig} (h : walk p (l ++ m) = some q) :
    ∃ r : Pos, walk p l = some r ∧ walk r m = some q := by
  rw [walk_append] at h
  cases hw : walk p l with
  | none => rw [hw] at h; cases h
  | some r => rw [hw] at h; exact ⟨r, rfl, h⟩

theorem walk_cons {p q : Pos} {x : Sig} {m : List Sig} (h : walk p (x :: m) = some q) :
    ∃ r : Pos, walk1 p x = some r ∧ walk r m = some q := by
  rw [walk] at h
  cases hw : walk1 p x with
  | none => rw [hw] at h; cases h
  | some r => rw [hw] at h; exact ⟨r, rfl, h⟩

theorem walk_reached {m t0 : Nat} {s : Sys} (hi : Inv m t0 s) (hl : s.lostFirst = false) :
    ∃ q : Pos, walk (.at s.start) (s.out.map sigI) = some q := by
  by_cases hp : s.phase = .idle
  · rw [(hi.idle hp).1]; exact ⟨_, rfl⟩
  · obtain ⟨q, hq, _⟩ := hi.reader hp hl
    exact ⟨q, hq⟩

/-- **C67 (no silent hole).**  Unless the manager lost announcements before it handled its first
one, two executed chains that the consumer sees with neither an error nor a `Lagged` marker between
them never leave out a block: the second starts at the latest right after the end of the first. -/
theorem no_silent_hole (m t0 cap : Nat) (ops : List Op) (htip : t0 ≤ m)
    (hlost : (reach m t0 cap ops).lostFirst = false)
    (pre mid post : List Item) (a b c d : Nat)
    (hout : (reach m t0 cap ops).out =
      pre ++ .note (.item (.chain a b)) :: (mid ++ .note (.item (.chain c d)) :: post))
    (hmid : ∀ i ∈ mid, i.isQuiet = true) : c ≤ b + 1 := by
  obtain ⟨q, hq⟩ := walk_reached (reach_inv m t0 cap ops htip) hlost
  rw [hout, List.map_append, List.map_cons, List.map_append, List.map_cons] at hq
  obtain ⟨r, _, h2⟩ := walk_split hq
  obtain ⟨r2, h3, h4⟩ := walk_cons h2
  have hr2 : r2 = .at (b + 1) := walk1_chunk h3
  subst hr2
  obtain ⟨r3, h5, h6⟩ := walk_split h4
  rw [walk_quiet hmid] at h5
  cases h5
  obtain ⟨r4, h7, _⟩ := walk_cons h6
  change walk1 (.at (b + 1)) (.chunk c d) = _ at h7
  rw [walk1_at] at h7
  split at h7
  · assumption
  · cases h7

/-- **C67 (nothing is skipped at the start).**  Under the same condition the first chain the consumer
sees, if no signal precedes it, starts at `start` or before. -/
theorem no_hole_at_start (m t0 cap : Nat) (ops : List Op) (htip : t0 ≤ m)
    (hlost : (reach m t0 cap ops).lostFirst = false)
    (pre post : List Item) (a b : Nat)
    (hout : (reach m t0 cap ops).out = pre ++ .note (.item (.chain a b)) :: post)
    (hpre : ∀ i ∈ pre, i.isQuiet = true) : a ≤ (reach m t0 cap ops).start := by
  obtain ⟨q, hq⟩ := walk_reached (reach_inv m t0 cap ops htip) hlost
  rw [hout, List.map_append, List.map_cons] at hq
  obtain ⟨r, h1, h2⟩ := walk_split hq
  rw [walk_quiet hpre] at h1
  cases h1
  obtain ⟨r2, h3, _⟩ := walk_cons h2
  change walk1 (.at _) (.chunk a b) = _ at h3
  rw [walk1_at] at h3
  split at h3
  · assumption
  · cases h3

/-- **C67 (in order).**  The chains reach the consumer in strictly ascending order of their tips,
whatever happened. -/
theorem in_order (m t0 cap : Nat) (ops : List Op) (htip : t0 ≤ m) :
    (chains (reach m t0 cap ops).out).Pairwise (fun x y => x.2 < y.2) :=
  (reach_once m t0 cap ops htip).ends

/-- **C67 (only executed blocks).**  Every chain delivered is non-empty and was committed before it
was delivered. -/
theorem delivered_committed (m t0 cap : Nat) (ops : List Op) (htip : t0 ≤ m) (a b : Nat)
    (h : (a, b) ∈ chains (reach m t0 cap ops).out) : a ≤ b ∧ b ≤ (reach m t0 cap ops).tip := by
  have hi := reach_once m t0 cap ops htip
  obtain ⟨l, h1, h2, h3⟩ := hi.top (a, b) h
  have := hi.below l h1
  exact ⟨h2, by dsimp only at h3; omega⟩

theorem range_sorted {l : List (Nat × Nat)} (h : l.Pairwise (fun x y => x.2 < y.1)) :
    (l.flatMap (fun c => List.range' c.1 (c.2 + 1 - c.1))).Pairwise (· < ·) := by
  induction l with
  | nil => exact List.Pairwise.nil
  | cons c r ih =>
    rw [List.flatMap_cons]
    rw [List.pairwise_cons] at h
    refine List.pairwise_append.mpr ⟨List.pairwise_lt_range', ih h.2, ?_⟩
    intro x hx y hy
    obtain ⟨d, hd, hy⟩ := List.mem_flatMap.mp hy
    have := h.1 d hd
    have hx := List.mem_range'_1.mp hx
    have hy := List.mem_range'_1.mp hy
    omega

/-- **C67 (each block once).**  As long as the replay reported no error, the block numbers the
consumer sees are strictly ascending: no block is delivered twice, whether by the replay and again
live or by two live chains. -/
theorem delivered_once (m t0 cap : Nat) (ops : List Op) (htip : t0 ≤ m)
    (hne : ∀ b : Nat, Item.err b ∉ (reach m t0 cap ops).out) :
    (blocks (reach m t0 cap ops).out).Pairwise (· < ·) :=
  range_sorted ((reach_once m t0 cap ops htip).once hne)

theorem chains_cons (i : Item) (r : List Item) : chains (i :: r) = chains [i] ++ chains r :=
  chains_append [i] r

theorem walk_exact {l : List Item} : ∀ {e : Nat} {q : Pos}, (∀ i ∈ l, i.isSignal = false) →
    walk (.at e) (l.map sigI) = some q →
    (chains l).Pairwise (fun x y => x.2 < y.1) → (∀ c ∈ chains l, e ≤ c.1 ∧ c.1 ≤ c.2) →
    ∃ f : Nat, q = .at f ∧ e ≤ f ∧
      (chains l).flatMap (fun c => List.range' c.1 (c.2 + 1 - c.1)) = List.range' e (f - e) ∧
      (f = e ∨ ∃ a : Nat, (a, f - 1) ∈ chains l ∧ 1 ≤ f) := by
  induction l with
  | nil =>
    intro e q _ h _ _
    cases h
    exact ⟨e, rfl, Nat.le_refl _, by simp [chains], Or.inl rfl⟩
  | cons i r ih =>
    intro e q hs h hp hc
    rw [List.map_cons] at h
    obtain ⟨p, h1, h2⟩ := walk_cons h
    have hsr : ∀ j ∈ r, j.isSignal = false := fun j hj => hs j (List.mem_cons_of_mem _ hj)
    by_cases hch : i.isChain = true
    · obtain ⟨a, b, rfl⟩ : ∃ a b : Nat, i = .note (.item (.chain a b)) := by
        cases i with
        | err b => cases hch
        | note n =>
          cases n with
          | lagged k => cases hch
          | item c =>
            cases c with
            | cert x => cases hch
            | output x => cases hch
            | chain a b => exact ⟨a, b, rfl⟩
      change walk1 (.at e) (.chunk a b) = _ at h1
      have hp2 := walk1_chunk h1
      rw [walk1_at] at h1
      split at h1
      · next hae =>
        subst hp2
        have hcc : chains (.note (.item (.chain a b)) :: r) = (a, b) :: chains r := rfl
        rw [hcc] at hp hc ⊢
        rw [List.pairwise_cons] at hp
        have h0 := hc (a, b) List.mem_cons_self
        dsimp only at h0
        obtain ⟨f, hf1, hf2, hf3, hf4⟩ := ih hsr h2 hp.2 (by
          intro c hcm
          have := hp.1 c hcm
          exact ⟨by dsimp only at this; omega, (hc c (List.mem_cons_of_mem _ hcm)).2⟩)
        refine ⟨f, hf1, by omega, ?_, ?_⟩
        · rw [List.flatMap_cons, hf3]; dsimp only
          have he : e = a := by omega
          subst he
          have : List.range' e (f - e) =
              List.range' e (b + 1 - e) ++ List.range' (e + (b + 1 - e)) (f - (b + 1)) := by
            have hlen : f - e = (b + 1 - e) + (f - (b + 1)) := by omega
            rw [hlen, List.range'_append_1]
          rw [this]
          congr 2
          omega
        · right
          rcases hf4 with rfl | ⟨x, hx, hx1⟩
          · exact ⟨a, by simp, by omega⟩
          · exact ⟨x, List.mem_cons_of_mem _ hx, hx1⟩
      · cases h1
    · have hq : i.isQuiet = true := by
        unfold Item.isQuiet
        rw [hs i List.mem_cons_self]
        simp [hch]
      rw [quiet_sig hq] at h1
      cases h1
      have hcc : chains (i :: r) = chains r := by
        cases i with
        | err b => rfl
        | note n =>
          cases n with
          | lagged k => rfl
          | item c =>
            cases c with
            | cert x => rfl
            | output x => rfl
            | chain a b => exact absurd rfl hch
      rw [hcc] at hp hc ⊢
      exact ih hsr h2 hp hc

theorem noSignal_noErr {l : List Item} (h : ∀ i ∈ l, i.isSignal = false) :
    ∀ b : Nat, Item.err b ∉ l := by
  intro b hb; have := h _ hb; cases this

/-- **C67 (the seam is exact).**  If `start` was not beyond the next block at the subscription and
the consumer has seen neither an error nor a `Lagged` marker, then what it has seen is exactly the
blocks `start, start+1, …` up to some point, each once, in order. -/
theorem seam_exact (m t0 cap : Nat) (ops : List Op) (htip : t0 ≤ m)
    (hlost : (reach m t0 cap ops).lostFirst = false)
    (hstart : (reach m t0 cap ops).start ≤ t0 + 1)
    (hsig : ∀ i ∈ (reach m t0 cap ops).out, i.isSignal = false) :
    ∃ count : Nat, blocks (reach m t0 cap ops).out =
      List.range' (reach m t0 cap ops).start count := by
  have hi := reach_once m t0 cap ops htip
  obtain ⟨q, hq⟩ := walk_reached (reach_inv m t0 cap ops htip) hlost
  obtain ⟨f, _, _, h, _⟩ := walk_exact hsig hq (hi.once (noSignal_noErr hsig)) (by
    intro c hc
    obtain ⟨_, _, h2, _⟩ := hi.top c hc
    exact ⟨by rcases hi.above c hc with h | h <;> omega, h2⟩)
  exact ⟨_, h⟩

theorem lost_step {m : Nat} {s : Sys} (h : s.lostAny = false → s.lostFirst = false) (o : Op) :
    (s.step m o).lostAny = false → (s.step m o).lostFirst = false := by
  cases o with
  | overflow =>
    dsimp only [Sys.step]
    cases s.bcast with
    | nil => exact h
    | cons c r => intro hh; cases hh
  | persist k => dsimp only [Sys.step]; split <;> exact h
  | announce => dsimp only [Sys.step]; cases s.pending <;> exact h
  | handle => dsimp only [Sys.step]; cases s.bcast <;> exact h
  | other e => dsimp only [Sys.step]; split <;> exact h
  | skim => dsimp only [Sys.step]; split <;> exact h
  | subscribe st ok => dsimp only [Sys.step]; split <;> [split; skip] <;> exact h
  | replayPoll ans =>
    dsimp only [Sys.step]
    cases s.phase with
    | idle => exact h
    | live => exact h
    | replay c l =>
      dsimp only
      rcases Verif.Exex.replayPoll m l c (fun _ => ans) with ⟨_ | i, c'⟩ <;> exact h
  | livePoll =>
    dsimp only [Sys.step]
    split
    · cases s.h.chan <;> exact h
    · exact h

theorem lost_run {m : Nat} (ops : List Op) : ∀ {s : Sys},
    (s.lostAny = false → s.lostFirst = false) →
    (s.run m ops).lostAny = false → (s.run m ops).lostFirst = false := by
  induction ops with
  | nil => intro s h; exact h
  | cons o r ih => intro s h; exact ih (lost_step h o)

/-- Nothing is under way any more: everything committed was announced and handled, the consumer has
drained its channel and no marker is due. -/
def Sys.Settled (s : Sys) : Prop :=
  s.phase = .live ∧ s.pending = [] ∧ s.bcast = [] ∧ s.h.chan = [] ∧ s.h.dropped = 0

/-- **C67 (the seam is complete).**  If moreover the manager lost no announcement and everything has
settled, the consumer has seen exactly the blocks from `start` to the committed tip, each once, in
order. -/
theorem seam_complete (m t0 cap : Nat) (ops : List Op) (htip : t0 ≤ m)
    (hlost : (reach m t0 cap ops).lostAny = false)
    (hstart : (reach m t0 cap ops).start ≤ t0 + 1)
    (hsig : ∀ i ∈ (reach m t0 cap ops).out, i.isSignal = false)
    (hset : (reach m t0 cap ops).Settled) :
    blocks (reach m t0 cap ops).out =
      List.range' (reach m t0 cap ops).start
        ((reach m t0 cap ops).tip + 1 - (reach m t0 cap ops).start) := by
  have hi := reach_once m t0 cap ops htip
  have hv := reach_inv m t0 cap ops htip
  have hlf : (reach m t0 cap ops).lostFirst = false :=
    lost_run ops (s := Sys.init t0 cap) (fun _ => rfl) hlost
  obtain ⟨hp, hpe, hbc, hch, hdr⟩ := hset
  generalize hs : reach m t0 cap ops = s at *
  obtain ⟨q, hq, _, σ, hd, hg⟩ := hv.reader (by rw [hp]; intro h; cases h) hlf
  obtain ⟨f, rfl, hef, h, hor⟩ := walk_exact hsig hq (hi.once (noSignal_noErr hsig)) (by
    intro c hc
    obtain ⟨_, _, h2, _⟩ := hi.top c hc
    exact ⟨by rcases hi.above c hc with h | h <;> omega, h2⟩)
  have hfut : futSig s.h = [] := by
    unfold futSig; rw [hch, hdr]; rfl
  rw [hfut] at hd
  have hfr : s.front (.at f) = (.at f, s.lastHeight) := by unfold Sys.front; rw [hp]
  rw [hfr] at hd
  cases hd
  have hb := hv.contA hlost
  rw [hpe, hbc] at hb
  have hb' : s.base t0 = s.tip := hb
  have h1 := (hg f rfl).1
  have h2 : f ≤ s.tip + 1 ∨ f = s.start := by
    rcases hor with h | ⟨a, ha, h1⟩
    · exact Or.inr h
    · left
      obtain ⟨l, hl, _, h3⟩ := hi.top _ ha
      have := hi.below l hl
      dsimp only at h3; omega
  have hlen : f - s.start = s.tip + 1 - s.start := by omega
  rw [← hlen]; exact h

/-! ### A run that meets the hypotheses, and the limits of the guarantees -/

/-- A run: tip 10, replay from 9 while an output (11-13) is committed; the live chain (11-13), and a
further one (14). -/
def demoOps : List Op :=
  [.subscribe 9 true, .replayPoll .block, .persist 2, .announce, .handle, .replayPoll .block,
    .replayPoll .block, .livePoll, .persist 0, .announce, .other (.output (.ok 3)), .handle,
    .livePoll, .livePoll]

theorem demo_seam :
    (reach 1000 10 4 demoOps).lostAny = false ∧ (reach 1000 10 4 demoOps).start ≤ 11 ∧
    ((reach 1000 10 4 demoOps).out.all (fun i => !i.isSignal)) = true ∧
    (reach 1000 10 4 demoOps).Settled ∧
    blocks (reach 1000 10 4 demoOps).out = [9, 10, 11, 12, 13, 14] := by
  unfold Sys.Settled; decide +kernel

/-- A run in which the replay and the live stream overlap: the output (11-12) is announced before the
subscription and replayed as well, and delivered once. -/
def demoOverlap : List Op :=
  [.persist 1, .announce, .handle, .subscribe 10 true, .replayPoll .block, .replayPoll .block,
    .replayPoll .block, .replayPoll .block, .livePoll]

theorem demo_overlap :
    blocks (reach 1000 10 4 demoOverlap).out = [10, 11, 12] ∧
    (reach 1000 10 4 demoOverlap).Settled := by
  unfold Sys.Settled; decide +kernel

/-- A run in which the manager loses an announcement after its first one: the consumer sees a marker
between the chains. -/
def demoGap : List Op :=
  [.subscribe 11 true, .replayPoll .block, .persist 0, .announce, .handle, .persist 0, .announce,
    .overflow, .persist 0, .announce, .handle, .livePoll, .livePoll, .livePoll]

theorem demo_gap :
    (reach 1000 10 4 demoGap).out =
      [.note (.item (.chain 11 11)), .note (.lagged 1), .note (.item (.chain 13 13))] := by
  decide +kernel

/-- **C67 (finding: a silent hole).**  The manager only notices a discontinuity relative to the last
chain it handled.  If its broadcast receiver overflows before it has handled any, the consumer sees
block 10 followed by block 12 with no signal between. -/
theorem first_announcement_lost :
    ∃ ops : List Op, blocks (reach 1000 10 4 ops).out = [9, 10, 12] ∧
      (∀ i ∈ (reach 1000 10 4 ops).out, i.isSignal = false) ∧
      (reach 1000 10 4 ops).lostFirst = true ∧ (reach 1000 10 4 ops).Settled := by
  refine ⟨[.subscribe 9 true, .replayPoll .block, .replayPoll .block, .replayPoll .block, .persist 0,
    .announce, .overflow, .persist 0, .announce, .handle, .livePoll], ?_⟩
  unfold Sys.Settled; decide +kernel

/-- **C67 (finding: repetition after an error).**  After a failed replay read the live part may begin
with a chain that contains blocks already replayed: the duplicate filter compares tips only. -/
theorem repeats_after_error :
    ∃ ops : List Op, blocks (reach 1000 3 4 ops).out = [4, 5, 4, 5, 6, 7] := by
  refine ⟨[.persist 3, .announce, .handle, .subscribe 4 true, .replayPoll .block, .replayPoll .block,
    .replayPoll .failed, .replayPoll .block, .livePoll], ?_⟩
  decide +kernel

/-- **C67 (finding: a start beyond the tip is not honoured).**  With `start` two or more blocks beyond
the committed tip the consumer still receives the blocks below `start`. -/
theorem start_beyond_tip :
    ∃ ops : List Op, (reach 1000 10 4 ops).start = 13 ∧
      blocks (reach 1000 10 4 ops).out = [11, 12] := by
  refine ⟨[.subscribe 13 true, .replayPoll .block, .persist 1, .announce, .handle, .livePoll], ?_⟩
  decide +kernel

end Verif.Exex.Seam
