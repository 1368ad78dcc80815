import Verif.Exex.Router

/-!
# Historical replay and the replay/live seam

`crates/exex/src/replay.rs`: `ReplayCore` (58-136); `crates/exex/src/context.rs`:
`replay_from` (151-154), `replay_and_subscribe` (205-241), `keep_height` (296-303),
`dedup_chain_executed` (308-332).

A replayed block `n` is the chain `(n, n)` (`replay_block_as_chain`,
`crates/tn-reth/src/env/helpers.rs` 158-191).  Whether a read of the database succeeds is the
environment's choice at every read.
-/

namespace Verif.Exex

/-- `ReplayCursor` (replay.rs 46-52). -/
inductive Cursor where
  | active (n : Nat)
  | done
  deriving DecidableEq, Repr

/-- The answer of `ReplaySource::replay` (replay.rs 26-31): the block, no such block, or a failed
read. -/
inductive Read where
  | block | missing | failed
  deriving DecidableEq, Repr

/-- An item of the replay / combined stream. -/
inductive Item where
  | note (n : Note Content)
  | err (block : Nat)
  deriving DecidableEq, Repr

/-- `ReplayCore::poll_next` (replay.rs 77-117): the item yielded (none is end of stream) and the new
cursor.  `maxBlock` is `BlockNumber::MAX`, where `saturating_add` stops. -/
def replayPoll (maxBlock last : Nat) (c : Cursor) (ans : Nat → Read) : Option Item × Cursor :=
  match c with
  | .done => (none, .done)
  | .active n =>
    if n > last then (none, .done)
    else match ans n with
      | .block => (some (.note (.item (.chain n n))),
          if n = last then .done else .active (min (n + 1) maxBlock))
      | .missing => (some (.err n), .done)
      | .failed => (some (.err n), .done)

/-- Poll `k` times, each time with the environment's answers of that moment. -/
def replayRun (maxBlock last : Nat) : Cursor → List (Nat → Read) → List (Option Item) × Cursor
  | c, [] => ([], c)
  | c, a :: r =>
    ((replayPoll maxBlock last c a).1 :: (replayRun maxBlock last (replayPoll maxBlock last c a).2 r).1,
      (replayRun maxBlock last (replayPoll maxBlock last c a).2 r).2)

/-- `ReplayCore::size_hint` (replay.rs 119-135), lower and upper bound. -/
def sizeHint (last : Nat) : Cursor → Nat × Nat
  | .done => (0, 0)
  | .active n => if n > last then (0, 0) else (1, last - n + 1)

/-- `keep_height` (context.rs 296-303): keep, and the new last height. -/
def keepHeight (lastHeight : Option Nat) (height : Nat) : Bool × Option Nat :=
  match lastHeight with
  | some prev => if height ≤ prev then (false, some prev) else (true, some height)
  | none => (true, some height)

/-- `dedup_chain_executed` on one item (context.rs 313-331).  Empty chains do not occur in `Item`:
the router drops them (`notesOf`) and replayed chains have one block. -/
def dedupStep (lastHeight : Option Nat) (i : Item) : Bool × Option Nat :=
  match i with
  | .note (.item (.chain _ b)) => keepHeight lastHeight b
  | _ => (true, lastHeight)

/-! ### The replay stream on its own -/

/-- The blocks `start, start+1, …` as items. -/
def blocksFrom (start count : Nat) : List (Option Item) :=
  (List.range' start count).map (fun n => some (.note (.item (.chain n n))))

theorem replayRun_done (maxBlock last : Nat) (as : List (Nat → Read)) :
    replayRun maxBlock last .done as = (List.replicate as.length none, .done) := by
  induction as with
  | nil => rfl
  | cons a r ih => simp only [replayRun, replayPoll, ih, List.length_cons, List.replicate_succ]

/-- **C67 (replay is complete or ends in one error).**  However the database answers, and however
often the stream is polled, what it yields is: the blocks of the range in ascending order from the
first one, without a hole; then, if the range was cut short, at most one error carrying the number
of the block that failed — the one right after the last delivered; then nothing, for ever.  Without
an error the range is complete as soon as the stream has ended. -/
theorem replay_shape (maxBlock start last : Nat) (hmax : last ≤ maxBlock)
    (as : List (Nat → Read)) :
    ∃ (count : Nat) (cut : List (Option Item)) (rest : Nat),
      (replayRun maxBlock last (.active start) as).1 =
        blocksFrom start count ++ cut ++ List.replicate rest none ∧
      (start ≤ last → start + count ≤ last + 1) ∧ (last < start → count = 0 ∧ cut = []) ∧
      (cut = [] ∨ (cut = [some (.err (start + count))] ∧ start + count ≤ last)) ∧
      (rest > 0 → cut = [] → last < start + count) := by
  induction as generalizing start with
  | nil => exact ⟨0, [], 0, rfl, by omega, by simp, Or.inl rfl, by omega⟩
  | cons a r ih =>
    by_cases hn : start > last
    · refine ⟨0, [], r.length + 1, ?_, by omega, by simp, Or.inl rfl, by omega⟩
      simp only [replayRun, replayPoll, if_pos hn, replayRun_done]
      rfl
    · cases ha : a start with
      | missing =>
        refine ⟨0, [some (.err start)], r.length, ?_, by omega, by omega,
          Or.inr ⟨by simp, by omega⟩, by simp⟩
        simp only [replayRun, replayPoll, if_neg hn, ha, replayRun_done]
        rfl
      | failed =>
        refine ⟨0, [some (.err start)], r.length, ?_, by omega, by omega,
          Or.inr ⟨by simp, by omega⟩, by simp⟩
        simp only [replayRun, replayPoll, if_neg hn, ha, replayRun_done]
        rfl
      | block =>
        by_cases hl : start = last
        · refine ⟨1, [], r.length, ?_, by omega, by omega, Or.inl rfl, by omega⟩
          simp only [replayRun, replayPoll, if_neg hn, ha, if_pos hl, replayRun_done]
          rfl
        · have hm : min (start + 1) maxBlock = start + 1 := by omega
          obtain ⟨count, cut, rest, he, h1, h2, h3, h4⟩ := ih (start + 1)
          refine ⟨count + 1, cut, rest, ?_, by omega, by omega, ?_, ?_⟩
          · simp only [replayRun, replayPoll, if_neg hn, ha, if_neg hl, hm, he]
            rfl
          · rcases h3 with h3 | ⟨h3, h3'⟩
            · exact Or.inl h3
            · right
              have : start + 1 + count = start + (count + 1) := by omega
              rw [this] at h3 h3'
              exact ⟨h3, h3'⟩
          · intro hr hc; have := h4 hr hc; omega

/-- **C67 (a good database replays the whole range).** -/
theorem replay_complete (maxBlock start last : Nat) (hmax : last ≤ maxBlock)
    (as : List (Nat → Read)) (hgood : ∀ a ∈ as, ∀ n : Nat, a n = .block)
    (hlen : last + 1 - start ≤ as.length) :
    (replayRun maxBlock last (.active start) as).1 =
      blocksFrom start (last + 1 - start) ++
        List.replicate (as.length - (last + 1 - start)) none := by
  induction as generalizing start with
  | nil =>
    have : last + 1 - start = 0 := by simpa using hlen
    rw [this]; rfl
  | cons a r ih =>
    have hg : ∀ b ∈ r, ∀ n : Nat, b n = .block := fun b hb => hgood b (List.mem_cons_of_mem _ hb)
    by_cases hn : start > last
    · have h0 : last + 1 - start = 0 := by omega
      rw [h0]
      simp only [replayRun, replayPoll, if_pos hn, replayRun_done]
      rfl
    · have ha := hgood a (by simp) start
      simp only [List.length_cons] at hlen
      by_cases hl : start = last
      · have h1 : last + 1 - start = 1 := by omega
        rw [h1]
        simp only [replayRun, replayPoll, if_neg hn, ha, if_pos hl, replayRun_done,
          List.length_cons, Nat.add_sub_cancel]
        rfl
      · have hm : min (start + 1) maxBlock = start + 1 := by omega
        have hs : last + 1 - start = (last + 1 - (start + 1)) + 1 := by omega
        simp only [replayRun, replayPoll, if_neg hn, ha, if_neg hl, hm]
        rw [ih (start + 1) hg (by omega), hs]
        simp only [List.length_cons, Nat.add_sub_add_right]
        rfl

/-- The items a poll list holds. -/
def itemCount (l : List (Option Item)) : Nat := l.countP Option.isSome

/-- `size_hint` is honest: at every moment the number of items still to come is at most the upper
bound, and at least the lower bound once enough polls are made. -/
theorem size_hint_honest (maxBlock last : Nat) (hmax : last ≤ maxBlock) (c : Cursor)
    (as : List (Nat → Read)) :
    itemCount (replayRun maxBlock last c as).1 ≤ (sizeHint last c).2 ∧
      (as ≠ [] → (sizeHint last c).1 ≤ itemCount (replayRun maxBlock last c as).1) := by
  induction as generalizing c with
  | nil => exact ⟨Nat.zero_le _, fun h => absurd rfl h⟩
  | cons a r ih =>
    cases c with
    | done =>
      rw [replayRun_done]
      have h0 : itemCount (List.replicate (a :: r).length none) = 0 := by
        unfold itemCount; rw [List.countP_replicate]; rfl
      rw [h0]; exact ⟨Nat.le_refl _, fun _ => Nat.le_refl _⟩
    | active n =>
      by_cases hn : n > last
      · have hp : replayPoll maxBlock last (.active n) a = (none, .done) := by
          simp only [replayPoll, if_pos hn]
        have hz : itemCount (replayRun maxBlock last (.active n) (a :: r)).1 = 0 := by
          simp only [replayRun, hp, replayRun_done, itemCount]
          rw [List.countP_cons, List.countP_replicate]; rfl
        rw [hz]
        simp only [sizeHint, if_pos hn]
        exact ⟨Nat.le_refl _, fun _ => Nat.le_refl _⟩
      · simp only [sizeHint, if_neg hn]
        have hcons : ∀ (i : Item) (c' : Cursor), replayPoll maxBlock last (.active n) a = (some i, c') →
            itemCount (replayRun maxBlock last (.active n) (a :: r)).1 =
              itemCount (replayRun maxBlock last c' r).1 + 1 := by
          intro i c' hp
          simp only [replayRun, hp, itemCount]
          rw [List.countP_cons]; rfl
        cases ha : a n with
        | missing =>
          have := hcons (.err n) .done (by simp only [replayPoll, if_neg hn, ha])
          have h2 := (ih .done).1
          simp only [sizeHint] at h2
          omega
        | failed =>
          have := hcons (.err n) .done (by simp only [replayPoll, if_neg hn, ha])
          have h2 := (ih .done).1
          simp only [sizeHint] at h2
          omega
        | block =>
          by_cases hl : n = last
          · have := hcons (.note (.item (.chain n n))) .done (by simp only [replayPoll, if_neg hn, ha, if_pos hl])
            have h2 := (ih .done).1
            simp only [sizeHint] at h2
            omega
          · have hm : min (n + 1) maxBlock = n + 1 := by omega
            have := hcons (.note (.item (.chain n n))) (.active (n + 1)) (by simp only [replayPoll, if_neg hn, ha, if_neg hl, hm])
            have h2 := (ih (.active (n + 1))).1
            have h3 : ¬ (n + 1 > last) := by omega
            simp only [sizeHint, if_neg h3] at h2
            omega

/-! ### Examples -/

/-- Blocks 5..7, the read of 7 fails: 5, 6, the error for 7, then the end. -/
example : (replayRun (2 ^ 64 - 1) 8 (.active 5)
    (List.replicate 5 (fun n => if n = 7 then .failed else .block))).1 =
    [some (.note (.item (.chain 5 5))), some (.note (.item (.chain 6 6))), some (.err 7), none, none]
    := by decide

/-- A range that ends at the largest block number stops there. -/
example : (replayRun 9 9 (.active 8) (List.replicate 4 (fun _ => .block))).1 =
    [some (.note (.item (.chain 8 8))), some (.note (.item (.chain 9 9))), none, none] := by decide

end Verif.Exex
