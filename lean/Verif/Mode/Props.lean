import Verif.Mode.Inv

/-!
# The role of a node: what is proved (C106)

Every statement is about `c.exec e es`: the state after any list of events, from the first start of
the node in any epoch `e`. The events are interleaved freely, so a write of the mode can fall between
any two reads of it.
-/

namespace Verif.Mode

/-! ## Who takes part -/

/-- Whatever happens, a header is proposed, a certificate is sequenced and an output of our own
consensus is saved only in epochs whose committee has the node, and never by a node that is
configured as an observer. -/
theorem only_members_lead (c : Cfg) (e0 : Nat) (es : List Ev) (r e : Nat)
    (h : Act.propose r e ∈ (c.exec e0 es).acts ∨ Act.sequence r e ∈ (c.exec e0 es).acts ∨
      Act.cvvSave r e ∈ (c.exec e0 es).acts) :
    c.member e = true ∧ c.observer = false := by
  have i := exec_inv c e0 es
  rcases h with h | h | h
  · exact i.good _ h
  · exact i.good _ h
  · exact i.good _ h

/-- Votes are signed and batches are sealed only in epochs whose committee has the node; the
transactions of a batch are handed to the validators only in epochs whose committee does not. -/
theorem only_members_vote (c : Cfg) (e0 : Nat) (es : List Ev) (r e : Nat) (m : Mode) :
    (Act.vote r e m ∈ (c.exec e0 es).acts → c.member e = true) ∧
    (Act.sealBatch r e m ∈ (c.exec e0 es).acts → c.member e = true) ∧
    (Act.disburse r e ∈ (c.exec e0 es).acts → c.member e = false) :=
  ⟨fun h => (exec_inv c e0 es).good _ h, fun h => (exec_inv c e0 es).good _ h,
    fun h => (exec_inv c e0 es).good _ h⟩

/-- A node that is configured as an observer is one at every moment: it never proposes, sequences,
goes inactive, rejoins, nor subscribes to the topic of the batches. -/
theorem observer_stays (c : Cfg) (h : c.observer = true) (e0 : Nat) (es : List Ev) :
    (c.exec e0 es).mode = .observer ∧
    ∀ r e n l a, Act.propose r e ∉ (c.exec e0 es).acts ∧ Act.sequence r e ∉ (c.exec e0 es).acts ∧
      Act.cvvSave r e ∉ (c.exec e0 es).acts ∧ Act.demote r e ∉ (c.exec e0 es).acts ∧
      Act.rejoin r e n l a ∉ (c.exec e0 es).acts ∧ Act.topic r e true ∉ (c.exec e0 es).acts := by
  have i := exec_inv c e0 es
  have no : ¬ c.observer = false := by rw [h]; intro h; cases h
  exact ⟨i.obs h, fun r e n l a => ⟨fun m => no (i.good _ m).2, fun m => no (i.good _ m).2,
    fun m => no (i.good _ m).2, fun m => no (i.good _ m), fun m => no (i.good _ m).1,
    fun m => no (i.good _ m rfl)⟩⟩

/-- The start of the primary never fails on the identity of a validator it does not have, whenever
the mode is written. -/
theorem no_panic (c : Cfg) (e0 : Nat) (es : List Ev) (r e : Nat) :
    Act.panic r e ∉ (c.exec e0 es).acts :=
  fun h => (exec_inv c e0 es).good _ h

/-- While an epoch runs and its shutdown has not been signalled, the mode is active only in the
committee, and a node that can take part is not an observer. -/
theorem role_is_right (c : Cfg) (e0 : Nat) (es : List Ev)
    (hs : (c.exec e0 es).stage ≠ .idle) (hn : (c.exec e0 es).shut = false) :
    ((c.exec e0 es).mode = .active →
      c.member (c.exec e0 es).epoch = true ∧ c.observer = false) ∧
    ((c.exec e0 es).mode = .observer →
      c.member (c.exec e0 es).epoch = false ∨ c.observer = true) := by
  have i := exec_inv c e0 es
  have st := i.still hs hn
  exact ⟨fun h => i.entryActive hs (st.symm.trans h), fun h => i.entryOut hs (st.symm.trans h)⟩

/-! ## How the mode changes -/

theorem advance_mode {c : Cfg} {s : Sys} (i : Inv c s) : (c.advance s).mode = s.mode := by
  unfold Cfg.advance
  split
  · rfl
  · rfl
  · split <;> rfl
  · split <;> rfl
  · rename_i hs
    split
    · have hidle : s.stage ≠ .idle := by rw [hs]; intro h; cases h
      rw [if_pos (i.entryActive hidle (i.starting (Or.inr (Or.inl hs)))).1]
    · rfl
  · split <;> rfl
  · rfl
  · rfl

/-- Going inactive has two causes: a check of the request handler that found the node behind, begun
when it was active, and a fault found by the consensus task. In both cases the shutdown of the epoch
is signalled in the same step. -/
theorem going_inactive (c : Cfg) (e0 : Nat) (es : List Ev) (ev : Ev)
    (h : (c.exec e0 es).mode ≠ .inactive) (h' : (c.step (c.exec e0 es) ev).mode = .inactive) :
    (ev = .verdict true ∧ (c.exec e0 es).pending ≠ 0 ∨ ev = .bogus ∧
      (c.exec e0 es).consensus = true) ∧ (c.step (c.exec e0 es) ev).shut = true := by
  have i := exec_inv c e0 es
  revert h h'
  generalize c.exec e0 es = s at i
  intro h h'
  cases ev with
  | start =>
      dsimp only [Cfg.step] at h'
      split at h'
      · exfalso
        change c.identify s = _ at h'
        unfold Cfg.identify at h'
        rw [if_neg h] at h'
        split at h' <;> cases h'
      · exact absurd h' h
  | next => rw [show (c.step s .next).mode = s.mode from advance_mode i] at h'; exact absurd h' h
  | verdict b =>
      dsimp only [Cfg.step] at h' ⊢
      split at h'
      · exact absurd h' h
      · rename_i hp
        rw [if_neg hp]
        cases b
        · exact absurd h' h
        · exact ⟨Or.inl ⟨rfl, hp⟩, rfl⟩
  | bogus =>
      dsimp only [Cfg.step] at h' ⊢
      split at h'
      · rename_i hc; rw [if_pos hc]; exact ⟨Or.inr ⟨rfl, hc⟩, rfl⟩
      · exact absurd h' h
  | output n last age =>
      dsimp only [Cfg.step] at h'
      split at h'
      · exfalso
        revert h'
        unfold Sys.output
        split
        · exact h
        · split
          · exact h
          · split
            · intro h; cases h
            · exact h
        · exact h
      · exact absurd h' h
  | crash => exact absurd h' (initial_ne c)
  | replayed => dsimp only [Cfg.step] at h'; split at h' <;> exact absurd h' h
  | check => dsimp only [Cfg.step] at h'; split at h' <;> exact absurd h' h
  | sequence => dsimp only [Cfg.step] at h'; split at h' <;> exact absurd h' h
  | propose => dsimp only [Cfg.step] at h'; split at h' <;> exact absurd h' h
  | save => dsimp only [Cfg.step] at h'; split at h' <;> exact absurd h' h
  | spawnSync => dsimp only [Cfg.step] at h'; split at h' <;> exact absurd h' h
  | voteReq => dsimp only [Cfg.step] at h'; split at h' <;> exact absurd h' h
  | batch =>
      dsimp only [Cfg.step] at h'
      split at h'
      · split at h' <;> exact absurd h' h
      · exact absurd h' h
  | finish b => dsimp only [Cfg.step] at h'; split at h' <;> exact absurd h' h

/-- A node that is inactive leaves that mode in two ways only: its catch-up delivers the newest
output known, with that header less than five seconds old - then it is active, and the shutdown of
the epoch is signalled in the same step - or the process is started again. No end of an epoch, no
entry into another and no message does it. -/
theorem leaving_inactive (c : Cfg) (e0 : Nat) (es : List Ev) (ev : Ev)
    (h : (c.exec e0 es).mode = .inactive) (h' : (c.step (c.exec e0 es) ev).mode ≠ .inactive) :
    ev = .crash ∨ ∃ n age : Nat, ev = .output n (some n) age ∧ age < 5 ∧
      (c.exec e0 es).sub = some .rejoin ∧ (c.step (c.exec e0 es) ev).mode = .active ∧
      (c.step (c.exec e0 es) ev).shut = true := by
  have i := exec_inv c e0 es
  revert h h'
  generalize c.exec e0 es = s at i
  intro h h'
  cases ev with
  | start =>
      dsimp only [Cfg.step] at h'
      split at h'
      · exfalso; apply h'
        show c.identify s = _
        unfold Cfg.identify; rw [if_pos h]
      · exact absurd h h'
  | next => rw [show (c.step s .next).mode = s.mode from advance_mode i] at h'; exact absurd h h'
  | verdict b =>
      dsimp only [Cfg.step] at h'
      split at h'
      · exact absurd h h'
      · cases b
        · exact absurd h h'
        · exact absurd rfl h'
  | bogus =>
      dsimp only [Cfg.step] at h'
      split at h'
      · exact absurd rfl h'
      · exact absurd h h'
  | output n last age =>
      dsimp only [Cfg.step] at h' ⊢
      split at h'
      · rename_i hy
        rw [if_pos hy]
        revert h'
        unfold Sys.output
        split
        · intro h'; exact absurd h h'
        · split
          · intro h'; exact absurd h h'
          · split
            · rename_i hc
              intro _
              refine Or.inr ⟨n, age, ?_, hc.2, by assumption, rfl, rfl⟩
              rw [hc.1]
            · intro h'; exact absurd h h'
        · intro h'; exact absurd h h'
      · exact absurd h h'
  | crash => exact Or.inl rfl
  | replayed => dsimp only [Cfg.step] at h'; split at h' <;> exact absurd h h'
  | check => dsimp only [Cfg.step] at h'; split at h' <;> exact absurd h h'
  | sequence => dsimp only [Cfg.step] at h'; split at h' <;> exact absurd h h'
  | propose => dsimp only [Cfg.step] at h'; split at h' <;> exact absurd h h'
  | save => dsimp only [Cfg.step] at h'; split at h' <;> exact absurd h h'
  | spawnSync => dsimp only [Cfg.step] at h'; split at h' <;> exact absurd h h'
  | voteReq => dsimp only [Cfg.step] at h'; split at h' <;> exact absurd h h'
  | batch =>
      dsimp only [Cfg.step] at h'
      split at h'
      · split at h' <;> exact absurd h h'
      · exact absurd h h'
  | finish b => dsimp only [Cfg.step] at h'; split at h' <;> exact absurd h h'

/-- Every rejoin in the life of the node was at the newest header, and that header was not five
seconds old. -/
theorem rejoin_caught_up (c : Cfg) (e0 : Nat) (es : List Ev) (r e n last age : Nat)
    (h : Act.rejoin r e n last age ∈ (c.exec e0 es).acts) : n = last ∧ age < 5 :=
  ((exec_inv c e0 es).good _ h).2

/-- A node that is inactive was demoted in an epoch in which it could take part. -/
theorem inactive_was_member (c : Cfg) (e0 : Nat) (es : List Ev)
    (h : (c.exec e0 es).mode = .inactive) :
    ∃ r e : Nat, Act.demote r e ∈ (c.exec e0 es).acts ∧ c.member e = true ∧ c.observer = false :=
  (exec_inv c e0 es).why h

/-- Within one start of an epoch the mode is the one the epoch was entered with, until the shutdown
is signalled. -/
theorem mode_fixed (c : Cfg) (e0 : Nat) (es : List Ev) (hs : (c.exec e0 es).stage ≠ .idle)
    (hn : (c.exec e0 es).shut = false) : (c.exec e0 es).mode = (c.exec e0 es).entry :=
  (exec_inv c e0 es).still hs hn

/-- The role of the next start: inactive if the node is inactive, active if it may take part, else
observer. -/
theorem entry_role (c : Cfg) (s : Sys) (hs : s.stage = .idle) :
    (s.mode = .inactive → (c.step s .start).mode = .inactive) ∧
    (s.mode ≠ .inactive → c.member s.epoch = true → c.observer = false →
      (c.step s .start).mode = .active) ∧
    (s.mode ≠ .inactive → (c.member s.epoch = false ∨ c.observer = true) →
      (c.step s .start).mode = .observer) := by
  have e : (c.step s .start).mode = c.identify s := by
    dsimp only [Cfg.step]; rw [if_pos hs]; rfl
  rw [e]
  unfold Cfg.identify
  refine ⟨fun h => if_pos h, fun h h1 h2 => ?_, fun h h1 => ?_⟩
  · rw [if_neg h, if_neg (by simp [h1, h2])]
  · rw [if_neg h, if_pos (by rcases h1 with h1 | h1 <;> simp [h1])]

/-- A start begins afresh: no shutdown is signalled and no task of the epoch before is left, so that the
mode is fixed from here until this epoch's own shutdown. -/
theorem start_fresh (c : Cfg) (s : Sys) (hs : s.stage = .idle) :
    (c.step s .start).shut = false ∧ (c.step s .start).consensus = false ∧
    (c.step s .start).proposer = false ∧ (c.step s .start).sub = none ∧
    (c.step s .start).sync = false ∧ (c.step s .start).pending = 0 ∧
    (c.step s .start).entry = (c.step s .start).mode := by
  dsimp only [Cfg.step]; rw [if_pos hs]; exact ⟨rfl, rfl, rfl, rfl, rfl, rfl, rfl⟩

/-- From the catch-up of an inactive node: once the newest output is delivered in time, the epoch is
left and entered again, as an active node if it is in the committee and as an observer if not. -/
theorem catch_up_resolves (c : Cfg) (e0 : Nat) (es : List Ev) (n age : Nat) (ha : age < 5)
    (hs : (c.exec e0 es).sub = some .rejoin) (hy : (c.exec e0 es).sync = true) :
    (c.exec e0 (es ++ [.output n (some n) age, .finish false, .start])).mode =
      (if c.member (c.exec e0 es).epoch = true then .active else .observer) ∧
    (c.exec e0 (es ++ [.output n (some n) age, .finish false, .start])).epoch =
      (c.exec e0 es).epoch := by
  have i := exec_inv c e0 es
  have ex : c.exec e0 (es ++ [.output n (some n) age, .finish false, .start]) =
      c.step (c.step (c.step (c.exec e0 es) (.output n (some n) age)) (.finish false)) .start := by
    unfold Cfg.exec; rw [List.foldl_append]; rfl
  rw [ex]
  revert hs hy
  generalize c.exec e0 es = s at i
  intro hs hy
  have hrun : s.stage = .running := i.subRuns (by rw [hs]; intro h; cases h)
  have hob : c.observer = false := by
    cases h : c.observer
    · rfl
    · have := i.obs h; rw [(i.subRejoin hs).2.2] at this; cases this
  have o : c.step s (.output n (some n) age) = s.output n (some n) age := by
    dsimp only [Cfg.step]; rw [if_pos hy]
  have o2 : ∃ t : Sys, c.step s (.output n (some n) age) = t ∧ t.mode = .active ∧ t.shut = true ∧
      t.stage = .running ∧ t.epoch = s.epoch := by
    rw [o]
    unfold Sys.output
    rw [hs]
    dsimp only
    rw [if_pos ⟨rfl, ha⟩]
    exact ⟨_, rfl, rfl, rfl, hrun, rfl⟩
  obtain ⟨t, ht, m, sh, st, ep⟩ := o2
  rw [ht]
  have f : c.step t (.finish false) = t.finish false := by
    dsimp only [Cfg.step]; rw [if_pos ⟨st, Or.inr sh⟩]
  rw [f]
  have k := entry_role c (t.finish false) rfl
  have me : (t.finish false).mode ≠ .inactive := by
    show t.mode ≠ _; rw [m]; intro h; cases h
  have ee : (t.finish false).epoch = s.epoch := ep
  refine ⟨?_, ?_⟩
  · rw [ee] at k
    cases hm : c.member s.epoch
    · rw [if_neg (by intro h; cases h)]; exact k.2.2 me (Or.inl hm)
    · rw [if_pos rfl]; exact k.2.1 me hm hob
  · show (c.step (t.finish false) .start).epoch = s.epoch
    dsimp only [Cfg.step]
    rw [if_pos (show (t.finish false).stage = .idle from rfl)]
    exact ee

/-! ## Where outputs come from -/

/-- Within one start of an epoch, outputs are saved and sent to execution by one source: our own
consensus or state sync, never both. -/
theorem one_source (c : Cfg) (e0 : Nat) (es : List Ev) (r e e' : Nat)
    (h : Act.cvvSave r e ∈ (c.exec e0 es).acts) (h' : Act.syncSave r e' ∈ (c.exec e0 es).acts) :
    False :=
  (exec_inv c e0 es).apart _ h _ h' rfl rfl rfl

/-- A subscriber that follows always gets its state sync: the second read of the mode, inside the
spawning of state sync, cannot find the node active. -/
theorem follower_has_sync (c : Cfg) (e0 : Nat) (es : List Ev)
    (h : (c.exec e0 es).sub = some .rejoin ∨ (c.exec e0 es).sub = some .follow) :
    (c.step (c.exec e0 es) .spawnSync).sync = true := by
  have i := exec_inv c e0 es
  revert h
  generalize c.exec e0 es = s at i
  intro h
  have hm : s.mode ≠ .active := by
    rcases h with h | h
    · rw [(i.subRejoin h).2.2]; intro h; cases h
    · have hrun : s.stage = .running := i.subRuns (by rw [h]; intro h; cases h)
      rw [i.entryObserver (by rw [hrun]; intro h; cases h) (i.subFollow h)]; intro h; cases h
  dsimp only [Cfg.step]
  rw [if_pos ⟨h, hm⟩]

/-! ## Examples -/

/-- The stages of a start, in one go. -/
def up : List Ev := [.start, .next, .next, .next, .next, .next, .next]

/-- A validator of every epoch. -/
def validator : Cfg := ⟨false, fun _ => true⟩

/-- A validator proposes, is found behind, catches up - an output that is not the newest and one that
is stale do not make it rejoin -, rejoins and proposes again. -/
theorem life_example :
    (validator.exec 3 (up ++ [.propose, .sequence, .save, .check, .verdict true, .finish false] ++
      up ++ [.propose, .spawnSync, .output 7 (some 9) 1, .output 8 (some 8) 60, .output 9 (some 9) 2,
        .finish false] ++ up ++ [.propose])).acts =
      [.topic 1 3 true, .propose 1 3, .sequence 1 3, .cvvSave 1 3, .demote 1 3, .topic 2 3 true,
        .syncSave 2 3, .syncSave 2 3, .syncSave 2 3, .rejoin 2 3 9 9 2, .topic 3 3 true,
        .propose 3 3] := by
  decide

/-- A write between two reads: the node is demoted after its consensus task is spawned and before the
proposer is. The proposer is not spawned, the catch-up is, and the epoch is to shut down. -/
theorem race_example :
    let s := validator.exec 3 [.start, .next, .check, .next, .next, .verdict true, .next, .next,
      .next]
    s.consensus = true ∧ s.proposer = false ∧ s.sub = some .rejoin ∧ s.shut = true ∧
      s.mode = .inactive := by
  decide

/-- A validator up to epoch 3 only. -/
def leaving : Cfg := ⟨false, fun e => decide (e ≤ 3)⟩

/-- Finding: the mode is kept over the boundary, so a validator that is inactive when its committee
ends is "inactive validator" in epochs whose committee does not have it: it subscribes to the topic
of the batches there and goes through the catch-up of a validator, at whose end its mode is active -
outside the committee - until the epoch is entered again; only then is it an observer. -/
theorem outsider_example :
    let es := up ++ [Ev.check, .verdict true, .finish false] ++ up ++ [.finish true] ++ up
    (leaving.exec 3 es).epoch = 4 ∧ leaving.member 4 = false ∧
    (leaving.exec 3 es).mode = .inactive ∧
    (leaving.exec 3 es).acts = [.topic 1 3 true, .demote 1 3, .topic 2 3 true, .topic 3 4 true] ∧
    (leaving.exec 3 (es ++ [.spawnSync, .output 9 (some 9) 1])).mode = .active ∧
    (leaving.exec 3 (es ++ [.spawnSync, .output 9 (some 9) 1, .finish false, .start])).mode =
      .observer := by
  decide

/-- A node in the committee that is configured as an observer. -/
def flagged : Cfg := ⟨true, fun _ => true⟩

/-- Finding: the vote handler and the worker look at the committee and not at the mode. A member of
the committee that is configured as an observer signs votes, and seals its batches for a proposer
that does not run instead of handing their transactions to the validators. -/
theorem observer_votes_example :
    (flagged.exec 3 (up ++ [.voteReq, .batch, .propose])).acts =
      [.topic 1 3 false, .vote 1 3 .observer, .sealBatch 1 3 .observer] := by
  decide

/-- In general: in such a node every batch is sealed, none is handed on, and nothing is ever
proposed. -/
theorem flagged_batches (c : Cfg) (h : c.observer = true) (e0 : Nat) (es : List Ev)
    (hm : c.member (c.exec e0 es).epoch = true) (hs : (c.exec e0 es).stage = .running) :
    (c.step (c.exec e0 es) .batch).acts = (c.exec e0 es).acts ++
      [.sealBatch (c.exec e0 es).run (c.exec e0 es).epoch .observer] ∧
    ∀ r e : Nat, Act.propose r e ∉ (c.exec e0 (es ++ [.batch])).acts := by
  refine ⟨?_, fun r e => ((observer_stays c h e0 (es ++ [.batch])).2 r e 0 0 0).1⟩
  dsimp only [Cfg.step]
  rw [if_pos hs, if_pos hm, ← (observer_stays c h e0 es).1]
  rfl

/-- The same for an inactive validator, for as long as it is inactive. -/
theorem inactive_seals_example :
    (validator.exec 3 (up ++ [.check, .verdict true, .finish false] ++ up ++
      [.voteReq, .batch, .propose])).acts =
      [.topic 1 3 true, .demote 1 3, .topic 2 3 true, .vote 2 3 .inactive,
        .sealBatch 2 3 .inactive] := by
  decide

end Verif.Mode
