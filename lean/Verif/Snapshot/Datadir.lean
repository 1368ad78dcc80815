import Mathlib.Tactic.Common

/-!
# Restoring into a data directory

Models the order in which `db load-state` (`crates/telcoin-network-cli/src/db.rs:186-347`) makes its changes durable,
its cleanup after a failure, and the marker below which reads are refused (`crates/tn-reth/src/env/mod.rs`). The process
may stop after any change. What is restored is modelled in `Verif.Snapshot.Restore`; here a state is only the height
it belongs to.
-/
namespace Verif.Snapshot.Datadir

/-- What the state tables hold: the state of the genesis block, nothing (cleared by the scaffold), the state imported
at a height, or that of a node that has executed every block. -/
inductive State
  | genesis | cleared | imported (b : Nat) | full
deriving DecidableEq, Repr

/-- A data directory: which of the three chain-data directories exist (`chain_data_dirs`, db.rs:313-315), the height the header files
have reached, what the state tables hold, the marker file `restored-state-floor` and whether the consensus packs are complete. -/
structure Disk where
  db : Bool := false
  files : Bool := false
  cons : Bool := false
  tip : Nat := 0
  state : State := .genesis
  marker : Option Nat := none
  packs : Bool := false
deriving DecidableEq, Repr

/-- Where the command is. `cleaning k` has dealt with `k` of the directories. -/
inductive Pc
  | start | opened | checked | marked | headers | scaffolded | imported | ready | finished | restoring | done
  | cleaning (k : Nat) | failed
deriving DecidableEq, Repr

/-- Removing one of the directories: `db`, `static_files`, `consensus-db`. -/
def Disk.drop (d : Disk) : Nat → Disk
  | 0 => { d with db := false, state := .genesis }
  | 1 => { d with files := false, tip := 0 }
  | _ => { d with cons := false, packs := false }

/-- Whether the directory is there. -/
def Disk.has (d : Disk) : Nat → Bool
  | 0 => d.db
  | 1 => d.files
  | _ => d.cons

/-- One step of the command on a datadir that was `d0` when it started, for a bundle of block `b`. `lossy` is whether the
removal of a directory or of the marker may fail. Every step up to the last can fail (a refused bundle, a full disk); the checks
made before anything is written (db.rs:206-246) are not steps. -/
inductive Step (d0 : Disk) (b : Nat) (lossy : Bool) : Pc × Disk → Pc × Disk → Prop
  /-- `RethEnv::new_database` and `RethEnv::new` (db.rs:547 and :556) create what is missing and write the genesis block. -/
  | create (d : Disk) : Step d0 b lossy (.start, d) (.opened, { d with db := true, files := true })
  /-- `SnapshotRestorer::open` refuses a tip above zero (snapshot.rs:490-500). -/
  | refuse (d : Disk) (h : 0 < d.tip) : Step d0 b lossy (.opened, d) (.cleaning 0, d)
  | accept (d : Disk) (h : d.tip = 0) (hb : 1 ≤ b) : Step d0 b lossy (.opened, d) (.checked, d)
  /-- `write_restored_state_floor` (snapshot.rs:610, env/mod.rs:275-300): durable when it returns. -/
  | mark (d : Disk) : Step d0 b lossy (.checked, d) (.marked, { d with marker := some b })
  /-- `sf.commit()`, snapshot.rs:~738. -/
  | commitFiles (d : Disk) : Step d0 b lossy (.marked, d) (.headers, { d with tip := b })
  /-- `provider_rw.commit()`, snapshot.rs:~739: with it the state tables are cleared. -/
  | commitDb (d : Disk) : Step d0 b lossy (.headers, d) (.scaffolded, { d with state := .cleared })
  /-- `import_state`'s commit, snapshot.rs:888: all of the state at once. -/
  | importState (d : Disk) : Step d0 b lossy (.scaffolded, d) (.imported, { d with state := .imported b })
  /-- `entry_readiness_precondition`, which writes nothing. -/
  | readiness (d : Disk) : Step d0 b lossy (.imported, d) (.ready, d)
  /-- `finish`, whose markers are not modelled. -/
  | finish (d : Disk) : Step d0 b lossy (.ready, d) (.finished, d)
  /-- `restore_consensus_and_records` (db.rs:597-690) creates its directory and fills it. -/
  | consBegin (d : Disk) : Step d0 b lossy (.finished, d) (.restoring, { d with cons := true })
  | consEnd (d : Disk) : Step d0 b lossy (.restoring, d) (.done, { d with packs := true })
  /-- Any step may fail. -/
  | fail (pc : Pc) (d : Disk) (h1 : pc ≠ .done) (h2 : ∀ k, pc ≠ .cleaning k) (h3 : pc ≠ .failed) :
      Step d0 b lossy (pc, d) (.cleaning 0, d)
  /-- `clean_created_chain_data` (db.rs:328-347): a directory that was there before is kept, -/
  | keep (k : Nat) (d : Disk) (hk : k < 3) (h : d0.has k = true) : Step d0 b lossy (.cleaning k, d) (.cleaning (k + 1), d)
  /-- another is removed, -/
  | remove (k : Nat) (d : Disk) (hk : k < 3) (h : d0.has k = false) : Step d0 b lossy (.cleaning k, d) (.cleaning (k + 1), d.drop k)
  /-- or cannot be, which is only reported; -/
  | stuck (k : Nat) (d : Disk) (hk : k < 3) (h : d0.has k = false) (hl : lossy = true) :
      Step d0 b lossy (.cleaning k, d) (.cleaning (k + 1), d)
  /-- and then the marker is removed, whatever has happened. -/
  | unmark (d : Disk) : Step d0 b lossy (.cleaning 3, d) (.failed, { d with marker := none })
  | unmarkStuck (d : Disk) (hl : lossy = true) : Step d0 b lossy (.cleaning 3, d) (.failed, d)

/-- What a run may have come to; a crash leaves the disk of any of these. -/
inductive Run (d0 : Disk) (b : Nat) (lossy : Bool) : Pc × Disk → Prop
  | start : Run d0 b lossy (.start, d0)
  | step {x y : Pc × Disk} : Run d0 b lossy x → Step d0 b lossy x y → Run d0 b lossy y

/-! ## Specification -/

/-- `read_only_state_db` (env/mod.rs:385-400): a read pinned to the block at height `n` goes ahead if the datadir has the
header and `n` is not below the marker. -/
def Admitted (d : Disk) (n : Nat) : Prop := n ≤ d.tip ∧ ∀ m, d.marker = some m → m ≤ n

/-- Whether the state at a height can be read from what the tables hold; a read of another height finds no rows and takes
every account for one never written. -/
def Holds (d : Disk) (n : Nat) : Prop := match d.state with
  | .genesis => n = 0
  | .cleared => False
  | .imported b => b ≤ n
  | .full => True

/-- No chain data. The marker of an earlier attempt may be there. -/
def NoChainData (d : Disk) : Prop := d.db = false ∧ d.files = false ∧ d.cons = false ∧ d.tip = 0 ∧ d.state = .genesis ∧ d.packs = false

/-! ## Into an empty datadir -/

/-- What holds at each point of a run on a datadir without chain data, if directories can be removed. -/
def At (d0 : Disk) (b : Nat) : Pc → Disk → Prop
  | .start, d => d = d0
  | .opened, d => d = { d0 with db := true, files := true }
  | .checked, d => d = { d0 with db := true, files := true } ∧ 1 ≤ b
  | .marked, d => d.marker = some b ∧ d.tip = 0 ∧ d.state = .genesis
  | .headers, d => d.marker = some b ∧ d.tip = b ∧ d.state = .genesis
  | .scaffolded, d => d.marker = some b ∧ d.tip = b ∧ d.state = .cleared
  | .imported, d => d.marker = some b ∧ d.tip = b ∧ d.state = .imported b
  | .ready, d => d.marker = some b ∧ d.tip = b ∧ d.state = .imported b
  | .finished, d => d.marker = some b ∧ d.tip = b ∧ d.state = .imported b
  | .restoring, d => d.marker = some b ∧ d.tip = b ∧ d.state = .imported b ∧ d.cons = true
  | .done, d => d.marker = some b ∧ d.tip = b ∧ d.state = .imported b ∧ d.cons = true ∧ d.packs = true
  | .cleaning k, d => (d.tip = 0 ∨ (d.tip = b ∧ d.marker = some b)) ∧ (0 < k → d.db = false ∧ d.state = .genesis) ∧
      (1 < k → d.files = false ∧ d.tip = 0) ∧ (2 < k → d.cons = false ∧ d.packs = false) ∧ k ≤ 3
  | .failed, d => NoChainData d ∧ d.marker = none

theorem run_at {d0 : Disk} {b : Nat} (h0 : NoChainData d0) {x : Pc × Disk} (h : Run d0 b false x) : At d0 b x.1 x.2 := by
  induction h with
  | start => rfl
  | step _ hs ih =>
    obtain ⟨z1, z2, z3, z4, z5, z6⟩ := h0
    cases hs with
    | create d => dsimp only [At] at ih ⊢; rw [ih]
    | refuse d h =>
      dsimp only [At] at ih
      rw [ih] at h
      dsimp only at h
      omega
    | accept d h hb => dsimp only [At] at ih ⊢; exact ⟨ih, hb⟩
    | mark d =>
      dsimp only [At] at ih ⊢
      rw [ih.1]
      exact ⟨rfl, z4, z5⟩
    | commitFiles d => dsimp only [At] at ih ⊢; exact ⟨ih.1, rfl, ih.2.2⟩
    | commitDb d => dsimp only [At] at ih ⊢; exact ⟨ih.1, ih.2.1, rfl⟩
    | importState d => dsimp only [At] at ih ⊢; exact ⟨ih.1, ih.2.1, rfl⟩
    | readiness d => exact ih
    | finish d => exact ih
    | consBegin d => dsimp only [At] at ih ⊢; exact ⟨ih.1, ih.2.1, ih.2.2, rfl⟩
    | consEnd d => dsimp only [At] at ih ⊢; exact ⟨ih.1, ih.2.1, ih.2.2.1, ih.2.2.2, rfl⟩
    | fail pc d h1 h2 h3 =>
      refine ⟨?_, by omega, by omega, by omega, by omega⟩
      cases pc <;> dsimp only [At] at ih
      · rw [ih]; exact .inl z4
      · rw [ih]; exact .inl z4
      · rw [ih.1]; exact .inl z4
      · exact .inl ih.2.1
      · exact .inr ⟨ih.2.1, ih.1⟩
      · exact .inr ⟨ih.2.1, ih.1⟩
      · exact .inr ⟨ih.2.1, ih.1⟩
      · exact .inr ⟨ih.2.1, ih.1⟩
      · exact .inr ⟨ih.2.1, ih.1⟩
      · exact .inr ⟨ih.2.1, ih.1⟩
      · exact absurd rfl h1
      · exact absurd rfl (h2 _)
      · exact absurd rfl h3
    | keep k d hk h =>
      exfalso
      match k, hk with
      | 0, _ => simp [Disk.has, z1] at h
      | 1, _ => simp [Disk.has, z2] at h
      | 2, _ => simp [Disk.has, z3] at h
    | remove k d hk h =>
      dsimp only [At] at ih ⊢
      obtain ⟨i1, i2, i3, i4, i5⟩ := ih
      match k, hk with
      | 0, _ => exact ⟨i1, fun _ => ⟨rfl, rfl⟩, by omega, by omega, by omega⟩
      | 1, _ => exact ⟨.inl rfl, fun _ => i2 (by omega), fun _ => ⟨rfl, rfl⟩, by omega, by omega⟩
      | 2, _ => exact ⟨i1, fun _ => i2 (by omega), fun _ => i3 (by omega), fun _ => ⟨rfl, rfl⟩, by omega⟩
    | stuck k d hk h hl => cases hl
    | unmark d =>
      dsimp only [At] at ih ⊢
      obtain ⟨i1, i2, i3, i4, i5⟩ := ih
      exact ⟨⟨(i2 (by omega)).1, (i3 (by omega)).1, (i4 (by omega)).1, (i3 (by omega)).2, (i2 (by omega)).2, (i4 (by omega)).2⟩, rfl⟩
    | unmarkStuck d hl => cases hl

/-- **No restored header without its floor.** Into a datadir without chain data, with whatever is left of an earlier
marker, and wherever the process stops, even inside its own cleanup: a read of a block below the snapshot's, other than
the genesis block, is refused. -/
theorem floor_first {d0 : Disk} {b : Nat} (h0 : NoChainData d0) {pc : Pc} {d : Disk} (h : Run d0 b false (pc, d)) :
    ∀ n, 0 < n → n < b → ¬ Admitted d n := by
  have hat := run_at h0 h
  obtain ⟨z1, z2, z3, z4, z5, z6⟩ := h0
  intro n hn hb ⟨ht, hm⟩
  have key : d.tip = 0 ∨ d.marker = some b := by
    cases pc <;> dsimp only [At] at hat
    · rw [hat]; exact .inl z4
    · rw [hat]; exact .inl z4
    · rw [hat.1]; exact .inl z4
    · exact .inr hat.1
    · exact .inr hat.1
    · exact .inr hat.1
    · exact .inr hat.1
    · exact .inr hat.1
    · exact .inr hat.1
    · exact .inr hat.1
    · exact .inr hat.1
    · rcases hat.1 with h | h
      · exact .inl h
      · exact .inr h.2
    · exact .inl hat.1.2.2.2.1
  rcases key with h | h
  · omega
  · have := hm b h
    omega

/-- **A restore that reports success.** Every read that goes ahead finds the state it asks for; the tip is the
snapshot's block and the consensus packs are complete. -/
theorem success {d0 : Disk} {b : Nat} (h0 : NoChainData d0) {d : Disk} (h : Run d0 b false (.done, d)) :
    d.tip = b ∧ d.state = .imported b ∧ d.packs = true ∧ (∀ n, Admitted d n → Holds d n) ∧ Admitted d b := by
  have hat := run_at h0 h
  dsimp only [At] at hat
  obtain ⟨h1, h2, h3, _, h5⟩ := hat
  refine ⟨h2, h3, h5, ?_, by omega, ?_⟩
  · intro n ⟨_, hm⟩
    unfold Holds
    rw [h3]
    exact hm b h1
  · intro m hm
    rw [h1] at hm
    cases hm
    exact Nat.le_refl _

/-- **A restore that reports failure.** Nothing of it is left, nor a stale marker, and the command can be run again. -/
theorem failure {d0 : Disk} {b : Nat} (h0 : NoChainData d0) {d : Disk} (h : Run d0 b false (.failed, d)) :
    NoChainData d ∧ d.marker = none := run_at h0 h

/-! ## Into a datadir that is in use -/

/-- What holds while the command runs on a datadir with a tip above zero. -/
theorem run_used {d0 : Disk} {b : Nat} {lossy : Bool} (h0 : 0 < d0.tip) (h1 : d0.db = true) (h2 : d0.files = true)
    {x : Pc × Disk} (h : Run d0 b lossy x) :
    x.2.tip = d0.tip ∧ x.2.state = d0.state ∧ x.2.db = true ∧ x.2.files = true ∧
      (x.1 = .start ∨ x.1 = .opened ∨ (∃ k, x.1 = .cleaning k) ∨ x.1 = .failed) := by
  induction h with
  | start => exact ⟨rfl, rfl, h1, h2, .inl rfl⟩
  | step _ hs ih =>
    obtain ⟨i1, i2, i3, i4, i5⟩ := ih
    cases hs with
    | create d => exact ⟨i1, i2, rfl, rfl, .inr (.inl rfl)⟩
    | refuse d h => exact ⟨i1, i2, i3, i4, .inr (.inr (.inl ⟨0, rfl⟩))⟩
    | accept d h hb => dsimp only at i1; omega
    | fail pc d _ _ _ => exact ⟨i1, i2, i3, i4, .inr (.inr (.inl ⟨0, rfl⟩))⟩
    | keep k d hk h => exact ⟨i1, i2, i3, i4, .inr (.inr (.inl ⟨k + 1, rfl⟩))⟩
    | remove k d hk h =>
      match k, hk with
      | 0, _ => simp [Disk.has, h1] at h
      | 1, _ => simp [Disk.has, h2] at h
      | 2, _ => exact ⟨i1, i2, i3, i4, .inr (.inr (.inl ⟨3, rfl⟩))⟩
    | stuck k d hk h hl => exact ⟨i1, i2, i3, i4, .inr (.inr (.inl ⟨k + 1, rfl⟩))⟩
    | unmark d => exact ⟨i1, i2, i3, i4, .inr (.inr (.inr rfl))⟩
    | unmarkStuck d hl => exact ⟨i1, i2, i3, i4, .inr (.inr (.inr rfl))⟩
    | _ => rcases i5 with i | i | ⟨k, i⟩ | i <;> simp at i

/-- **Data of a node is not overwritten.** Run on a datadir that has blocks, the command never succeeds and leaves
headers and state as they were, wherever it stops. -/
theorem used_kept_partial {d0 : Disk} {b : Nat} {lossy : Bool} (h0 : 0 < d0.tip) (h1 : d0.db = true) (h2 : d0.files = true)
    {pc : Pc} {d : Disk} (h : Run d0 b lossy (pc, d)) : pc ≠ .done ∧ d.tip = d0.tip ∧ d.state = d0.state := by
  obtain ⟨a1, a2, _, _, a5⟩ := run_used h0 h1 h2 h
  refine ⟨?_, a1, a2⟩
  intro hd
  dsimp only at a5
  subst hd
  simp at a5

/-! ## What goes wrong -/

/-- The refusal of a datadir that has blocks, and the cleanup behind it. -/
theorem refused_run (d0 : Disk) (b : Nat) (h0 : 0 < d0.tip) (h1 : d0.db = true) (h2 : d0.files = true) (h3 : d0.cons = true) :
    Run d0 b false (.failed, { d0 with marker := none }) := by
  have e : ({ d0 with db := true, files := true } : Disk) = d0 := by cases d0; simp_all
  have r1 : Run d0 b false (.opened, d0) := by
    have := Run.step (b := b) (lossy := false) (.start (d0 := d0)) (.create d0)
    rw [e] at this
    exact this
  have r2 := Run.step r1 (.refuse d0 h0)
  have r3 := Run.step r2 (.keep 0 d0 (by decide) h1)
  have r4 := Run.step r3 (.keep 1 d0 (by decide) h2)
  have r5 := Run.step r4 (.keep 2 d0 (by decide) h3)
  exact Run.step r5 (.unmark d0)

/-- **A second run takes the floor away.** On a datadir restored with success, `db load-state` is refused, as it should
be, but the cleanup that follows removes the marker: reads of the blocks below the snapshot then go ahead and find
nothing. -/
theorem rerun_loses_floor {d0 : Disk} {b b' : Nat} (h0 : NoChainData d0) {d : Disk} (h : Run d0 b false (.done, d))
    (hdirs : d.db = true ∧ d.files = true) :
    ∃ d', Run d b' false (.failed, d') ∧ d'.tip = b ∧ d'.state = .imported b ∧
      ∀ n, 0 < n → n < b → Admitted d' n ∧ ¬ Holds d' n := by
  have hat := run_at h0 h
  dsimp only [At] at hat
  obtain ⟨h1, h2, h3, h4, _⟩ := hat
  rcases Nat.eq_zero_or_pos b with hz | hpos
  · exfalso
    -- the run has passed `accept`, which wants a block
    subst hz
    have : ∀ x : Pc × Disk, Run d0 0 false x → x.1 = .start ∨ x.1 = .opened ∨ (∃ k, x.1 = .cleaning k) ∨ x.1 = .failed := by
      intro x hx
      induction hx with
      | start => exact .inl rfl
      | step _ hs ih =>
        cases hs with
        | create d => exact .inr (.inl rfl)
        | refuse d h => exact .inr (.inr (.inl ⟨0, rfl⟩))
        | accept d h hb => omega
        | fail pc d _ _ _ => exact .inr (.inr (.inl ⟨0, rfl⟩))
        | keep k d hk h => exact .inr (.inr (.inl ⟨k + 1, rfl⟩))
        | remove k d hk h => exact .inr (.inr (.inl ⟨k + 1, rfl⟩))
        | stuck k d hk h hl => exact .inr (.inr (.inl ⟨k + 1, rfl⟩))
        | unmark d => exact .inr (.inr (.inr rfl))
        | unmarkStuck d hl => exact .inr (.inr (.inr rfl))
        | _ => rcases ih with i | i | ⟨k, i⟩ | i <;> simp at i
    have := this _ h
    simp at this
  · refine ⟨{ d with marker := none }, refused_run d b' (by omega) hdirs.1 hdirs.2 h4, h2, h3, ?_⟩
    intro n hn hb
    refine ⟨⟨by dsimp only; omega, by intro m hm; cases hm⟩, ?_⟩
    unfold Holds
    dsimp only
    rw [h3]
    dsimp only
    omega

/-- A node that was started once and has only the genesis block. -/
def started : Disk := { db := true, files := true, cons := true }

/-- **A failed import on a datadir with only the genesis block.** The directories are kept because they were there
before, with the headers up to the snapshot's block and no state at all, the marker is removed, and the message says that the
data has been removed. -/
theorem failed_import_left (b : Nat) (hb : 2 ≤ b) : ∃ d, Run started b false (.failed, d) ∧ d.tip = b ∧ d.state = .cleared ∧
    ∀ n, 0 < n → n ≤ b → Admitted d n ∧ ¬ Holds d n := by
  have r1 := Run.step (b := b) (lossy := false) (.start (d0 := started)) (.create started)
  have r2 := Run.step r1 (.accept _ rfl (by omega))
  have r3 := Run.step r2 (.mark _)
  have r4 := Run.step r3 (.commitFiles _)
  have r5 := Run.step r4 (.commitDb _)
  have r6 := Run.step r5 (.fail .scaffolded _ (by simp) (by simp) (by simp))
  have r7 := Run.step r6 (.keep 0 _ (by decide) rfl)
  have r8 := Run.step r7 (.keep 1 _ (by decide) rfl)
  have r9 := Run.step r8 (.keep 2 _ (by decide) rfl)
  have r10 := Run.step r9 (.unmark _)
  refine ⟨_, r10, rfl, rfl, fun n h1 h2 => ⟨⟨h2, by intro m hm; cases hm⟩, fun h => h⟩⟩

/-- **A crash before the state is there.** If the process stops between the scaffold and the import, nothing on disk
tells that the restore is not complete: the datadir has the tip and the marker of a restored one, a read at the
snapshot's block goes ahead and finds no account, and the command refuses to run again. -/
theorem half_restored (b : Nat) (hb : 1 ≤ b) : ∃ d, Run {} b false (.scaffolded, d) ∧ d.tip = b ∧ d.marker = some b ∧
    Admitted d b ∧ ¬ Holds d b ∧ ∀ b' x, Run d b' false x → x.1 ≠ .done := by
  have r1 := Run.step (b := b) (lossy := false) (.start (d0 := {})) (.create {})
  have r2 := Run.step r1 (.accept _ rfl hb)
  have r3 := Run.step r2 (.mark _)
  have r4 := Run.step r3 (.commitFiles _)
  have r5 := Run.step r4 (.commitDb _)
  refine ⟨_, r5, rfl, rfl, ⟨Nat.le_refl b, by intro m hm; cases hm; exact Nat.le_refl _⟩, fun h => h, ?_⟩
  intro b' x hx
  exact (used_kept_partial (pc := x.1) (d := x.2) (by dsimp only; omega) rfl rfl hx).1

/-- **A crash before the headers.** The marker alone is left. A node that then syncs from the genesis block is refused the
reads of every block below it, though it has executed them. -/
theorem stale_marker (b : Nat) (hb : 2 ≤ b) : ∃ d, Run {} b false (.marked, d) ∧ d.tip = 0 ∧
    ∀ t, b ≤ t → ∀ n, n < b → Holds { d with tip := t, state := .full } n ∧ ¬ Admitted { d with tip := t, state := .full } n := by
  have r1 := Run.step (b := b) (lossy := false) (.start (d0 := {})) (.create {})
  have r2 := Run.step r1 (.accept _ rfl (by omega))
  have r3 := Run.step r2 (.mark _)
  refine ⟨_, r3, rfl, ?_⟩
  intro t _ n hn
  refine ⟨trivial, fun ⟨_, hm⟩ => ?_⟩
  have := hm b rfl
  omega

/-- **A directory that cannot be removed.** The removal's failure is only reported; the marker is removed all the
same. -/
theorem stuck_unfloored (b : Nat) (hb : 2 ≤ b) : ∃ d, Run {} b true (.failed, d) ∧ d.tip = b ∧ d.marker = none ∧
    ∀ n, 0 < n → n ≤ b → Admitted d n ∧ ¬ Holds d n := by
  have r1 := Run.step (b := b) (lossy := true) (.start (d0 := {})) (.create {})
  have r2 := Run.step r1 (.accept _ rfl (by omega))
  have r3 := Run.step r2 (.mark _)
  have r4 := Run.step r3 (.commitFiles _)
  have r5 := Run.step r4 (.commitDb _)
  have r6 := Run.step r5 (.fail .scaffolded _ (by simp) (by simp) (by simp))
  have r7 := Run.step r6 (.stuck 0 _ (by decide) rfl rfl)
  have r8 := Run.step r7 (.stuck 1 _ (by decide) rfl rfl)
  have r9 := Run.step r8 (.remove 2 _ (by decide) rfl)
  have r10 := Run.step r9 (.unmark _)
  refine ⟨_, r10, rfl, rfl, fun n h1 h2 => ⟨⟨h2, by intro m hm; cases hm⟩, fun h => h⟩⟩

/-! ## A concrete case -/

/-- A run that succeeds. -/
theorem run_done (b : Nat) (hb : 1 ≤ b) : Run {} b false (.done, ⟨true, true, true, b, .imported b, some b, true⟩) := by
  have r1 := Run.step (b := b) (lossy := false) (.start (d0 := {})) (.create {})
  have r2 := Run.step r1 (.accept _ rfl hb)
  have r3 := Run.step r2 (.mark _)
  have r4 := Run.step r3 (.commitFiles _)
  have r5 := Run.step r4 (.commitDb _)
  have r6 := Run.step r5 (.importState _)
  have r7 := Run.step r6 (.readiness _)
  have r8 := Run.step r7 (.finish _)
  have r9 := Run.step r8 (.consBegin _)
  exact Run.step r9 (.consEnd _)

/-- It meets the hypotheses of `success`, `floor_first` and `rerun_loses_floor`. -/
example : ∃ d', Run ⟨true, true, true, 300, .imported 300, some 300, true⟩ 300 false (.failed, d') ∧ Admitted d' 299 ∧ ¬ Holds d' 299 := by
  obtain ⟨d', h1, _, _, h4⟩ := rerun_loses_floor (b' := 300) ⟨rfl, rfl, rfl, rfl, rfl, rfl⟩ (run_done 300 (by decide)) ⟨rfl, rfl⟩
  exact ⟨d', h1, h4 299 (by decide) (by decide)⟩

end Verif.Snapshot.Datadir
