import Verif.Archive.PackRun
/-
Model of the archive of the whole chain: `crates/storage/src/consensus.rs` (`LatestConsensus` 46-260,
`ConsensusChain::new` 311-370, `new_epoch` 405-470, `save_consensus_output` 746-795, `persist_current`
1091-1096, `consensus_header_latest` 1049-1053) and of how the next number is found at startup
(`last_consensus_parent`, state-sync/src/lib.rs:156-166).

The packs are taken at the level of their specification (`Pack.Abs`; `Pack.pack_holds_partial`,
`absSave_sound` below). Two slot files remember the epoch and number of the latest output; they are written
alternately by a background thread. Not modelled: imported (static) packs, failing system calls, the
staging pack, more than one thread saving.
-/
namespace Verif
namespace Chain
open Pack (Out Abs Meta)

/-- Epoch and number, as in a slot file. -/
abbrev Val := Nat × Nat

/-- A slot file: its content, and the contents written before that a power failure may bring back.
`old = []`: synced. -/
structure Slot where
  cur : Val
  old : List Val
deriving DecidableEq

/-- `write_all` of a slot, consensus.rs:181-189. -/
def Slot.write (v : Val) (s : Slot) : Slot := ⟨v, s.cur :: s.old⟩

/-- `sync_all` of a slot. -/
def Slot.sync (s : Slot) : Slot := ⟨s.cur, []⟩

/-- What may be read after a crash: the content, an earlier unsynced one, or a torn one, which has a wrong
checksum and reads as (0, 0). `read_slot` and the fallback, consensus.rs:96-121, 152-159. -/
def Slot.After (s : Slot) (v : Val) : Prop := v = s.cur ∨ v ∈ s.old ∨ (s.old ≠ [] ∧ v = (0, 0))

inductive Sel where
  | one
  | two
deriving DecidableEq

def Sel.other : Sel → Sel
  | .one => .two
  | .two => .one

/-- The choice between the two slots, consensus.rs:205-252. -/
def pick (a b : Val) : Val × Sel :=
  if a.1 = b.1 then (if b.2 < a.2 then (a, .one) else (b, .two))
  else if b.1 < a.1 then (a, .one)
  else (b, .two)

/-- A message to the background thread: old epoch, new value, slot. -/
structure Upd where
  oldEpoch : Nat
  v : Val
  sel : Sel
deriving DecidableEq

/-- `ConsensusChain`. The packs, newest first; the first is the current pack. -/
structure CS where
  packs : List (Meta × Abs)
  s1 : Slot
  s2 : Slot
  lat : Val
  sel : Sel
  q : List Upd

def CS.slot (c : CS) : Sel → Slot
  | .one => c.s1
  | .two => c.s2

def CS.setSlot (c : CS) (i : Sel) (s : Slot) : CS :=
  match i with
  | .one => { c with s1 := s }
  | .two => { c with s2 := s }

/-- `LatestConsensus::update`, consensus.rs:256-278. -/
def CS.update (c : CS) (v : Val) : CS :=
  { c with lat := v, sel := c.sel.other, q := c.q ++ [⟨c.lat.1, v, c.sel.other⟩] }

/-- One message handled by the thread, consensus.rs:175-193: the slot is synced only if the epoch
changed. -/
def CS.thread (c : CS) : CS :=
  match c.q with
  | [] => c
  | u :: q =>
    let s := (c.slot u.sel).write u.v
    { c.setSlot u.sel (if u.oldEpoch ≠ u.v.1 then s.sync else s) with q := q }

/-- `Inner::save_consensus_output` on the specification of a pack, consensus_pack.rs:1038-1088. -/
inductive AbsSave where
  | already
  | wrongNumber
  | saved (a : Abs)

def absSave (m : Meta) (a : Abs) (o : Out) : AbsSave :=
  if o.hdr.number - m.start < a.outs.length then .already
  else if o.hdr.number - m.start ≠ a.outs.length then .wrongNumber
  else .saved { a with outs := a.outs ++ [o] }

inductive Res where
  | nonMonotonic
  | wrongEpoch
  | packError
  | ok (c : CS)

/-- `save_consensus_output`, consensus.rs:746-795, for a current pack that is open for writing. -/
def CS.save (c : CS) (o : Out) : Res :=
  match c.packs with
  | [] => .packError
  | (m, a) :: ps =>
    if o.hdr.number ≤ c.lat.2 then .nonMonotonic
    else if o.hdr.epoch ≠ m.epoch then .wrongEpoch
    else match absSave m a o with
      | .wrongNumber => .packError
      | .already => .ok (c.update (o.hdr.epoch, o.hdr.number))
      | .saved a' => .ok (({ c with packs := (m, a') :: ps } : CS).update (o.hdr.epoch, o.hdr.number))

/-- The first half of `persist_current`, consensus.rs:1092-1093. -/
def CS.packPersist (c : CS) : CS :=
  match c.packs with
  | [] => c
  | (m, a) :: ps => { c with packs := (m, { a with kept := a.outs.length }) :: ps }

/-- The messages before a `Persist` message. -/
def CS.drain (c : CS) : Nat → CS
  | 0 => c
  | n + 1 => c.thread.drain n

/-- The second half of `persist_current`, consensus.rs:1094 with 194-198: the thread handles the messages
before it and syncs both slots. -/
def CS.slotPersist (c : CS) : CS :=
  let c := c.drain c.q.length
  { c with s1 := c.s1.sync, s2 := c.s2.sync }

/-- `new_epoch`, consensus.rs:405-470: the old pack is persisted, the new one starts behind it. -/
def CS.newEpoch (c : CS) : CS :=
  match c.packs with
  | [] => c
  | (m, a) :: ps =>
    { c with packs := (⟨m.epoch + 1, m.start + a.outs.length⟩, {}) ::
        (m, { a with kept := a.outs.length }) :: ps }

/-- The packs after a crash (C48). -/
def crashPacks (ps : List (Meta × Abs)) : List (Meta × Abs) := ps.map (fun p => (p.1, p.2.crash false))

/-- Reopening after a crash that left `v1`, `v2` in the slots: `LatestConsensus::new` and
`ConsensusChain::new`, then `new_epoch` reopens the newest pack. -/
def CS.reopen (c : CS) (v1 v2 : Val) : CS :=
  { packs := crashPacks c.packs, s1 := ⟨v1, []⟩, s2 := ⟨v2, []⟩, lat := (pick v1 v2).1,
    sel := (pick v1 v2).2, q := [] }

/-- A fresh node: empty slots, the pack of epoch 0. -/
def CS.fresh : CS :=
  { packs := [(⟨0, 1⟩, {})], s1 := ⟨(0, 0), []⟩, s2 := ⟨(0, 0), []⟩, lat := (0, 0), sel := .two, q := [] }

/-- The number of the last output of a pack. -/
def lastNumber (p : Meta × Abs) : Option Nat := p.2.outs.getLast?.map (·.hdr.number)

/-- `consensus_header_latest`, consensus.rs:1049-1053: of the pack of the slots' epoch. -/
def CS.headerLatest (c : CS) : Option Nat :=
  (c.packs.find? (fun p => p.1.epoch == c.lat.1)).bind lastNumber

/-- `last_consensus_parent`, state-sync/src/lib.rs:156-166, and the number the subscriber gives to its
first output, subscriber.rs:336-360. `x`: the number of the last executed output (0: none). -/
def CS.nextNumber (c : CS) (x : Nat) : Nat := max (c.headerLatest.getD x) x + 1

/-! ## The refinement to packs -/

/-- The specification of a pack used here is that of C48. -/
theorem absSave_sound {F : Pack.Fmt} (hF : F.Ok) {v : Nat} {m : Meta} {s : Pack.St} {a : Abs}
    (h : Pack.Run F v m s a) (o : Out) (hs : m.start ≤ o.hdr.number) (he : o.hdr.epoch = m.epoch)
    (hf : o.Fits F) :
    match absSave m a o with
    | .already => s.f.save F v m o = .already
    | .wrongNumber => s.f.save F v m o = .wrongNumber
    | .saved a' => ∃ f, s.f.save F v m o = .saved f ∧ Pack.Run F v m { s with f := f } a' := by
  obtain ⟨-, h1, h2, h3⟩ := Pack.pack_save hF h o hs
  unfold absSave
  by_cases c1 : o.hdr.number - m.start < a.outs.length
  · rw [if_pos c1]; exact h1 he (by omega)
  · rw [if_neg c1]
    by_cases c2 : o.hdr.number - m.start ≠ a.outs.length
    · rw [if_pos c2]; exact h3 he (by omega)
    · rw [if_neg c2]
      have hsv := h2 he (by omega)
      exact ⟨_, hsv, Pack.Run.save o _ h hs hf hsv⟩

end Chain
end Verif
