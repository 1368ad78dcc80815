import Verif.Archive.StreamProps
import Verif.Archive.ImportLimits
import Verif.Archive.ValidateMain
import Mathlib.Tactic.DeriveEncodable
import Mathlib.Logic.Equiv.List
/-
C54 down to the bytes: the import of an epoch from whatever a peer sends (`Inner::stream_import`,
`crates/storage/src/consensus_pack.rs` 907-1005, reads the records with an `AsyncPackIter`; C115), and the import
of the bytes of an honest pack file.
-/
namespace Verif
namespace Import
open Codec (Bytes)
open Pst (Coding Compression openStream items packFile writeValue newHeader Fits)

/-- What `next_output_record` returns one after the other, consensus_pack.rs:1553-1562. -/
def records (K : Coding Rec) (c : Compression) (src : Bytes) : List (Option Rec) :=
  (items K c src).map Except.toOption

/-- `ConsensusChain::stream_import`, consensus.rs:482-579, on a stream of bytes: the header is opened inside
`Inner::stream_import`, and version and compression are those it names. -/
def byteImport (E : Env) (K : Coding Rec) (rec prev : Ep.Rec) (busy : Bool) (own : Option Pack) (src : Bytes) :
    Outcome × Option Pack :=
  if have_ E rec own then (.ok, own)
  else if busy then (.ok, own)
  else
    match openStream src (BitVec.ofNat 64 rec.epoch) with
    | .error _ => (.err, own)
    | .ok (h, r) => chainImport E rec prev h.version busy own (records K h.compression r)

/-- The records of a pack in the order of its file. -/
def fileRecords (E : Env) (v : Nat) (p : Pack) : List Rec := .epoch p.m :: p.outs.flatMap (export1 E v)

/-- The bytes of the file of a pack. -/
def fileBytes (E : Env) (K : Coding Rec) (c : Compression) (v : Nat) (p : Pack) : Bytes :=
  packFile K (BitVec.ofNat 64 p.m.epoch) c v (fileRecords E v p)

variable {E : Env} {K : Coding Rec}

/-- **C54** Whatever bytes a peer sends, the pack is afterwards the same as before or holds exactly the consensus
chain of the epoch, every output with the batches its header names. -/
theorem bytes_content {rec prev : Ep.Rec} {busy : Bool} {own own' : Option Pack} {src : Bytes} {r : Outcome}
    (h : byteImport E K rec prev busy own src = (r, own')) (h0 : rec.epoch ≠ 0) {T : List CHdr}
    (hT : EpochChain E prev.finalHash (prev.finalNum + 1) rec.epoch rec.finalNum rec.finalHash T)
    {hp : CHdr} (hprev : E.dig hp = prev.finalHash) (hpe : hp.leaderEpoch ≠ some rec.epoch)
    (hc : NoCollision E (fun _ => True)) :
    own' = own ∨ (r = .ok ∧ ∃ p, own' = some p ∧ p.outs.map (·.hdr) = T ∧ (∀ o ∈ p.outs, o.Good E p.m) ∧
      MetaOk rec.epoch prev p.m ∧ ∀ o ∈ p.outs, o.hdr.expected.length ≤ E.maxB p.m.members.length) := by
  unfold byteImport at h
  by_cases h1 : have_ E rec own = true
  · rw [if_pos h1] at h; cases h; exact .inl rfl
  · rw [if_neg h1] at h
    by_cases h2 : busy = true
    · rw [if_pos h2] at h; cases h; exact .inl rfl
    · rw [if_neg h2] at h
      cases ho : openStream src (BitVec.ofNat 64 rec.epoch) with
      | error e => rw [ho] at h; cases h; exact .inl rfl
      | ok x =>
        rw [ho] at h
        exact import_content h h0 hT hprev hpe (fun x y _ _ => hc x y trivial trivial)

theorem toOption_ok {α ε : Type} : ∀ l : List α, (l.map (Except.ok (ε := ε))).map Except.toOption = l.map some
  | [] => rfl
  | _ :: l => congrArg (some _ :: ·) (toOption_ok l)

theorem records_file (hK : K.Ok) (c : Compression) (v : Nat) (p : Pack)
    (hf : ∀ x ∈ fileRecords E v p, Fits K c x) :
    records K c ((fileRecords E v p).flatMap (writeValue K c)) = exportAll E v p := by
  unfold records
  rw [Pst.items_all hK _ hf, toOption_ok]
  rfl

/-- **C54** The bytes of an honest peer's file are accepted and give its pack, in both versions of the format and
whatever its compression, if no record exceeds the limit. -/
theorem bytes_complete (hK : K.Ok) {rec prev : Ep.Rec} {p : Pack} (hh : p.Honest E) (hmeta : MetaOk rec.epoch prev p.m)
    (hl : LinkedX E (firstExpect rec.epoch prev) (p.outs.map (·.hdr)))
    (hlast : ∃ l : Out, p.outs.getLast? = some l ∧ l.hdr.number = rec.finalNum ∧ E.dig l.hdr = rec.finalHash)
    {own : Option Pack} (hown : have_ E rec own = false) (v : Nat) (hv : v < 256 ^ 2) (c : Compression)
    (hf : ∀ x ∈ fileRecords E v p, Fits K c x) :
    byteImport E K rec prev false own (fileBytes E K c v p) = (.ok, some p) := by
  unfold byteImport fileBytes
  rw [if_neg (by rw [hown]; exact fun h => (nomatch h)), if_neg (fun h => (nomatch h)), hmeta.epochIs,
    (Pst.file_read hK (BitVec.ofNat 64 rec.epoch) (BitVec.ofNat 64 rec.epoch) v hv _ hf).1, if_pos rfl]
  show chainImport E rec prev v false own (records K c _) = _
  rw [records_file hK c v p hf]
  exact import_complete hh hmeta hl hlast hown v

/-- **C54** The file of another epoch is refused at its first bytes. -/
theorem bytes_other_epoch (hK : K.Ok) {rec prev : Ep.Rec} {p : Pack} {own : Option Pack} (hown : have_ E rec own = false)
    (v : Nat) (hv : v < 256 ^ 2) (c : Compression) (hf : ∀ x ∈ fileRecords E v p, Fits K c x)
    (hr : rec.epoch < 2 ^ 64) (hp : p.m.epoch < 2 ^ 64) (hne : rec.epoch ≠ p.m.epoch) :
    byteImport E K rec prev false own (fileBytes E K c v p) = (.err, own) := by
  have hb : BitVec.ofNat 64 rec.epoch ≠ BitVec.ofNat 64 p.m.epoch := by
    intro h
    have := congrArg BitVec.toNat h
    rw [BitVec.toNat_ofNat, BitVec.toNat_ofNat, Nat.mod_eq_of_lt hr, Nat.mod_eq_of_lt hp] at this
    exact hne this
  unfold byteImport fileBytes
  rw [if_neg (by rw [hown]; exact fun h => (nomatch h)), if_neg (fun h => (nomatch h)),
    (Pst.file_read hK (BitVec.ofNat 64 p.m.epoch) (BitVec.ofNat 64 rec.epoch) v hv _ hf).1, if_neg hb]

/-- An import that succeeds has met no read error. -/
theorem imported_all_some {epoch v fin : Nat} {prev : Ep.Rec} {rs : List (Option Rec)} {outs : List Out} {m : Meta}
    (h : packImport E epoch prev v fin rs = .ok m outs) : ∀ x ∈ rs, x ≠ none := by
  match rs, h with
  | [], h => cases h
  | none :: _, h => cases h
  | some (.bat _) :: _, h => cases h
  | some (.hdr _) :: _, h => cases h
  | some (.epoch m') :: rest, h =>
    have h' : (if verifyMeta epoch prev m' then loop E m' v fin (rest.length + 1) (firstExpect epoch prev) [] rest
      else Res.err) = .ok m outs := h
    by_cases hv : verifyMeta epoch prev m' = true
    · rw [if_pos hv] at h'
      have hp := loop_pure h'
      intro x hx
      rcases List.mem_cons.mp hx with rfl | hx
      · exact fun h => (nomatch h)
      · intro hn
        subst hn
        rcases hp.2 _ hx with ⟨_, h⟩ | ⟨_, h⟩ <;> cases h
    · rw [if_neg hv] at h'; cases h'

theorem bytes_parts {rec prev : Ep.Rec} {own : Option Pack} {src : Bytes} {p : Pack} (hown : own ≠ some p)
    (h : byteImport E K rec prev false own src = (.ok, some p)) :
    ∃ (hdr : Pst.Hdr) (r : Bytes), openStream src (BitVec.ofNat 64 rec.epoch) = .ok (hdr, r) ∧
      packImport E rec.epoch prev hdr.version rec.finalNum (records K hdr.compression r) = .ok p.m p.outs := by
  unfold byteImport at h
  by_cases h1 : have_ E rec own = true
  · rw [if_pos h1] at h; exact absurd (Prod.mk.inj h).2 hown
  · rw [if_neg h1, if_neg (fun h => (nomatch h))] at h
    cases ho : openStream src (BitVec.ofNat 64 rec.epoch) with
    | error e => rw [ho] at h; cases h
    | ok x =>
      obtain ⟨hdr, r⟩ := x
      rw [ho] at h
      refine ⟨hdr, r, rfl, ?_⟩
      rcases chainImport_cases h with h2 | ⟨_, _, m, outs, e, _, hp⟩
      · exact absurd h2.symm hown
      · cases e; exact hp

theorem noErrors_readAll {V : Type} : ∀ l : List (Except Pst.Err V), (∀ x ∈ l.map Except.toOption, x ≠ none) →
    ∃ vs, Pst.readAll l = .ok vs
  | [], _ => ⟨[], rfl⟩
  | .error _ :: _, h => absurd rfl (h none (List.mem_cons_self ..))
  | .ok v :: l, h => by
    obtain ⟨vs, hvs⟩ := noErrors_readAll l (fun x hx => h x (List.mem_cons_of_mem _ hx))
    refine ⟨v :: vs, ?_⟩
    show (match Pst.readAll l with | .ok vs => Except.ok (v :: vs) | .error e => .error e) = _
    rw [hvs]

/-- **C54** A stream that was imported consists of the header of its epoch, whole records with right checksums, and
at most three bytes more: nothing was skipped. -/
theorem bytes_clean {rec prev : Ep.Rec} {own : Option Pack} {src : Bytes} {p : Pack} (hown : own ≠ some p)
    (h : byteImport E K rec prev false own src = (.ok, some p)) :
    ∃ (hb : Bytes) (bs : List Bytes) (tail : Bytes), src = hb ++ bs.flatMap Pst.frame ++ tail ∧ hb.length = 28 ∧
      tail.length < 4 ∧ ∀ b ∈ bs, b.length ≤ Pst.maxRecord := by
  obtain ⟨hdr, r, ho, hi⟩ := bytes_parts hown h
  obtain ⟨hb, hs, hl, _⟩ := Pst.open_sound ho
  obtain ⟨vs, hvs⟩ := noErrors_readAll _ (imported_all_some hi)
  obtain ⟨bs, tail, e1, e2, _, e4⟩ := Pst.all_sound r vs hvs
  exact ⟨hb, bs, tail, by rw [hs, e1, List.append_assoc], hl, e2, e4⟩

/-! ## The hypotheses can be met -/
namespace SEx
open Ex

deriving instance Encodable for SubHdr
deriving instance Encodable for CHdr
deriving instance Encodable for Meta
deriving instance Encodable for Rec

/-- The records of the example's file. -/
def table : List Rec := fileRecords Ex.E 1 p1

/-- A record of the table is written as its place in it, any other as a long text. -/
def ser (r : Rec) : Codec.Bytes :=
  if r ∈ table then [Fin.ofNat 256 (table.idxOf r)] else 0 :: 0 :: List.replicate (Encodable.encode r) 0

theorem table_short : table.length < 256 := by decide +kernel

theorem ser_inj {r r' : Rec} (h : ser r = ser r') : r = r' := by
  unfold ser at h
  by_cases h1 : r ∈ table <;> by_cases h2 : r' ∈ table
  · rw [if_pos h1, if_pos h2] at h
    have hv := congrArg Fin.val (List.cons.inj h).1
    have l1 := List.idxOf_lt_length_of_mem h1
    have l2 := List.idxOf_lt_length_of_mem h2
    have := table_short
    rw [Fin.val_ofNat, Fin.val_ofNat, Nat.mod_eq_of_lt (by omega), Nat.mod_eq_of_lt (by omega)] at hv
    have e1 := List.getElem?_idxOf h1
    have e2 := List.getElem?_idxOf h2
    rw [hv, e2] at e1
    exact (Option.some.inj e1).symm
  · rw [if_pos h1, if_neg h2] at h
    have := congrArg List.length h
    simp at this
  · rw [if_neg h1, if_pos h2] at h
    have := congrArg List.length h
    simp at this
  · rw [if_neg h1, if_neg h2] at h
    have := congrArg List.length h
    simp at this
    exact this

open Classical in
/-- A coding that satisfies the laws. -/
noncomputable def coding : Coding Rec where
  ser := ser
  de b := if h : ∃ r, ser r = b then some h.choose else none
  zip b := b
  inflate b n := some (b.take n)

theorem coding_ok : coding.Ok where
  de_ser v := by
    have h : ∃ r, ser r = ser v := ⟨v, rfl⟩
    exact (dif_pos h).trans (congrArg some (ser_inj h.choose_spec))
  inflate_zip _ _ := rfl
  inflate_le b n u h := by
    cases h
    rw [List.length_take]
    omega

theorem fits (r : Rec) (h : r ∈ table) : Fits coding .zstd r := by
  have e : ser r = [Fin.ofNat 256 (table.idxOf r)] := if_pos h
  have e2 : (ser r).length = 1 := by rw [e]; rfl
  have m := Pst.max_eq
  exact ⟨by show (ser r).length ≤ _; omega, by show (ser r).length ≤ _; omega⟩

/-- The bytes of the file of the second epoch of the example are imported, and as those of the first refused. -/
theorem example_bytes :
    byteImport Ex.E coding rec1 rec0 false none (fileBytes Ex.E coding .zstd 1 p1) = (.ok, some p1) ∧
      byteImport Ex.E coding rec0 prev0 false none (fileBytes Ex.E coding .zstd 1 p1) = (.err, none) :=
  ⟨bytes_complete coding_ok honest1 (verifyMeta_iff.mp (by decide +kernel)) (by exact ⟨by decide +kernel, rfl, trivial⟩)
    (lastOk_spec (by decide +kernel)) rfl 1 (by decide) .zstd fits,
   bytes_other_epoch coding_ok rfl 1 (by decide) .zstd fits (by decide) (by decide) (by decide)⟩

end SEx

end Import
end Verif
