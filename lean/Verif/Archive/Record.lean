import Verif.Codec.Bcs
/-
Model of the record format of a pack file: `crates/storage/src/archive/pack.rs` (`write_value` 496-540,
`PackInner::append` 273-322, `read_record` 403-442, `read_bytes` 240-253, `truncate` 482-484).

The compression and the encoding of a value are one pair of functions (`enc`, `dec`); the checksum is an
arbitrary 32-bit function. Files are byte lists (justified by `DataFile.file_is_array`, C47).
-/
namespace Verif
namespace Pack
open Codec (Bytes leBytes leNat leBytes_length leNat_leBytes)

/-- The header of a consensus output as far as the archive looks at it. `id` stands for everything else. -/
structure Hdr where
  number : Nat
  epoch : Nat
  leader : Nat
  round : Nat
  id : Nat
deriving DecidableEq

/-- `EpochMeta`, consensus_pack.rs. -/
structure Meta where
  epoch : Nat
  start : Nat
deriving DecidableEq

/-- A batch (an opaque value). -/
abbrev Bat := Nat

/-- `PackRecord`, consensus_pack.rs. -/
inductive Rec where
  | epoch (m : Meta)
  | hdr (h : Hdr)
  | bat (b : Bat)
deriving DecidableEq

/-- The encoding of records, the checksum, the digests, the 28 bytes that begin a pack file and the
largest record accepted on reading (`MAX_RECORD_SIZE`). -/
structure Fmt where
  enc : Rec → Bytes
  dec : Bytes → Option Rec
  crc : Bytes → Nat
  maxRecord : Nat
  hdig : Hdr → Nat
  bdig : Bat → Nat
  fileHeader : Bytes

/-- What is assumed of them: decoding undoes encoding, the checksum has 32 bits. -/
structure Fmt.Ok (F : Fmt) : Prop where
  dec_enc : ∀ r, F.dec (F.enc r) = some r
  max_lt : F.maxRecord < 256 ^ 4
  crc_lt : ∀ b, F.crc b < 256 ^ 4
  header : F.fileHeader.length = 28

/-- A record that is not larger than the limit. A larger record is written without complaint and is then
unreadable (`fetch_too_large`). -/
def Fmt.Fits (F : Fmt) (r : Rec) : Prop := (F.enc r).length ≤ F.maxRecord

/-- `write_value`, pack.rs:496-540: size, bytes, checksum. -/
def frame (F : Fmt) (r : Rec) : Bytes :=
  leBytes 4 (F.enc r).length ++ F.enc r ++ leBytes 4 (F.crc (leBytes 4 (F.enc r).length ++ F.enc r))

/-- `read_exact` of `n` bytes at `pos`. -/
def readAt (file : Bytes) (pos n : Nat) : Option Bytes :=
  if pos + n ≤ file.length then some ((file.drop pos).take n) else none

/-- `read_record` after the size was read, pack.rs:413-442. -/
def fetchBody (F : Fmt) (file : Bytes) (pos : Nat) (sz : Bytes) : Option Rec :=
  if F.maxRecord < leNat sz then none
  else
    match readAt file (pos + 4) (leNat sz), readAt file (pos + 4 + leNat sz) 4 with
    | some body, some crc => if F.crc (sz ++ body) = leNat crc then F.dec body else none
    | _, _ => none

/-- `read_record`, pack.rs:403-442. `none`: any error. -/
def fetch (F : Fmt) (file : Bytes) (pos : Nat) : Option Rec :=
  match readAt file pos 4 with
  | none => none
  | some sz => fetchBody F file pos sz

theorem readAt_mid (a b c : Bytes) (n : Nat) (hn : n = b.length) :
    readAt (a ++ b ++ c) a.length n = some b := by
  subst hn
  unfold readAt
  rw [if_pos (by simp only [List.length_append]; omega), List.append_assoc, List.drop_left,
    List.take_left]

/-- A record is read back from where it was appended, whatever is before and behind it. -/
theorem fetch_frame {F : Fmt} (hF : F.Ok) (a c : Bytes) (r : Rec) (hr : F.Fits r) :
    fetch F (a ++ frame F r ++ c) a.length = some r := by
  have hsz : (F.enc r).length < 256 ^ 4 := by
    have h1 : _ ≤ _ := hr; have h2 := hF.max_lt; omega
  have hl : ∀ k, (leBytes 4 k).length = 4 := fun k => leBytes_length 4 k
  unfold fetch
  have e1 : a ++ frame F r ++ c = a ++ leBytes 4 (F.enc r).length ++ (F.enc r ++
      leBytes 4 (F.crc (leBytes 4 (F.enc r).length ++ F.enc r)) ++ c) := by
    simp [frame, List.append_assoc]
  have e2 : a ++ frame F r ++ c = (a ++ leBytes 4 (F.enc r).length) ++ F.enc r ++
      (leBytes 4 (F.crc (leBytes 4 (F.enc r).length ++ F.enc r)) ++ c) := by
    simp [frame, List.append_assoc]
  have e3 : a ++ frame F r ++ c = (a ++ leBytes 4 (F.enc r).length ++ F.enc r) ++
      leBytes 4 (F.crc (leBytes 4 (F.enc r).length ++ F.enc r)) ++ c := by
    simp [frame, List.append_assoc]
  have r1 : readAt (a ++ frame F r ++ c) a.length 4 = some (leBytes 4 (F.enc r).length) := by
    rw [e1]; exact readAt_mid _ _ _ _ (hl _).symm
  have r2 : readAt (a ++ frame F r ++ c) (a.length + 4) (F.enc r).length = some (F.enc r) := by
    rw [e2]
    have := readAt_mid (a ++ leBytes 4 (F.enc r).length) (F.enc r)
      (leBytes 4 (F.crc (leBytes 4 (F.enc r).length ++ F.enc r)) ++ c) _ rfl
    rw [List.length_append, hl] at this
    exact this
  have r3 : readAt (a ++ frame F r ++ c) (a.length + 4 + (F.enc r).length) 4 =
      some (leBytes 4 (F.crc (leBytes 4 (F.enc r).length ++ F.enc r))) := by
    rw [e3]
    have := readAt_mid (a ++ leBytes 4 (F.enc r).length ++ F.enc r)
      (leBytes 4 (F.crc (leBytes 4 (F.enc r).length ++ F.enc r))) c 4 (hl _).symm
    rw [List.length_append, List.length_append, hl] at this
    exact this
  rw [r1]
  dsimp only
  unfold fetchBody
  rw [leNat_leBytes 4 _ hsz, if_neg (by have h1 : _ ≤ _ := hr; omega), r2, r3]
  dsimp only
  rw [leNat_leBytes 4 _ (hF.crc_lt _), if_pos rfl, hF.dec_enc]

theorem fetch_past (F : Fmt) (file : Bytes) (pos : Nat) (h : file.length ≤ pos) :
    fetch F file pos = none := by
  unfold fetch readAt
  rw [if_neg (by omega)]

/-- A record over the limit (but with a size of 32 bits) cannot be read back. -/
theorem fetch_too_large (F : Fmt) (a c : Bytes) (r : Rec) (hr : ¬ F.Fits r)
    (hsz : (F.enc r).length < 256 ^ 4) : fetch F (a ++ frame F r ++ c) a.length = none := by
  have e1 : a ++ frame F r ++ c = a ++ leBytes 4 (F.enc r).length ++ (F.enc r ++
      leBytes 4 (F.crc (leBytes 4 (F.enc r).length ++ F.enc r)) ++ c) := by
    simp [frame, List.append_assoc]
  unfold fetch
  rw [e1, readAt_mid _ _ _ _ (leBytes_length 4 _).symm]
  dsimp only
  unfold fetchBody
  rw [leNat_leBytes 4 _ hsz, if_pos (by unfold Fmt.Fits at hr; omega)]

theorem frame_length (F : Fmt) (r : Rec) : (frame F r).length = (F.enc r).length + 8 := by
  simp only [frame, List.length_append, leBytes_length]; omega

end Pack
end Verif
