import Verif.Archive.Crc
/-
Model of pack files and pack streams at the level of bytes: `crates/storage/src/archive/pack.rs` (`write_value`
496-540, `read_record` 403-442, `record_size` 445-467, `DataHeader` 545-680, `PackCompression` 682-707,
`open_data_file` 371-400), `crates/storage/src/archive/pack_iter.rs` (`PackIter`, `AsyncPackIter`, `open_partial`)
and `crates/storage/src/archive/fxhasher.rs`.

The values and the compression are parameters. A source is the list of bytes it will still deliver; the times at
which they come, and the time-outs of the callers, are not modelled. Input errors other than the end of the
source are not modelled. After a failed `read_exact` the source is at its end.
-/
namespace Verif
namespace Pst
open Codec (Byte Bytes leBytes leNat)
open Crc (crc32)

/-- `MAX_RECORD_SIZE`, pack_iter.rs:22. -/
@[irreducible] def maxRecord : Nat := 16777216

/-- The encoding of values (`encode_into_buffer`, `try_decode`) and the compression. `inflate b n` is what comes
from reading at most `n` bytes of the decompressed `b`, `none` an error of the decoder. -/
structure Coding (V : Type) where
  ser : V → Bytes
  de : Bytes → Option V
  zip : Bytes → Bytes
  inflate : Bytes → Nat → Option Bytes

/-- `PackCompression`, pack.rs:682-688. -/
inductive Compression where
  | raw
  | zstd
deriving DecidableEq, Repr

/-- `to_u32`, `from_u32`, pack.rs:690-707. -/
def Compression.toNat : Compression → Nat
  | .raw => 0
  | .zstd => 1

def Compression.parse : Nat → Option Compression
  | 0 => some .raw
  | 1 => some .zstd
  | _ => none

/-- `FetchError`, without the end of the source. -/
inductive Err where
  | io
  | tooLarge (size : Nat)
  | crc
  | zstd
  | bomb
  | decode
deriving DecidableEq, Repr

variable {V : Type} (K : Coding V)

/-- The bytes stored for a value, pack.rs:506-523. -/
def payload (c : Compression) (v : V) : Bytes :=
  match c with
  | .raw => K.ser v
  | .zstd => K.zip (K.ser v)

/-- Size, bytes and checksum, pack.rs:525-538; the size is cut to 32 bits. -/
def frame (b : Bytes) : Bytes :=
  leBytes 4 b.length ++ b ++ leBytes 4 (crc32 (leBytes 4 b.length ++ b))

/-- `write_value`. -/
def writeValue (c : Compression) (v : V) : Bytes := frame (payload K c v)

/-- `read_exact` of `n` bytes. -/
def readExact (n : Nat) (src : Bytes) : Option Bytes × Bytes :=
  if n ≤ src.length then (some (src.take n), src.drop n) else (none, [])

/-- The last part of reading a record, pack.rs:423-441: what is read and the size of the decompressed bytes. -/
def decodeBody (c : Compression) (b : Bytes) : Except Err V × Nat :=
  match c with
  | .raw =>
    match K.de b with
    | some v => (.ok v, 0)
    | none => (.error .decode, 0)
  | .zstd =>
    match K.inflate b (maxRecord + 1) with
    | none => (.error .zstd, 0)
    | some u =>
      if maxRecord < u.length then (.error .bomb, u.length)
      else
        match K.de u with
        | some v => (.ok v, u.length)
        | none => (.error .decode, u.length)

/-- What reading one record gives: the value, the rest of the source, and the sizes to which the two buffers
grow. -/
structure Got (V : Type) where
  out : Except Err V
  rest : Bytes
  buffer : Nat
  unzipped : Nat

/-- `read_record_file` after the size was read, pack_iter.rs:98-131; the same code in pack.rs:409-441. -/
def readBody (c : Compression) (sz src : Bytes) : Got V :=
  if maxRecord < leNat sz then ⟨.error (.tooLarge (leNat sz)), src, 0, 0⟩
  else
    match readExact (leNat sz) src with
    | (none, r) => ⟨.error .io, r, leNat sz, 0⟩
    | (some body, r1) =>
      match readExact 4 r1 with
      | (none, r) => ⟨.error .io, r, leNat sz, 0⟩
      | (some field, r2) =>
        if crc32 (sz ++ body) ≠ leNat field then ⟨.error .crc, r2, leNat sz, 0⟩
        else ⟨(decodeBody K c body).1, r2, leNat sz, (decodeBody K c body).2⟩

/-- `next`, pack_iter.rs:138-153, 255-272: `none` is the end of the iteration. -/
def next (c : Compression) (src : Bytes) : Option (Got V) :=
  match readExact 4 src with
  | (none, _) => none
  | (some sz, r) => some (readBody K c sz r)

/-- `read_record` at a position, pack.rs:403-442. -/
def fetch (c : Compression) (file : Bytes) (pos : Nat) : Except Err V :=
  match readExact 4 (file.drop pos) with
  | (none, _) => .error .io
  | (some sz, r) => (readBody K c sz r).out

/-- `record_size` at a position, pack.rs:445-467. -/
def recordSize (file : Bytes) (pos : Nat) : Except Err Nat :=
  match readExact 4 (file.drop pos) with
  | (none, _) => .error .io
  | (some sz, r) =>
    if maxRecord < leNat sz then .error (.tooLarge (leNat sz))
    else
      match readExact (leNat sz) r with
      | (none, _) => .error .io
      | (some body, r1) =>
        match readExact 4 r1 with
        | (none, _) => .error .io
        | (some field, _) => if crc32 (sz ++ body) ≠ leNat field then .error .crc else .ok (leNat sz + 8)

theorem readExact_rest {n : Nat} {src : Bytes} : (readExact n src).2.length ≤ src.length := by
  unfold readExact
  split <;> simp

theorem readBody_rest (c : Compression) (sz src : Bytes) : (readBody K c sz src).rest.length ≤ src.length := by
  unfold readBody
  split
  · exact Nat.le_refl _
  · split
    · next r h => have := readExact_rest (n := leNat sz) (src := src); rw [h] at this; exact this
    · next body r1 h =>
      have h1 := readExact_rest (n := leNat sz) (src := src)
      rw [h] at h1
      split
      · next r h' => have h2 := readExact_rest (n := 4) (src := r1); rw [h'] at h2; exact Nat.le_trans h2 h1
      · next field r2 h' =>
        have h2 := readExact_rest (n := 4) (src := r1)
        rw [h'] at h2
        split <;> exact Nat.le_trans h2 h1

theorem next_shorter {c : Compression} {src : Bytes} {g : Got V} (h : next K c src = some g) :
    g.rest.length + 4 ≤ src.length := by
  unfold next readExact at h
  by_cases h4 : 4 ≤ src.length
  · rw [if_pos h4] at h
    cases h
    have := readBody_rest K c (src.take 4) (src.drop 4)
    rw [List.length_drop] at this
    omega
  · rw [if_neg h4] at h; cases h

/-- Everything the iterator returns when it is asked until its end, errors or not. -/
def items (c : Compression) (src : Bytes) : List (Except Err V) :=
  match h : next K c src with
  | none => []
  | some g =>
    have : g.rest.length < src.length := by have := next_shorter K h; omega
    g.out :: items c g.rest
termination_by src.length

/-- What the readers do that stop at the first error (`epoch_records.rs` 390-392, 423-425, 446-448;
`next_output_record`, consensus_pack.rs:1553-1562): all values, or the error. -/
def readAll : List (Except Err V) → Except Err (List V)
  | [] => .ok []
  | .error e :: _ => .error e
  | .ok v :: l =>
    match readAll l with
    | .ok vs => .ok (v :: vs)
    | .error e => .error e

/-! ## The header of the file -/

/-- `add_to_hash`, fxhasher.rs:64-67. -/
def fxMul : BitVec 64 := 0x517cc1b727220a95#64
def fxAdd (h i : BitVec 64) : BitVec 64 := (h.rotateLeft 5 ^^^ i) * fxMul

/-- `"telcoin-network-epoch-"`, as `write` splits it (fxhasher.rs:70-98): two words of 8 bytes, one of 4, one of
2. -/
def uidPrefix : Bytes := [116, 101, 108, 99, 111, 105, 110, 45, 110, 101, 116, 119, 111, 114, 107, 45, 101, 112, 111, 99, 104, 45]

def fxPrefix : BitVec 64 :=
  fxAdd (fxAdd (fxAdd (fxAdd 0#64 (BitVec.ofNat 64 (leNat (uidPrefix.take 8))))
    (BitVec.ofNat 64 (leNat ((uidPrefix.drop 8).take 8)))) (BitVec.ofNat 64 (leNat ((uidPrefix.drop 16).take 4))))
    (BitVec.ofNat 64 (leNat (uidPrefix.drop 20)))

/-- `gen_uid`, pack.rs:628-638. -/
def genUid (idx : BitVec 64) : BitVec 64 := fxAdd fxPrefix idx

/-- `DataHeader`, pack.rs:545-556, without the type. -/
structure Hdr where
  version : Nat
  uid : Nat
  appnum : Nat
  compression : Compression
deriving DecidableEq, Repr

inductive LoadErr where
  | io | crc | type | uid | compression | appNum | version
deriving DecidableEq, Repr

/-- `"telnet"`. -/
def typeId : Bytes := [116, 101, 108, 110, 101, 116]

/-- `DataHeader::new`, pack.rs:559-562. -/
def newHeader (idx : BitVec 64) (c : Compression) (version : Nat) : Hdr := ⟨version, (genUid idx).toNat, 1, c⟩

/-- `write_header`, pack.rs:640-658, the bytes before the checksum. -/
def headerData (h : Hdr) : Bytes :=
  typeId ++ leBytes 2 h.version ++ leBytes 8 h.uid ++ leBytes 4 h.appnum ++ leBytes 4 h.compression.toNat

def headerBytes (h : Hdr) : Bytes := headerData h ++ leBytes 4 (crc32 (headerData h))

/-- `load_header_from_buffer`, pack.rs:587-626, of 28 bytes. -/
def loadHeader (b : Bytes) (idx : BitVec 64) : Except LoadErr Hdr :=
  if crc32 (b.take 24) ≠ leNat (b.drop 24) then .error .crc
  else if b.take 6 ≠ typeId then .error .type
  else if leNat ((b.drop 8).take 8) ≠ (genUid idx).toNat then .error .uid
  else
    match Compression.parse (leNat ((b.drop 20).take 4)) with
    | none => .error .compression
    | some c => .ok ⟨leNat ((b.drop 6).take 2), leNat ((b.drop 8).take 8), leNat ((b.drop 16).take 4), c⟩

/-- `PackIter::open` and `AsyncPackIter::open`, pack_iter.rs:47-61, 177-197: the header and the rest. -/
def openStream (src : Bytes) (idx : BitVec 64) : Except LoadErr (Hdr × Bytes) :=
  match readExact 28 src with
  | (none, _) => .error .io
  | (some b, r) =>
    match loadHeader b idx with
    | .error e => .error e
    | .ok h => if h.appnum ≠ 1 then .error .appNum else .ok (h, r)

/-- `open_data_file` of an existing file, pack.rs:386-395. -/
def openFile (file : Bytes) (idx : BitVec 64) (version : Nat) : Except LoadErr Hdr :=
  match readExact 28 file with
  | (none, _) => .error .io
  | (some b, _) =>
    match loadHeader b idx with
    | .error e => .error e
    | .ok h => if version < h.version then .error .version else if h.appnum ≠ 1 then .error .appNum else .ok h

/-- A pack file as `Pack::open` and `append` make it. -/
def packFile (idx : BitVec 64) (c : Compression) (version : Nat) (vs : List V) : Bytes :=
  headerBytes (newHeader idx c version) ++ vs.flatMap (writeValue K c)

end Pst
end Verif
