import Verif.Archive.IndexFile
/-
C124: the position index, byte by byte (`crates/storage/src/archive/position_index/index.rs`), and the values of a pack's
index (`consensus_pack.rs` 1865-1920).

The file is its bytes; it includes what is buffered (the buffering is `DataFile`'s, C47). I/O fails only at the end of
the file. A type of values is given by its width, its encoding and its decoding.
-/
namespace Verif
namespace PosFile
open Codec (Byte Bytes leBytes leNat)
open IdxFile (stamp checkCrc put get typeId DataHdr Err)

/-- `PosIndexValue`, index.rs:329-345. -/
structure Ty (V : Type) where
  width : Nat
  enc : V → Bytes
  dec : Bytes → Option V

/-- `write_header`, index.rs:78-93. -/
def hdrBytes (h : DataHdr) : Bytes := stamp (typeId ++ put [(2, h.version), (8, h.uid), (4, h.appnum)])

/-- `load_header`, index.rs:47-75. -/
def loadHdr (file : Bytes) : Except Err DataHdr :=
  if file.length < 26 then .error .io
  else if checkCrc (file.take 26) = false then .error .crc
  else if file.take 8 ≠ typeId then .error .type
  else
    match get [2, 8, 4] (file.drop 8) with
    | [v, u, a] => .ok ⟨v, u, a⟩
    | _ => .error .io

variable {V : Type}

/-- `len`, index.rs:197-200. -/
def len (T : Ty V) (file : Bytes) : Nat := (file.length - 26) / T.width

/-- `open_pdx_file`, index.rs:128-194: the file after it. -/
def open_ (T : Ty V) (dh : DataHdr) (readOnly : Bool) (file : Bytes) : Except Err Bytes :=
  if file = [] then if readOnly then .error .readOnlyEmpty else .ok (hdrBytes dh)
  else
    match loadHdr file with
    | .error e => .error e
    | .ok h =>
      if h.version ≠ dh.version then .error .version
      else if h.appnum ≠ dh.appnum then .error .appnum
      else if h.uid ≠ dh.uid then .error .uid
      else if (file.length - 26) % T.width = 0 then .ok file
      else if readOnly then .error .geometry
      else .ok (file.take (26 + len T file * T.width))

/-- `save`, index.rs:246-261: `none` is the error. -/
def save (T : Ty V) (key : Nat) (v : V) (file : Bytes) : Option Bytes :=
  if len T file ≠ key then none else some (file ++ T.enc v)

/-- What `load` gives, index.rs:263-273. -/
inductive Load (V : Type) where
  | value (v : V)
  | notFound
  | badValue

/-- `load`, index.rs:263-273. -/
def load (T : Ty V) (key : Nat) (file : Bytes) : Load V :=
  if len T file ≤ key then .notFound
  else
    match T.dec ((file.drop (26 + key * T.width)).take T.width) with
    | some v => .value v
    | none => .badValue

/-- `truncate_to_index`, index.rs:230-237. -/
def truncateTo (T : Ty V) (key : Nat) (file : Bytes) : Bytes :=
  if len T file ≤ key then file else file.take (26 + key * T.width + T.width)

/-- `truncate_all`, index.rs:240-243. -/
def truncateAll (file : Bytes) : Bytes := file.take 26

/-- `PositionIter`, index.rs:283-303. -/
structure Iter where
  data : Bytes
  pos : Nat
  done : Bool
  reverse : Bool

/-- `iter`, index.rs:208-215. -/
def iter (T : Ty V) (n : Nat) (file : Bytes) : Iter :=
  let data := (file.drop 26).take (min n (len T file) * T.width)
  ⟨data, 0, data.isEmpty, false⟩

/-- `rev_iter`, index.rs:218-225. -/
def revIter (T : Ty V) (n : Nat) (file : Bytes) : Iter :=
  let data := file.drop (file.length - min n (len T file) * T.width)
  ⟨data, data.length - T.width, data.isEmpty, true⟩

/-- `next`, index.rs:308-325. -/
def Iter.next (T : Ty V) (it : Iter) : Option (Option V × Iter) :=
  if it.done then none
  else
    some (T.dec ((it.data.drop it.pos).take T.width),
      if it.reverse then { it with done := decide (it.pos = 0), pos := it.pos - T.width }
      else { it with pos := it.pos + T.width, done := decide (it.data.length ≤ it.pos + T.width) })

/-- All items of an iterator, at most so many. -/
def Iter.drain (T : Ty V) : Nat → Iter → List (Option V)
  | 0, _ => []
  | f + 1, it =>
    match it.next T with
    | none => []
    | some (v, it') => v :: Iter.drain T f it'

/-- `IndexPositions`, consensus_pack.rs:1865-1920. -/
def positions : Ty (Nat × Nat × Nat) where
  width := 28
  enc v := stamp (put [(8, v.1), (8, v.2.1), (8, v.2.2)])
  dec b :=
    if checkCrc b = false then none
    else
      match get [8, 8, 8] b with
      | [x, y, z] => some (x, y, z)
      | _ => none

/-- `u64`, index.rs:347-367. -/
def u64 : Ty Nat := ⟨8, leBytes 8, fun b => some (leNat b)⟩

/-- `(u64, u64)`, index.rs:369-393. -/
def pair : Ty (Nat × Nat) := ⟨16, fun v => leBytes 8 v.1 ++ leBytes 8 v.2, fun b => some (leNat (b.take 8), leNat (b.drop 8))⟩

/-! ### Specification -/

/-- A lawful type of values on those that satisfy `ok`. -/
structure Ty.Good (T : Ty V) (ok : V → Prop) : Prop where
  pos : 0 < T.width
  length : ∀ v, (T.enc v).length = T.width
  back : ∀ v, ok v → T.dec (T.enc v) = some v

/-- The file that stands for a list of values. -/
def ofList (T : Ty V) (dh : DataHdr) (vs : List V) : Bytes := hdrBytes dh ++ vs.flatMap T.enc

end PosFile
end Verif
