import Verif.Archive.Crc
/-
C122: the files of a digest index, byte by byte: `index.hdx` and `index.odx`
(`crates/storage/src/archive/digest_index/index.rs` 28-174, 282-391; `odx_header.rs` 15-135; `archive/crc.rs`).

A file is its bytes. Simplifications: reading and writing succeed except at the end of the file; the hash function is a
parameter; the sizes of filter and buckets are parameters (`Geo`), as the code has other ones for tests.
-/
namespace Verif
namespace IdxFile
open Codec (Byte Bytes leBytes leNat)
open Crc (crc32)

/-- `add_crc32`, crc.rs:26-37, over a buffer whose last four bytes are free. -/
def stamp (d : Bytes) : Bytes := d ++ leBytes 4 (crc32 d)

/-- `check_crc`, crc.rs:6-18. -/
def checkCrc (b : Bytes) : Bool :=
  if b.length < 5 then false else decide (crc32 (b.take (b.length - 4)) = leNat (b.drop (b.length - 4)))

/-- Little-endian fields of these widths, one after the other. -/
def put : List (Nat × Nat) → Bytes
  | [] => []
  | (w, v) :: r => leBytes w v ++ put r

/-- Reading such fields with a running position. -/
def get : List Nat → Bytes → List Nat
  | [], _ => []
  | w :: ws, b => leNat (b.take w) :: get ws (b.drop w)

/-- `b"telcoinx"`. -/
def typeId : Bytes := [116, 101, 108, 99, 111, 105, 110, 120]

/-- What the index takes from the header of the data file: version, identifier, application number. -/
structure DataHdr where
  version : Nat
  uid : Nat
  appnum : Nat
deriving DecidableEq, Repr

/-- `BUCKET_ELEMENTS`, `BUCKET_SIZE`, `INITIAL_BUCKETS`, `BLOOM_SIZE_BYTES`, `DATA_HEADER_BYTES`, the load factor of one half. -/
structure Geo where
  elements : Nat
  size : Nat
  buckets : Nat
  bloom : Nat
  dataHeader : Nat
  load : Nat

/-- `HdxHeader`, index.rs:35-48. -/
structure Hdx where
  version : Nat
  uid : Nat
  appnum : Nat
  buckets : Nat
  elements : Nat
  size : Nat
  salt : Nat
  pepper : Nat
  load : Nat
  values : Nat
  dataLen : Nat
deriving DecidableEq, Repr

inductive Err where
  | io
  | crc
  | type
  | version
  | appnum
  | uid
  | geometry
  | hasher
  | readOnlyEmpty
deriving DecidableEq, Repr

/-- The widths of the fields, index.rs:93-124 and 148-170. -/
def hdxWidths : List Nat := [2, 8, 4, 4, 2, 2, 8, 8, 2, 8, 8]

/-- `write_header`, index.rs:143-174. -/
def hdxBytes (h : Hdx) : Bytes :=
  stamp (typeId ++ put [(2, h.version), (8, h.uid), (4, h.appnum), (4, h.buckets), (2, h.elements), (2, h.size), (8, h.salt),
    (8, h.pepper), (2, h.load), (8, h.values), (8, h.dataLen)])

/-- `load_header`, index.rs:76-140: of the whole file. -/
def loadHdx (file : Bytes) : Except Err Hdx :=
  if file.length < 68 then .error .io
  else if checkCrc (file.take 68) = false then .error .crc
  else if file.take 8 ≠ typeId then .error .type
  else
    match get hdxWidths (file.drop 8) with
    | [v, u, a, n, e, s, sa, p, l, k, d] => .ok ⟨v, u, a, n, e, s, sa, p, l, k, d⟩
    | _ => .error .io

/-- `from_data_header`, index.rs:53-72. -/
def newHdx (g : Geo) (hash : Nat → Nat) (dh : DataHdr) : Hdx :=
  ⟨dh.version, dh.uid, dh.appnum, g.buckets, g.elements, g.size, hash dh.uid, hash (hash dh.uid), g.load, 0, g.dataHeader⟩

/-- A new bucket, index.rs:320-321. -/
def emptyBucket (g : Geo) : Bytes := stamp (List.replicate (g.size - 4) 0)

/-- A new `index.hdx`, index.rs:311-335. -/
def newFile (g : Geo) (hash : Nat → Nat) (dh : DataHdr) : Bytes :=
  hdxBytes (newHdx g hash dh) ++ List.replicate g.bloom 0 ++ (List.replicate g.buckets (emptyBucket g)).flatten

/-- The part of `open_hdx_file` for `index.hdx`, index.rs:305-371: header, filter, and the file after it. -/
def openHdx (g : Geo) (hash : Nat → Nat) (dh : DataHdr) (readOnly : Bool) (file : Bytes) : Except Err (Hdx × Bytes × Bytes) :=
  if file = [] then
    if readOnly then .error .readOnlyEmpty else .ok (newHdx g hash dh, List.replicate g.bloom 0, newFile g hash dh)
  else
    match loadHdx file with
    | .error e => .error e
    | .ok h =>
      if h.version ≠ dh.version then .error .version
      else if h.appnum ≠ dh.appnum then .error .appnum
      else if h.uid ≠ dh.uid then .error .uid
      else if h.size ≠ g.size ∨ h.elements ≠ g.elements then .error .geometry
      else if h.pepper ≠ hash h.salt then .error .hasher
      else if file.length < 68 + g.bloom then .error .io
      else .ok (h, (file.drop 68).take g.bloom, file)

/-- `OdxHeader`, odx_header.rs:22-30, without the type. -/
def odxBytes (dh : DataHdr) : Bytes := stamp (typeId ++ put [(2, dh.version), (8, dh.uid), (4, dh.appnum)] ++ [0, 0])

/-- `load_header`, odx_header.rs:81-115. -/
def loadOdx (file : Bytes) : Except Err DataHdr :=
  if file.length < 28 then .error .io
  else if checkCrc (file.take 28) = false then .error .crc
  else if file.take 8 ≠ typeId then .error .type
  else
    match get [2, 8, 4] (file.drop 8) with
    | [v, u, a] => .ok ⟨v, u, a⟩
    | _ => .error .io

/-- `open_odx_file`, odx_header.rs:34-70: the file after it. -/
def openOdx (dh : DataHdr) (readOnly : Bool) (file : Bytes) : Except Err Bytes :=
  if file = [] then if readOnly then .error .readOnlyEmpty else .ok (odxBytes dh)
  else
    match loadOdx file with
    | .error e => .error e
    | .ok h =>
      if h.version ≠ dh.version then .error .version
      else if h.appnum ≠ dh.appnum then .error .appnum
      else if h.uid ≠ dh.uid then .error .uid
      else .ok file

/-- `open_hdx_file`, index.rs:282-391: both files. -/
def openIndex (g : Geo) (hash : Nat → Nat) (dh : DataHdr) (readOnly : Bool) (hdx odx : Bytes) :
    Except Err (Hdx × Bytes × Bytes × Bytes) :=
  match openHdx g hash dh readOnly hdx with
  | .error e => .error e
  | .ok (h, bl, f) =>
    match openOdx ⟨h.version, h.uid, h.appnum⟩ readOnly odx with
    | .error e => .error e
    | .ok o => .ok (h, bl, f, o)

/-! ### Specification -/

/-- The fields fit their widths. -/
structure Hdx.Sized (h : Hdx) : Prop where
  version : h.version < 256 ^ 2
  uid : h.uid < 256 ^ 8
  appnum : h.appnum < 256 ^ 4
  buckets : h.buckets < 256 ^ 4
  elements : h.elements < 256 ^ 2
  size : h.size < 256 ^ 2
  salt : h.salt < 256 ^ 8
  pepper : h.pepper < 256 ^ 8
  load : h.load < 256 ^ 2
  values : h.values < 256 ^ 8
  dataLen : h.dataLen < 256 ^ 8

structure DataHdr.Sized (h : DataHdr) : Prop where
  version : h.version < 256 ^ 2
  uid : h.uid < 256 ^ 8
  appnum : h.appnum < 256 ^ 4

end IdxFile
end Verif
