import Verif.Archive.IndexFile
/-
C123: looking up a digest in the files of a digest index, byte by byte
(`crates/storage/src/archive/digest_index/bucket_iter.rs` 14-171; `index.rs` 485-511, 612-715).

A file is its bytes; reading fails only beyond the end of the file. The filter (C46) and the cache of buckets (transparent,
C46) are left out: a bucket is read from the file. `size` is `BUCKET_SIZE`, `K` the size of a key.
-/
namespace Verif
namespace Bkt
open Codec (Byte Bytes leBytes leNat)
open IdxFile (stamp checkCrc)

/-- `seek` and `read_exact`. -/
def slice (f : Bytes) (pos n : Nat) : Option Bytes := if pos + n ≤ f.length then some ((f.drop pos).take n) else none

inductive Res where
  | found (p : Nat)
  | notFound
  | crcFailed
  /-- An index out of bounds. -/
  | panic
deriving DecidableEq, Repr

inductive Scan where
  | hit (p : Nat)
  | miss
  | panic
deriving DecidableEq, Repr

/-- `get_element`, bucket_iter.rs:83-94. -/
def entry (K : Nat) (page : Bytes) (i : Nat) : Option (Bytes × Nat) :=
  (slice page (12 + i * (K + 8)) (K + 8)).map fun e => (e.take K, leNat (e.drop K))

/-- The number of elements of a page, bucket_iter.rs:44-46 and 127-129. -/
def count (page : Bytes) : Nat := leNat ((page.drop 8).take 4)

/-- The link of a page, bucket_iter.rs:41-43 and 117-118. -/
def link (page : Bytes) : Nat := leNat (page.take 8)

/-- The elements of one page from `i` on, `c` of them, up to the first with the key, index.rs:625-630. -/
def scan (K : Nat) (key page : Bytes) : Nat → Nat → Scan
  | 0, _ => .miss
  | c + 1, i =>
    match entry K page i with
    | none => .panic
    | some (k, p) => if k = key then .hit p else scan K key page c (i + 1)

/-- `next_bucket_element` with `reset_next_overflow`, bucket_iter.rs:97-171, under the loop of `fetch_position`,
index.rs:625-646. The first argument bounds the number of pages; `none`: not done within it. -/
def walk (size K : Nat) (key odx : Bytes) : Nat → Bytes → Option Res
  | 0, _ => none
  | f + 1, page =>
    match scan K key page (count page) 0 with
    | .hit p => some (.found p)
    | .panic => some .panic
    | .miss =>
      if link page = 0 then some .notFound
      else
        match slice odx (link page) size with
        | none => some .notFound
        | some b =>
          if checkCrc b = false then some .crcFailed
          else if link b ≠ 0 ∧ link page ≤ link b then some .crcFailed
          else walk size K key odx f b

/-- `fetch_position` of the bucket at `at_` in `index.hdx`, index.rs:485-511 and 612-647. -/
def lookup (size K : Nat) (key hdx odx : Bytes) (at_ fuel : Nat) : Option Res :=
  match slice hdx at_ size with
  | none => some .crcFailed
  | some page => if checkCrc page = false then some .crcFailed else walk size K key odx fuel page

/-- One entry: key and position, index.rs:683-686. -/
def entryBytes (e : Bytes × Nat) : Bytes := e.1 ++ leBytes 8 e.2

/-- A page without its checksum, as `save_to_bucket_buffer` leaves it, index.rs:651-715. -/
def body (size K over : Nat) (es : List (Bytes × Nat)) : Bytes :=
  leBytes 8 over ++ leBytes 4 es.length ++ es.flatMap entryBytes ++ List.replicate (size - 16 - es.length * (K + 8)) 0

/-- A page as it is written, index.rs:516 and 674. -/
def pageBytes (size K over : Nat) (es : List (Bytes × Nat)) : Bytes := stamp (body size K over es)

/-- `copy_from_slice` into a part of a buffer. -/
def splice (b : Bytes) (at_ : Nat) (x : Bytes) : Bytes := b.take at_ ++ x ++ b.drop (at_ + x.length)

/-- The first element with the key, index.rs:692-702. -/
def position (K : Nat) (key page : Bytes) : Nat → Nat → Option Nat
  | 0, _ => none
  | c + 1, i =>
    if (page.drop (12 + i * (K + 8))).take K = key then some i else position K key page c (i + 1)

/-- `save_to_bucket_buffer`, index.rs:651-715: the page and the overflow file after it. `max` is `BUCKET_ELEMENTS`. -/
def save (K max : Nat) (key : Bytes) (p : Nat) (page odx : Bytes) : Bytes × Bytes :=
  let n := count page
  if max ≤ n then
    (splice (splice (splice (splice (List.replicate page.length 0) 0 (leBytes 8 odx.length)) 8 (leBytes 4 1)) 12 key) (12 + K)
      (leBytes 8 p), odx ++ stamp (page.take (page.length - 4)))
  else if n = 0 then (splice (splice (splice page 8 (leBytes 4 1)) 12 key) (12 + K) (leBytes 8 p), odx)
  else
    match position K key page n 0 with
    | some i => (splice page (12 + i * (K + 8) + K) (leBytes 8 p), odx)
    | none =>
      (splice (splice (splice page 8 (leBytes 4 (n + 1))) (12 + n * (K + 8)) key) (12 + n * (K + 8) + K) (leBytes 8 p), odx)

/-! ### Specification -/

/-- The position of the first entry with the key. -/
def first (key : Bytes) : List (Bytes × Nat) → Option Nat
  | [] => none
  | e :: es => if e.1 = key then some e.2 else first key es

/-- Entries that fit: keys of the right size, positions of 64 bits. -/
def Fits (K : Nat) (es : List (Bytes × Nat)) : Prop := ∀ e ∈ es, e.1.length = K ∧ e.2 < 256 ^ 8

/-- The overflow file holds, from the link `o` on and newest first, pages with these entries; the last one's link is `e`. -/
inductive Path (size K : Nat) (odx : Bytes) : Nat → List (List (Bytes × Nat)) → Nat → Prop
  | nil (e : Nat) : Path size K odx e [] e
  | cons {o o' e : Nat} {es : List (Bytes × Nat)} {rest : List (List (Bytes × Nat))} (hz : o ≠ 0)
      (hs : slice odx o size = some (pageBytes size K o' es)) (hb : o' = 0 ∨ o' < o) (hf : Fits K es)
      (hl : 16 + es.length * (K + 8) ≤ size) (ht : Path size K odx o' rest e) : Path size K odx o (es :: rest) e

end Bkt
end Verif
