import Verif.Archive.BucketSave
import Verif.Archive.Hdx
/-
C123: what the split of a bucket reads from the files (`index.rs` 546-609).
-/
namespace Verif
namespace Bkt
open Codec (Byte Bytes leBytes leNat leBytes_length leNat_leBytes)
open Crc (NearBy)
open IdxFile (stamp checkCrc checkCrc_stamp near_fails)

variable {size K : Nat} {odx : Bytes}

/-- All elements of a page from `i` on; `none`: an index out of bounds. -/
def elements (K : Nat) (page : Bytes) : Nat → Nat → Option (List (Bytes × Nat))
  | 0, _ => some []
  | c + 1, i =>
    match entry K page i with
    | none => none
    | some e => (elements K page c (i + 1)).map (e :: ·)

inductive Coll where
  /-- The entries, and whether a checksum failed. -/
  | done (es : List (Bytes × Nat)) (crc : Bool)
  | panic
  | fuel
deriving DecidableEq, Repr

/-- The loop over `next_bucket_element` in `split_one_bucket`, index.rs:571-594, with a bound on the pages. -/
def collect (size K : Nat) (odx : Bytes) : Nat → Bytes → Coll
  | 0, _ => .fuel
  | f + 1, page =>
    match elements K page (count page) 0 with
    | none => .panic
    | some es =>
      if link page = 0 then .done es false
      else
        match slice odx (link page) size with
        | none => .done es false
        | some b =>
          if checkCrc b = false then .done es true
          else if link b ≠ 0 ∧ link page ≤ link b then .done es true
          else
            match collect size K odx f b with
            | .done r c => .done (es ++ r) c
            | x => x

/-- `split_one_bucket`, index.rs:546-598: the number of buckets after it, and the entries that are distributed over the two
(C46), `none` if it reports a checksum failure or panics. -/
def split (size K : Nat) (hdx odx : Bytes) (at_ fuel buckets : Nat) : Nat × Option (List (Bytes × Nat)) :=
  (buckets + 1,
    match slice hdx at_ size with
    | none => none
    | some page =>
      if checkCrc page = false then none
      else
        match collect size K odx fuel page with
        | .done es false => some es
        | _ => none)

theorem elements_mid : ∀ (es : List (Bytes × Nat)), Fits K es → ∀ (x z : Bytes) (i : Nat), x.length = 12 + i * (K + 8) →
    elements K (x ++ (es.flatMap entryBytes ++ z)) es.length i = some es
  | [], _, _, _, _, _ => rfl
  | e :: es, hf, x, z, i, hx => by
    have h := hf e (by simp)
    rw [List.flatMap_cons, List.append_assoc, List.length_cons]
    unfold elements
    rw [entry_mid h.1 h.2 x _ i hx, ← List.append_assoc]
    dsimp only
    rw [elements_mid es (fun y hy => hf y (by simp [hy])) _ z (i + 1) (by
      rw [List.length_append, hx]
      simp only [entryBytes, List.length_append, leBytes_length, h.1, Nat.add_mul]
      omega)]
    rfl

theorem elements_body {o : Nat} {es : List (Bytes × Nat)} (hf : Fits K es) (he : es.length < 256 ^ 4) (c : Bytes) :
    elements K (body size K o es ++ c) (count (body size K o es ++ c)) 0 = some es := by
  rw [count_body o he]
  have e : body size K o es ++ c = (leBytes 8 o ++ leBytes 4 es.length) ++ (es.flatMap entryBytes ++
      (List.replicate (size - 16 - es.length * (K + 8)) 0 ++ c)) := by
    unfold body; simp only [List.append_assoc]
  rw [e]
  exact elements_mid es hf _ _ 0 (by simp only [List.length_append, leBytes_length]; omega)

/-- What a link leads to that ends the collection: nothing, the end of the file, or a damaged page. -/
inductive Stop (size K : Nat) (odx : Bytes) : Nat → Bool → Prop
  | last : Stop size K odx 0 false
  | cut {e : Nat} (he : e ≠ 0) (h : odx.length < e + size) : Stop size K odx e false
  | damaged {e x : Nat} {ds : List (Bytes × Nat)} {b : Bytes} (he : e ≠ 0) (hb : slice odx e size = some b)
      (hn : NearBy (pageBytes size K x ds) b) (hne : b ≠ pageBytes size K x ds) : Stop size K odx e true

theorem collect_path {o e : Nat} {rest : List (List (Bytes × Nat))} {fl : Bool} (hp : Path size K odx o rest e)
    (hst : Stop size K odx e fl) (hs64 : size < 256 ^ 4) :
    ∀ (es : List (Bytes × Nat)) (c : Bytes), Fits K es → es.length < 256 ^ 4 → o < 256 ^ 8 →
      ∀ f, collect size K odx (rest.length + f + 1) (body size K o es ++ c) = .done (es ++ rest.flatten) fl := by
  induction hp with
  | nil e =>
    intro es c hf hn ho f
    rw [List.flatten_nil, List.append_nil, List.length_nil, Nat.zero_add]
    unfold collect
    rw [elements_body hf hn, link_body ho]
    dsimp only
    cases hst with
    | last => rw [if_pos rfl]
    | cut he h =>
      unfold slice
      rw [if_neg he, if_neg (by omega)]
    | @damaged _ x ds b he hb hn hne =>
      rw [if_neg he, hb]
      dsimp only
      rw [if_pos (near_fails (body_ne _ _) hn hne)]
  | @cons o o' e es' rest hz hs hb hf' hl ht ih =>
    intro es c hf hn ho f
    rw [List.length_cons, show rest.length + 1 + f + 1 = (rest.length + f + 1) + 1 by omega]
    unfold collect
    rw [elements_body hf hn, link_body ho]
    have ho' : o' < 256 ^ 8 := by omega
    have hcrc : checkCrc (pageBytes size K o' es') = true := checkCrc_stamp (body_ne o' es')
    have hlink : link (pageBytes size K o' es') = o' := link_body ho' es' _
    have h8 : es'.length ≤ es'.length * (K + 8) := Nat.le_mul_of_pos_right _ (by omega)
    have := ih hst es' (leBytes 4 (Crc.crc32 (body size K o' es'))) hf' (by omega) ho' f
    dsimp only
    rw [if_neg hz, hs]
    dsimp only
    rw [hcrc, hlink, if_neg (by simp), if_neg (by omega), show pageBytes size K o' es' = body size K o' es' ++
      leBytes 4 (Crc.crc32 (body size K o' es')) from rfl, this, List.flatten_cons]

/-- C123. The entries that a split distributes: all of the bucket's, if nothing is damaged; none, with an error, if a page
is; but only those before the cut, without an error, if the overflow file ends before a page that is linked to (finding). -/
theorem split_reads {hdx : Bytes} {at_ o e n : Nat} {es : List (Bytes × Nat)} {rest : List (List (Bytes × Nat))} {fl : Bool}
    (hh : Holds size K hdx at_ o es) (hp : Path size K odx o rest e) (hst : Stop size K odx e fl) (hs64 : size < 256 ^ 4)
    (f : Nat) (hf : rest.length < f) :
    (split size K hdx odx at_ f n).2 = if fl then none else some (es ++ rest.flatten) := by
  obtain ⟨h1, h2, h3, h4⟩ := hh
  have h8 : es.length ≤ es.length * (K + 8) := Nat.le_mul_of_pos_right _ (by omega)
  obtain ⟨g, rfl⟩ : ∃ g, f = rest.length + g + 1 := ⟨f - rest.length - 1, by omega⟩
  unfold split
  rw [h1]
  dsimp only
  rw [show checkCrc (pageBytes size K o es) = true from checkCrc_stamp (body_ne o es), if_neg (by simp),
    show pageBytes size K o es = body size K o es ++ leBytes 4 (Crc.crc32 (body size K o es)) from rfl,
    collect_path hp hst hs64 es _ h2 (by omega) h4 g]
  cases fl <;> rfl

namespace Ex

/-- The bucket of `res` whole, and with its last page lost: two of the four keys are dropped, without an error. -/
theorem split_drops :
    split 34 1 (flushed res.1) res.2 0 9 3 = (4, some [([3], 301), ([4], 400), ([3], 300), ([1], 101), ([1], 100), ([2], 200)]) ∧
    split 34 1 (flushed res.1) (res.2.take 40) 0 9 3 = (4, some [([3], 301), ([4], 400)]) := by decide +kernel

/-- Finding: a split that fails over a damaged page has raised the number of buckets all the same. A key that was found
before, on a page that is not damaged, is then looked for in a bucket that was never written, and reported as damaged. -/
theorem failed_split :
    lookup 34 1 [4] (flushed res.1) (res.2.set 20 4) 0 9 = some (.found 400) ∧
    split 34 1 (flushed res.1) (res.2.set 20 4) 0 9 1 = (2, none) ∧
    Hdx.bucketOf 1 5 = 0 ∧ Hdx.bucketOf 2 5 = 1 ∧
    lookup 34 1 [4] (flushed res.1) (res.2.set 20 4) (0 + 1 * 34) 9 = some .crcFailed := by decide +kernel

end Ex

end Bkt
end Verif
