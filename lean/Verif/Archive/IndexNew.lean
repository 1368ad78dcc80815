import Verif.Archive.IndexFileProps
import Verif.Archive.BucketSave
/-
C122 and C123 together: lookups in the buckets of a new index, whole or cut by a crash.
-/
namespace Verif
namespace Bkt
open Codec (Byte Bytes leBytes leNat leBytes_length leNat_leBytes)
open IdxFile (Geo DataHdr newFile newHdx emptyBucket hdxBytes hdxBytes_length stamp stamp_length openHdx)

variable {g : Geo} {hash : Nat → Nat} {K : Nat}

/-- The place of a bucket in `index.hdx`, index.rs:495-497. -/
def bucketAt (g : Geo) (b : Nat) : Nat := 68 + g.bloom + b * g.size

theorem empty_page (h16 : 16 ≤ g.size) : emptyBucket g = pageBytes g.size K 0 [] := by
  unfold emptyBucket pageBytes body
  congr 1
  have e : g.size - 4 = 8 + (4 + (g.size - 16 - 0 * (K + 8))) := by omega
  rw [e]
  have h8 : leBytes 8 0 = List.replicate 8 0 := by decide
  have h4 : leBytes 4 0 = List.replicate 4 0 := by decide
  simp only [zeros_split, List.flatMap_nil, List.length_nil, List.append_nil, h8, h4, List.append_assoc]

theorem empty_length (h16 : 16 ≤ g.size) : (emptyBucket g).length = g.size := by
  unfold emptyBucket
  rw [stamp_length, List.length_replicate]
  omega

theorem flatten_replicate_length (x : Bytes) : ∀ n : Nat, (List.replicate n x).flatten.length = n * x.length
  | 0 => by simp
  | n + 1 => by
    rw [List.replicate_succ, List.flatten_cons, List.length_append, flatten_replicate_length x n, Nat.add_mul]
    omega

/-- Each bucket of a new file is an empty one. -/
theorem new_bucket (dh : DataHdr) (h16 : 16 ≤ g.size) {b : Nat} (hb : b < g.buckets) :
    slice (newFile g hash dh) (bucketAt g b) g.size = some (pageBytes g.size K 0 []) := by
  have hl := hdxBytes_length (newHdx g hash dh)
  have he := empty_length h16
  have e : newFile g hash dh = (hdxBytes (newHdx g hash dh) ++ List.replicate g.bloom 0 ++
      (List.replicate b (emptyBucket g)).flatten) ++ (emptyBucket g ++
        (List.replicate (g.buckets - b - 1) (emptyBucket g)).flatten) := by
    unfold newFile
    have : List.replicate g.buckets (emptyBucket g) = List.replicate b (emptyBucket g) ++ (emptyBucket g ::
        List.replicate (g.buckets - b - 1) (emptyBucket g)) := by
      rw [← List.replicate_succ, List.replicate_append_replicate]
      congr 1
      omega
    rw [this, List.flatten_append, List.flatten_cons]
    simp only [List.append_assoc]
  have hx : (hdxBytes (newHdx g hash dh) ++ List.replicate g.bloom 0 ++ (List.replicate b (emptyBucket g)).flatten).length =
      bucketAt g b := by
    rw [List.length_append, List.length_append, hl, List.length_replicate, flatten_replicate_length, he]
    rfl
  rw [e, ← hx]
  have := slice_mid (hdxBytes (newHdx g hash dh) ++ List.replicate g.bloom 0 ++ (List.replicate b (emptyBucket g)).flatten)
    (emptyBucket g) (List.replicate (g.buckets - b - 1) (emptyBucket g)).flatten
  rw [he] at this
  rw [this, empty_page (K := K) h16]

/-- C123. In a new index nothing is found, and nothing is damaged. -/
theorem new_empty (dh : DataHdr) (h16 : 16 ≤ g.size) (h32 : g.size < 256 ^ 4) {b : Nat} (hb : b < g.buckets) (odx key : Bytes)
    (hod : odx.length < 256 ^ 8) :
    lookup g.size K key (newFile g hash dh) odx (bucketAt g b) (odx.length + 2) = some .notFound :=
  newest (es := []) (rest := []) ⟨new_bucket dh h16 hb, (by intro e he; cases he), (by simpa using h16), by decide⟩ (.nil 0) h32 hod

/-- C123. A new index that a crash cut: it is opened (C122) with the same header and filter, and a lookup in a bucket that is
not whole reports damage, in every other that the key is not there. -/
theorem new_cut (dh : DataHdr) (hn : (newHdx g hash dh).Sized) (h16 : 16 ≤ g.size) (h32 : g.size < 256 ^ 4) {n b : Nat}
    (h : 68 + g.bloom ≤ n) (hb : b < g.buckets) (odx key : Bytes) (hod : odx.length < 256 ^ 8) :
    openHdx g hash dh false ((newFile g hash dh).take n) =
        .ok (newHdx g hash dh, List.replicate g.bloom 0, (newFile g hash dh).take n) ∧
      lookup g.size K key ((newFile g hash dh).take n) odx (bucketAt g b) (odx.length + 2) =
        some (if bucketAt g b + g.size ≤ n then .notFound else .crcFailed) := by
  refine ⟨by rw [IdxFile.torn dh hn, if_neg (by omega), if_neg (by omega)], ?_⟩
  have hw := new_bucket (K := K) (hash := hash) dh h16 hb
  by_cases c : bucketAt g b + g.size ≤ n
  · rw [if_pos c]
    refine newest (es := []) (rest := []) ⟨?_, (by intro e he; cases he), (by simpa using h16), by decide⟩ (.nil 0) h32 hod
    unfold slice at hw ⊢
    by_cases c2 : bucketAt g b + g.size ≤ (newFile g hash dh).length
    · rw [if_pos c2] at hw
      rw [if_pos (by rw [List.length_take]; omega), List.drop_take, List.take_take, Nat.min_eq_left (by omega)]
      exact hw
    · rw [if_neg c2] at hw; cases hw
  · rw [if_neg c]
    unfold lookup slice
    rw [if_neg (by rw [List.length_take]; omega)]

namespace Ex

/-- Three buckets, cut in the second one. -/
example : lookup 1296 32 [] ((newFile IdxFile.Ex.geo IdxFile.Ex.hsh IdxFile.Ex.dh).take 2000) [5] (bucketAt IdxFile.Ex.geo 0) 3 =
      some .notFound ∧
    lookup 1296 32 [] ((newFile IdxFile.Ex.geo IdxFile.Ex.hsh IdxFile.Ex.dh).take 2000) [5] (bucketAt IdxFile.Ex.geo 1) 3 =
      some .crcFailed :=
  ⟨(new_cut (g := IdxFile.Ex.geo) (b := 0) IdxFile.Ex.dh IdxFile.Ex.new_sized (by decide) (by decide) (by decide) (by decide)
      [5] [] (by decide)).2,
    (new_cut (g := IdxFile.Ex.geo) (b := 1) IdxFile.Ex.dh IdxFile.Ex.new_sized (by decide) (by decide) (by decide) (by decide)
      [5] [] (by decide)).2⟩

end Ex

end Bkt
end Verif
