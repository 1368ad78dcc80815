import Mathlib.Tactic.Common
import Verif.Archive.BucketProps
/-
C123: saving, and runs.
-/
namespace Verif
namespace Bkt
open Codec (Byte Bytes leBytes leNat leBytes_length leNat_leBytes)
open IdxFile (stamp checkCrc stamp_length checkCrc_stamp)

variable {size K max : Nat} {key : Bytes}

theorem splice_mid (x y y' z : Bytes) (n : Nat) (hn : n = x.length) (h : y'.length = y.length) :
    splice (x ++ (y ++ z)) n y' = x ++ (y' ++ z) := by
  unfold splice
  rw [hn, List.take_left, h, ← List.length_append, ← List.append_assoc x y z, List.drop_left, List.append_assoc]

theorem position_mid : ∀ (es : List (Bytes × Nat)), Fits K es → ∀ (x z : Bytes) (i : Nat), x.length = 12 + i * (K + 8) →
    position K key (x ++ (es.flatMap entryBytes ++ z)) es.length i = (es.findIdx? (fun e => e.1 = key)).map (· + i)
  | [], _, _, _, _, _ => rfl
  | e :: es, hf, x, z, i, hx => by
    have h := hf e (by simp)
    rw [List.flatMap_cons, List.append_assoc, List.length_cons]
    unfold position
    have e1 : ((x ++ (entryBytes e ++ (es.flatMap entryBytes ++ z))).drop (12 + i * (K + 8))).take K = e.1 := by
      rw [← hx, List.drop_left]
      unfold entryBytes
      rw [List.append_assoc, ← h.1, List.take_left]
    rw [e1, List.findIdx?_cons]
    by_cases c : e.1 = key
    · rw [if_pos c]
      simp [c]
    · rw [if_neg c, ← List.append_assoc, position_mid es (fun y hy => hf y (by simp [hy])) _ z (i + 1) (by
        rw [List.length_append, hx]
        simp only [entryBytes, List.length_append, leBytes_length, h.1, Nat.add_mul]
        omega)]
      simp only [c, decide_false, Bool.false_eq_true, if_false, Option.map_map]
      congr 1
      funext j
      simp only [Function.comp]
      omega

theorem zeros_split (a b : Nat) : List.replicate (a + b) (0 : Byte) = List.replicate a 0 ++ List.replicate b 0 :=
  List.replicate_append_replicate.symm

theorem write_entry {o n : Nat} {es : List (Bytes × Nat)} (c : Bytes) (p : Nat) (hf : Fits K es) (hn : n = es.length)
    (hs : size = 16 + max * (K + 8)) (hm : n < max) (hk : key.length = K) :
    splice (splice (splice (body size K o es ++ c) 8 (leBytes 4 (n + 1))) (12 + n * (K + 8)) key) (12 + n * (K + 8) + K)
      (leBytes 8 p) = body size K o (es ++ [(key, p)]) ++ c := by
  have hmul : (n + 1) * (K + 8) ≤ max * (K + 8) := Nat.mul_le_mul_right _ hm
  have hpad : size - 16 - es.length * (K + 8) = K + (8 + (size - 16 - (n + 1) * (K + 8))) := by
    rw [← hn]
    rw [Nat.add_mul] at hmul ⊢
    omega
  have e1 : body size K o es ++ c = leBytes 8 o ++ (leBytes 4 es.length ++ (es.flatMap entryBytes ++
      (List.replicate (K + (8 + (size - 16 - (n + 1) * (K + 8)))) 0 ++ c))) := by
    unfold body
    rw [hpad]
    simp only [List.append_assoc]
  rw [e1, splice_mid _ _ (leBytes 4 (n + 1)) _ 8 (by rw [leBytes_length]) (by rw [leBytes_length, leBytes_length])]
  have e2 : leBytes 8 o ++ (leBytes 4 (n + 1) ++ (es.flatMap entryBytes ++
      (List.replicate (K + (8 + (size - 16 - (n + 1) * (K + 8)))) 0 ++ c))) =
      (leBytes 8 o ++ leBytes 4 (n + 1) ++ es.flatMap entryBytes) ++ (List.replicate K 0 ++
        (List.replicate 8 0 ++ (List.replicate (size - 16 - (n + 1) * (K + 8)) 0 ++ c))) := by
    simp only [zeros_split, List.append_assoc]
  have hxl : (leBytes 8 o ++ leBytes 4 (n + 1) ++ es.flatMap entryBytes).length = 12 + n * (K + 8) := by
    simp only [List.length_append, leBytes_length, flat_length es hf, ← hn]
  rw [e2, splice_mid _ _ key _ _ hxl.symm (by rw [hk, List.length_replicate]), ← List.append_assoc _ key _,
    splice_mid _ _ (leBytes 8 p) _ _ (by rw [List.length_append, hxl, hk]) (by rw [leBytes_length, List.length_replicate])]
  unfold body
  rw [List.length_append, List.length_singleton, ← hn, List.flatMap_append]
  simp only [List.flatMap_cons, List.flatMap_nil, List.append_nil, entryBytes, List.append_assoc]

theorem over_entry {o q : Nat} {a b : List (Bytes × Nat)} (c : Bytes) (p : Nat) (hf : Fits K (a ++ (key, q) :: b)) :
    splice (body size K o (a ++ (key, q) :: b) ++ c) (12 + a.length * (K + 8) + K) (leBytes 8 p) =
      body size K o (a ++ (key, p) :: b) ++ c := by
  have hk : key.length = K := (hf (key, q) (by simp)).1
  have ha : Fits K a := fun e he => hf e (by simp [he])
  have e1 : body size K o (a ++ (key, q) :: b) ++ c = (leBytes 8 o ++ leBytes 4 (a.length + (b.length + 1)) ++
      a.flatMap entryBytes ++ key) ++ (leBytes 8 q ++ (b.flatMap entryBytes ++
      (List.replicate (size - 16 - (a.length + (b.length + 1)) * (K + 8)) 0 ++ c))) := by
    unfold body
    simp only [List.flatMap_append, List.flatMap_cons, entryBytes, List.append_assoc, List.length_append, List.length_cons]
  rw [e1, splice_mid _ _ (leBytes 8 p) _ _ (by
    simp only [List.length_append, leBytes_length, flat_length a ha, hk]) (by rw [leBytes_length, leBytes_length])]
  unfold body
  simp only [List.flatMap_append, List.flatMap_cons, entryBytes, List.append_assoc, List.length_append, List.length_cons]

theorem fresh_page {p L n : Nat} (hs : size = 16 + max * (K + 8)) (hm : 0 < max) (hk : key.length = K) (hn : n = size) :
    splice (splice (splice (splice (List.replicate n 0) 0 (leBytes 8 L)) 8 (leBytes 4 1)) 12 key) (12 + K) (leBytes 8 p) =
      body size K L [(key, p)] ++ List.replicate 4 0 := by
  have hmul : 1 * (K + 8) ≤ max * (K + 8) := Nat.mul_le_mul_right _ hm
  have e0 : n = 8 + (4 + (K + (8 + ((size - 16 - 1 * (K + 8)) + 4)))) := by omega
  rw [e0]
  simp only [zeros_split]
  have s1 := splice_mid [] (List.replicate 8 0) (leBytes 8 L) (List.replicate 4 0 ++ (List.replicate K 0 ++
    (List.replicate 8 0 ++ (List.replicate (size - 16 - 1 * (K + 8)) 0 ++ List.replicate 4 0)))) 0 rfl
    (by rw [leBytes_length, List.length_replicate])
  simp only [List.nil_append] at s1
  rw [s1, splice_mid (leBytes 8 L) _ (leBytes 4 1) _ 8 (by rw [leBytes_length]) (by rw [leBytes_length, List.length_replicate]),
    ← List.append_assoc (leBytes 8 L),
    splice_mid _ _ key _ 12 (by rw [List.length_append, leBytes_length, leBytes_length]) (by rw [hk, List.length_replicate]),
    ← List.append_assoc _ key,
    splice_mid _ _ (leBytes 8 p) _ (12 + K) (by simp only [List.length_append, leBytes_length, hk])
      (by rw [leBytes_length, List.length_replicate])]
  unfold body
  simp only [List.length_singleton, List.flatMap_cons, List.flatMap_nil, List.append_nil, entryBytes, List.append_assoc]

theorem slice_append {f x b : Bytes} {o n : Nat} (h : slice f o n = some b) : slice (f ++ x) o n = some b := by
  unfold slice at h ⊢
  by_cases c : o + n ≤ f.length
  · rw [if_pos c] at h
    rw [if_pos (by rw [List.length_append]; omega), List.drop_append_of_le_length (by omega),
      List.take_append_of_le_length (by rw [List.length_drop]; omega)]
    exact h
  · rw [if_neg c] at h; cases h

theorem path_append {odx x : Bytes} {o e : Nat} {rest : List (List (Bytes × Nat))} (h : Path size K odx o rest e) :
    Path size K (odx ++ x) o rest e := by
  induction h with
  | nil e => exact .nil e
  | cons hz hs hb hf hl _ ih => exact .cons hz (slice_append hs) hb hf hl ih

/-- A bucket in memory, with its overflow pages in the file: its own entries `es`, those of the pages, newest first, `rest`.
The checksum of the page in memory may be of an older content. -/
structure InMem (size K max : Nat) (page odx : Bytes) (es : List (Bytes × Nat)) (rest : List (List (Bytes × Nat))) : Prop where
  bytes : ∃ o c, page = body size K o es ++ c ∧ c.length = 4 ∧ o < 256 ^ 8 ∧ (o = 0 ∨ o < odx.length) ∧ Path size K odx o rest 0
  fits : Fits K es
  most : es.length ≤ max

theorem first_none : ∀ {es : List (Bytes × Nat)}, first key es = none ↔ ∀ e ∈ es, e.1 ≠ key
  | [] => by simp [first]
  | e :: es => by
    have ih := first_none (es := es)
    simp only [first]
    by_cases c : e.1 = key
    · simp [c]
    · rw [if_neg c, ih]
      simp [c]

theorem findIdx_some : ∀ (es : List (Bytes × Nat)) (i : Nat), es.findIdx? (fun e => e.1 = key) = some i →
    ∃ a q b, es = a ++ (key, q) :: b ∧ a.length = i ∧ ∀ e ∈ a, e.1 ≠ key
  | [], _, h => by cases h
  | e :: es, i, h => by
    rw [List.findIdx?_cons] at h
    by_cases c : e.1 = key
    · simp only [c, decide_true, if_true, Option.some.injEq] at h
      exact ⟨[], e.2, es, by rw [← c]; rfl, h, by simp⟩
    · simp only [c, decide_false, Bool.false_eq_true, if_false, Option.map_eq_some_iff] at h
      obtain ⟨j, h1, h2⟩ := h
      obtain ⟨a, q, b, h3, h4, h5⟩ := findIdx_some es j h1
      refine ⟨e :: a, q, b, by rw [h3]; rfl, by rw [List.length_cons, h4, h2], ?_⟩
      intro x hx
      rcases List.mem_cons.mp hx with rfl | hx
      · exact c
      · exact h5 x hx

theorem findIdx_none {es : List (Bytes × Nat)} (h : es.findIdx? (fun e => e.1 = key) = none) : ∀ e ∈ es, e.1 ≠ key := by
  rw [List.findIdx?_eq_none_iff] at h
  intro e he k
  have := h e he
  simp [k] at this

/-- C123. A save into a bucket: its bytes and those of the overflow file are again those of a bucket; the key has the new
position and every other key what it had; what was in the overflow file stays there. -/
theorem saved {page odx : Bytes} {es : List (Bytes × Nat)} {rest : List (List (Bytes × Nat))} (p : Nat)
    (hi : InMem size K max page odx es rest) (hs : size = 16 + max * (K + 8)) (hm : 0 < max) (h32 : size < 256 ^ 4)
    (hk : key.length = K) (hp : p < 256 ^ 8) (hod : odx ≠ []) (h64 : odx.length < 256 ^ 8) :
    ∃ es' rest', InMem size K max (save K max key p page odx).1 (save K max key p page odx).2 es' rest' ∧
      (∀ k, first k (es' ++ rest'.flatten) = if k = key then some p else first k (es ++ rest.flatten)) ∧
      odx <+: (save K max key p page odx).2 ∧ (save K max key p page odx).2.length ≤ odx.length + size := by
  obtain ⟨⟨o, c, hb, hc, ho, hol, hpath⟩, hf, hmost⟩ := hi
  have h8 : es.length ≤ es.length * (K + 8) := Nat.le_mul_of_pos_right _ (by omega)
  have hmul : es.length * (K + 8) ≤ max * (K + 8) := Nat.mul_le_mul_right _ hmost
  have hn : es.length < 256 ^ 4 := by omega
  have hcnt : count page = es.length := by rw [hb]; exact count_body o hn c
  have hbl : (body size K o es).length = size - 4 := body_length hf (by omega)
  have hpl : page.length = size := by rw [hb, List.length_append, hbl, hc]; omega
  have hod' : 0 < odx.length := List.length_pos_iff.mpr hod
  have hfk : Fits K [(key, p)] := by
    intro e he
    rw [List.mem_singleton] at he
    rw [he]
    exact ⟨hk, hp⟩
  have hrefl : ∀ k, k = key → first k [(key, p)] = some p := by
    intro k h
    simp [first, h]
  have hother : ∀ k, k ≠ key → first k [(key, p)] = none := by
    intro k h
    simp [first, Ne.symm h]
  unfold save
  dsimp only
  rw [hcnt]
  by_cases c1 : max ≤ es.length
  · rw [if_pos c1]
    have hst : stamp (page.take (page.length - 4)) = pageBytes size K o es := by
      rw [hpl, hb, ← hbl, List.take_left]
      rfl
    rw [hst, fresh_page (max := max) hs hm hk hpl]
    have hlen : (pageBytes size K o es).length = size := by
      unfold pageBytes
      rw [stamp_length, hbl]
      omega
    refine ⟨[(key, p)], es :: rest, ⟨⟨odx.length, List.replicate 4 0, rfl, by rw [List.length_replicate], h64, .inr ?_, ?_⟩, hfk, hm⟩,
      ?_, List.prefix_append _ _, ?_⟩
    · rw [List.length_append, hlen]; omega
    · refine .cons (by omega) ?_ hol hf (by omega) (path_append hpath)
      have := slice_mid odx (pageBytes size K o es) []
      rw [List.append_nil, hlen] at this
      exact this
    · intro k
      rw [first_append]
      by_cases h : k = key
      · rw [if_pos h, hrefl k h]; rfl
      · rw [if_neg h, hother k h, List.flatten_cons]; rfl
    · rw [List.length_append, hlen]; exact Nat.le_refl _
  · rw [if_neg c1]
    have hadd : (∀ e ∈ es, e.1 ≠ key) → ∃ es' rest',
        InMem size K max (body size K o (es ++ [(key, p)]) ++ c) odx es' rest' ∧
        (∀ k, first k (es' ++ rest'.flatten) = if k = key then some p else first k (es ++ rest.flatten)) := by
      intro hno
      refine ⟨es ++ [(key, p)], rest, ⟨⟨o, c, rfl, hc, ho, hol, hpath⟩, ?_, by
        rw [List.length_append, List.length_singleton]; omega⟩, ?_⟩
      · intro e he
        rcases List.mem_append.mp he with he | he
        · exact hf e he
        · exact hfk e he
      · intro k
        rw [first_append, first_append, first_append]
        by_cases h : k = key
        · rw [if_pos h, hrefl k h, h, first_none.mpr hno]; rfl
        · rw [if_neg h, hother k h, Option.or_none]
    by_cases c2 : es.length = 0
    · rw [if_pos c2]
      have hw := write_entry (o := o) (key := key) c p hf rfl hs (Nat.lt_of_not_le c1) hk
      rw [c2] at hw
      simp only [Nat.zero_mul, Nat.add_zero, Nat.zero_add] at hw
      rw [hb, hw]
      have hnil : es = [] := List.length_eq_zero_iff.mp c2
      obtain ⟨a, b, h1, h2⟩ := hadd (by rw [hnil]; simp)
      exact ⟨a, b, h1, h2, List.prefix_refl _, Nat.le_add_right _ _⟩
    · rw [if_neg c2]
      have hpos : position K key page es.length 0 = es.findIdx? (fun e => e.1 = key) := by
        have e : page = (leBytes 8 o ++ leBytes 4 es.length) ++ (es.flatMap entryBytes ++
            (List.replicate (size - 16 - es.length * (K + 8)) 0 ++ c)) := by
          rw [hb]; unfold body; simp only [List.append_assoc]
        have h := position_mid (key := key) es hf (leBytes 8 o ++ leBytes 4 es.length)
          (List.replicate (size - 16 - es.length * (K + 8)) 0 ++ c) 0
          (by simp only [List.length_append, leBytes_length]; omega)
        rw [← e] at h
        rw [h]
        simp
      rw [hpos]
      cases hfi : es.findIdx? (fun e => e.1 = key) with
      | none =>
        dsimp only
        rw [hb, write_entry (o := o) c p hf rfl hs (Nat.lt_of_not_le c1) hk]
        obtain ⟨a, b, h1, h2⟩ := hadd (findIdx_none hfi)
        exact ⟨a, b, h1, h2, List.prefix_refl _, Nat.le_add_right _ _⟩
      | some i =>
        dsimp only
        obtain ⟨a, q, b, h1, h2, h3⟩ := findIdx_some es i hfi
        rw [hb, ← h2]
        rw [h1] at hf
        have ho' := over_entry (size := size) (o := o) c p hf
        rw [h1, ho']
        refine ⟨a ++ (key, p) :: b, rest, ⟨⟨o, c, rfl, hc, ho, hol, hpath⟩, ?_, by
          rw [h1] at hmost; simpa using hmost⟩, ?_, List.prefix_refl _, Nat.le_add_right _ _⟩
        · intro e he
          rcases List.mem_append.mp he with he | he
          · exact hf e (by simp [he])
          · rcases List.mem_cons.mp he with rfl | he
            · exact ⟨hk, hp⟩
            · exact hf e (by simp [he])
        · intro k
          rw [first_append, first_append, first_append, first_append]
          by_cases h : k = key
          · rw [if_pos h, h, first_none.mpr h3]
            simp [first]
          · rw [if_neg h]
            simp only [first, if_neg (Ne.symm h)]

/-- The page as it is written to `index.hdx`, index.rs:516. -/
def flushed (page : Bytes) : Bytes := stamp (page.take (page.length - 4))

/-- What happens to a bucket: a save of a key of it, or another bucket's overflow page, appended to the common file. -/
inductive Ev where
  | save (key : Bytes) (p : Nat)
  | other (x : Bytes)

/-- The bucket's page and the overflow file after some events. -/
def after (K max : Nat) : List Ev → Bytes × Bytes → Bytes × Bytes
  | [], s => s
  | .save k p :: r, s => after K max r (save K max k p s.1 s.2)
  | .other x :: r, s => after K max r (s.1, s.2 ++ x)

/-- The position of the last save of a key, `d` if there is none. -/
def latest (k : Bytes) : List Ev → Option Nat → Option Nat
  | [], d => d
  | .save k' p :: r, d => latest k r (if k = k' then some p else d)
  | .other _ :: r, d => latest k r d

theorem inMem_append {page odx : Bytes} {es : List (Bytes × Nat)} {rest : List (List (Bytes × Nat))} (x : Bytes)
    (h : InMem size K max page odx es rest) : InMem size K max page (odx ++ x) es rest := by
  obtain ⟨⟨o, c, h1, h2, h3, h4, h5⟩, hf, hm⟩ := h
  refine ⟨⟨o, c, h1, h2, h3, ?_, path_append h5⟩, hf, hm⟩
  rw [List.length_append]
  omega

theorem after_grows : ∀ (evs : List Ev) (page odx : Bytes) {es : List (Bytes × Nat)} {rest : List (List (Bytes × Nat))},
    InMem size K max page odx es rest → size = 16 + max * (K + 8) → 0 < max → size < 256 ^ 4 →
    (∀ k p, Ev.save k p ∈ evs → k.length = K ∧ p < 256 ^ 8) → odx ≠ [] →
    (after K max evs (page, odx)).2.length < 256 ^ 8 →
    ∃ es' rest', InMem size K max (after K max evs (page, odx)).1 (after K max evs (page, odx)).2 es' rest' ∧
      (∀ k, first k (es' ++ rest'.flatten) = latest k evs (first k (es ++ rest.flatten))) ∧
      odx <+: (after K max evs (page, odx)).2
  | [], page, odx, es, rest, hi, _, _, _, _, _, _ => ⟨es, rest, hi, fun _ => rfl, List.prefix_refl _⟩
  | .other x :: r, page, odx, es, rest, hi, hs, hm, h32, hev, hod, h64 => by
    obtain ⟨a, b, h1, h2, h3⟩ := after_grows r page (odx ++ x) (inMem_append x hi) hs hm h32
      (fun k p h => hev k p (by simp [h])) (by simp [hod]) h64
    exact ⟨a, b, h1, h2, (List.prefix_append odx x).trans h3⟩
  | .save k p :: r, page, odx, es, rest, hi, hs, hm, h32, hev, hod, h64 => by
    have hkp := hev k p (by simp)
    by_cases hlt : odx.length < 256 ^ 8
    · obtain ⟨a, b, h1, h2, h3, _⟩ := saved p hi hs hm h32 hkp.1 hkp.2 hod hlt
      have hne : (save K max k p page odx).2 ≠ [] := by
        intro e
        rw [e] at h3
        exact hod (List.prefix_nil.mp h3)
      obtain ⟨a', b', g1, g2, g3⟩ := after_grows r (save K max k p page odx).1 (save K max k p page odx).2 h1 hs hm h32
        (fun k p h => hev k p (by simp [h])) hne h64
      exact ⟨a', b', g1, fun k' => by rw [g2, h2]; rfl, h3.trans g3⟩
    · exfalso
      have grow : ∀ (evs : List Ev) (s : Bytes × Bytes), s.2.length ≤ (after K max evs s).2.length := by
        intro evs
        induction evs with
        | nil => intro s; exact Nat.le_refl _
        | cons e r ih =>
          intro s
          cases e with
          | other x => exact Nat.le_trans (by rw [List.length_append]; omega) (ih (s.1, s.2 ++ x))
          | save k p =>
            refine Nat.le_trans ?_ (ih (save K max k p s.1 s.2))
            unfold save
            dsimp only
            split
            · rw [List.length_append]; omega
            · split
              · exact Nat.le_refl _
              · split <;> exact Nat.le_refl _
      exact hlt (Nat.lt_of_le_of_lt (grow (.save k p :: r) (page, odx)) h64)

/-- A new bucket. -/
theorem inMem_new {odx : Bytes} (hs : size = 16 + max * (K + 8)) : InMem size K max (List.replicate size 0) odx [] [] := by
  refine ⟨⟨0, List.replicate 4 0, ?_, by rw [List.length_replicate], by decide, .inl rfl, .nil 0⟩, (by intro e he; cases he),
    Nat.zero_le _⟩
  unfold body
  have e : size = 8 + (4 + ((size - 16 - 0 * (K + 8)) + 4)) := by omega
  conv => lhs; rw [e]
  simp only [zeros_split, List.flatMap_nil, List.length_nil, List.append_nil, List.append_assoc]
  have h8 : leBytes 8 0 = List.replicate 8 0 := by decide
  have h4 : leBytes 4 0 = List.replicate 4 0 := by decide
  rw [h8, h4]

theorem holds_flushed {page odx hdx : Bytes} {es : List (Bytes × Nat)} {rest : List (List (Bytes × Nat))} {at_ : Nat}
    (hi : InMem size K max page odx es rest) (hs : size = 16 + max * (K + 8)) (hh : slice hdx at_ size = some (flushed page)) :
    ∃ o, Holds size K hdx at_ o es ∧ Path size K odx o rest 0 := by
  obtain ⟨⟨o, c, h1, h2, h3, _, h5⟩, hf, hm⟩ := hi
  have hmul : es.length * (K + 8) ≤ max * (K + 8) := Nat.mul_le_mul_right _ hm
  refine ⟨o, ⟨?_, hf, by omega, h3⟩, h5⟩
  rw [hh, h1]
  unfold flushed pageBytes
  rw [List.length_append, h2, Nat.add_sub_cancel, List.take_left]

/-- C123. From a new bucket on, after any saves, while other buckets add to the same overflow file: once the page is in the
file, a lookup of any key gives the position of its last save, and that it is not there exactly if it was never saved. -/
theorem history (evs : List Ev) {odx hdx : Bytes} {at_ : Nat} (hs : size = 16 + max * (K + 8)) (hm : 0 < max)
    (h32 : size < 256 ^ 4) (hev : ∀ k p, Ev.save k p ∈ evs → k.length = K ∧ p < 256 ^ 8) (hod : odx ≠ [])
    (h64 : (after K max evs (List.replicate size 0, odx)).2.length < 256 ^ 8)
    (hh : slice hdx at_ size = some (flushed (after K max evs (List.replicate size 0, odx)).1)) (k : Bytes) :
    lookup size K k hdx (after K max evs (List.replicate size 0, odx)).2 at_
        ((after K max evs (List.replicate size 0, odx)).2.length + 2) =
      some (match latest k evs none with
        | some p => .found p
        | none => .notFound) := by
  obtain ⟨es, rest, h1, h2, _⟩ := after_grows evs (List.replicate size 0) odx (inMem_new hs) hs hm h32 hev hod h64
  obtain ⟨o, h3, h4⟩ := holds_flushed h1 hs hh
  rw [newest h3 h4 h32 h64, h2]
  rfl

theorem scan_panic : ∀ (c i : Nat) (page : Bytes), scan K key page c i = .panic →
    ∃ j, j < i + c ∧ entry K page j = none
  | 0, _, _, h => by cases h
  | c + 1, i, page, h => by
    unfold scan at h
    cases e : entry K page i with
    | none => exact ⟨i, by omega, e⟩
    | some kp =>
      obtain ⟨k, q⟩ := kp
      rw [e] at h
      dsimp only at h
      by_cases hk : k = key
      · rw [if_pos hk] at h; cases h
      · rw [if_neg hk] at h
        obtain ⟨j, h1, h2⟩ := scan_panic c (i + 1) page h
        exact ⟨j, by omega, h2⟩

theorem slice_length {f b : Bytes} {o n : Nat} (h : slice f o n = some b) : b.length = n := by
  unfold slice at h
  by_cases c : o + n ≤ f.length
  · rw [if_pos c] at h
    cases h
    rw [List.length_take, List.length_drop]
    omega
  · rw [if_neg c] at h; cases h

theorem entry_some {page : Bytes} {j : Nat} (hl : 12 + max * (K + 8) ≤ page.length) (hj : j < max) : entry K page j ≠ none := by
  have : (j + 1) * (K + 8) ≤ max * (K + 8) := Nat.mul_le_mul_right _ hj
  rw [Nat.add_mul] at this
  unfold entry slice
  rw [if_pos (by omega)]
  intro h
  cases h

theorem walk_panic {odx : Bytes} (hs : size = 16 + max * (K + 8)) : ∀ (f : Nat) (page : Bytes), page.length = size →
    walk size K key odx f page = some .panic →
    max < count page ∨ ∃ o b, slice odx o size = some b ∧ checkCrc b = true ∧ max < count b
  | 0, _, _, h => by cases h
  | f + 1, page, hl, h => by
    unfold walk at h
    cases e : scan K key page (count page) 0 with
    | hit q => rw [e] at h; cases h
    | panic =>
      obtain ⟨j, h1, h2⟩ := scan_panic _ _ _ e
      by_cases c : j < max
      · exact absurd h2 (entry_some (max := max) (by omega) c)
      · exact .inl (by omega)
    | miss =>
      rw [e] at h
      dsimp only at h
      by_cases c : link page = 0
      · rw [if_pos c] at h; cases h
      rw [if_neg c] at h
      cases e2 : slice odx (link page) size with
      | none => rw [e2] at h; cases h
      | some b =>
        rw [e2] at h
        dsimp only at h
        by_cases c2 : checkCrc b = false
        · rw [if_pos c2] at h; cases h
        rw [if_neg c2] at h
        by_cases c3 : link b ≠ 0 ∧ link page ≤ link b
        · rw [if_pos c3] at h; cases h
        rw [if_neg c3] at h
        have hc : checkCrc b = true := by cases k : checkCrc b with
          | true => rfl
          | false => exact absurd k c2
        rcases walk_panic hs f b (slice_length e2) h with h' | h'
        · exact .inr ⟨_, b, e2, hc, h'⟩
        · exact .inr h'

/-- C123. A lookup panics only over a page that passes its checksum although it counts more entries than fit. -/
theorem panics {hdx odx : Bytes} {at_ f : Nat} (hs : size = 16 + max * (K + 8))
    (h : lookup size K key hdx odx at_ f = some .panic) :
    ∃ file o b, (file = hdx ∨ file = odx) ∧ slice file o size = some b ∧ checkCrc b = true ∧ max < count b := by
  unfold lookup at h
  cases e : slice hdx at_ size with
  | none => rw [e] at h; cases h
  | some page =>
    rw [e] at h
    dsimp only at h
    by_cases c : checkCrc page = false
    · rw [if_pos c] at h; cases h
    rw [if_neg c] at h
    have hc : checkCrc page = true := by cases k : checkCrc page with
      | true => rfl
      | false => exact absurd k c
    rcases walk_panic hs f page (slice_length e) h with h' | ⟨o, b, h1, h2, h3⟩
    · exact ⟨hdx, at_, page, .inl rfl, e, hc, h'⟩
    · exact ⟨odx, o, b, .inr rfl, h1, h2, h3⟩

namespace Ex

/-! Keys of one byte, two to a page. -/

def evs : List Ev := [.save [1] 100, .save [2] 200, .other [9, 9], .save [3] 300, .save [1] 101, .save [3] 301, .other [7],
  .save [4] 400]

def res : Bytes × Bytes := after 1 2 evs (List.replicate 34 0, [5, 5, 5])

theorem keys_fit : ∀ k p, Ev.save k p ∈ evs → k.length = 1 ∧ p < 256 ^ 8 := by
  intro k p h
  simp only [evs, List.mem_cons, List.not_mem_nil, or_false, Ev.save.injEq, reduceCtorEq, false_or] at h
  rcases h with ⟨rfl, rfl⟩ | ⟨rfl, rfl⟩ | ⟨rfl, rfl⟩ | ⟨rfl, rfl⟩ | ⟨rfl, rfl⟩ | ⟨rfl, rfl⟩ <;> decide

/-- Two pages overflowed, at 5 and 39, behind the other bucket's bytes; the second save of `[3]` found its page full. -/
theorem grown : res.2.length = 3 + 2 + 34 + 34 + 1 ∧ link res.1 = 39 := by decide +kernel

example : [[1], [2], [3], [4], [6]].map (fun k => lookup 34 1 k (0 :: flushed res.1) res.2 1 100) =
    [some (.found 101), some (.found 200), some (.found 301), some (.found 400), some .notFound] := by decide +kernel

/-- `history` applies to it. -/
example : lookup 34 1 [1] (0 :: flushed res.1) res.2 1 (res.2.length + 2) = some (.found 101) :=
  history (K := 1) (max := 2) (size := 34) evs (odx := [5, 5, 5]) (hdx := 0 :: flushed res.1) (at_ := 1) rfl (by decide) (by decide)
    keys_fit (by decide) (by decide +kernel) (by decide +kernel) [1]

/-- One bit of the older page is changed: what is before is found, what is on it or absent is reported as damaged. -/
theorem one_bit : [[4], [1], [2], [6]].map (fun k => lookup 34 1 k (flushed res.1) (res.2.set 20 4) 0 100) =
    [some (.found 400), some (.found 101), some .crcFailed, some .crcFailed] := by decide +kernel

/-- Finding: the overflow file without its last page, as after a crash that kept the bucket and lost it: keys that were saved
are reported as never saved. -/
theorem lost_page : [[4], [1], [2], [3]].map (fun k => lookup 34 1 k (flushed res.1) (res.2.take 40) 0 100) =
    [some (.found 400), some .notFound, some .notFound, some (.found 301)] := by decide +kernel

/-- A count beyond what fits, under a right checksum. -/
theorem too_many : lookup 34 1 [6] (stamp (leBytes 8 0 ++ leBytes 4 3 ++ List.replicate 18 0)) [5] 0 9 = some .panic := by
  decide +kernel

end Ex

end Bkt
end Verif
