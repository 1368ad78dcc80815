import Mathlib.Tactic.Common
import Verif.Archive.Bucket
import Verif.Archive.IndexFileProps
/-
C123: the theorems.
-/
namespace Verif
namespace Bkt
open Codec (Byte Bytes leBytes leNat leBytes_length leNat_leBytes)
open Crc (NearBy)
open IdxFile (stamp checkCrc stamp_length checkCrc_stamp near_fails)

variable {size K : Nat} {key odx : Bytes}

theorem flat_length : ∀ es : List (Bytes × Nat), Fits K es → (es.flatMap entryBytes).length = es.length * (K + 8)
  | [], _ => by simp
  | e :: es, h => by
    rw [List.flatMap_cons, List.length_append, flat_length es (fun x hx => h x (by simp [hx])), List.length_cons]
    have := (h e (by simp)).1
    simp only [entryBytes, List.length_append, leBytes_length, this, Nat.add_mul]
    omega

theorem body_length {o : Nat} {es : List (Bytes × Nat)} (hf : Fits K es) (hl : 16 + es.length * (K + 8) ≤ size) :
    (body size K o es).length = size - 4 := by
  simp only [body, List.length_append, leBytes_length, flat_length es hf, List.length_replicate]
  omega

theorem body_ne (o : Nat) (es : List (Bytes × Nat)) : body size K o es ≠ [] := by
  intro e
  have := congrArg List.length e
  simp only [body, List.length_append, leBytes_length, List.length_nil] at this
  omega

theorem link_body {o : Nat} (ho : o < 256 ^ 8) (es : List (Bytes × Nat)) (c : Bytes) : link (body size K o es ++ c) = o := by
  unfold link body
  simp only [List.append_assoc]
  rw [List.take_append_of_le_length (by rw [leBytes_length]; exact Nat.le_refl _),
    List.take_of_length_le (by rw [leBytes_length]; exact Nat.le_refl _), leNat_leBytes 8 o ho]

theorem count_body (o : Nat) {es : List (Bytes × Nat)} (he : es.length < 256 ^ 4) (c : Bytes) :
    count (body size K o es ++ c) = es.length := by
  unfold count body
  simp only [List.append_assoc]
  rw [List.drop_append_of_le_length (by rw [leBytes_length]; exact Nat.le_refl _),
    List.drop_eq_nil_of_le (by rw [leBytes_length]; exact Nat.le_refl _), List.nil_append,
    List.take_append_of_le_length (by rw [leBytes_length]; exact Nat.le_refl _),
    List.take_of_length_le (by rw [leBytes_length]; exact Nat.le_refl _), leNat_leBytes 4 _ he]

theorem slice_mid (x y z : Bytes) : slice (x ++ (y ++ z)) x.length y.length = some y := by
  unfold slice
  rw [if_pos (by simp only [List.length_append]; omega), List.drop_left, List.take_left]

theorem entry_mid {e : Bytes × Nat} (h1 : e.1.length = K) (h2 : e.2 < 256 ^ 8) (x z : Bytes) (i : Nat)
    (hx : x.length = 12 + i * (K + 8)) : entry K (x ++ (entryBytes e ++ z)) i = some e := by
  have hl : (entryBytes e).length = K + 8 := by simp only [entryBytes, List.length_append, leBytes_length, h1]
  have := slice_mid x (entryBytes e) z
  rw [hx, hl] at this
  unfold entry
  rw [this]
  obtain ⟨k, p⟩ := e
  simp only at h1 h2
  simp only [entryBytes, Option.map_some]
  rw [← h1, List.take_left, List.drop_left, leNat_leBytes 8 p h2]

theorem scan_mid : ∀ (es : List (Bytes × Nat)), Fits K es → ∀ (x z : Bytes) (i : Nat), x.length = 12 + i * (K + 8) →
    scan K key (x ++ (es.flatMap entryBytes ++ z)) es.length i =
      match first key es with
      | some p => .hit p
      | none => .miss
  | [], _, _, _, _, _ => rfl
  | e :: es, hf, x, z, i, hx => by
    have h := hf e (by simp)
    rw [List.flatMap_cons, List.append_assoc, List.length_cons]
    unfold scan
    rw [entry_mid h.1 h.2 x _ i hx]
    obtain ⟨k, p⟩ := e
    dsimp only
    by_cases c : k = key
    · rw [if_pos c]
      simp only [first, if_pos c]
    · rw [if_neg c]
      simp only [first, if_neg c]
      rw [← List.append_assoc]
      refine scan_mid es (fun y hy => hf y (by simp [hy])) _ z (i + 1) ?_
      rw [List.length_append, hx]
      simp only [entryBytes, List.length_append, leBytes_length, h.1, Nat.add_mul]
      omega

theorem scan_body {o : Nat} {es : List (Bytes × Nat)} (hf : Fits K es) (he : es.length < 256 ^ 4) (c : Bytes) :
    scan K key (body size K o es ++ c) (count (body size K o es ++ c)) 0 =
      match first key es with
      | some p => .hit p
      | none => .miss := by
  rw [count_body o he]
  have e : body size K o es ++ c = (leBytes 8 o ++ leBytes 4 es.length) ++ (es.flatMap entryBytes ++
      (List.replicate (size - 16 - es.length * (K + 8)) 0 ++ c)) := by
    unfold body; simp only [List.append_assoc]
  rw [e]
  exact scan_mid es hf _ _ 0 (by simp only [List.length_append, leBytes_length]; omega)

theorem walk_mono : ∀ (f : Nat) (page : Bytes) (r : Res), walk size K key odx f page = some r → ∀ f', f ≤ f' →
    walk size K key odx f' page = some r
  | 0, _, _, h, _, _ => by cases h
  | f + 1, page, r, h, f', hf => by
    obtain ⟨g, rfl⟩ : ∃ g, f' = g + 1 := ⟨f' - 1, by omega⟩
    unfold walk at h ⊢
    cases e : scan K key page (count page) 0 with
    | hit p => rw [e] at h; exact h
    | panic => rw [e] at h; exact h
    | miss =>
      rw [e] at h
      dsimp only at h ⊢
      by_cases c : link page = 0
      · rw [if_pos c] at h ⊢; exact h
      rw [if_neg c] at h ⊢
      cases e2 : slice odx (link page) size with
      | none => rw [e2] at h; exact h
      | some b =>
        rw [e2] at h
        dsimp only at h ⊢
        by_cases c2 : checkCrc b = false
        · rw [if_pos c2] at h ⊢; exact h
        rw [if_neg c2] at h ⊢
        by_cases c3 : link b ≠ 0 ∧ link page ≤ link b
        · rw [if_pos c3] at h ⊢; exact h
        rw [if_neg c3] at h ⊢
        exact walk_mono f b r h g (by omega)

theorem walk_ends_below : ∀ (f : Nat) (page : Bytes), link page < f → ∃ r, walk size K key odx f page = some r
  | 0, _, h => by cases h
  | f + 1, page, h => by
    unfold walk
    cases e : scan K key page (count page) 0 with
    | hit p => exact ⟨_, rfl⟩
    | panic => exact ⟨_, rfl⟩
    | miss =>
      dsimp only
      by_cases c : link page = 0
      · rw [if_pos c]; exact ⟨_, rfl⟩
      rw [if_neg c]
      cases e2 : slice odx (link page) size with
      | none => exact ⟨_, rfl⟩
      | some b =>
        dsimp only
        by_cases c2 : checkCrc b = false
        · rw [if_pos c2]; exact ⟨_, rfl⟩
        rw [if_neg c2]
        by_cases c3 : link b ≠ 0 ∧ link page ≤ link b
        · rw [if_pos c3]; exact ⟨_, rfl⟩
        rw [if_neg c3]
        exact walk_ends_below f b (by omega)

/-- C123. Whatever the files hold, a lookup ends: it reads at most as many pages as the overflow file has bytes, and two. -/
theorem ends (hdx : Bytes) (at_ : Nat) : ∃ r, lookup size K key hdx odx at_ (odx.length + 2) = some r ∧
    ∀ f, odx.length + 2 ≤ f → lookup size K key hdx odx at_ f = some r := by
  have hw : ∀ page, ∃ r, walk size K key odx (odx.length + 2) page = some r := by
    intro page
    unfold walk
    cases e : scan K key page (count page) 0 with
    | hit p => exact ⟨_, rfl⟩
    | panic => exact ⟨_, rfl⟩
    | miss =>
      dsimp only
      by_cases c : link page = 0
      · rw [if_pos c]; exact ⟨_, rfl⟩
      rw [if_neg c]
      cases e2 : slice odx (link page) size with
      | none => exact ⟨_, rfl⟩
      | some b =>
        dsimp only
        have hb : link page ≤ odx.length := by
          unfold slice at e2
          by_cases k : link page + size ≤ odx.length
          · omega
          · rw [if_neg k] at e2; cases e2
        by_cases c2 : checkCrc b = false
        · rw [if_pos c2]; exact ⟨_, rfl⟩
        rw [if_neg c2]
        by_cases c3 : link b ≠ 0 ∧ link page ≤ link b
        · rw [if_pos c3]; exact ⟨_, rfl⟩
        rw [if_neg c3]
        exact walk_ends_below (odx.length + 1) b (by omega)
  unfold lookup
  cases slice hdx at_ size with
  | none => exact ⟨_, rfl, fun _ _ => rfl⟩
  | some page =>
    dsimp only
    by_cases c : checkCrc page = false
    · rw [if_pos c]; exact ⟨_, rfl, fun _ _ => by rw [if_pos c]⟩
    · rw [if_neg c]
      obtain ⟨r, hr⟩ := hw page
      exact ⟨r, hr, fun f hf => by rw [if_neg c]; exact walk_mono _ _ _ hr f hf⟩

/-- What the walk does at the link `e`, once the entries before it are passed. -/
def atLink (size K : Nat) (key odx : Bytes) (f e : Nat) (prev : Nat) : Option Res :=
  if e = 0 then some .notFound
  else
    match slice odx e size with
    | none => some .notFound
    | some b =>
      if checkCrc b = false then some .crcFailed
      else if link b ≠ 0 ∧ prev ≤ link b then some .crcFailed
      else walk size K key odx f b

theorem first_append : ∀ (a b : List (Bytes × Nat)), first key (a ++ b) = (first key a).or (first key b)
  | [], b => by simp [first]
  | x :: a, b => by
    have ih := first_append a b
    simp only [List.cons_append, first]
    by_cases k : x.1 = key
    · rw [if_pos k, if_pos k]; rfl
    · rw [if_neg k, if_neg k, ih]

theorem walk_path {o e : Nat} {rest : List (List (Bytes × Nat))} (hp : Path size K odx o rest e)
    (hs64 : size < 256 ^ 4) (hod : odx.length < 256 ^ 8) :
    ∀ (es : List (Bytes × Nat)) (c : Bytes), Fits K es → es.length < 256 ^ 4 → o < 256 ^ 8 →
      ∀ f, walk size K key odx (rest.length + f + 1) (body size K o es ++ c) =
        match first key (es ++ rest.flatten) with
        | some p => some (.found p)
        | none => atLink size K key odx f e e := by
  induction hp with
  | nil e =>
    intro es c hf hn ho f
    rw [List.flatten_nil, List.append_nil, List.length_nil, Nat.zero_add]
    unfold walk
    rw [scan_body hf hn, link_body ho]
    cases first key es <;> rfl
  | @cons o o' e es' rest hz hs hb hf' hl ht ih =>
    intro es c hf hn ho f
    rw [List.length_cons]
    have e1 : rest.length + 1 + f + 1 = (rest.length + f + 1) + 1 := by omega
    rw [e1]
    unfold walk
    rw [scan_body hf hn, link_body ho]
    rw [List.flatten_cons, first_append]
    cases first key es with
    | some p => rfl
    | none =>
      have ho' : o' < 256 ^ 8 := by omega
      have hcrc : checkCrc (pageBytes size K o' es') = true := checkCrc_stamp (body_ne o' es')
      have hlink : link (pageBytes size K o' es') = o' := link_body ho' es' _
      dsimp only
      rw [if_neg hz, hs]
      dsimp only
      rw [hcrc, hlink, if_neg (by simp), if_neg (by omega)]
      rw [Option.none_or]
      have h8 : es'.length ≤ es'.length * (K + 8) := Nat.le_mul_of_pos_right _ (by omega)
      exact ih es' _ hf' (by omega) ho' f

/-- A bucket of `index.hdx` with these entries and this link. -/
def Holds (size K : Nat) (hdx : Bytes) (at_ o : Nat) (es : List (Bytes × Nat)) : Prop :=
  slice hdx at_ size = some (pageBytes size K o es) ∧ Fits K es ∧ 16 + es.length * (K + 8) ≤ size ∧ o < 256 ^ 8

theorem lookup_path {hdx : Bytes} {at_ o e : Nat} {es : List (Bytes × Nat)} {rest : List (List (Bytes × Nat))}
    (hh : Holds size K hdx at_ o es) (hp : Path size K odx o rest e) (hs64 : size < 256 ^ 4) (hod : odx.length < 256 ^ 8)
    {r : Res} {f : Nat} (hr : (match first key (es ++ rest.flatten) with
      | some p => some (Res.found p)
      | none => atLink size K key odx f e e) = some r) :
    lookup size K key hdx odx at_ (odx.length + 2) = some r := by
  obtain ⟨h1, h2, h3, h4⟩ := hh
  have h8 : es.length ≤ es.length * (K + 8) := Nat.le_mul_of_pos_right _ (by omega)
  have hw := walk_path (key := key) hp hs64 hod es (leBytes 4 (Crc.crc32 (body size K o es))) h2 (by omega) h4 f
  rw [hr] at hw
  have hl : lookup size K key hdx odx at_ (rest.length + f + 1) = some r := by
    unfold lookup
    rw [h1]
    dsimp only
    rw [if_neg (by
      rw [show checkCrc (pageBytes size K o es) = true from checkCrc_stamp (body_ne o es)]; simp)]
    exact hw
  obtain ⟨r', h5, h6⟩ := ends (size := size) (K := K) (key := key) (odx := odx) hdx at_
  have h7 := h6 (max (odx.length + 2) (rest.length + f + 1)) (Nat.le_max_left _ _)
  have h9 : lookup size K key hdx odx at_ (max (odx.length + 2) (rest.length + f + 1)) = some r := by
    unfold lookup at hl ⊢
    rw [h1] at hl ⊢
    dsimp only at hl ⊢
    have : ¬ checkCrc (pageBytes size K o es) = false := by
      rw [show checkCrc (pageBytes size K o es) = true from checkCrc_stamp (body_ne o es)]; simp
    rw [if_neg this] at hl ⊢
    exact walk_mono _ _ _ hl _ (Nat.le_max_right _ _)
  rw [h5, ← h9, h7]

/-- C123. A lookup gives the newest entry with the key, wherever in the bucket and its overflow pages it is, and says that
there is none exactly if there is none. -/
theorem newest {hdx : Bytes} {at_ o : Nat} {es : List (Bytes × Nat)} {rest : List (List (Bytes × Nat))}
    (hh : Holds size K hdx at_ o es) (hp : Path size K odx o rest 0) (hs64 : size < 256 ^ 4) (hod : odx.length < 256 ^ 8) :
    lookup size K key hdx odx at_ (odx.length + 2) = some (match first key (es ++ rest.flatten) with
      | some p => .found p
      | none => .notFound) := by
  refine lookup_path (f := 0) hh hp hs64 hod ?_
  cases first key (es ++ rest.flatten) <;> rfl

/-- C123. If a page is damaged within 32 consecutive bits, a key of the entries before it is still found, and for every
other the lookup reports the damage. -/
theorem damaged {hdx : Bytes} {at_ o e x : Nat} {es ds : List (Bytes × Nat)} {rest : List (List (Bytes × Nat))} {b : Bytes}
    (hh : Holds size K hdx at_ o es) (hp : Path size K odx o rest e) (hs64 : size < 256 ^ 4) (hod : odx.length < 256 ^ 8)
    (he : e ≠ 0) (hb : slice odx e size = some b) (hn : NearBy (pageBytes size K x ds) b) (hne : b ≠ pageBytes size K x ds) :
    lookup size K key hdx odx at_ (odx.length + 2) = some (match first key (es ++ rest.flatten) with
      | some p => .found p
      | none => .crcFailed) := by
  refine lookup_path (f := 0) hh hp hs64 hod ?_
  cases first key (es ++ rest.flatten) with
  | some p => rfl
  | none =>
    show atLink size K key odx 0 e e = _
    unfold atLink
    rw [if_neg he, hb]
    dsimp only
    rw [if_pos (near_fails (body_ne x ds) hn hne)]

/-- C123. The same if the bucket itself is damaged, or is not in the file. -/
theorem bucket_damaged {hdx : Bytes} {at_ x : Nat} {ds : List (Bytes × Nat)} (f : Nat)
    (h : slice hdx at_ size = none ∨ ∃ b, slice hdx at_ size = some b ∧ NearBy (pageBytes size K x ds) b ∧
      b ≠ pageBytes size K x ds) : lookup size K key hdx odx at_ f = some .crcFailed := by
  unfold lookup
  rcases h with h | ⟨b, h, hn, hne⟩
  · rw [h]
  · rw [h]
    dsimp only
    rw [if_pos (near_fails (body_ne x ds) hn hne)]

/-- C123. A link that does not go backwards is reported. -/
theorem looped {hdx : Bytes} {at_ o e : Nat} {es : List (Bytes × Nat)} {rest : List (List (Bytes × Nat))} {b : Bytes}
    (hh : Holds size K hdx at_ o es) (hp : Path size K odx o rest e) (hs64 : size < 256 ^ 4) (hod : odx.length < 256 ^ 8)
    (he : e ≠ 0) (hb : slice odx e size = some b) (hl : link b ≠ 0 ∧ e ≤ link b) :
    lookup size K key hdx odx at_ (odx.length + 2) = some (match first key (es ++ rest.flatten) with
      | some p => .found p
      | none => .crcFailed) := by
  refine lookup_path (f := 0) hh hp hs64 hod ?_
  cases first key (es ++ rest.flatten) with
  | some p => rfl
  | none =>
    show atLink size K key odx 0 e e = _
    unfold atLink
    rw [if_neg he, hb]
    dsimp only
    by_cases c : checkCrc b = false
    · rw [if_pos c]
    · rw [if_neg c, if_pos hl]

/-- Finding: if the overflow file ends before a page that is linked to, as a crash may leave it, what was behind the link is
reported as not there, not as damage. -/
theorem cut_is_absent {hdx : Bytes} {at_ o e : Nat} {es : List (Bytes × Nat)} {rest : List (List (Bytes × Nat))}
    (hh : Holds size K hdx at_ o es) (hp : Path size K odx o rest e) (hs64 : size < 256 ^ 4) (hod : odx.length < 256 ^ 8)
    (he : e ≠ 0) (hb : odx.length < e + size) :
    lookup size K key hdx odx at_ (odx.length + 2) = some (match first key (es ++ rest.flatten) with
      | some p => .found p
      | none => .notFound) := by
  refine lookup_path (f := 0) hh hp hs64 hod ?_
  cases first key (es ++ rest.flatten) with
  | some p => rfl
  | none =>
    show atLink size K key odx 0 e e = _
    unfold atLink slice
    rw [if_neg he, if_neg (by omega)]

theorem scan_hit : ∀ (c i : Nat) (page : Bytes) (p : Nat), scan K key page c i = .hit p →
    ∃ j, i ≤ j ∧ j < i + c ∧ entry K page j = some (key, p)
  | 0, _, _, _, h => by cases h
  | c + 1, i, page, p, h => by
    unfold scan at h
    cases e : entry K page i with
    | none => rw [e] at h; cases h
    | some kp =>
      obtain ⟨k, q⟩ := kp
      rw [e] at h
      dsimp only at h
      by_cases hk : k = key
      · rw [if_pos hk] at h
        cases h
        exact ⟨i, Nat.le_refl _, by omega, by rw [e, hk]⟩
      · rw [if_neg hk] at h
        obtain ⟨j, h1, h2, h3⟩ := scan_hit c (i + 1) page p h
        exact ⟨j, by omega, by omega, h3⟩

theorem walk_sound : ∀ (f : Nat) (page : Bytes) (p : Nat), walk size K key odx f page = some (.found p) →
    (∃ j, j < count page ∧ entry K page j = some (key, p)) ∨
    ∃ o b j, slice odx o size = some b ∧ checkCrc b = true ∧ j < count b ∧ entry K b j = some (key, p)
  | 0, _, _, h => by cases h
  | f + 1, page, p, h => by
    unfold walk at h
    cases e : scan K key page (count page) 0 with
    | hit q =>
      rw [e] at h
      cases h
      obtain ⟨j, _, h2, h3⟩ := scan_hit _ _ _ _ e
      exact .inl ⟨j, by omega, h3⟩
    | panic => rw [e] at h; cases h
    | miss =>
      rw [e] at h
      dsimp only at h
      by_cases c : link page = 0
      · rw [if_pos c] at h; cases h
      rw [if_neg c] at h
      cases e2 : slice odx (link page) size with
      | none => rw [e2] at h; cases h
      | some b =>
        rw [e2] at h
        dsimp only at h
        by_cases c2 : checkCrc b = false
        · rw [if_pos c2] at h; cases h
        rw [if_neg c2] at h
        by_cases c3 : link b ≠ 0 ∧ link page ≤ link b
        · rw [if_pos c3] at h; cases h
        rw [if_neg c3] at h
        have hc : checkCrc b = true := by cases k : checkCrc b with
          | true => rfl
          | false => exact absurd k c2
        rcases walk_sound f b p h with ⟨j, h1, h2⟩ | h'
        · exact .inr ⟨_, b, j, e2, hc, h1, h2⟩
        · exact .inr h'

/-- C123. Whatever the files hold, a position that a lookup gives is written next to that key on a page that passed its
checksum. -/
theorem sound {hdx : Bytes} {at_ f p : Nat} (h : lookup size K key hdx odx at_ f = some (.found p)) :
    ∃ file o b j, (file = hdx ∨ file = odx) ∧ slice file o size = some b ∧ checkCrc b = true ∧ j < count b ∧
      entry K b j = some (key, p) := by
  unfold lookup at h
  cases e : slice hdx at_ size with
  | none => rw [e] at h; cases h
  | some page =>
    rw [e] at h
    dsimp only at h
    by_cases c : checkCrc page = false
    · rw [if_pos c] at h; cases h
    rw [if_neg c] at h
    have hc : checkCrc page = true := by cases k : checkCrc page with
      | true => rfl
      | false => exact absurd k c
    rcases walk_sound f page p h with ⟨j, h1, h2⟩ | ⟨o, b, j, h1, h2, h3, h4⟩
    · exact ⟨hdx, at_, page, j, .inl rfl, e, hc, h1, h2⟩
    · exact ⟨odx, o, b, j, .inr rfl, h1, h2, h3, h4⟩

end Bkt
end Verif
