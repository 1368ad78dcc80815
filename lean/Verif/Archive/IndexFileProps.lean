import Verif.Archive.IndexFile
import Mathlib.Tactic.Common
/-
C122: the theorems.
-/
namespace Verif
namespace IdxFile
open Codec (Byte Bytes leBytes leNat leBytes_length leNat_leBytes)
open Crc (crc32 crc32_lt NearBy)

variable {g : Geo} {hash : Nat → Nat}

theorem stamp_length (d : Bytes) : (stamp d).length = d.length + 4 := by
  unfold stamp; rw [List.length_append, leBytes_length]

theorem checkCrc_stamp {d : Bytes} (h : d ≠ []) : checkCrc (stamp d) = true := by
  have hl : 0 < d.length := List.length_pos_iff.mpr h
  unfold checkCrc
  rw [if_neg (by rw [stamp_length]; omega), stamp_length, Nat.add_sub_cancel, decide_eq_true_iff]
  unfold stamp
  rw [List.take_left, List.drop_left, leNat_leBytes 4 _ (crc32_lt d)]

theorem get_put : ∀ (l : List (Nat × Nat)) (rest : Bytes), (∀ x ∈ l, x.2 < 256 ^ x.1) →
    get (l.map (·.1)) (put l ++ rest) = l.map (·.2)
  | [], _, _ => rfl
  | (w, v) :: l, rest, h => by
    show leNat (((leBytes w v ++ put l) ++ rest).take w) :: get (l.map (·.1)) (((leBytes w v ++ put l) ++ rest).drop w) = _
    rw [List.append_assoc, List.take_append_of_le_length (by rw [leBytes_length]; exact Nat.le_refl _),
      List.take_of_length_le (by rw [leBytes_length]; exact Nat.le_refl _), leNat_leBytes w v (h (w, v) (by simp)),
      List.drop_append_of_le_length (by rw [leBytes_length]; exact Nat.le_refl _),
      List.drop_eq_nil_of_le (by rw [leBytes_length]; exact Nat.le_refl _), List.nil_append,
      get_put l rest (fun x hx => h x (by simp [hx]))]
    rfl

theorem put_length : ∀ l : List (Nat × Nat), (put l).length = (l.map (·.1)).sum
  | [] => rfl
  | (w, v) :: l => by
    show (leBytes w v ++ put l).length = w + (l.map (·.1)).sum
    rw [List.length_append, leBytes_length, put_length l]

theorem hdxBytes_length (h : Hdx) : (hdxBytes h).length = 68 := by
  unfold hdxBytes
  rw [stamp_length, List.length_append, put_length]
  rfl

theorem odxBytes_length (h : DataHdr) : (odxBytes h).length = 28 := by
  unfold odxBytes
  rw [stamp_length, List.length_append, List.length_append, put_length]
  rfl

/-- C122. A header that was written is read back, whatever follows it. -/
theorem hdx_read_back (h : Hdx) (hs : h.Sized) (rest : Bytes) : loadHdx (hdxBytes h ++ rest) = .ok h := by
  have hl := hdxBytes_length h
  have ht : (hdxBytes h ++ rest).take 68 = hdxBytes h := by rw [← hl]; exact List.take_left
  unfold loadHdx
  rw [if_neg (by rw [List.length_append]; omega), ht]
  have hc : checkCrc (hdxBytes h) = true := checkCrc_stamp (by simp [typeId])
  rw [hc, if_neg (by simp)]
  have e : hdxBytes h ++ rest = typeId ++ (put [(2, h.version), (8, h.uid), (4, h.appnum), (4, h.buckets), (2, h.elements),
      (2, h.size), (8, h.salt), (8, h.pepper), (2, h.load), (8, h.values), (8, h.dataLen)] ++
      (leBytes 4 (crc32 (typeId ++ put [(2, h.version), (8, h.uid), (4, h.appnum), (4, h.buckets), (2, h.elements),
      (2, h.size), (8, h.salt), (8, h.pepper), (2, h.load), (8, h.values), (8, h.dataLen)])) ++ rest)) := by
    unfold hdxBytes stamp
    simp only [List.append_assoc]
  rw [e]
  have h8 : typeId.length = 8 := rfl
  rw [List.take_append_of_le_length (by rw [h8]; exact Nat.le_refl _), List.take_of_length_le (by rw [h8]; exact Nat.le_refl _), if_neg (fun x => x rfl),
    List.drop_append_of_le_length (by rw [h8]; exact Nat.le_refl _), List.drop_eq_nil_of_le (by rw [h8]; exact Nat.le_refl _), List.nil_append]
  have := get_put [(2, h.version), (8, h.uid), (4, h.appnum), (4, h.buckets), (2, h.elements),
      (2, h.size), (8, h.salt), (8, h.pepper), (2, h.load), (8, h.values), (8, h.dataLen)]
      (leBytes 4 (crc32 (typeId ++ put [(2, h.version), (8, h.uid), (4, h.appnum), (4, h.buckets), (2, h.elements),
      (2, h.size), (8, h.salt), (8, h.pepper), (2, h.load), (8, h.values), (8, h.dataLen)])) ++ rest) (by
    intro x hx
    simp only [List.mem_cons, List.not_mem_nil, or_false] at hx
    rcases hx with rfl | rfl | rfl | rfl | rfl | rfl | rfl | rfl | rfl | rfl | rfl
    exacts [hs.version, hs.uid, hs.appnum, hs.buckets, hs.elements, hs.size, hs.salt, hs.pepper, hs.load, hs.values, hs.dataLen])
  rw [show hdxWidths = ([(2, h.version), (8, h.uid), (4, h.appnum), (4, h.buckets), (2, h.elements),
      (2, h.size), (8, h.salt), (8, h.pepper), (2, h.load), (8, h.values), (8, h.dataLen)].map (·.1)) from rfl, this]
  rfl

theorem odx_read_back (h : DataHdr) (hs : h.Sized) (rest : Bytes) : loadOdx (odxBytes h ++ rest) = .ok h := by
  have hl := odxBytes_length h
  have ht : (odxBytes h ++ rest).take 28 = odxBytes h := by rw [← hl]; exact List.take_left
  unfold loadOdx
  rw [if_neg (by rw [List.length_append]; omega), ht]
  have hc : checkCrc (odxBytes h) = true := checkCrc_stamp (by simp [typeId])
  rw [hc, if_neg (by simp)]
  have e : odxBytes h ++ rest = typeId ++ (put [(2, h.version), (8, h.uid), (4, h.appnum)] ++ ([0, 0] ++
      (leBytes 4 (crc32 (typeId ++ put [(2, h.version), (8, h.uid), (4, h.appnum)] ++ [0, 0])) ++ rest))) := by
    unfold odxBytes stamp
    simp only [List.append_assoc]
  rw [e]
  have h8 : typeId.length = 8 := rfl
  rw [List.take_append_of_le_length (by rw [h8]; exact Nat.le_refl _), List.take_of_length_le (by rw [h8]; exact Nat.le_refl _), if_neg (fun x => x rfl),
    List.drop_append_of_le_length (by rw [h8]; exact Nat.le_refl _), List.drop_eq_nil_of_le (by rw [h8]; exact Nat.le_refl _), List.nil_append]
  have := get_put [(2, h.version), (8, h.uid), (4, h.appnum)] ([0, 0] ++
      (leBytes 4 (crc32 (typeId ++ put [(2, h.version), (8, h.uid), (4, h.appnum)] ++ [0, 0])) ++ rest)) (by
    intro x hx
    simp only [List.mem_cons, List.not_mem_nil, or_false] at hx
    rcases hx with rfl | rfl | rfl
    exacts [hs.version, hs.uid, hs.appnum])
  rw [show ([2, 8, 4] : List Nat) = ([(2, h.version), (8, h.uid), (4, h.appnum)].map (·.1)) from rfl, this]
  rfl

/-- A stamped buffer that is changed within 32 consecutive bits does not pass the check. -/
theorem near_fails {d b : Bytes} (hd : d ≠ []) (hn : NearBy (stamp d) b) (hne : b ≠ stamp d) : checkCrc b = false := by
  have hl : b.length = d.length + 4 := by rw [← hn.1, stamp_length]
  cases hc : checkCrc b with
  | false => rfl
  | true =>
    exfalso
    unfold checkCrc at hc
    rw [if_neg (by have := List.length_pos_iff.mpr hd; omega), hl, Nat.add_sub_cancel, decide_eq_true_iff] at hc
    have e : b = b.take d.length ++ b.drop d.length := (List.take_append_drop _ b).symm
    have hn' : NearBy (d ++ leBytes 4 (crc32 d)) (b.take d.length ++ b.drop d.length) := by rw [← e]; exact hn
    have := Crc.detects (by rw [List.length_take]; omega) (leBytes_length 4 _) (by rw [List.length_drop]; omega) hn'
      (leNat_leBytes 4 _ (crc32_lt d)).symm hc
    apply hne
    rw [e, ← this.1, ← this.2]
    rfl

/-- C122. A header changed within 32 consecutive bits, such as one bit or one word, is refused: no other header is read. -/
theorem hdx_damaged (h : Hdx) (b rest : Bytes) (hn : NearBy (hdxBytes h) b) (hne : b ≠ hdxBytes h) :
    loadHdx (b ++ rest) = .error .crc := by
  have hl : b.length = 68 := by rw [← hn.1, hdxBytes_length]
  unfold loadHdx
  rw [if_neg (by rw [List.length_append]; omega), List.take_append_of_le_length (by omega), List.take_of_length_le (by omega),
    near_fails (by simp [typeId]) hn hne, if_pos rfl]

theorem odx_damaged (h : DataHdr) (b rest : Bytes) (hn : NearBy (odxBytes h) b) (hne : b ≠ odxBytes h) :
    loadOdx (b ++ rest) = .error .crc := by
  have hl : b.length = 28 := by rw [← hn.1, odxBytes_length]
  unfold loadOdx
  rw [if_neg (by rw [List.length_append]; omega), List.take_append_of_le_length (by omega), List.take_of_length_le (by omega),
    near_fails (by simp [typeId]) hn hne, if_pos rfl]

theorem newHdx_sized (dh : DataHdr) (hd : dh.Sized) (hh : ∀ n, hash n < 256 ^ 8) (h1 : g.buckets < 256 ^ 4)
    (h2 : g.elements < 256 ^ 2) (h3 : g.size < 256 ^ 2) (h4 : g.load < 256 ^ 2) (h5 : g.dataHeader < 256 ^ 8) :
    (newHdx g hash dh).Sized :=
  ⟨hd.version, hd.uid, hd.appnum, h1, h2, h3, hh _, hh _, h4, by show 0 < _; decide, h5⟩

/-- C122. Which files an index is opened from: for a header that was written, the errors are exactly those of what it was
written for. `rest` is the filter and the buckets. -/
theorem open_written (h : Hdx) (hs : h.Sized) (rest : Bytes) (dh : DataHdr) (ro : Bool) :
    openHdx g hash dh ro (hdxBytes h ++ rest) =
      if h.version ≠ dh.version then .error .version
      else if h.appnum ≠ dh.appnum then .error .appnum
      else if h.uid ≠ dh.uid then .error .uid
      else if h.size ≠ g.size ∨ h.elements ≠ g.elements then .error .geometry
      else if h.pepper ≠ hash h.salt then .error .hasher
      else if rest.length < g.bloom then .error .io
      else .ok (h, rest.take g.bloom, hdxBytes h ++ rest) := by
  have hl := hdxBytes_length h
  have hne : hdxBytes h ++ rest ≠ [] := by
    intro e
    have := congrArg List.length e
    rw [List.length_append, hl, List.length_nil] at this
    omega
  have hd : (hdxBytes h ++ rest).drop 68 = rest := by rw [← hl]; exact List.drop_left
  unfold openHdx
  rw [if_neg hne, hdx_read_back h hs rest]
  dsimp only
  rw [hd]
  have e : ((hdxBytes h ++ rest).length < 68 + g.bloom) = (rest.length < g.bloom) := by
    rw [List.length_append, hl]
    exact propext ⟨fun h => by omega, fun h => by omega⟩
  simp only [e]

/-- C122. A new index is read back as it was made. -/
theorem created_reopens (dh : DataHdr) (hd : dh.Sized) (hn : (newHdx g hash dh).Sized) (ro : Bool) :
    openIndex g hash dh false [] [] = .ok (newHdx g hash dh, List.replicate g.bloom 0, newFile g hash dh, odxBytes dh) ∧
    openIndex g hash dh ro (newFile g hash dh) (odxBytes dh) =
      .ok (newHdx g hash dh, List.replicate g.bloom 0, newFile g hash dh, odxBytes dh) := by
  have ho : openOdx dh ro (odxBytes dh) = .ok (odxBytes dh) := by
    have h28 := odxBytes_length dh
    unfold openOdx
    rw [if_neg (by intro e; rw [e] at h28; cases h28)]
    have := odx_read_back dh hd []
    rw [List.append_nil] at this
    rw [this]
    simp
  have hh : openHdx g hash dh ro (newFile g hash dh) = .ok (newHdx g hash dh, List.replicate g.bloom 0, newFile g hash dh) := by
    have := open_written (g := g) (hash := hash) (newHdx g hash dh) hn
      (List.replicate g.bloom 0 ++ (List.replicate g.buckets (emptyBucket g)).flatten) dh ro
    rw [← List.append_assoc] at this
    unfold newFile
    rw [this, if_neg (fun x => x rfl), if_neg (fun x => x rfl), if_neg (fun x => x rfl),
      if_neg (by rintro (x | x) <;> exact x rfl), if_neg (fun x => x rfl),
      if_neg (by rw [List.length_append, List.length_replicate]; omega),
      List.take_append_of_le_length (by rw [List.length_replicate]; exact Nat.le_refl _),
      List.take_of_length_le (by rw [List.length_replicate]; exact Nat.le_refl _)]
  constructor
  · rfl
  · unfold openIndex
    rw [hh]
    dsimp only
    rw [show (⟨(newHdx g hash dh).version, (newHdx g hash dh).uid, (newHdx g hash dh).appnum⟩ : DataHdr) = dh from rfl, ho]

/-- C122. Whatever the files hold, an index that is opened from a file belongs to the data file, has this program's layout and
this program's hasher, and its header passed its checksum. -/
theorem open_own {dh : DataHdr} {ro : Bool} {hdx odx bl f o : Bytes} {h : Hdx} (hne : hdx ≠ [])
    (ho : openIndex g hash dh ro hdx odx = .ok (h, bl, f, o)) :
    h.version = dh.version ∧ h.appnum = dh.appnum ∧ h.uid = dh.uid ∧ h.size = g.size ∧ h.elements = g.elements ∧
      h.pepper = hash h.salt ∧ f = hdx ∧ bl = (hdx.drop 68).take g.bloom ∧ bl.length = g.bloom ∧
      checkCrc (hdx.take 68) = true ∧ hdx.take 8 = typeId ∧
      (o = odx ∧ loadOdx odx = .ok dh ∨ odx = [] ∧ ro = false ∧ o = odxBytes dh) := by
  unfold openIndex at ho
  cases e : openHdx g hash dh ro hdx with
  | error x => rw [e] at ho; cases ho
  | ok p =>
    obtain ⟨h', bl', f'⟩ := p
    rw [e] at ho
    dsimp only at ho
    cases e2 : openOdx ⟨h'.version, h'.uid, h'.appnum⟩ ro odx with
    | error x => rw [e2] at ho; cases ho
    | ok o' =>
      rw [e2] at ho
      cases ho
      unfold openHdx at e
      rw [if_neg hne] at e
      cases e3 : loadHdx hdx with
      | error x => rw [e3] at e; cases e
      | ok h'' =>
        rw [e3] at e
        dsimp only at e
        by_cases c1 : h''.version ≠ dh.version
        · rw [if_pos c1] at e; cases e
        rw [if_neg c1] at e
        by_cases c2 : h''.appnum ≠ dh.appnum
        · rw [if_pos c2] at e; cases e
        rw [if_neg c2] at e
        by_cases c3 : h''.uid ≠ dh.uid
        · rw [if_pos c3] at e; cases e
        rw [if_neg c3] at e
        by_cases c4 : h''.size ≠ g.size ∨ h''.elements ≠ g.elements
        · rw [if_pos c4] at e; cases e
        rw [if_neg c4] at e
        by_cases c5 : h''.pepper ≠ hash h''.salt
        · rw [if_pos c5] at e; cases e
        rw [if_neg c5] at e
        by_cases c6 : hdx.length < 68 + g.bloom
        · rw [if_pos c6] at e; cases e
        rw [if_neg c6] at e
        cases e
        have d1 := Decidable.not_not.mp c1
        have d2 := Decidable.not_not.mp c2
        have d3 := Decidable.not_not.mp c3
        have d4 : h.size = g.size ∧ h.elements = g.elements := by
          constructor
          · exact Decidable.byContradiction (fun x => c4 (.inl x))
          · exact Decidable.byContradiction (fun x => c4 (.inr x))
        have hd : (⟨h.version, h.uid, h.appnum⟩ : DataHdr) = dh := by rw [d1, d2, d3]
        rw [hd] at e2
        have hcrc : checkCrc (hdx.take 68) = true ∧ hdx.take 8 = typeId := by
          unfold loadHdx at e3
          rw [if_neg (by omega)] at e3
          cases hc : checkCrc (hdx.take 68) with
          | false => rw [if_pos hc] at e3; cases e3
          | true =>
            rw [hc, if_neg (by simp)] at e3
            by_cases ht : hdx.take 8 = typeId
            · exact ⟨rfl, ht⟩
            · rw [if_pos ht] at e3; cases e3
        refine ⟨d1, d2, d3, d4.1, d4.2, Decidable.not_not.mp c5, rfl, rfl, ?_, hcrc.1, hcrc.2, ?_⟩
        · rw [List.length_take, List.length_drop]; omega
        · unfold openOdx at e2
          by_cases c : odx = []
          · right
            rw [if_pos c] at e2
            cases ro with
            | true => cases e2
            | false => cases e2; exact ⟨c, rfl, rfl⟩
          · left
            rw [if_neg c] at e2
            cases e4 : loadOdx odx with
            | error x => rw [e4] at e2; cases e2
            | ok d =>
              rw [e4] at e2
              dsimp only at e2
              by_cases k1 : d.version ≠ dh.version
              · rw [if_pos k1] at e2; cases e2
              rw [if_neg k1] at e2
              by_cases k2 : d.appnum ≠ dh.appnum
              · rw [if_pos k2] at e2; cases e2
              rw [if_neg k2] at e2
              by_cases k3 : d.uid ≠ dh.uid
              · rw [if_pos k3] at e2; cases e2
              rw [if_neg k3] at e2
              cases e2
              refine ⟨rfl, ?_⟩
              obtain ⟨dv, du, da⟩ := d
              obtain ⟨hv, hu, ha⟩ := dh
              have j1 : dv = hv := Decidable.not_not.mp k1
              have j2 : da = ha := Decidable.not_not.mp k2
              have j3 : du = hu := Decidable.not_not.mp k3
              rw [j1, j2, j3]

/-- C122. The index of another data file is refused. -/
theorem other_refused (h : Hdx) (hs : h.Sized) (rest : Bytes) (dh : DataHdr) (ro : Bool) (hv : h.version = dh.version)
    (ha : h.appnum = dh.appnum) (hu : h.uid ≠ dh.uid) : openHdx g hash dh ro (hdxBytes h ++ rest) = .error .uid := by
  rw [open_written h hs, if_neg (fun x => x hv), if_neg (fun x => x ha), if_pos hu]

/-- C122. A crash while the file is made: if nothing of it is there it is made anew; if it ends within the header or the
filter it is refused; after that it is opened as if it were whole, without the buckets behind the cut. -/
theorem torn (dh : DataHdr) (hn : (newHdx g hash dh).Sized) (n : Nat) :
    openHdx g hash dh false ((newFile g hash dh).take n) =
      if n = 0 then .ok (newHdx g hash dh, List.replicate g.bloom 0, newFile g hash dh)
      else if n < 68 + g.bloom then .error .io
      else .ok (newHdx g hash dh, List.replicate g.bloom 0, (newFile g hash dh).take n) := by
  have hl := hdxBytes_length (newHdx g hash dh)
  by_cases h0 : n = 0
  · rw [h0, if_pos rfl, List.take_zero]; rfl
  rw [if_neg h0]
  have hfl : 68 + g.bloom ≤ (newFile g hash dh).length := by
    unfold newFile
    rw [List.length_append, List.length_append, hl, List.length_replicate]
    omega
  by_cases h1 : n < 68
  · rw [if_pos (by omega)]
    unfold openHdx
    rw [if_neg (by
      intro e
      have := congrArg List.length e
      rw [List.length_take, List.length_nil] at this
      omega)]
    unfold loadHdx
    rw [if_pos (by rw [List.length_take]; omega)]
  · have e : (newFile g hash dh).take n = hdxBytes (newHdx g hash dh) ++
        (List.replicate g.bloom 0 ++ (List.replicate g.buckets (emptyBucket g)).flatten).take (n - 68) := by
      unfold newFile
      rw [List.append_assoc, List.take_append, hl, List.take_of_length_le (by rw [hl]; omega)]
    rw [e, open_written _ hn, if_neg (fun x => x rfl), if_neg (fun x => x rfl), if_neg (fun x => x rfl),
      if_neg (by rintro (x | x) <;> exact x rfl), if_neg (fun x => x rfl)]
    by_cases h2 : n < 68 + g.bloom
    · rw [if_pos h2, if_pos (by rw [List.length_take]; omega)]
    · rw [if_neg h2, if_neg (by rw [List.length_take, List.length_append, List.length_replicate]; omega)]
      rw [List.take_take, Nat.min_eq_left (by omega),
        List.take_append_of_le_length (by rw [List.length_replicate]; exact Nat.le_refl _),
        List.take_of_length_le (by rw [List.length_replicate]; exact Nat.le_refl _)]

/-- C122. The same for the overflow file: cut within its header it is refused, and stays so. -/
theorem torn_odx (dh : DataHdr) (n : Nat) (h0 : 0 < n) (h1 : n < 28) (ro : Bool) :
    openOdx dh ro ((odxBytes dh).take n) = .error .io := by
  have hl := odxBytes_length dh
  unfold openOdx
  rw [if_neg (by
    intro e
    have := congrArg List.length e
    rw [List.length_take, List.length_nil] at this
    omega)]
  unfold loadOdx
  rw [if_pos (by rw [List.length_take]; omega)]

/-- C122. A file of zeros, as a file system may leave one behind after a crash, is refused. -/
theorem zeros_refused (n : Nat) (hn : 68 ≤ n) (dh : DataHdr) (ro : Bool) :
    openHdx g hash dh ro (List.replicate n 0) = .error .crc := by
  unfold openHdx
  rw [if_neg (by cases n with | zero => omega | succ n => simp [List.replicate_succ])]
  unfold loadHdx
  rw [if_neg (by rw [List.length_replicate]; omega), List.take_replicate, Nat.min_eq_left hn,
    show checkCrc (List.replicate 68 0) = false by decide +kernel, if_pos rfl]

/-- Finding: the filter has no checksum; any bytes are taken for it. -/
theorem filter_unchecked (h : Hdx) (hs : h.Sized) (dh : DataHdr) (hv : h.version = dh.version) (ha : h.appnum = dh.appnum)
    (hu : h.uid = dh.uid) (hg : h.size = g.size ∧ h.elements = g.elements) (hp : h.pepper = hash h.salt) (bl rest : Bytes)
    (hb : bl.length = g.bloom) (ro : Bool) :
    openHdx g hash dh ro (hdxBytes h ++ (bl ++ rest)) = .ok (h, bl, hdxBytes h ++ (bl ++ rest)) := by
  rw [open_written h hs, if_neg (fun x => x hv), if_neg (fun x => x ha), if_neg (fun x => x hu),
    if_neg (by rintro (x | x); exacts [x hg.1, x hg.2]), if_neg (fun x => x hp),
    if_neg (by rw [List.length_append]; omega), List.take_append_of_le_length (by omega), List.take_of_length_le (by omega)]

/-- C122. A read-only opening makes no file: empty ones are refused. -/
theorem readonly_empty (dh : DataHdr) (odx : Bytes) :
    openIndex g hash dh true [] odx = .error .readOnlyEmpty ∧ openOdx dh true [] = .error .readOnlyEmpty := ⟨rfl, rfl⟩

namespace Ex

def geo : Geo := ⟨32, 1296, 3, 16, 28, 32767⟩
def hsh (n : Nat) : Nat := (n * 7 + 3) % 256 ^ 8
def dh : DataHdr := ⟨2, 77, 1⟩

theorem dh_sized : dh.Sized := ⟨by decide, by decide, by decide⟩

theorem new_sized : (newHdx geo hsh dh).Sized :=
  newHdx_sized dh dh_sized (fun n => Nat.mod_lt _ (by decide)) (by decide) (by decide) (by decide) (by decide) (by decide)

/-- The hypotheses are met, and another data file's index is refused. -/
example : openHdx geo hsh dh true (newFile geo hsh dh) =
    .ok (newHdx geo hsh dh, List.replicate 16 0, newFile geo hsh dh) := by
  have h := (created_reopens (g := geo) (hash := hsh) dh dh_sized new_sized true).2
  unfold openIndex at h
  cases e : openHdx geo hsh dh true (newFile geo hsh dh) with
  | error x => rw [e] at h; cases h
  | ok p =>
    obtain ⟨a, b, c⟩ := p
    rw [e] at h
    dsimp only at h
    cases e2 : openOdx ⟨a.version, a.uid, a.appnum⟩ true (odxBytes dh) with
    | error x => rw [e2] at h; cases h
    | ok o => rw [e2] at h; cases h; rfl

example : openHdx geo hsh ⟨2, 78, 1⟩ true (newFile geo hsh dh) = .error .uid := by
  have := other_refused (g := geo) (hash := hsh) (newHdx geo hsh dh) new_sized
    (List.replicate 16 0 ++ (List.replicate 3 (emptyBucket geo)).flatten) ⟨2, 78, 1⟩ true rfl rfl (by decide)
  unfold newFile
  rw [List.append_assoc]
  exact this

end Ex

end IdxFile
end Verif
