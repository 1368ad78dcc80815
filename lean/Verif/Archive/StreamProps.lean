import Verif.Archive.Stream
/-
C115: what is read from a pack file or a pack stream.
-/
namespace Verif
namespace Pst
open Codec (Byte Bytes leBytes leNat leBytes_length leNat_leBytes leNat_lt)
open Crc (crc32 crc32_lt NearBy)

/-- What is assumed of the encoding and the compression. -/
structure Coding.Ok {V : Type} (K : Coding V) : Prop where
  de_ser : ∀ v, K.de (K.ser v) = some v
  inflate_zip : ∀ b n, K.inflate (K.zip b) n = some (b.take n)
  inflate_le : ∀ b n u, K.inflate b n = some u → u.length ≤ n

/-- A value within the limits of the readers. -/
def Fits {V : Type} (K : Coding V) (c : Compression) (v : V) : Prop :=
  (payload K c v).length ≤ maxRecord ∧ (K.ser v).length ≤ maxRecord

variable {V : Type} {K : Coding V} {c : Compression}

theorem max_eq : maxRecord = 16777216 := by unfold maxRecord; rfl

theorem leBytes_leNat : ∀ b : Bytes, leBytes b.length (leNat b) = b
  | [] => rfl
  | x :: b => by
    show (⟨(x.val + 256 * leNat b) % 256, _⟩ : Byte) :: leBytes b.length ((x.val + 256 * leNat b) / 256) = x :: b
    have hx := x.isLt
    have e1 : (x.val + 256 * leNat b) % 256 = x.val := by omega
    have e2 : (x.val + 256 * leNat b) / 256 = leNat b := by omega
    rw [e2, leBytes_leNat b]
    congr 1
    exact Fin.ext e1

theorem readExact_append (a b : Bytes) : readExact a.length (a ++ b) = (some a, b) := by
  unfold readExact
  rw [if_pos (by rw [List.length_append]; omega), List.take_left, List.drop_left]

theorem readExact_append' {n : Nat} {a : Bytes} (h : n = a.length) (b : Bytes) : readExact n (a ++ b) = (some a, b) := by
  rw [h, readExact_append]

theorem readExact_some {n : Nat} {src a r : Bytes} (h : readExact n src = (some a, r)) : src = a ++ r ∧ a.length = n := by
  unfold readExact at h
  by_cases hn : n ≤ src.length
  · rw [if_pos hn] at h
    cases h
    exact ⟨(List.take_append_drop n src).symm, by rw [List.length_take]; omega⟩
  · rw [if_neg hn] at h; cases h

theorem readExact_none {n : Nat} {src : Bytes} (h : src.length < n) : readExact n src = (none, []) := if_neg (by omega)

theorem frame_length (b : Bytes) : (frame b).length = b.length + 8 := by
  unfold frame
  rw [List.length_append, List.length_append, leBytes_length, leBytes_length]
  omega

/-- Reading a body with a given checksum field. -/
theorem readBody_parts (sz body field rest : Bytes) (hs : leNat sz = body.length) (hf : field.length = 4)
    (hm : body.length ≤ maxRecord) :
    readBody K c sz (body ++ field ++ rest) =
      if crc32 (sz ++ body) ≠ leNat field then ⟨.error .crc, rest, body.length, 0⟩
      else ⟨(decodeBody K c body).1, rest, body.length, (decodeBody K c body).2⟩ := by
  unfold readBody
  rw [hs, if_neg (by omega), List.append_assoc, readExact_append]
  dsimp only
  rw [readExact_append' hf.symm]

theorem next_parts (sz body field rest : Bytes) (hz : sz.length = 4) (hs : leNat sz = body.length) (hf : field.length = 4)
    (hm : body.length ≤ maxRecord) :
    next K c (sz ++ body ++ field ++ rest) =
      some (if crc32 (sz ++ body) ≠ leNat field then ⟨.error .crc, rest, body.length, 0⟩
      else ⟨(decodeBody K c body).1, rest, body.length, (decodeBody K c body).2⟩) := by
  unfold next
  rw [List.append_assoc, List.append_assoc, readExact_append' hz.symm]
  dsimp only
  rw [← List.append_assoc, readBody_parts sz body field rest hs hf hm]

/-- A frame is read as its body, whatever follows. -/
theorem next_frame (b rest : Bytes) (hb : b.length ≤ maxRecord) :
    next K c (frame b ++ rest) = some ⟨(decodeBody K c b).1, rest, b.length, (decodeBody K c b).2⟩ := by
  have hlt : b.length < 256 ^ 4 := by rw [max_eq] at hb; omega
  unfold frame
  rw [next_parts _ _ _ _ (leBytes_length 4 _) (leNat_leBytes 4 _ hlt) (leBytes_length 4 _) hb,
    leNat_leBytes 4 _ (crc32_lt _), if_neg (fun h => h rfl)]

theorem decode_payload (hK : K.Ok) {v : V} (hv : Fits K c v) : (decodeBody K c (payload K c v)).1 = .ok v := by
  cases c with
  | raw =>
    show (match K.de (K.ser v) with | some v => (Except.ok v, 0) | none => (Except.error Err.decode, 0)).1 = _
    rw [hK.de_ser]
  | zstd =>
    have h2 := hv.2
    have e : K.inflate (K.zip (K.ser v)) (maxRecord + 1) = some (K.ser v) := by
      rw [hK.inflate_zip, List.take_of_length_le (by omega)]
    unfold decodeBody payload
    dsimp only
    rw [e]
    dsimp only
    rw [if_neg (by omega), hK.de_ser]

/-- **C115**, a value written is read back, whatever follows, and the source then stands behind it. -/
theorem next_written (hK : K.Ok) {v : V} (hv : Fits K c v) (rest : Bytes) :
    ∃ g, next K c (writeValue K c v ++ rest) = some g ∧ g.out = .ok v ∧ g.rest = rest :=
  ⟨_, next_frame _ rest hv.1, decode_payload hK hv, rfl⟩

theorem items_some {src : Bytes} {g : Got V} (h : next K c src = some g) :
    items K c src = g.out :: items K c g.rest := by
  rw [items]
  split
  · next h' => rw [h] at h'; cases h'
  · next g' h' => rw [h] at h'; cases h'; rfl

theorem items_none {src : Bytes} (h : next K c src = none) : items K c src = [] := by
  rw [items]
  split
  · rfl
  · next g' h' => rw [h] at h'; cases h'

theorem items_short {src : Bytes} (h : src.length < 4) : items K c src = [] := by
  refine items_none ?_
  unfold next
  rw [readExact_none h]

/-- **C115**, a stream of values is read back in order, then what follows is read. -/
theorem items_written (hK : K.Ok) (vs : List V) (hv : ∀ v ∈ vs, Fits K c v) (rest : Bytes) :
    items K c (vs.flatMap (writeValue K c) ++ rest) = vs.map .ok ++ items K c rest := by
  induction vs with
  | nil => rfl
  | cons v vs ih =>
    obtain ⟨g, hg, h1, h2⟩ := next_written hK (hv v (List.mem_cons_self ..)) (vs.flatMap (writeValue K c) ++ rest)
    rw [List.flatMap_cons, List.append_assoc, items_some hg, h1, h2,
      ih (fun w hw => hv w (List.mem_cons_of_mem _ hw))]
    rfl

theorem items_all (hK : K.Ok) (vs : List V) (hv : ∀ v ∈ vs, Fits K c v) :
    items K c (vs.flatMap (writeValue K c)) = vs.map .ok := by
  have := items_written hK vs hv []
  have e : items K c [] = [] := items_short (by decide)
  rwa [List.append_nil, e, List.append_nil] at this

/-- **C115**, whatever the source: a value is read only from a whole frame with its right checksum, from which it
decodes, and the source then stands behind that frame. -/
theorem next_sound {src : Bytes} {g : Got V} {v : V} (h : next K c src = some g) (hv : g.out = .ok v) :
    ∃ b, src = frame b ++ g.rest ∧ b.length ≤ maxRecord ∧ (decodeBody K c b).1 = .ok v := by
  unfold next at h
  split at h
  · cases h
  · next sz r h4 =>
    obtain ⟨hsrc, hlen⟩ := readExact_some h4
    cases h
    unfold readBody at hv ⊢
    by_cases hm : maxRecord < leNat sz
    · rw [if_pos hm] at hv; cases hv
    · rw [if_neg hm] at hv ⊢
      split at hv
      · cases hv
      · next body r1 h5 =>
        obtain ⟨hr, hb⟩ := readExact_some h5
        split at hv
        · cases hv
        · next field r2 h6 =>
          obtain ⟨hr1, hf⟩ := readExact_some h6
          by_cases hc : crc32 (sz ++ body) ≠ leNat field
          · rw [if_pos hc] at hv; cases hv
          · rw [if_neg hc] at hv
            refine ⟨body, ?_, by omega, hv⟩
            rw [if_neg hc]
            have e1 : leBytes 4 body.length = sz := by rw [hb, ← hlen]; exact leBytes_leNat sz
            have e2 : leBytes 4 (crc32 (sz ++ body)) = field := by
              rw [Decidable.not_not.mp hc, ← hf]; exact leBytes_leNat field
            unfold frame
            rw [e1, e2, hsrc, hr, hr1]
            simp only [List.append_assoc]

theorem readAll_cons {x : Except Err V} {l : List (Except Err V)} {vs : List V} (h : readAll (x :: l) = .ok vs) :
    ∃ v ws, x = .ok v ∧ readAll l = .ok ws ∧ vs = v :: ws := by
  cases x with
  | error e => cases h
  | ok v =>
    have h' : (match readAll l with | .ok vs => Except.ok (v :: vs) | .error e => .error e) = .ok vs := h
    cases hl : readAll l with
    | error e => rw [hl] at h'; cases h'
    | ok ws => rw [hl] at h'; cases h'; exact ⟨v, ws, rfl, rfl, rfl⟩

/-- **C115**, whatever the source: if a reader that stops at the first error reads it to the end, it is a sequence
of whole frames with right checksums, from which the values decode in order, and at most three more bytes. -/
theorem all_sound (src : Bytes) (vs : List V) (h : readAll (items K c src) = .ok vs) :
    ∃ bs : List Bytes, ∃ tail : Bytes, src = bs.flatMap frame ++ tail ∧ tail.length < 4 ∧
      bs.map (fun b => (decodeBody K c b).1) = vs.map .ok ∧ ∀ b ∈ bs, b.length ≤ maxRecord := by
  induction hn : src.length using Nat.strongRecOn generalizing src vs with
  | _ n ih =>
    cases hg : next K c src with
    | none =>
      rw [items_none hg] at h
      cases h
      refine ⟨[], src, rfl, ?_, rfl, fun _ h => (nomatch h)⟩
      unfold next at hg
      split at hg
      · next r h4 =>
        by_cases h' : src.length < 4
        · exact h'
        · unfold readExact at h4
          rw [if_pos (by omega)] at h4
          cases h4
      · cases hg
    | some g =>
      rw [items_some hg] at h
      obtain ⟨v, ws, h1, h2, rfl⟩ := readAll_cons h
      have hs := next_shorter K hg
      obtain ⟨b, hb, hl, hd⟩ := next_sound hg h1
      obtain ⟨bs, tail, e1, e2, e3, e4⟩ := ih g.rest.length (by omega) g.rest ws h2 rfl
      refine ⟨b :: bs, tail, ?_, e2, ?_, ?_⟩
      · rw [List.flatMap_cons, List.append_assoc, ← e1]; exact hb
      · rw [List.map_cons, List.map_cons, e3, hd]
      · intro x hx
        rcases List.mem_cons.mp hx with rfl | hx
        · exact hl
        · exact e4 x hx

/-- A frame that is cut is the end of the source if the cut lies in the size, else an error. -/
theorem items_cut (b : Bytes) (hb : b.length ≤ maxRecord) (m : Nat) (hm : m < (frame b).length) :
    items K c ((frame b).take m) = if m < 4 then [] else [.error .io] := by
  have hlt : b.length < 256 ^ 4 := by rw [max_eq] at hb; omega
  rw [frame_length] at hm
  by_cases h4 : m < 4
  · rw [if_pos h4]
    exact items_short (by rw [List.length_take]; omega)
  · rw [if_neg h4]
    have hcut : (frame b).take m = leBytes 4 b.length ++
        ((b ++ leBytes 4 (crc32 (leBytes 4 b.length ++ b))).take (m - 4)) := by
      unfold frame
      rw [List.append_assoc, List.take_append, leBytes_length, List.take_of_length_le (by rw [leBytes_length]; omega)]
    have hn : next K c ((frame b).take m) = some ⟨.error .io, [], b.length, 0⟩ := by
      rw [hcut]
      unfold next
      rw [readExact_append' (leBytes_length 4 _).symm]
      dsimp only
      unfold readBody
      rw [leNat_leBytes 4 _ hlt, if_neg (by omega)]
      by_cases hshort : m - 4 < b.length
      · rw [readExact_none (by rw [List.length_take]; omega)]
      · rw [List.take_append, List.take_of_length_le (by omega), readExact_append]
        dsimp only
        rw [readExact_none (by rw [List.length_take]; omega)]
    rw [items_some hn]
    dsimp only
    rw [items_short (by decide)]

/-- **C115**, a stream that is cut yields the values whose frames are whole, in order, and then its end if the cut
lies between frames or in a size, else one error. -/
theorem truncated (hK : K.Ok) (a : List V) (v : V) (ha : ∀ w ∈ a, Fits K c w) (hv : Fits K c v) (m : Nat)
    (hm : m < (writeValue K c v).length) :
    items K c (a.flatMap (writeValue K c) ++ (writeValue K c v).take m) =
      a.map .ok ++ (if m < 4 then [] else [.error .io]) := by
  rw [items_written hK a ha]
  unfold writeValue at hm ⊢
  rw [items_cut _ hv.1 m hm]

/-- Every cut of a stream is of the form of `truncated`. -/
theorem every_cut (vs : List V) (n : Nat) (hn : n < (vs.flatMap (writeValue K c)).length) :
    ∃ a v b m, vs = a ++ v :: b ∧ m < (writeValue K c v).length ∧
      (vs.flatMap (writeValue K c)).take n = a.flatMap (writeValue K c) ++ (writeValue K c v).take m := by
  induction vs generalizing n with
  | nil => cases hn
  | cons v vs ih =>
    rw [List.flatMap_cons, List.length_append] at hn
    by_cases h : n < (writeValue K c v).length
    · refine ⟨[], v, vs, n, rfl, h, ?_⟩
      rw [List.flatMap_cons, List.take_append, Nat.sub_eq_zero_of_le (by omega)]
      simp
    · obtain ⟨a, w, b, m, h1, h2, h3⟩ := ih (n - (writeValue K c v).length) (by omega)
      refine ⟨v :: a, w, b, m, by rw [h1]; rfl, h2, ?_⟩
      rw [List.flatMap_cons, List.take_append, List.take_of_length_le (by omega), h3, List.flatMap_cons,
        List.append_assoc]

/-- **C115**, whatever the source: a record takes a buffer of at most 16 MiB, and one byte more for what is
decompressed. -/
theorem memory (hK : K.Ok) {src : Bytes} {g : Got V} (h : next K c src = some g) :
    g.buffer ≤ maxRecord ∧ g.unzipped ≤ maxRecord + 1 := by
  have hd : ∀ b, (decodeBody K c b).2 ≤ maxRecord + 1 := by
    intro b
    unfold decodeBody
    cases c with
    | raw => dsimp only; split <;> exact Nat.zero_le _
    | zstd =>
      dsimp only
      cases hi : K.inflate b (maxRecord + 1) with
      | none => exact Nat.zero_le _
      | some u =>
        have := hK.inflate_le _ _ _ hi
        dsimp only
        split
        · exact this
        · split <;> exact this
  unfold next at h
  split at h
  · cases h
  · next sz r h4 =>
    cases h
    unfold readBody
    by_cases hm : maxRecord < leNat sz
    · rw [if_pos hm]; exact ⟨Nat.zero_le _, Nat.zero_le _⟩
    · rw [if_neg hm]
      split
      · exact ⟨by dsimp only; omega, Nat.zero_le _⟩
      · split
        · exact ⟨by dsimp only; omega, Nat.zero_le _⟩
        · split
          · exact ⟨by dsimp only; omega, Nat.zero_le _⟩
          · exact ⟨by dsimp only; omega, hd _⟩

/-- **C115**, whatever the source: the iteration ends, after at most one item for four bytes. -/
theorem few_items (src : Bytes) : 4 * (items K c src).length ≤ src.length := by
  induction hn : src.length using Nat.strongRecOn generalizing src with
  | _ n ih =>
    cases hg : next K c src with
    | none => rw [items_none hg]; simp
    | some g =>
      have hs := next_shorter K hg
      have := ih g.rest.length (by omega) g.rest rfl
      rw [items_some hg, List.length_cons]
      omega

/-! ## Damage -/

/-- **C115**, a frame in which the bytes behind the size, checksum included, are changed within 32 consecutive
bits is reported, and the reader stays in step. -/
theorem next_damaged (b : Bytes) (hb : b.length ≤ maxRecord) (f' rest : Bytes) (hn : NearBy (frame b) f')
    (hne : f' ≠ frame b) (hsz : f'.take 4 = (frame b).take 4) :
    next K c (f' ++ rest) = some ⟨.error .crc, rest, b.length, 0⟩ := by
  have hlt : b.length < 256 ^ 4 := by rw [max_eq] at hb; omega
  have hl : f'.length = b.length + 8 := by rw [← hn.1, frame_length]
  have hs4 : (frame b).take 4 = leBytes 4 b.length := by
    unfold frame
    rw [List.append_assoc, List.take_left' (leBytes_length 4 _)]
  have hsplit : f' = leBytes 4 b.length ++ (f'.drop 4).take b.length ++ (f'.drop 4).drop b.length := by
    rw [List.append_assoc, List.take_append_drop, ← hs4, ← hsz, List.take_append_drop]
  have hbl : ((f'.drop 4).take b.length).length = b.length := by
    rw [List.length_take, List.length_drop]; omega
  have hfl : ((f'.drop 4).drop b.length).length = 4 := by
    rw [List.length_drop, List.length_drop]; omega
  generalize (f'.drop 4).take b.length = body' at hsplit hbl
  generalize (f'.drop 4).drop b.length = field' at hsplit hfl
  subst hsplit
  rw [next_parts _ _ _ _ (leBytes_length 4 _) (by rw [leNat_leBytes 4 _ hlt, hbl]) hfl (by omega), hbl]
  by_cases hc : crc32 (leBytes 4 b.length ++ body') ≠ leNat field'
  · rw [if_pos hc]
  · exfalso
    have h1 : crc32 (leBytes 4 b.length ++ b) = leNat (leBytes 4 (crc32 (leBytes 4 b.length ++ b))) :=
      (leNat_leBytes 4 _ (crc32_lt _)).symm
    have := Crc.detects (by rw [List.length_append, List.length_append, hbl]) (leBytes_length 4 _) hfl hn h1
      (Decidable.not_not.mp hc)
    apply hne
    have hbb := (List.append_inj this.1 rfl).2
    have e2 := this.2
    unfold frame
    rw [e2, hbb]

/-- **C115**, a stream with one such frame: the values before it, the error, the values behind it. -/
theorem damaged (hK : K.Ok) (a b : List V) (v : V) (ha : ∀ w ∈ a, Fits K c w) (hv : Fits K c v)
    (hb : ∀ w ∈ b, Fits K c w) (f' : Bytes) (hn : NearBy (writeValue K c v) f') (hne : f' ≠ writeValue K c v)
    (hsz : f'.take 4 = (writeValue K c v).take 4) :
    items K c (a.flatMap (writeValue K c) ++ f' ++ b.flatMap (writeValue K c)) =
      a.map .ok ++ .error .crc :: b.map .ok := by
  rw [List.append_assoc, items_written hK a ha,
    items_some (next_damaged (payload K c v) hv.1 f' (b.flatMap (writeValue K c)) hn hne hsz)]
  dsimp only
  rw [items_all hK b hb]

/-! ## Reading at a position -/

/-- **C115**, reading a record at a position gives what the iterator gives that stands there. -/
theorem fetch_iff (file : Bytes) (pos : Nat) (v : V) :
    fetch K c file pos = .ok v ↔ ∃ g, next K c (file.drop pos) = some g ∧ g.out = .ok v := by
  unfold fetch next
  cases h : readExact 4 (file.drop pos) with
  | mk o r =>
    cases o with
    | none => exact ⟨fun h => (nomatch h), fun ⟨_, h, _⟩ => (nomatch h)⟩
    | some sz =>
      constructor
      · intro h; exact ⟨_, rfl, h⟩
      · rintro ⟨g, h1, h2⟩; cases h1; exact h2

/-- **C115**, the size of a record is how far the iterator moves over it, and only a record with a right checksum
has one. -/
theorem recordSize_iff (file : Bytes) (pos n : Nat) :
    recordSize file pos = .ok n ↔
      ∃ b rest, file.drop pos = frame b ++ rest ∧ b.length ≤ maxRecord ∧ n = b.length + 8 := by
  constructor
  · intro h
    unfold recordSize at h
    split at h
    · cases h
    · next sz r h4 =>
      obtain ⟨hsrc, hlen⟩ := readExact_some h4
      by_cases hm : maxRecord < leNat sz
      · rw [if_pos hm] at h; cases h
      · rw [if_neg hm] at h
        split at h
        · cases h
        · next body r1 h5 =>
          obtain ⟨hr, hb⟩ := readExact_some h5
          split at h
          · cases h
          · next field r2 h6 =>
            obtain ⟨hr1, hf⟩ := readExact_some h6
            by_cases hc : crc32 (sz ++ body) ≠ leNat field
            · rw [if_pos hc] at h; cases h
            · rw [if_neg hc] at h
              cases h
              refine ⟨body, r2, ?_, by omega, by omega⟩
              have e1 : leBytes 4 body.length = sz := by rw [hb, ← hlen]; exact leBytes_leNat sz
              have e2 : leBytes 4 (crc32 (sz ++ body)) = field := by
                rw [Decidable.not_not.mp hc, ← hf]; exact leBytes_leNat field
              unfold frame
              rw [e1, e2, hsrc, hr, hr1]
              simp only [List.append_assoc]
  · rintro ⟨b, rest, h, hb, rfl⟩
    have hlt : b.length < 256 ^ 4 := by rw [max_eq] at hb; omega
    unfold recordSize
    rw [h]
    unfold frame
    rw [List.append_assoc, List.append_assoc, readExact_append' (leBytes_length 4 _).symm]
    dsimp only
    rw [leNat_leBytes 4 _ hlt, if_neg (by omega), readExact_append]
    dsimp only
    rw [readExact_append' (leBytes_length 4 _).symm]
    dsimp only
    rw [leNat_leBytes 4 _ (crc32_lt _), if_neg (fun h => h rfl)]

/-! ## The header -/

def fxInv : BitVec 64 := 0x2040003d780970bd#64

theorem fx_inverse : fxMul * fxInv = 1#64 := by decide +kernel

/-- **C115**, files of different epochs have different identifiers. -/
theorem genUid_inj {i j : BitVec 64} (h : genUid i = genUid j) : i = j := by
  unfold genUid fxAdd at h
  have h2 := congrArg (· * fxInv) h
  rw [BitVec.mul_assoc, BitVec.mul_assoc, fx_inverse, BitVec.mul_one, BitVec.mul_one] at h2
  have h3 := congrArg (fxPrefix.rotateLeft 5 ^^^ ·) h2
  rwa [← BitVec.xor_assoc, ← BitVec.xor_assoc, BitVec.xor_self, BitVec.zero_xor, BitVec.zero_xor] at h3

theorem headerData_length (h : Hdr) : (headerData h).length = 24 := by
  unfold headerData
  simp only [List.length_append, leBytes_length]
  rfl

theorem headerBytes_length (h : Hdr) : (headerBytes h).length = 28 := by
  unfold headerBytes
  rw [List.length_append, headerData_length, leBytes_length]

/-- The fields of a header have their widths. -/
def Hdr.Sized (h : Hdr) : Prop := h.version < 256 ^ 2 ∧ h.uid < 256 ^ 8 ∧ h.appnum < 256 ^ 4

theorem mid (a b d : Bytes) : ((a ++ b ++ d).drop a.length).take b.length = b := by
  rw [List.append_assoc, List.drop_left, List.take_left]

theorem mid' {n k : Nat} {a b d : Bytes} (hn : n = a.length) (hk : k = b.length) : ((a ++ b ++ d).drop n).take k = b := by
  rw [hn, hk, mid]

/-- What is stored in the header is read from it. -/
theorem header_parts (h : Hdr) (hs : h.Sized) :
    (headerBytes h).take 6 = typeId ∧ leNat (((headerBytes h).drop 6).take 2) = h.version ∧
      leNat (((headerBytes h).drop 8).take 8) = h.uid ∧ leNat (((headerBytes h).drop 16).take 4) = h.appnum ∧
      leNat (((headerBytes h).drop 20).take 4) = h.compression.toNat ∧
      crc32 ((headerBytes h).take 24) = leNat ((headerBytes h).drop 24) := by
  obtain ⟨h1, h2, h3⟩ := hs
  have h4 : h.compression.toNat < 256 ^ 4 := by cases h.compression <;> decide
  have lt : typeId.length = 6 := rfl
  have l2 := leBytes_length 2 h.version
  have l8 := leBytes_length 8 h.uid
  have l4 := leBytes_length 4 h.appnum
  have l4' := leBytes_length 4 h.compression.toNat
  refine ⟨?_, ?_, ?_, ?_, ?_, ?_⟩
  · unfold headerBytes headerData
    simp only [List.append_assoc]
    exact List.take_left' lt
  · have e : headerBytes h = typeId ++ leBytes 2 h.version ++ (leBytes 8 h.uid ++ leBytes 4 h.appnum ++
        leBytes 4 h.compression.toNat ++ leBytes 4 (crc32 (headerData h))) := by
      unfold headerBytes headerData; simp only [List.append_assoc]
    rw [e, mid' lt.symm l2.symm, leNat_leBytes 2 _ h1]
  · have e : headerBytes h = (typeId ++ leBytes 2 h.version) ++ leBytes 8 h.uid ++ (leBytes 4 h.appnum ++
        leBytes 4 h.compression.toNat ++ leBytes 4 (crc32 (headerData h))) := by
      unfold headerBytes headerData; simp only [List.append_assoc]
    rw [e, mid' (by rw [List.length_append, lt, l2]) l8.symm, leNat_leBytes 8 _ h2]
  · have e : headerBytes h = (typeId ++ leBytes 2 h.version ++ leBytes 8 h.uid) ++ leBytes 4 h.appnum ++ (
        leBytes 4 h.compression.toNat ++ leBytes 4 (crc32 (headerData h))) := by
      unfold headerBytes headerData; simp only [List.append_assoc]
    rw [e, mid' (by rw [List.length_append, List.length_append, lt, l2, l8]) l4.symm, leNat_leBytes 4 _ h3]
  · have e : headerBytes h = (typeId ++ leBytes 2 h.version ++ leBytes 8 h.uid ++ leBytes 4 h.appnum) ++
        leBytes 4 h.compression.toNat ++ leBytes 4 (crc32 (headerData h)) := by
      unfold headerBytes headerData; simp only [List.append_assoc]
    rw [e, mid' (by rw [List.length_append, List.length_append, List.length_append, lt, l2, l8, l4]) l4'.symm,
      leNat_leBytes 4 _ h4]
  · unfold headerBytes
    rw [List.take_left' (headerData_length h), List.drop_left' (headerData_length h), leNat_leBytes 4 _ (crc32_lt _)]

theorem parse_toNat (c : Compression) : Compression.parse c.toNat = some c := by cases c <;> rfl

/-- A header is loaded for its epoch and for no other. -/
theorem load_written (h : Hdr) (hs : h.Sized) (idx : BitVec 64) :
    loadHeader (headerBytes h) idx = if h.uid = (genUid idx).toNat then .ok h else .error .uid := by
  obtain ⟨p1, p2, p3, p4, p5, p6⟩ := header_parts h hs
  unfold loadHeader
  rw [if_neg (fun h => h p6), if_neg (fun h => h p1), p3]
  by_cases hu : h.uid = (genUid idx).toNat
  · rw [if_neg (fun x => x hu), if_pos hu, p5, parse_toNat]
    dsimp only
    rw [p2, p4]
  · rw [if_pos hu, if_neg hu]

theorem newHeader_sized (idx : BitVec 64) (c : Compression) {version : Nat} (hv : version < 256 ^ 2) :
    (newHeader idx c version).Sized :=
  ⟨hv, (genUid idx).isLt, by show 1 < 256 ^ 4; decide⟩

/-- **C115**, a pack file is opened as that of its epoch, and its values are read in order; as that of another
epoch it is not opened. -/
theorem file_read (hK : K.Ok) (idx idx' : BitVec 64) (version : Nat) (hv : version < 256 ^ 2) (vs : List V)
    (hf : ∀ v ∈ vs, Fits K c v) :
    openStream (packFile K idx c version vs) idx' =
      (if idx' = idx then .ok (newHeader idx c version, vs.flatMap (writeValue K c)) else .error .uid) ∧
    items K c (vs.flatMap (writeValue K c)) = vs.map .ok ∧
    readAll (items K c (vs.flatMap (writeValue K c))) = .ok vs := by
  have hi := items_all hK vs hf
  refine ⟨?_, hi, ?_⟩
  · unfold openStream packFile
    rw [readExact_append' (headerBytes_length _).symm]
    dsimp only
    rw [load_written _ (newHeader_sized idx c hv)]
    by_cases h : idx' = idx
    · subst h
      have e : (newHeader idx' c version).uid = (genUid idx').toNat := rfl
      rw [if_pos e, if_pos rfl]
      exact if_neg (fun x => x rfl)
    · have e : (newHeader idx c version).uid ≠ (genUid idx').toNat :=
        fun x => h (genUid_inj (BitVec.eq_of_toNat_eq x)).symm
      rw [if_neg h, if_neg e]
  · rw [hi]
    clear hi hf
    induction vs with
    | nil => rfl
    | cons v vs ih =>
      show (match readAll (vs.map .ok) with | .ok vs => Except.ok (v :: vs) | .error e => .error e) = _
      rw [ih]

/-- **C115**, a header that is changed within 32 consecutive bits is not loaded. -/
theorem header_damaged (h : Hdr) (b : Bytes) (hn : NearBy (headerBytes h) b) (hne : b ≠ headerBytes h) (idx : BitVec 64) :
    loadHeader b idx = .error .crc := by
  have hl : b.length = 28 := by rw [← hn.1, headerBytes_length]
  unfold loadHeader
  by_cases hc : crc32 (b.take 24) ≠ leNat (b.drop 24)
  · rw [if_pos hc]
  · exfalso
    have e : b = b.take 24 ++ b.drop 24 := (List.take_append_drop 24 b).symm
    have hn' : NearBy (headerData h ++ leBytes 4 (crc32 (headerData h))) (b.take 24 ++ b.drop 24) := by
      rw [← e]; exact hn
    have := Crc.detects (by rw [headerData_length, List.length_take]; omega) (leBytes_length 4 _)
      (by rw [List.length_drop]; omega) hn' (leNat_leBytes 4 _ (crc32_lt _)).symm (Decidable.not_not.mp hc)
    apply hne
    rw [e, ← this.1, ← this.2]
    rfl

/-- **C115**, whatever the source: what is opened for an epoch begins with a header with a right checksum, that
epoch's identifier and the application's number, and the records follow it. -/
theorem open_sound {src r : Bytes} {idx : BitVec 64} {h : Hdr} (ho : openStream src idx = .ok (h, r)) :
    ∃ b, src = b ++ r ∧ b.length = 28 ∧ b.take 6 = typeId ∧ crc32 (b.take 24) = leNat (b.drop 24) ∧
      h.uid = (genUid idx).toNat ∧ h.appnum = 1 ∧ h.version = leNat ((b.drop 6).take 2) ∧
      h.compression.toNat = leNat ((b.drop 20).take 4) := by
  unfold openStream at ho
  split at ho
  · cases ho
  · next b r' h4 =>
    obtain ⟨hsrc, hlen⟩ := readExact_some h4
    cases hl : loadHeader b idx with
    | error e => rw [hl] at ho; cases ho
    | ok h' =>
      rw [hl] at ho
      dsimp only at ho
      by_cases ha : h'.appnum ≠ 1
      · rw [if_pos ha] at ho; cases ho
      · rw [if_neg ha] at ho
        cases ho
        refine ⟨b, hsrc, hlen, ?_⟩
        unfold loadHeader at hl
        by_cases hc : crc32 (b.take 24) ≠ leNat (b.drop 24)
        · rw [if_pos hc] at hl; cases hl
        · rw [if_neg hc] at hl
          by_cases ht : b.take 6 ≠ typeId
          · rw [if_pos ht] at hl; cases hl
          · rw [if_neg ht] at hl
            by_cases hu : leNat ((b.drop 8).take 8) ≠ (genUid idx).toNat
            · rw [if_pos hu] at hl; cases hl
            · rw [if_neg hu] at hl
              cases hp : Compression.parse (leNat ((b.drop 20).take 4)) with
              | none => rw [hp] at hl; cases hl
              | some cc =>
                rw [hp] at hl
                cases hl
                refine ⟨Decidable.not_not.mp ht, Decidable.not_not.mp hc, Decidable.not_not.mp hu,
                  Decidable.not_not.mp ha, rfl, ?_⟩
                revert hp
                generalize leNat ((b.drop 20).take 4) = x
                intro hp
                match x, hp with
                | 0, hp => cases hp; rfl
                | 1, hp => cases hp; rfl
                | _ + 2, hp => cases hp

/-- **C115**, a file opened for writing or reading has a version that is not newer than the program's; besides
that the check is that of a stream. -/
theorem openFile_iff (file : Bytes) (idx : BitVec 64) (version : Nat) (h : Hdr) :
    openFile file idx version = .ok h ↔ (∃ r, openStream file idx = .ok (h, r)) ∧ h.version ≤ version := by
  unfold openFile openStream
  cases hr : readExact 28 file with
  | mk o r =>
    cases o with
    | none => exact ⟨fun x => (nomatch x), fun ⟨⟨_, x⟩, _⟩ => (nomatch x)⟩
    | some b =>
      dsimp only
      cases hl : loadHeader b idx with
      | error e => exact ⟨fun x => (nomatch x), fun ⟨⟨_, x⟩, _⟩ => (nomatch x)⟩
      | ok h' =>
        dsimp only
        constructor
        · intro x
          by_cases hv : version < h'.version
          · rw [if_pos hv] at x; cases x
          · rw [if_neg hv] at x
            by_cases ha : h'.appnum ≠ 1
            · rw [if_pos ha] at x; cases x
            · rw [if_neg ha] at x
              cases x
              exact ⟨⟨r, if_neg ha⟩, by omega⟩
        · rintro ⟨⟨r', x⟩, hv⟩
          by_cases ha : h'.appnum ≠ 1
          · rw [if_pos ha] at x; cases x
          · rw [if_neg ha] at x
            cases x
            rw [if_neg (by omega), if_neg ha]

/-! ## Findings -/

/-- **Finding.** The size is covered by the checksum but not protected: of every payload `w` there is a longer one
whose frame reads as a frame of `w` when only its size is changed. If the bit for 4 is clear in the length of `w`
that is a change of a single bit. -/
theorem size_undetected (w rest : Bytes) (hw : w.length + 4 ≤ maxRecord) :
    ∃ b : Bytes, b.length = w.length + 4 ∧
      ∃ r, next K c (leBytes 4 w.length ++ (frame b).drop 4 ++ rest) =
        some ⟨(decodeBody K c w).1, r, w.length, (decodeBody K c w).2⟩ := by
  refine ⟨w ++ leBytes 4 (crc32 (leBytes 4 w.length ++ w)), by rw [List.length_append, leBytes_length], ?_⟩
  generalize hb : w ++ leBytes 4 (crc32 (leBytes 4 w.length ++ w)) = b
  have hd : (frame b).drop 4 = b ++ leBytes 4 (crc32 (leBytes 4 b.length ++ b)) := by
    unfold frame
    rw [List.append_assoc, List.drop_left' (leBytes_length 4 _)]
  refine ⟨leBytes 4 (crc32 (leBytes 4 b.length ++ b)) ++ rest, ?_⟩
  have e : leBytes 4 w.length ++ (frame b).drop 4 ++ rest =
      frame w ++ (leBytes 4 (crc32 (leBytes 4 b.length ++ b)) ++ rest) := by
    have e0 : frame w = leBytes 4 w.length ++ b := by unfold frame; rw [← hb, List.append_assoc]
    rw [hd, e0]
    simp only [List.append_assoc]
  rw [e]
  exact next_frame w _ (by omega)

/-- **Finding.** After a size over the limit the iterator goes on inside the record: what it returns then is read
from the record's own bytes. Every caller stops at the first error. -/
theorem out_of_step (n : Nat) (hn : maxRecord < n) (hl : n < 256 ^ 4) (w rest : Bytes) (hw : w.length ≤ maxRecord) :
    ∃ g, next K c (leBytes 4 n ++ frame w ++ rest) = some g ∧ g.out = .error (.tooLarge n) ∧
      ∃ g', next K c g.rest = some g' ∧ g'.out = (decodeBody K c w).1 := by
  refine ⟨⟨.error (.tooLarge n), frame w ++ rest, 0, 0⟩, ?_, rfl, _, next_frame w rest hw, rfl⟩
  unfold next
  rw [List.append_assoc, readExact_append' (leBytes_length 4 _).symm]
  dsimp only
  unfold readBody
  rw [leNat_leBytes 4 _ hl, if_pos hn]

/-- **Finding.** A value over the limit is written without complaint and is then an error for every reader. -/
theorem written_unreadable (v : V) (rest : Bytes) (h1 : maxRecord < (payload K c v).length)
    (h2 : (payload K c v).length < 256 ^ 4) :
    ∃ g, next K c (writeValue K c v ++ rest) = some g ∧ g.out = .error (.tooLarge (payload K c v).length) := by
  refine ⟨⟨.error (.tooLarge (payload K c v).length),
    payload K c v ++ leBytes 4 (crc32 (leBytes 4 (payload K c v).length ++ payload K c v)) ++ rest, 0, 0⟩, ?_, rfl⟩
  · unfold next writeValue frame
    rw [List.append_assoc, List.append_assoc, readExact_append' (leBytes_length 4 _).symm]
    dsimp only
    unfold readBody
    rw [leNat_leBytes 4 _ h2, if_pos h1, List.append_assoc]

/-- **Finding.** The comment in `AsyncPackIter::open` says that a version that is too new is rejected; a stream of
any version is opened, only a file is not. -/
theorem newer_stream_opened (idx : BitVec 64) (version : Nat) (hv : version < 256 ^ 2) (known : Nat) (hk : known < version)
    (rest : Bytes) :
    openStream (headerBytes (newHeader idx c version) ++ rest) idx = .ok (newHeader idx c version, rest) ∧
      openFile (headerBytes (newHeader idx c version) ++ rest) idx known = .error .version := by
  unfold openStream openFile
  rw [readExact_append' (headerBytes_length _).symm]
  dsimp only
  have e : (newHeader idx c version).uid = (genUid idx).toNat := rfl
  rw [load_written _ (newHeader_sized idx c hv), if_pos e]
  exact ⟨if_neg (fun x => x rfl), if_pos hk⟩

/-! ## The hypotheses can be met -/
namespace Ex

/-- Values are byte strings; the compression only marks. -/
def coding : Coding Bytes where
  ser v := v
  de b := some b
  zip b := 0 :: b
  inflate b n := match b with
    | x :: l => if x = 0 then some (l.take n) else none
    | [] => none

theorem coding_ok : coding.Ok where
  de_ser _ := rfl
  inflate_zip _ _ := rfl
  inflate_le b n u h := by
    cases b with
    | nil => cases h
    | cons x l =>
      have h' : (if x = 0 then some (l.take n) else none) = some u := h
      by_cases hx : x = 0
      · rw [if_pos hx] at h'
        cases h'
        rw [List.length_take]
        omega
      · rw [if_neg hx] at h'; cases h'

theorem fits (v : Bytes) (h : v.length < 1000) : Fits coding .zstd v := by
  have : (payload coding .zstd v).length = v.length + 1 := rfl
  have e : (coding.ser v).length = v.length := rfl
  unfold Fits
  rw [this, e, max_eq]
  omega

/-- The frame of `[1, 2, 3]`, and the same with a bit of the second byte changed. -/
def good : Bytes := writeValue coding .zstd [1, 2, 3]
def bad : Bytes := good.set 6 3

theorem bad_near : NearBy good bad ∧ bad ≠ good ∧ bad.take 4 = good.take 4 := by
  refine ⟨⟨by decide +kernel, 48, ?_⟩, by decide +kernel, by decide +kernel⟩
  intro i hi
  by_cases h : i < 96
  · revert hi
    have key : ∀ j : Fin 96, (Crc.bits good)[j.val]? ≠ (Crc.bits bad)[j.val]? → 48 ≤ j.val ∧ j.val < 48 + 32 := by
      decide +kernel
    exact key ⟨i, h⟩
  · exfalso
    have l1 : (Crc.bits good).length = 96 := by decide +kernel
    have l2 : (Crc.bits bad).length = 96 := by decide +kernel
    rw [List.getElem?_eq_none (by omega), List.getElem?_eq_none (by omega)] at hi
    exact hi rfl

/-- Three values of which the second is damaged. -/
theorem damaged_example :
    items coding .zstd (writeValue coding .zstd [7] ++ bad ++ writeValue coding .zstd [9]) =
      [.ok [7], .error .crc, .ok [9]] := by
  have := damaged coding_ok [[7]] [[9]] [1, 2, 3] (fun w hw => by rw [List.mem_singleton.mp hw]; exact fits _ (by decide))
    (fits _ (by decide)) (fun w hw => by rw [List.mem_singleton.mp hw]; exact fits _ (by decide)) bad bad_near.1
    bad_near.2.1 bad_near.2.2
  simpa using this

/-- A file with three values. -/
theorem file_example :
    openStream (packFile coding 5#64 .zstd 1 [[1], [], [2, 3]]) 5#64 =
      .ok (newHeader 5#64 .zstd 1, [[1], [], [2, 3]].flatMap (writeValue coding .zstd)) ∧
    openStream (packFile coding 5#64 .zstd 1 [[1], [], [2, 3]]) 6#64 = .error .uid ∧
    readAll (items coding .zstd ([[1], [], [2, 3]].flatMap (writeValue coding .zstd))) = .ok [[1], [], [2, 3]] := by
  have hf : ∀ v ∈ [[1], [], [2, 3]], Fits coding .zstd v := by
    intro v hv
    refine fits v ?_
    simp at hv
    rcases hv with rfl | rfl | rfl <;> decide
  have h1 := file_read (c := .zstd) coding_ok 5#64 5#64 1 (by decide) _ hf
  have h2 := file_read (c := .zstd) coding_ok 5#64 6#64 1 (by decide) _ hf
  rw [if_pos rfl] at h1
  rw [if_neg (by decide)] at h2
  exact ⟨h1.1, h2.1, h1.2.2⟩

end Ex
end Pst
end Verif
