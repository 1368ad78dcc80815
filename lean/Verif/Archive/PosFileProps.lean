import Mathlib.Tactic.Common
import Verif.Archive.PosFile
import Verif.Archive.IndexFileProps
/-
C124: the theorems.
-/
namespace Verif
namespace PosFile
open Codec (Byte Bytes leBytes leNat leBytes_length leNat_leBytes)
open IdxFile (stamp checkCrc put get typeId DataHdr Err stamp_length checkCrc_stamp near_fails get_put put_length)
open Crc (NearBy)

variable {V : Type} {T : Ty V} {ok : V → Prop} {dh : DataHdr}

theorem hdrBytes_length (h : DataHdr) : (hdrBytes h).length = 26 := by
  unfold hdrBytes
  rw [stamp_length, List.length_append, put_length]
  rfl

/-- C124. A header that was written is read back, whatever follows it. -/
theorem header_read_back (h : DataHdr) (hs : h.Sized) (rest : Bytes) : loadHdr (hdrBytes h ++ rest) = .ok h := by
  have hl := hdrBytes_length h
  have ht : (hdrBytes h ++ rest).take 26 = hdrBytes h := by rw [← hl]; exact List.take_left
  unfold loadHdr
  rw [if_neg (by rw [List.length_append]; omega), ht]
  have hc : checkCrc (hdrBytes h) = true := checkCrc_stamp (by simp [typeId])
  rw [hc, if_neg (by simp)]
  have e : hdrBytes h ++ rest = typeId ++ (put [(2, h.version), (8, h.uid), (4, h.appnum)] ++
      (leBytes 4 (Crc.crc32 (typeId ++ put [(2, h.version), (8, h.uid), (4, h.appnum)])) ++ rest)) := by
    unfold hdrBytes stamp
    simp only [List.append_assoc]
  rw [e]
  have h8 : typeId.length = 8 := rfl
  rw [List.take_append_of_le_length (by rw [h8]; exact Nat.le_refl _), List.take_of_length_le (by rw [h8]; exact Nat.le_refl _),
    if_neg (fun x => x rfl), List.drop_append_of_le_length (by rw [h8]; exact Nat.le_refl _),
    List.drop_eq_nil_of_le (by rw [h8]; exact Nat.le_refl _), List.nil_append]
  have := get_put [(2, h.version), (8, h.uid), (4, h.appnum)]
      (leBytes 4 (Crc.crc32 (typeId ++ put [(2, h.version), (8, h.uid), (4, h.appnum)])) ++ rest) (by
    intro x hx
    simp only [List.mem_cons, List.not_mem_nil, or_false] at hx
    rcases hx with rfl | rfl | rfl
    exacts [hs.version, hs.uid, hs.appnum])
  rw [show ([2, 8, 4] : List Nat) = ([(2, h.version), (8, h.uid), (4, h.appnum)].map (·.1)) from rfl, this]
  rfl

/-- C124. A header changed within 32 consecutive bits is refused. -/
theorem header_damaged (h : DataHdr) (b rest : Bytes) (hn : NearBy (hdrBytes h) b) (hne : b ≠ hdrBytes h) (ro : Bool) :
    open_ T dh ro (b ++ rest) = .error .crc := by
  have hl : b.length = 26 := by rw [← hn.1, hdrBytes_length]
  unfold open_
  rw [if_neg (by
    intro e
    have := congrArg List.length e
    rw [List.length_append, List.length_nil] at this
    omega)]
  unfold loadHdr
  rw [if_neg (by rw [List.length_append]; omega), List.take_append_of_le_length (by omega), List.take_of_length_le (by omega),
    near_fails (by simp [typeId]) hn hne, if_pos rfl]

theorem flat_length (hT : T.Good ok) : ∀ vs : List V, (vs.flatMap T.enc).length = vs.length * T.width
  | [] => by simp
  | v :: vs => by
    rw [List.flatMap_cons, List.length_append, flat_length hT vs, hT.length, List.length_cons, Nat.add_mul]
    omega

theorem flat_drop (hT : T.Good ok) (vs : List V) (i : Nat) (hi : i ≤ vs.length) :
    (vs.flatMap T.enc).drop (i * T.width) = (vs.drop i).flatMap T.enc := by
  conv => lhs; rw [← List.take_append_drop i vs, List.flatMap_append]
  have : ((vs.take i).flatMap T.enc).length = i * T.width := by
    rw [flat_length hT, List.length_take, Nat.min_eq_left hi]
  rw [← this, List.drop_left]

theorem flat_take (hT : T.Good ok) (vs : List V) (i : Nat) (hi : i ≤ vs.length) :
    (vs.flatMap T.enc).take (i * T.width) = (vs.take i).flatMap T.enc := by
  conv => lhs; rw [← List.take_append_drop i vs, List.flatMap_append]
  have : ((vs.take i).flatMap T.enc).length = i * T.width := by
    rw [flat_length hT, List.length_take, Nat.min_eq_left hi]
  rw [← this, List.take_left]

theorem ofList_length (hT : T.Good ok) (vs : List V) : (ofList T dh vs).length = 26 + vs.length * T.width := by
  unfold ofList
  rw [List.length_append, hdrBytes_length, flat_length hT]

theorem len_torn (hT : T.Good ok) (vs : List V) (x : Bytes) (hx : x.length < T.width) :
    len T (ofList T dh vs ++ x) = vs.length := by
  unfold len
  rw [List.length_append, ofList_length hT]
  have e : 26 + vs.length * T.width + x.length - 26 = x.length + T.width * vs.length := by rw [Nat.mul_comm T.width]; omega
  rw [e, Nat.add_mul_div_left _ _ hT.pos, Nat.div_eq_of_lt hx, Nat.zero_add]

/-- C124. The number of values. -/
theorem len_ofList (hT : T.Good ok) (vs : List V) : len T (ofList T dh vs) = vs.length := by
  have := len_torn (dh := dh) hT vs [] hT.pos
  rwa [List.append_nil] at this

/-- C124. Opening a file with a part of a value at its end: the part is cut off and all values are there; opened for reading
only it is refused instead. -/
theorem open_torn (hT : T.Good ok) (hd : dh.Sized) (vs : List V) (x : Bytes) (hx : x.length < T.width) (ro : Bool) :
    open_ T dh ro (ofList T dh vs ++ x) = if x = [] then .ok (ofList T dh vs) else if ro then .error .geometry
      else .ok (ofList T dh vs) := by
  have hl := ofList_length (dh := dh) hT vs
  unfold open_
  rw [if_neg (by
    intro e
    have := congrArg List.length e
    rw [List.length_append, List.length_nil] at this
    omega)]
  have hh : loadHdr (ofList T dh vs ++ x) = .ok dh := by
    unfold ofList
    rw [List.append_assoc]
    exact header_read_back dh hd _
  rw [hh]
  dsimp only
  rw [if_neg (fun k => k rfl), if_neg (fun k => k rfl), if_neg (fun k => k rfl), len_torn hT vs x hx]
  have e : ((ofList T dh vs ++ x).length - 26) % T.width = x.length := by
    rw [List.length_append, hl, show 26 + vs.length * T.width + x.length - 26 = x.length + T.width * vs.length by
      rw [Nat.mul_comm T.width]; omega, Nat.add_mul_mod_self_left, Nat.mod_eq_of_lt hx]
  rw [e]
  by_cases c : x = []
  · rw [c, if_pos (by rfl), if_pos rfl, List.append_nil]
  · rw [if_neg (fun k => c (List.length_eq_zero_iff.mp k)), if_neg c, ← hl, List.take_left]

/-- C124. The index of another data file is refused. -/
theorem other_refused (h : DataHdr) (hs : h.Sized) (rest : Bytes) (ro : Bool) (hv : h.version = dh.version)
    (ha : h.appnum = dh.appnum) (hu : h.uid ≠ dh.uid) : open_ T dh ro (hdrBytes h ++ rest) = .error .uid := by
  unfold open_
  rw [if_neg (by
    intro e
    have := congrArg List.length e
    rw [List.length_append, hdrBytes_length, List.length_nil] at this
    omega), header_read_back h hs]
  dsimp only
  rw [if_neg (fun k => k hv), if_neg (fun k => k ha), if_pos hu]

/-- C124. A crash that leaves the first `n` bytes: all values that are whole in them are there, and no other; an empty file is
made anew; a part of the header is refused. -/
theorem cut (hT : T.Good ok) (hd : dh.Sized) (vs : List V) (n : Nat) :
    open_ T dh false ((ofList T dh vs).take n) =
      if n = 0 then .ok (ofList T dh [])
      else if n < 26 then .error .io
      else .ok (ofList T dh (vs.take ((n - 26) / T.width))) := by
  have hl := ofList_length (dh := dh) hT vs
  by_cases h0 : n = 0
  · rw [h0, if_pos rfl, List.take_zero]
    simp [open_, ofList]
  rw [if_neg h0]
  by_cases h1 : n < 26
  · rw [if_pos h1]
    unfold open_
    rw [if_neg (by
      intro e
      have := congrArg List.length e
      rw [List.length_take, List.length_nil] at this
      omega)]
    unfold loadHdr
    rw [if_pos (by rw [List.length_take]; omega)]
  rw [if_neg h1]
  have hp := hT.pos
  by_cases hbig : vs.length ≤ (n - 26) / T.width
  · have : vs.length * T.width ≤ n - 26 := (Nat.le_div_iff_mul_le hp).mp hbig
    rw [List.take_of_length_le (by omega), List.take_of_length_le hbig]
    have := open_torn (dh := dh) hT hd vs [] hp false
    rwa [List.append_nil, if_pos rfl] at this
  · have hq : (n - 26) / T.width < vs.length := Nat.lt_of_not_le hbig
    have hdm := Nat.div_add_mod (n - 26) T.width
    have hmod := Nat.mod_lt (n - 26) hp
    generalize (n - 26) / T.width = q at hq hdm hbig ⊢
    generalize (n - 26) % T.width = r at hdm hmod
    have e : (ofList T dh vs).take n = ofList T dh (vs.take q) ++ ((vs.drop q).flatMap T.enc).take r := by
      have hn : n = 26 + q * T.width + r := by rw [Nat.mul_comm q]; omega
      have e0 : ofList T dh vs = ofList T dh (vs.take q) ++ (vs.drop q).flatMap T.enc := by
        unfold ofList
        rw [List.append_assoc, ← List.flatMap_append, List.take_append_drop]
      have e1 : (ofList T dh (vs.take q)).length = 26 + q * T.width := by
        rw [ofList_length hT, List.length_take, Nat.min_eq_left (Nat.le_of_lt hq)]
      rw [e0, List.take_append, e1, hn, List.take_of_length_le (by omega), Nat.add_sub_cancel_left]
    rw [e, open_torn hT hd _ _ (by rw [List.length_take]; omega)]
    simp

/-- C124. A save appends at the next number, and is refused at every other. -/
theorem saved (hT : T.Good ok) (vs : List V) (key : Nat) (v : V) :
    save T key v (ofList T dh vs) = if key = vs.length then some (ofList T dh (vs ++ [v])) else none := by
  unfold save
  rw [len_ofList hT]
  by_cases c : key = vs.length
  · rw [if_pos c, if_neg (fun k => k c.symm)]
    simp [ofList, List.flatMap_append]
  · rw [if_neg c, if_pos (fun k => c k.symm)]

/-- C124. A load gives the value of its number. -/
theorem loaded (hT : T.Good ok) (vs : List V) (hv : ∀ v ∈ vs, ok v) (key : Nat) :
    load T key (ofList T dh vs) = match vs[key]? with
      | some v => .value v
      | none => .notFound := by
  unfold load
  rw [len_ofList hT]
  by_cases c : vs.length ≤ key
  · rw [if_pos c, List.getElem?_eq_none c]
  · rw [if_neg c]
    have hk : key < vs.length := Nat.lt_of_not_le c
    have e : ((ofList T dh vs).drop (26 + key * T.width)).take T.width = T.enc vs[key] := by
      unfold ofList
      have h26 := hdrBytes_length dh
      rw [← List.drop_drop, ← h26, List.drop_left, flat_drop hT vs key (Nat.le_of_lt hk), List.drop_eq_getElem_cons hk,
        List.flatMap_cons, ← hT.length vs[key], List.take_left]
    rw [e, hT.back _ (hv _ (List.getElem_mem hk)), List.getElem?_eq_getElem hk]

/-- C124. Cutting keeps the values up to the number, and never adds any. -/
theorem truncated (hT : T.Good ok) (vs : List V) (key : Nat) :
    truncateTo T key (ofList T dh vs) = ofList T dh (vs.take (key + 1)) ∧ truncateAll (ofList T dh vs) = ofList T dh [] := by
  have h26 := hdrBytes_length dh
  constructor
  · unfold truncateTo
    rw [len_ofList hT]
    by_cases c : vs.length ≤ key
    · rw [if_pos c, List.take_of_length_le (by omega)]
    · rw [if_neg c]
      have e : 26 + key * T.width + T.width = (hdrBytes dh).length + (key + 1) * T.width := by
        rw [h26, Nat.add_mul]; omega
      unfold ofList
      rw [e, List.take_length_add_append, flat_take hT vs (key + 1) (by omega)]
  · unfold truncateAll ofList
    rw [← h26, List.take_left]
    simp

theorem drain_fwd (hT : T.Good ok) (vs : List V) (hv : ∀ v ∈ vs, ok v) : ∀ (f i : Nat), i < vs.length → vs.length - i ≤ f →
    Iter.drain T f ⟨vs.flatMap T.enc, i * T.width, false, false⟩ = (vs.drop i).map some
  | 0, i, hi, hf => by omega
  | f + 1, i, hi, hf => by
    unfold Iter.drain Iter.next
    rw [if_neg (by simp)]
    dsimp only
    have hp := hT.pos
    have e : ((vs.flatMap T.enc).drop (i * T.width)).take T.width = T.enc vs[i] := by
      rw [flat_drop hT vs i (Nat.le_of_lt hi), List.drop_eq_getElem_cons hi, List.flatMap_cons, ← hT.length vs[i], List.take_left]
    rw [e, hT.back _ (hv _ (List.getElem_mem hi)), if_neg (by simp), List.drop_eq_getElem_cons hi, List.map_cons,
      show i * T.width + T.width = (i + 1) * T.width by rw [Nat.add_mul]; omega, flat_length hT]
    congr 1
    by_cases c : i + 1 < vs.length
    · rw [decide_eq_false (by
        intro k
        exact absurd (Nat.le_of_mul_le_mul_right k hp) (by omega))]
      exact drain_fwd hT vs hv f (i + 1) c (by omega)
    · rw [decide_eq_true (Nat.mul_le_mul_right _ (by omega)), List.drop_eq_nil_of_le (by omega)]
      cases f with
      | zero => rfl
      | succ f => simp [Iter.drain, Iter.next]

theorem drain_rev (hT : T.Good ok) (vs : List V) (hv : ∀ v ∈ vs, ok v) : ∀ (f i : Nat), i < vs.length → i < f →
    Iter.drain T f ⟨vs.flatMap T.enc, i * T.width, false, true⟩ = (vs.take (i + 1)).reverse.map some
  | 0, i, hi, hf => by omega
  | f + 1, i, hi, hf => by
    unfold Iter.drain Iter.next
    rw [if_neg (by simp)]
    dsimp only
    have hp := hT.pos
    have e : ((vs.flatMap T.enc).drop (i * T.width)).take T.width = T.enc vs[i] := by
      rw [flat_drop hT vs i (Nat.le_of_lt hi), List.drop_eq_getElem_cons hi, List.flatMap_cons, ← hT.length vs[i], List.take_left]
    rw [e, hT.back _ (hv _ (List.getElem_mem hi)), if_pos rfl, List.take_succ_eq_append_getElem hi, List.reverse_append,
      List.reverse_singleton, List.singleton_append, List.map_cons]
    congr 1
    cases i with
    | zero =>
      rw [Nat.zero_mul, decide_eq_true rfl]
      cases f with
      | zero => rfl
      | succ f => simp [Iter.drain, Iter.next]
    | succ j =>
      rw [decide_eq_false (by
        have : 0 < (j + 1) * T.width := Nat.mul_pos (by omega) hp
        omega), show (j + 1) * T.width - T.width = j * T.width by rw [Nat.add_mul]; omega]
      exact drain_rev hT vs hv f j (by omega) (by omega)

/-- C124. Iterating gives the first values, in order; reversed, the last ones, newest first; and then ends. -/
theorem iterated (hT : T.Good ok) (vs : List V) (hv : ∀ v ∈ vs, ok v) (n f : Nat) (hf : vs.length ≤ f) :
    (iter T n (ofList T dh vs)).drain T f = (vs.take n).map some ∧
    (revIter T n (ofList T dh vs)).drain T f = (vs.reverse.take n).map some := by
  have h26 := hdrBytes_length dh
  have hm : min n vs.length ≤ vs.length := Nat.min_le_right _ _
  have hp := hT.pos
  constructor
  · unfold iter
    rw [len_ofList hT]
    have e : ((ofList T dh vs).drop 26).take (min n vs.length * T.width) = (vs.take (min n vs.length)).flatMap T.enc := by
      unfold ofList
      rw [← h26, List.drop_left, flat_take hT vs _ hm]
    dsimp only
    rw [e, ← List.take_eq_take_min]
    by_cases c : vs.take n = []
    · rw [c]
      cases f <;> simp [Iter.drain, Iter.next]
    · have hne : (vs.take n).flatMap T.enc ≠ [] := by
        intro k
        have := flat_length hT (vs.take n)
        rw [k, List.length_nil] at this
        have h1 : 0 < (vs.take n).length := List.length_pos_iff.mpr c
        have := Nat.mul_pos h1 hp
        omega
      rw [show ((vs.take n).flatMap T.enc).isEmpty = false by simpa using hne]
      have := drain_fwd hT (vs.take n) (fun v h => hv v (List.mem_of_mem_take h)) f 0 (List.length_pos_iff.mpr c)
        (by rw [List.length_take]; omega)
      rw [Nat.zero_mul, List.drop_zero] at this
      exact this
  · unfold revIter
    rw [len_ofList hT, ofList_length hT]
    have hmul : min n vs.length * T.width ≤ vs.length * T.width := Nat.mul_le_mul_right _ hm
    have e : (ofList T dh vs).drop (26 + vs.length * T.width - min n vs.length * T.width) =
        (vs.drop (vs.length - min n vs.length)).flatMap T.enc := by
      have : 26 + vs.length * T.width - min n vs.length * T.width = 26 + (vs.length - min n vs.length) * T.width := by
        rw [Nat.sub_mul]; omega
      unfold ofList
      rw [this, ← List.drop_drop, ← h26, List.drop_left, flat_drop hT vs _ (Nat.sub_le _ _)]
    dsimp only
    rw [e]
    have hr : vs.reverse.take n = (vs.drop (vs.length - min n vs.length)).reverse := by
      rw [List.take_reverse]
      congr 2
      omega
    rw [hr]
    generalize hw : vs.drop (vs.length - min n vs.length) = ws
    have hws : ∀ v ∈ ws, ok v := by intro v h; rw [← hw] at h; exact hv v (List.mem_of_mem_drop h)
    have hwl : ws.length ≤ vs.length := by rw [← hw, List.length_drop]; omega
    by_cases c : ws = []
    · rw [c]
      cases f <;> simp [Iter.drain, Iter.next]
    · have h1 : 0 < ws.length := List.length_pos_iff.mpr c
      have hne : ws.flatMap T.enc ≠ [] := by
        intro k
        have := flat_length hT ws
        rw [k, List.length_nil] at this
        have := Nat.mul_pos h1 hp
        omega
      rw [show (ws.flatMap T.enc).isEmpty = false by simpa using hne, flat_length hT]
      have e2 : ws.length * T.width - T.width = (ws.length - 1) * T.width := by rw [Nat.sub_mul]; omega
      rw [e2, drain_rev hT ws hws f (ws.length - 1) (by omega) (by omega), List.take_of_length_le (by omega)]

/-- The three types of values. -/
theorem u64_good : u64.Good (fun n => n < 256 ^ 8) :=
  ⟨by decide, fun v => leBytes_length 8 v, fun v hv => by
    show some (leNat (leBytes 8 v)) = _
    rw [leNat_leBytes 8 v hv]⟩

theorem pair_good : pair.Good (fun v => v.1 < 256 ^ 8 ∧ v.2 < 256 ^ 8) := by
  refine ⟨by decide, fun v => ?_, fun v hv => ?_⟩
  · show (leBytes 8 v.1 ++ leBytes 8 v.2).length = 16
    rw [List.length_append, leBytes_length, leBytes_length]
  · show some (leNat ((leBytes 8 v.1 ++ leBytes 8 v.2).take 8), leNat ((leBytes 8 v.1 ++ leBytes 8 v.2).drop 8)) = _
    rw [List.take_append_of_le_length (by rw [leBytes_length]; exact Nat.le_refl _),
      List.take_of_length_le (by rw [leBytes_length]; exact Nat.le_refl _),
      List.drop_append_of_le_length (by rw [leBytes_length]; exact Nat.le_refl _),
      List.drop_eq_nil_of_le (by rw [leBytes_length]; exact Nat.le_refl _), List.nil_append, leNat_leBytes 8 _ hv.1,
      leNat_leBytes 8 _ hv.2]

theorem positions_good : positions.Good (fun v => v.1 < 256 ^ 8 ∧ v.2.1 < 256 ^ 8 ∧ v.2.2 < 256 ^ 8) := by
  refine ⟨by decide, fun v => ?_, fun v hv => ?_⟩
  · show (stamp _).length = 28
    rw [stamp_length, put_length]
    rfl
  · show (if checkCrc (stamp (put [(8, v.1), (8, v.2.1), (8, v.2.2)])) = false then none
      else match get [8, 8, 8] (stamp (put [(8, v.1), (8, v.2.1), (8, v.2.2)])) with
        | [x, y, z] => some (x, y, z)
        | _ => none) = _
    rw [checkCrc_stamp (by
      intro k
      have := congrArg List.length k
      rw [put_length] at this
      cases this), if_neg (by simp)]
    have := get_put [(8, v.1), (8, v.2.1), (8, v.2.2)] (leBytes 4 (Crc.crc32 (put [(8, v.1), (8, v.2.1), (8, v.2.2)]))) (by
      intro x hx
      simp only [List.mem_cons, List.not_mem_nil, or_false] at hx
      rcases hx with rfl | rfl | rfl
      exacts [hv.1, hv.2.1, hv.2.2])
    rw [show stamp (put [(8, v.1), (8, v.2.1), (8, v.2.2)]) = put [(8, v.1), (8, v.2.1), (8, v.2.2)] ++
      leBytes 4 (Crc.crc32 (put [(8, v.1), (8, v.2.1), (8, v.2.2)])) from rfl,
      show ([8, 8, 8] : List Nat) = ([(8, v.1), (8, v.2.1), (8, v.2.2)].map (·.1)) from rfl, this]
    rfl

/-- C124. An entry of a pack's index that is changed within 32 consecutive bits is not read as another. -/
theorem entry_damaged (v : Nat × Nat × Nat) (b : Bytes) (hn : NearBy (positions.enc v) b) (hne : b ≠ positions.enc v) :
    positions.dec b = none := by
  show (if checkCrc b = false then none else _) = none
  rw [near_fails (d := put [(8, v.1), (8, v.2.1), (8, v.2.2)]) (by
    intro k
    have := congrArg List.length k
    rw [put_length] at this
    cases this) hn hne, if_pos rfl]

/-- What is done with an index; `crash n`: only the first `n` bytes are left, and it is opened again. -/
inductive Op (V : Type) where
  | save (key : Nat) (v : V)
  | cutAt (key : Nat)
  | cutAll
  | crash (n : Nat)

/-- The file after some operations; a refused save leaves it, a refused opening ends it (`none`). -/
def run (T : Ty V) (dh : DataHdr) : List (Op V) → Bytes → Option Bytes
  | [], f => some f
  | .save k v :: r, f => run T dh r ((save T k v f).getD f)
  | .cutAt k :: r, f => run T dh r (truncateTo T k f)
  | .cutAll :: r, f => run T dh r (truncateAll f)
  | .crash n :: r, f =>
    match open_ T dh false (f.take n) with
    | .ok f' => run T dh r f'
    | .error _ => none

/-- The same on the list of values; `w`: the width of a value. -/
def runList (w : Nat) : List (Op V) → List V → Option (List V)
  | [], vs => some vs
  | .save k v :: r, vs => runList w r (if k = vs.length then vs ++ [v] else vs)
  | .cutAt k :: r, vs => runList w r (vs.take (k + 1))
  | .cutAll :: r, _ => runList w r []
  | .crash n :: r, vs => if n = 0 then runList w r [] else if n < 26 then none else runList w r (vs.take ((n - 26) / w))

/-- C124. All histories: the file always stands for the list. -/
theorem histories (hT : T.Good ok) (hd : dh.Sized) : ∀ (ops : List (Op V)) (vs : List V),
    run T dh ops (ofList T dh vs) = (runList T.width ops vs).map (ofList T dh)
  | [], _ => rfl
  | .save k v :: r, vs => by
    unfold run runList
    rw [saved hT]
    by_cases c : k = vs.length
    · rw [if_pos c, if_pos c]; exact histories hT hd r _
    · rw [if_neg c, if_neg c]; exact histories hT hd r _
  | .cutAt k :: r, vs => by
    unfold run runList
    rw [(truncated hT vs k).1]
    exact histories hT hd r _
  | .cutAll :: r, vs => by
    unfold run runList
    rw [(truncated hT vs 0).2]
    exact histories hT hd r _
  | .crash n :: r, vs => by
    unfold run runList
    rw [cut hT hd]
    by_cases c : n = 0
    · rw [if_pos c, if_pos c]; exact histories hT hd r _
    · rw [if_neg c, if_neg c]
      by_cases c2 : n < 26
      · rw [if_pos c2, if_pos c2]; rfl
      · rw [if_neg c2, if_neg c2]; exact histories hT hd r _

namespace Ex

def hdr : DataHdr := ⟨2, 77, 1⟩

theorem hdr_sized : hdr.Sized := ⟨by decide, by decide, by decide⟩

/-- Finding: the header does not say what the values are: two positions are read as one pair, or, with plain numbers, a
damaged entry as another one. -/
theorem wrong_type : open_ pair hdr false (ofList u64 hdr [5, 6]) = .ok (ofList pair hdr [(5, 6)]) ∧
    open_ u64 hdr false ((ofList u64 hdr [5, 6]).set 26 7) = .ok (ofList u64 hdr [7, 6]) := by decide +kernel

example : open_ u64 hdr false ((ofList u64 hdr [5, 6, 7]).take 49) = .ok (ofList u64 hdr [5, 6]) := by
  rw [cut u64_good hdr_sized]
  rfl

example : (revIter u64 2 (ofList u64 hdr [5, 6, 7])).drain u64 9 = [some 7, some 6] :=
  (iterated u64_good [5, 6, 7] (by decide) 2 9 (by decide)).2

/-- A crash in the middle of the third value, and on from there. -/
example : run u64 hdr [.save 0 5, .save 1 6, .save 2 7, .save 5 9, .crash 49, .save 2 8, .cutAt 1, .save 2 10] (ofList u64 hdr []) =
    some (ofList u64 hdr [5, 6, 10]) := histories u64_good hdr_sized _ _

end Ex

end PosFile
end Verif
