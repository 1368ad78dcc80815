import Verif.Archive.PackModel
/-
C48: what the pack of an epoch returns, before and after crashes.
-/
namespace Verif
namespace Pack
open Codec (Bytes)

/-! ## Specification: the bytes of a pack with given outputs -/

def batBytes (F : Fmt) (bs : List (Nat × Bat)) : Bytes := bs.flatMap (fun p => frame F (.bat p.2))

/-- The bytes of one output. -/
def outBytes (F : Fmt) (v : Nat) (o : Out) : Bytes :=
  if v = 0 then batBytes F (collect F o) ++ frame F (.hdr o.hdr)
  else frame F (.hdr o.hdr) ++ batBytes F (collect F o)

/-- The start of every pack of the epoch. -/
def base (F : Fmt) (m : Meta) : Bytes := F.fileHeader ++ frame F (.epoch m)

/-- The bytes of the pack. -/
def packBytes (F : Fmt) (v : Nat) (m : Meta) (outs : List Out) : Bytes :=
  base F m ++ outs.flatMap (outBytes F v)

/-- Offset of the header in an output. -/
def hdrOff (F : Fmt) (v : Nat) (o : Out) : Nat := if v = 0 then (batBytes F (collect F o)).length else 0

/-- The position index of outputs that start at `off`. -/
def posFrom (F : Fmt) (v : Nat) : Nat → List Out → List Pos
  | _, [] => []
  | off, o :: os =>
    ⟨off + hdrOff F v o, off, off + (outBytes F v o).length⟩ :: posFrom F v (off + (outBytes F v o).length) os

/-- The pack holds exactly `outs`, consistently numbered. -/
structure Live (F : Fmt) (v : Nat) (m : Meta) (outs : List Out) (f : Files) : Prop where
  data : f.data = packBytes F v m outs
  pos : f.pos = posFrom F v (base F m).length outs
  clen : f.clen = f.data.length
  blen : f.blen = f.data.length
  nums : ∀ i o, outs[i]? = some o → o.hdr.number = m.start + i ∧ o.hdr.epoch = m.epoch
  fits : ∀ o ∈ outs, o.Fits F

/-! ## Saving -/

theorem saveBats_data (F : Fmt) : ∀ (bs : List (Nat × Bat)) (f : Files),
    (saveBats F bs f).data = f.data ++ batBytes F bs ∧ (saveBats F bs f).pos = f.pos ∧
    (saveBats F bs f).cidx = f.cidx := by
  intro bs
  induction bs with
  | nil => intro f; simp [saveBats, batBytes]
  | cons x xs ih =>
    obtain ⟨d, b⟩ := x
    intro f
    simp only [saveBats]
    obtain ⟨h1, h2, h3⟩ := ih { f with
      data := f.data ++ frame F (.bat b),
      bidx := upd f.bidx d f.data.length,
      clen := (f.data ++ frame F (.bat b)).length,
      blen := (f.data ++ frame F (.bat b)).length }
    exact ⟨by rw [h1]; simp [batBytes], h2, h3⟩

theorem outStart_eq (F : Fmt) (v : Nat) (o : Out) (f : Files) : outStart F v o f = f.data.length := by
  unfold outStart firstBat saveBefore
  by_cases hv : v = 0
  · rw [if_pos hv, if_pos hv]
    by_cases hc : collect F o = []
    · rw [if_pos hc, hc]; rfl
    · rw [if_neg hc]
  · rw [if_neg hv, if_neg hv]

theorem append_data (F : Fmt) (v : Nat) (o : Out) (f : Files) :
    (f.append F v o).data = f.data ++ outBytes F v o := by
  unfold Files.append saveBefore saveAfter outBytes
  dsimp only
  by_cases hv : v = 0
  · have hv' : ¬ 0 < v := by omega
    rw [if_pos hv, if_neg hv', if_pos hv]
    dsimp only
    rw [(saveBats_data F _ _).1, List.append_assoc]
  · have hv' : 0 < v := by omega
    rw [if_neg hv, if_pos hv', if_neg hv]
    rw [(saveBats_data F _ _).1]; simp

theorem append_pos (F : Fmt) (v : Nat) (o : Out) (f : Files) :
    (f.append F v o).pos = f.pos ++ [⟨f.data.length + hdrOff F v o, f.data.length,
      f.data.length + (outBytes F v o).length⟩] := by
  have hd := append_data F v o f
  have hlen : (f.append F v o).data.length = f.data.length + (outBytes F v o).length := by
    rw [hd, List.length_append]
  have h2 : (saveAfter F v o { saveBefore F v o f with
      data := (saveBefore F v o f).data ++ frame F (.hdr o.hdr) }).data.length =
      f.data.length + (outBytes F v o).length := hlen
  show (saveAfter F v o { saveBefore F v o f with
      data := (saveBefore F v o f).data ++ frame F (.hdr o.hdr) }).pos ++
    [⟨(saveBefore F v o f).data.length, outStart F v o f, (saveAfter F v o { saveBefore F v o f with
      data := (saveBefore F v o f).data ++ frame F (.hdr o.hdr) }).data.length⟩] = _
  rw [h2, outStart_eq]
  congr 1
  · unfold saveAfter saveBefore
    by_cases hv : v = 0
    · have hv' : ¬ 0 < v := by omega
      rw [if_neg hv', if_pos hv]; exact (saveBats_data F _ _).2.1
    · have hv' : 0 < v := by omega
      rw [if_pos hv', (saveBats_data F _ _).2.1, if_neg hv]
  · congr 2
    unfold saveBefore hdrOff
    by_cases hv : v = 0
    · rw [if_pos hv, if_pos hv, (saveBats_data F _ _).1, List.length_append]
    · rw [if_neg hv, if_neg hv]; rfl

theorem posFrom_append (F : Fmt) (v : Nat) : ∀ (xs : List Out) (off : Nat) (o : Out),
    posFrom F v off (xs ++ [o]) = posFrom F v off xs ++
      [⟨off + (xs.flatMap (outBytes F v)).length + hdrOff F v o,
        off + (xs.flatMap (outBytes F v)).length,
        off + (xs.flatMap (outBytes F v)).length + (outBytes F v o).length⟩] := by
  intro xs
  induction xs with
  | nil => intro off o; simp [posFrom]
  | cons x xs ih =>
    intro off o
    simp only [List.cons_append, posFrom, ih, List.flatMap_cons, List.length_append]
    congr 3
    all_goals first | rfl | (congr 1 <;> omega) | skip

theorem posFrom_length (F : Fmt) (v : Nat) : ∀ (xs : List Out) (off : Nat),
    (posFrom F v off xs).length = xs.length := by
  intro xs
  induction xs with
  | nil => intro off; rfl
  | cons x xs ih => intro off; simp [posFrom, ih]

theorem posFrom_get (F : Fmt) (v : Nat) : ∀ (xs : List Out) (off i : Nat) (o : Out), xs[i]? = some o →
    (posFrom F v off xs)[i]? = some ⟨off + ((xs.take i).flatMap (outBytes F v)).length + hdrOff F v o,
        off + ((xs.take i).flatMap (outBytes F v)).length,
        off + ((xs.take (i + 1)).flatMap (outBytes F v)).length⟩ := by
  intro xs
  induction xs with
  | nil => intro off i o h; simp at h
  | cons x xs ih =>
    intro off i o h
    cases i with
    | zero =>
      simp only [List.getElem?_cons_zero, Option.some.injEq] at h
      subst h
      simp [posFrom]
    | succ i =>
      simp only [List.getElem?_cons_succ] at h
      simp only [posFrom, List.getElem?_cons_succ, ih _ i o h, List.take_succ_cons, List.flatMap_cons,
        List.length_append, Option.some.injEq, Pos.mk.injEq]
      refine ⟨by omega, by omega, by omega⟩

theorem posFrom_take (F : Fmt) (v : Nat) : ∀ (xs : List Out) (off k : Nat),
    (posFrom F v off xs).take k = posFrom F v off (xs.take k) := by
  intro xs
  induction xs with
  | nil => intro off k; simp [posFrom]
  | cons x xs ih =>
    intro off k
    cases k with
    | zero => simp [posFrom]
    | succ k => simp [posFrom, ih]

theorem append_live {F : Fmt} {v : Nat} {m : Meta} {outs : List Out} {f : Files} (h : Live F v m outs f)
    (o : Out) (hn : o.hdr.number = m.start + outs.length) (he : o.hdr.epoch = m.epoch)
    (hf : o.Fits F) : Live F v m (outs ++ [o]) (f.append F v o) := by
  refine ⟨?_, ?_, rfl, rfl, ?_, by
    intro x hx
    rcases List.mem_append.mp hx with hx | hx
    · exact h.fits x hx
    · rw [List.mem_singleton.mp hx]; exact hf⟩
  · rw [append_data, h.data]; simp [packBytes]
  · rw [append_pos, h.pos, posFrom_append, h.data]
    simp only [packBytes, List.length_append]
  · intro i x hx
    rcases Nat.lt_or_ge i outs.length with hi | hi
    · rw [List.getElem?_append_left hi] at hx; exact h.nums i x hx
    · rw [List.getElem?_append_right hi] at hx
      have : i - outs.length = 0 := by
        rcases Nat.eq_zero_or_pos (i - outs.length) with h0 | h0
        · exact h0
        · rw [List.getElem?_eq_none (by simp; omega)] at hx; cases hx
      rw [this] at hx
      simp only [List.getElem?_cons_zero, Option.some.injEq] at hx
      subst hx
      exact ⟨by rw [hn]; omega, he⟩

theorem save_saved {F : Fmt} {v : Nat} {m : Meta} {outs : List Out} {f f' : Files} {o : Out}
    (h : Live F v m outs f) (hs : m.start ≤ o.hdr.number) (hsv : f.save F v m o = .saved f') :
    f' = f.append F v o ∧ o.hdr.number = m.start + outs.length ∧ o.hdr.epoch = m.epoch := by
  have hl : f.pos.length = outs.length := by rw [h.pos, posFrom_length]
  unfold Files.save at hsv
  split at hsv
  · cases hsv
  · next h1 =>
    split at hsv
    · cases hsv
    · next h2 =>
      split at hsv
      · cases hsv
      · next h3 =>
        simp only [SaveRes.saved.injEq] at hsv
        refine ⟨hsv.symm, ?_, ?_⟩
        · have h3' : o.hdr.number - m.start = f.pos.length := Decidable.not_not.mp h3
          omega
        · exact Decidable.not_not.mp h1

/-! ## Healing -/

theorem outBytes_pos (F : Fmt) (v : Nat) (o : Out) : 8 ≤ (outBytes F v o).length := by
  unfold outBytes
  have := frame_length F (.hdr o.hdr)
  split <;> rw [List.length_append] <;> omega

theorem flat_take_le (F : Fmt) (v : Nat) (outs : List Out) (i j : Nat) (h : i ≤ j) :
    ((outs.take i).flatMap (outBytes F v)).length ≤ ((outs.take j).flatMap (outBytes F v)).length := by
  have e : outs.take i = (outs.take j).take i := by rw [List.take_take]; congr 1; omega
  rw [e]
  conv => rhs; rw [← List.take_append_drop i (outs.take j)]
  rw [List.flatMap_append, List.length_append]; omega

theorem flat_take_lt (F : Fmt) (v : Nat) (outs : List Out) (i j : Nat) (h : i < j) (hi : i < outs.length) :
    ((outs.take i).flatMap (outBytes F v)).length < ((outs.take j).flatMap (outBytes F v)).length := by
  have h1 := flat_take_le F v outs (i + 1) j h
  have h2 : outs.take (i + 1) = outs.take i ++ [outs[i]] := by rw [List.take_succ_eq_append_getElem hi]
  rw [h2, List.flatMap_append, List.length_append] at h1
  have h3 := outBytes_pos F v outs[i]
  simp only [List.flatMap_cons, List.flatMap_nil, List.append_nil] at h1
  omega

theorem packBytes_length (F : Fmt) (v : Nat) (m : Meta) (outs : List Out) :
    (packBytes F v m outs).length = (base F m).length + (outs.flatMap (outBytes F v)).length := by
  simp [packBytes]

theorem packBytes_take (F : Fmt) (v : Nat) (m : Meta) (outs : List Out) (k d : Nat)
    (hd : (packBytes F v m (outs.take k)).length ≤ d) :
    ((packBytes F v m outs).take d).take (packBytes F v m (outs.take k)).length =
      packBytes F v m (outs.take k) := by
  rw [List.take_take]
  have e : packBytes F v m outs = packBytes F v m (outs.take k) ++
      (outs.drop k).flatMap (outBytes F v) := by
    unfold packBytes
    rw [List.append_assoc, ← List.flatMap_append, List.take_append_drop]
  have : min (packBytes F v m (outs.take k)).length d = (packBytes F v m (outs.take k)).length := by omega
  rw [this, e, List.take_left]

theorem cut_eq (n : Nat) (b : Bytes) (h : n ≤ b.length) : cut n b = b.take n := by
  unfold cut
  have : n - b.length = 0 := by omega
  rw [this]; simp

theorem healLoop_some (pf : List Pos) (len k start : Nat) (hk : 1 ≤ k)
    (hpf : ∀ i r, pf[i]? = some r → (r.stop ≤ len ↔ i < k)) (r : Pos) (hr : pf[k - 1]? = some r) :
    ∀ (idx q : Nat), k - 1 ≤ idx → idx < q → q ≤ pf.length → idx ≤ start → (idx = start → q = start + 1) →
      healLoop len start idx (pf.take q) = (pf.take k, r.stop) := by
  intro idx
  induction idx with
  | zero =>
    intro q h1 h2 h3 h4 h5
    have hk1 : k = 1 := by omega
    subst hk1
    have hg : (pf.take q)[0]? = some r := by rw [List.getElem?_take_of_lt h2]; exact hr
    have hle : r.stop ≤ len := (hpf 0 r hr).mpr (by omega)
    unfold healLoop
    rw [hg]
    dsimp only
    rw [if_pos hle]
    by_cases hs : (0 : Nat) ≠ start
    · rw [if_pos hs, List.take_take]
      congr 2; omega
    · rw [if_neg hs]
      have : q = 1 := by omega
      rw [this]
  | succ idx ih =>
    intro q h1 h2 h3 h4 h5
    have hlt : idx + 1 < pf.length := by omega
    obtain ⟨r', hr'⟩ : ∃ r', pf[idx + 1]? = some r' := ⟨pf[idx + 1], List.getElem?_eq_getElem hlt⟩
    have hg : (pf.take q)[idx + 1]? = some r' := by rw [List.getElem?_take_of_lt h2]; exact hr'
    have hiff := hpf (idx + 1) r' hr'
    unfold healLoop
    rw [hg]
    dsimp only
    by_cases hle : r'.stop ≤ len
    · rw [if_pos hle]
      have hik : idx + 1 < k := hiff.mp hle
      have hk' : k = idx + 2 := by omega
      have : r' = r := by
        have e : k - 1 = idx + 1 := by omega
        rw [e, hr'] at hr; exact Option.some.inj hr
      subst this
      by_cases hs : idx + 1 ≠ start
      · rw [if_pos hs, List.take_take, hk']
        congr 2; omega
      · rw [if_neg hs]
        have : q = k := by have := h5 (Decidable.not_not.mp hs); omega
        rw [this]
    · rw [if_neg hle]
      have hik : ¬ idx + 1 < k := fun h => hle (hiff.mpr h)
      by_cases hs : idx + 1 ≠ start
      · rw [if_pos hs, List.take_take]
        have : min (idx + 2) q = idx + 2 := by omega
        rw [this]
        exact ih (idx + 2) (by omega) (by omega) (by omega) (by omega) (by omega)
      · rw [if_neg hs]
        exact ih q (by omega) (by omega) h3 (by omega) (by omega)

theorem healLoop_none (pf : List Pos) (len start : Nat)
    (hpf : ∀ (i : Nat) (r : Pos), pf[i]? = some r → ¬ r.stop ≤ len) (hs : start ≠ 0) :
    ∀ (idx q : Nat), idx < q → q ≤ pf.length → idx ≤ start →
      (healLoop len start idx (pf.take q)).1 = [] ∧ len ≤ (healLoop len start idx (pf.take q)).2 := by
  intro idx
  induction idx with
  | zero =>
    intro q h2 h3 h4
    obtain ⟨r, hr⟩ : ∃ r, pf[0]? = some r := ⟨pf[0]'(by omega), List.getElem?_eq_getElem (by omega)⟩
    have hg : (pf.take q)[0]? = some r := by rw [List.getElem?_take_of_lt h2]; exact hr
    unfold healLoop
    rw [hg]
    dsimp only
    have := hpf 0 r hr
    rw [if_neg this, if_pos (fun e => hs e.symm)]
    exact ⟨rfl, by omega⟩
  | succ idx ih =>
    intro q h2 h3 h4
    obtain ⟨r, hr⟩ : ∃ r, pf[idx + 1]? = some r :=
      ⟨pf[idx + 1]'(by omega), List.getElem?_eq_getElem (by omega)⟩
    have hg : (pf.take q)[idx + 1]? = some r := by rw [List.getElem?_take_of_lt h2]; exact hr
    unfold healLoop
    rw [hg]
    dsimp only
    rw [if_neg (hpf _ r hr)]
    by_cases hs' : idx + 1 ≠ start
    · rw [if_pos hs', List.take_take]
      exact ih _ (by omega) (by omega) (by omega)
    · rw [if_neg hs']; exact ih q (by omega) h3 (by omega)

/-- Opening a pack whose data has survived up to at least the `k` outputs of the last completed persist
gives exactly these outputs, whatever survived in addition. -/
theorem heal_live {F : Fmt} (hF : F.Ok) {v : Nat} {m : Meta} {outs : List Out} {f : Files}
    (hl : Live F v m outs f) (k d p clen : Nat) (ci bi : Nat → Option Nat)
    (hk : k ≤ outs.length) (hd : (packBytes F v m (outs.take k)).length ≤ d) (hd2 : d ≤ f.data.length)
    (hp : k ≤ p) (hp2 : p ≤ outs.length)
    (hc : (packBytes F v m (outs.take k)).length ≤ clen) (hsafe : ¬ (k = 0 ∧ p = 1)) :
    Live F v m (outs.take k) (Files.heal
      ⟨f.data.take d, f.pos.take p, ci, clen, bi, (packBytes F v m (outs.take k)).length⟩) := by
  have hbase : 36 ≤ (base F m).length := by
    have := frame_length F (.epoch m)
    have h2 := hF.header
    simp only [base, List.length_append]; omega
  have hend := packBytes_length F v m (outs.take k)
  have hdl : (f.data.take d).length = d := by rw [List.length_take]; omega
  have hcut : cutLen d clen (packBytes F v m (outs.take k)).length =
      (packBytes F v m (outs.take k)).length := by
    unfold cutLen
    split
    · split
      · rfl
      · split
        · omega
        · omega
    · omega
  have hdata : cut (cutLen (f.data.take d).length clen (packBytes F v m (outs.take k)).length)
      (f.data.take d) = packBytes F v m (outs.take k) := by
    rw [hdl, hcut, cut_eq _ _ (by rw [hdl]; exact hd), hl.data]
    exact packBytes_take F v m outs k d hd
  have hnums : ∀ i o, (outs.take k)[i]? = some o → o.hdr.number = m.start + i ∧ o.hdr.epoch = m.epoch := by
    intro i o h
    have hi : i < k := by
      rcases Nat.lt_or_ge i k with h' | h'
      · exact h'
      · rw [List.getElem?_eq_none (by rw [List.length_take]; omega)] at h; cases h
    rw [List.getElem?_take_of_lt hi] at h
    exact hl.nums i o h
  have hstops : ∀ i r, (posFrom F v (base F m).length outs)[i]? = some r →
      (r.stop ≤ (packBytes F v m (outs.take k)).length ↔ i < k) := by
    intro i r hr
    have hi : i < outs.length := by
      rcases Nat.lt_or_ge i outs.length with h' | h'
      · exact h'
      · rw [List.getElem?_eq_none (by rw [posFrom_length]; omega)] at hr; cases hr
    have := posFrom_get F v outs (base F m).length i outs[i] (List.getElem?_eq_getElem hi)
    rw [this] at hr
    have hst : r.stop = (base F m).length + ((outs.take (i + 1)).flatMap (outBytes F v)).length := by
      cases hr; rfl
    rw [hst, hend]
    constructor
    · intro h
      rcases Nat.lt_or_ge i k with h' | h'
      · exact h'
      · have := flat_take_lt F v outs k (i + 1) (by omega) (by omega); omega
    · intro h
      have := flat_take_le F v outs (i + 1) k h; omega
  unfold Files.heal
  dsimp only
  rw [hdata]
  by_cases hpe : f.pos.take p = []
  · rw [if_pos hpe]
    have hk0 : k = 0 := by
      have : (f.pos.take p).length = 0 := by rw [hpe]; rfl
      rw [List.length_take, hl.pos, posFrom_length] at this
      omega
    refine ⟨rfl, ?_, rfl, rfl, hnums, fun x hx => hl.fits x (List.mem_of_mem_take hx)⟩
    show f.pos.take p = _
    rw [hpe, hk0]; rfl
  · rw [if_neg hpe]
    have hpl : (f.pos.take p).length = p := by
      rw [List.length_take, hl.pos, posFrom_length]; omega
    have hp0 : p ≠ 0 := by rintro rfl; exact hpe (by simp)
    rw [hpl]
    by_cases hk0 : k = 0
    · have hn := healLoop_none (posFrom F v (base F m).length outs)
        (packBytes F v m (outs.take k)).length (p - 1)
        (fun i r hr => by rw [hstops i r hr]; omega) (by omega) (p - 1) p (by omega)
        (by rw [posFrom_length]; omega) (Nat.le_refl _)
      rw [hl.pos]
      have hmin : min (healLoop (packBytes F v m (outs.take k)).length (p - 1) (p - 1)
          ((posFrom F v (base F m).length outs).take p)).2 (packBytes F v m (outs.take k)).length =
          (packBytes F v m (outs.take k)).length := by have := hn.2; omega
      rw [hmin, cut_eq _ _ (Nat.le_refl _), List.take_length]
      refine ⟨rfl, ?_, rfl, rfl, hnums, fun x hx => hl.fits x (List.mem_of_mem_take hx)⟩
      show (healLoop _ _ _ _).1 = _
      rw [hn.1, hk0]; rfl
    · have hkl : k - 1 < outs.length := by omega
      have hg := posFrom_get F v outs (base F m).length (k - 1) outs[k - 1] (List.getElem?_eq_getElem hkl)
      have hloop := healLoop_some (posFrom F v (base F m).length outs)
        (packBytes F v m (outs.take k)).length k (p - 1) (by omega) hstops _ hg (p - 1) p (by omega)
        (by omega) (by rw [posFrom_length]; omega) (Nat.le_refl _) (by omega)
      rw [hl.pos, hloop]
      dsimp only
      have hstop : (base F m).length + ((outs.take (k - 1 + 1)).flatMap (outBytes F v)).length =
          (packBytes F v m (outs.take k)).length := by
        have : k - 1 + 1 = k := by omega
        rw [this, hend]
      rw [hstop, Nat.min_self, cut_eq _ _ (Nat.le_refl _), List.take_length]
      refine ⟨rfl, ?_, rfl, rfl, hnums, fun x hx => hl.fits x (List.mem_of_mem_take hx)⟩
      exact posFrom_take F v outs (base F m).length k

end Pack
end Verif
