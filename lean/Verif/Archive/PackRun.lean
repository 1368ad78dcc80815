import Verif.Archive.PackProps
/-
C48: the theorems about runs of the pack, and the window in which its repair fails.
-/
namespace Verif
namespace Pack
open Codec (Bytes)

/-! ## Runs -/

structure Inv (F : Fmt) (v : Nat) (m : Meta) (s : St) (a : Abs) : Prop where
  live : Live F v m a.outs s.f
  kept : a.kept ≤ a.outs.length
  dB : s.dB = (packBytes F v m (a.outs.take a.kept)).length
  dC : s.dB ≤ s.dC
  dData : s.dB ≤ s.dData
  dData2 : s.dData ≤ s.f.data.length
  dPos : a.kept ≤ s.dPos
  dPos2 : s.dPos ≤ a.outs.length

theorem new_inv (F : Fmt) (v : Nat) (m : Meta) : Inv F v m (St.new F m) {} := by
  refine ⟨⟨?_, rfl, rfl, rfl, ?_, by simp⟩, Nat.le_refl _, ?_, Nat.le_refl _, Nat.le_refl _, Nat.le_refl _,
    Nat.le_refl _, Nat.le_refl _⟩
  · simp [St.new, packBytes, base]
  · intro i o h; simp at h
  · simp [St.new, packBytes, base]

theorem Run.inv {F : Fmt} (hF : F.Ok) {v : Nat} {m : Meta} {s : St} {a : Abs} (h : Run F v m s a) :
    Inv F v m s a := by
  induction h with
  | new => exact new_inv F v m
  | @save s a o f _ hs hfit hsv ih =>
    obtain ⟨rfl, hn, he⟩ := save_saved ih.live hs hsv
    have hk := ih.kept
    refine ⟨append_live ih.live o hn he hfit, ?_, ?_, ih.dC, ih.dData, ?_, ih.dPos, ?_⟩
    · show a.kept ≤ (a.outs ++ [o]).length
      rw [List.length_append]; omega
    · show s.dB = (packBytes F v m ((a.outs ++ [o]).take a.kept)).length
      rw [List.take_append_of_le_length hk]; exact ih.dB
    · show s.dData ≤ (s.f.append F v o).data.length
      rw [append_data, List.length_append]; have := ih.dData2; omega
    · show s.dPos ≤ (a.outs ++ [o]).length
      rw [List.length_append]; have := ih.dPos2; omega
  | @persist s a _ ih =>
    have hpl : s.f.pos.length = a.outs.length := by rw [ih.live.pos, posFrom_length]
    refine ⟨ih.live, Nat.le_refl _, ?_, ?_, ?_, ?_, ?_, ?_⟩
    · show s.f.blen = (packBytes F v m (a.outs.take a.outs.length)).length
      rw [List.take_length, ih.live.blen, ih.live.data]
    · show s.f.blen ≤ s.f.clen
      rw [ih.live.blen, ih.live.clen]; exact Nat.le_refl _
    · show s.f.blen ≤ s.f.data.length
      rw [ih.live.blen]; exact Nat.le_refl _
    · exact Nat.le_refl _
    · show a.outs.length ≤ s.f.pos.length
      omega
    · show s.f.pos.length ≤ a.outs.length
      omega
  | @crash s a j d p ci bi _ hd hd2 hp hp2 hsafe ih =>
    have hpl : s.f.pos.length = a.outs.length := by rw [ih.live.pos, posFrom_length]
    have hlen : s.f.data.length = (packBytes F v m a.outs).length := by rw [ih.live.data]
    -- the outputs that are durable after `j` steps
    generalize hkdef : (if 4 ≤ j then a.outs.length else a.kept) = k
    have hk : k ≤ a.outs.length := by rw [← hkdef]; have := ih.kept; split <;> omega
    have houts : (a.crash (decide (4 ≤ j))).outs = a.outs.take k ∧ (a.crash (decide (4 ≤ j))).kept = k := by
      unfold Abs.crash
      by_cases hj : 4 ≤ j
      · rw [if_pos (decide_eq_true hj)]
        rw [if_pos hj] at hkdef
        exact ⟨by rw [← hkdef, List.take_length], hkdef⟩
      · rw [if_neg (by simpa using hj)]
        rw [if_neg hj] at hkdef
        exact ⟨by rw [← hkdef], hkdef⟩
    have hmono := flat_take_le F v a.outs k a.outs.length hk
    rw [List.take_length] at hmono
    have hpk : (packBytes F v m (a.outs.take k)).length ≤ s.f.data.length := by
      rw [hlen, packBytes_length, packBytes_length]; omega
    have hB : (s.persistTo j).dB = (packBytes F v m (a.outs.take k)).length := by
      show (if 4 ≤ j then s.f.blen else s.dB) = _
      by_cases hj : 4 ≤ j
      · rw [if_pos hj] at hkdef ⊢; rw [← hkdef, List.take_length, ih.live.blen, hlen]
      · rw [if_neg hj] at hkdef ⊢; rw [← hkdef]; exact ih.dB
    have hC : (packBytes F v m (a.outs.take k)).length ≤ (s.persistTo j).dC := by
      show _ ≤ (if 3 ≤ j then s.f.clen else s.dC)
      by_cases hj : 3 ≤ j
      · rw [if_pos hj, ih.live.clen]; exact hpk
      · rw [if_neg hj]
        rw [if_neg (by omega)] at hkdef
        rw [← hkdef, ← ih.dB]; exact ih.dC
    have hD : (packBytes F v m (a.outs.take k)).length ≤ d := by
      refine Nat.le_trans ?_ hd
      show _ ≤ (if 1 ≤ j then s.f.data.length else s.dData)
      by_cases hj : 1 ≤ j
      · rw [if_pos hj]; exact hpk
      · rw [if_neg hj]
        rw [if_neg (by omega)] at hkdef
        rw [← hkdef, ← ih.dB]; exact ih.dData
    have hP : k ≤ p := by
      refine Nat.le_trans ?_ hp
      show _ ≤ (if 2 ≤ j then s.f.pos.length else s.dPos)
      by_cases hj : 2 ≤ j
      · rw [if_pos hj]; omega
      · rw [if_neg hj]
        rw [if_neg (by omega)] at hkdef
        rw [← hkdef]; exact ih.dPos
    have hs' : ¬ (k = 0 ∧ p = 1) := by
      rintro ⟨h0, h1⟩
      exact hsafe ⟨by rw [houts.1, h0]; rfl, h1⟩
    have hl := heal_live hF ih.live k d p (s.persistTo j).dC ci bi hk hD hd2 hP (by omega) hC hs'
    rw [← hB] at hl
    have hl2 : Live F v m (a.outs.take k) ((s.persistTo j).reopen d p ci bi).f := hl
    have htk : (a.outs.take k).length = k := by rw [List.length_take]; omega
    refine ⟨?_, ?_, ?_, ?_, ?_, ?_, ?_, ?_⟩
    · rw [houts.1]; exact hl
    · rw [houts.1, houts.2, htk]; exact Nat.le_refl _
    · show (s.persistTo j).dB = _
      rw [houts.1, houts.2, List.take_take, Nat.min_self]; exact hB
    · show (s.persistTo j).dB ≤ (s.persistTo j).dC
      rw [hB]; exact hC
    · show (s.persistTo j).dB ≤ ((s.persistTo j).reopen d p ci bi).f.data.length
      rw [hl2.data, hB]; exact Nat.le_refl _
    · exact Nat.le_refl _
    · rw [houts.2]
      show k ≤ ((s.persistTo j).reopen d p ci bi).f.pos.length
      rw [hl2.pos, posFrom_length, htk]; exact Nat.le_refl _
    · rw [houts.1, htk]
      show ((s.persistTo j).reopen d p ci bi).f.pos.length ≤ k
      rw [hl2.pos, posFrom_length, htk]; exact Nat.le_refl _

/-! ## Reading a pack that holds `outs` -/

theorem live_split {F : Fmt} {v : Nat} {m : Meta} {outs : List Out} {f : Files} (h : Live F v m outs f)
    {i : Nat} {o : Out} (ho : outs[i]? = some o) :
    ∃ pre post, f.data = pre ++ outBytes F v o ++ post ∧
      f.pos[i]? = some ⟨pre.length + hdrOff F v o, pre.length, pre.length + (outBytes F v o).length⟩ := by
  have hi : i < outs.length := by
    rcases Nat.lt_or_ge i outs.length with h' | h'
    · exact h'
    · rw [List.getElem?_eq_none h'] at ho; cases ho
  have hoi : outs[i] = o := by rw [List.getElem?_eq_getElem hi] at ho; exact Option.some.inj ho
  refine ⟨packBytes F v m (outs.take i), (outs.drop (i + 1)).flatMap (outBytes F v), ?_, ?_⟩
  · rw [h.data]
    unfold packBytes
    rw [List.append_assoc, List.append_assoc]
    congr 1
    conv => lhs; rw [← List.take_append_drop i outs, List.drop_eq_getElem_cons hi, hoi]
    rw [List.flatMap_append, List.flatMap_cons]
  · rw [h.pos, posFrom_get F v outs _ i o ho, packBytes_length]
    have : outs.take (i + 1) = outs.take i ++ [o] := by rw [List.take_succ_eq_append_getElem hi, hoi]
    rw [this, List.flatMap_append, List.length_append]
    simp only [List.flatMap_cons, List.flatMap_nil, List.append_nil, Option.some.injEq, Pos.mk.injEq]
    refine ⟨trivial, trivial, by omega⟩

theorem fetch_hdr {F : Fmt} (hF : F.Ok) {v : Nat} (pre post : Bytes) (o : Out)
    (ho : o.Fits F) : fetch F (pre ++ outBytes F v o ++ post) (pre.length + hdrOff F v o) = some (.hdr o.hdr) := by
  unfold outBytes hdrOff
  by_cases hv : v = 0
  · rw [if_pos hv, if_pos hv]
    have := fetch_frame hF (pre ++ batBytes F (collect F o)) post (.hdr o.hdr) ho.1
    rw [List.length_append] at this
    rw [← List.append_assoc]; exact this
  · rw [if_neg hv, if_neg hv]
    have := fetch_frame hF pre (batBytes F (collect F o) ++ post) (.hdr o.hdr) ho.1
    rw [Nat.add_zero, ← List.append_assoc, List.append_assoc, List.append_assoc]
    rw [List.append_assoc] at this
    exact this

/-- A header is returned for a number exactly when it is the header of the output with that number. -/
theorem live_by_number {F : Fmt} (hF : F.Ok) {v : Nat} {m : Meta} {outs : List Out} {f : Files}
    (h : Live F v m outs f) (n : Nat) :
    f.headerByNumber F m n =
      if n < m.start then none else (outs[n - m.start]?).map (·.hdr) := by
  have hl : f.pos.length = outs.length := by rw [h.pos, posFrom_length]
  unfold Files.headerByNumber
  by_cases h1 : n < m.start
  · rw [if_pos h1, if_pos h1]
  · rw [if_neg h1, if_neg h1]
    by_cases h2 : m.start + f.pos.length ≤ n
    · rw [if_pos h2, List.getElem?_eq_none (by omega)]; rfl
    · rw [if_neg h2]
      have hi : n - m.start < outs.length := by omega
      obtain ⟨pre, post, hd, hp⟩ := live_split h (List.getElem?_eq_getElem hi)
      rw [hp, hd]
      dsimp only
      rw [fetch_hdr hF _ _ _ (h.fits _ (List.getElem_mem hi)), List.getElem?_eq_getElem hi]; rfl

/-- What a number returns is the output with that number. -/
theorem live_number_right {F : Fmt} (hF : F.Ok) {v : Nat} {m : Meta} {outs : List Out} {f : Files}
    (h : Live F v m outs f) {n : Nat} {hd : Hdr} (hh : f.headerByNumber F m n = some hd) :
    hd.number = n ∧ hd.epoch = m.epoch := by
  rw [live_by_number hF h] at hh
  by_cases h1 : n < m.start
  · rw [if_pos h1] at hh; cases hh
  · rw [if_neg h1] at hh
    cases ho : outs[n - m.start]? with
    | none => rw [ho] at hh; cases hh
    | some o =>
      rw [ho] at hh
      simp only [Option.map_some, Option.some.injEq] at hh
      have := h.nums _ o ho
      rw [← hh]
      exact ⟨by omega, this.2⟩

theorem live_latest {F : Fmt} (hF : F.Ok) {v : Nat} {m : Meta} {outs : List Out} {f : Files}
    (h : Live F v m outs f) : f.latest F m = some (outs.getLast?.map (·.hdr)) := by
  have hl : f.pos.length = outs.length := by rw [h.pos, posFrom_length]
  unfold Files.latest
  by_cases h0 : f.pos.length = 0
  · rw [if_pos h0]
    have : outs = [] := List.length_eq_zero_iff.mp (by omega)
    rw [this]; rfl
  · rw [if_neg h0, live_by_number hF h, if_neg (by omega)]
    have : m.start + f.pos.length - 1 - m.start = outs.length - 1 := by omega
    rw [this, ← List.getLast?_eq_getElem?]
    cases hg : outs.getLast? with
    | none => rw [List.getLast?_eq_none_iff] at hg; rw [hg] at hl; exact absurd hl h0
    | some o => rfl

theorem live_bytes {F : Fmt} {v : Nat} {m : Meta} {outs : List Out} {f : Files}
    (h : Live F v m outs f) (n : Nat) :
    f.bytesFor m n = if n < m.start then none else (outs[n - m.start]?).map (outBytes F v) := by
  have hl : f.pos.length = outs.length := by rw [h.pos, posFrom_length]
  unfold Files.bytesFor
  by_cases h1 : n < m.start
  · rw [if_pos h1, if_pos h1]
  · rw [if_neg h1, if_neg h1]
    by_cases h2 : m.start + f.pos.length ≤ n
    · rw [if_pos h2, List.getElem?_eq_none (by omega)]; rfl
    · rw [if_neg h2]
      have hi : n - m.start < outs.length := by omega
      obtain ⟨pre, post, hd, hp⟩ := live_split h (List.getElem?_eq_getElem hi)
      rw [hp]
      dsimp only
      have hlen : f.data.length = pre.length + (outBytes F v outs[n - m.start]).length + post.length := by
        rw [hd]; simp only [List.length_append]
      rw [if_neg (by omega), hd, List.getElem?_eq_getElem hi]
      rw [readAt_mid _ _ _ _ (by omega)]; rfl

/-- The leaders that should be counted: of the outputs up to the last executed round. -/
def leadersUpTo (outs : List Out) (last : Nat) : List Nat :=
  (outs.filter (fun o => decide (o.hdr.round ≠ 0 ∧ o.hdr.round ≤ last))).map (·.hdr.leader)

theorem countLeaders_go {F : Fmt} {data : Bytes} {last : Nat} : ∀ (ps : List Pos) (os : List Out),
    ps.length = os.length →
    (∀ (i : Nat) (p : Pos) (o : Out), ps[i]? = some p → os[i]? = some o → fetch F data p.hdr = some (.hdr o.hdr)) →
    countLeaders F data last ps = some (leadersUpTo os last) := by
  intro ps
  induction ps with
  | nil =>
    intro os hlen _
    obtain rfl : os = [] := List.length_eq_zero_iff.mp (by simpa using hlen.symm)
    rfl
  | cons p ps ih =>
    intro os hlen h
    cases os with
    | nil => simp at hlen
    | cons o os =>
      have h0 := h 0 p o rfl rfl
      have hrec := ih os (by simpa using hlen) (fun i p' o' h1 h2 => h (i + 1) p' o' h1 h2)
      simp only [countLeaders, h0, hrec, leadersUpTo]
      by_cases c1 : o.hdr.round = 0
      · rw [if_pos c1, List.filter_cons_of_neg (by simp [c1])]
      · rw [if_neg c1]
        by_cases c2 : last < o.hdr.round
        · rw [if_pos c2, List.filter_cons_of_neg (by simp; omega)]
        · rw [if_neg c2, List.filter_cons_of_pos (by simp; omega)]; rfl

theorem live_count {F : Fmt} (hF : F.Ok) {v : Nat} {m : Meta} {outs : List Out} {f : Files}
    (h : Live F v m outs f) (last : Nat) :
    f.countLeaders F last = some (leadersUpTo outs.reverse last) := by
  have hl : f.pos.length = outs.length := by rw [h.pos, posFrom_length]
  unfold Files.countLeaders
  apply countLeaders_go
  · simp [hl]
  · intro i p o h1 h2
    have hi : i < outs.length := by
      rcases Nat.lt_or_ge i outs.length with h' | h'
      · exact h'
      · rw [List.getElem?_eq_none (by simpa using h')] at h2; cases h2
    rw [List.getElem?_reverse (by omega)] at h1
    rw [List.getElem?_reverse hi] at h2
    have e : f.pos.length - 1 - i = outs.length - 1 - i := by omega
    rw [e] at h1
    obtain ⟨pre, post, hd, hp⟩ := live_split h h2
    rw [hp] at h1
    cases h1
    rw [hd]; exact fetch_hdr hF pre post o (h.fits o (List.mem_of_getElem? h2))

theorem live_consistent {F : Fmt} {v : Nat} {m : Meta} {outs : List Out} {f : Files}
    (h : Live F v m outs f) : f.consistent = true := by
  unfold Files.consistent
  rw [if_neg (by rw [h.clen, h.blen]; omega)]
  have hl : f.pos.length = outs.length := by rw [h.pos, posFrom_length]
  cases hg : f.pos.getLast? with
  | none => rfl
  | some p =>
    dsimp only
    apply decide_eq_true
    rw [List.getLast?_eq_getElem?] at hg
    have hne : outs.length ≠ 0 := by
      intro h0
      rw [List.getElem?_eq_none (by omega)] at hg; cases hg
    have hi : outs.length - 1 < outs.length := by omega
    rw [hl, h.pos, posFrom_get F v outs _ _ _ (List.getElem?_eq_getElem hi)] at hg
    cases hg
    have : outs.length - 1 + 1 = outs.length := by omega
    rw [h.data, packBytes_length, this, List.take_length]

/-! ## The theorems -/

/-- **C48 (part).** In every run of a pack, through any crashes outside the excluded window, the pack holds
exactly the outputs it should: those of the last completed persist, and the ones saved since. -/
theorem pack_holds_partial {F : Fmt} (hF : F.Ok) {v : Nat} {m : Meta} {s : St} {a : Abs}
    (h : Run F v m s a) :
    (∀ n, s.f.headerByNumber F m n = if n < m.start then none else (a.outs[n - m.start]?).map (·.hdr)) ∧
    (∀ n, s.f.bytesFor m n = if n < m.start then none else (a.outs[n - m.start]?).map (outBytes F v)) ∧
    s.f.latest F m = some (a.outs.getLast?.map (·.hdr)) ∧
    (∀ last, s.f.countLeaders F last = some (leadersUpTo a.outs.reverse last)) ∧
    (∀ n, s.f.containsNumber m n = true ↔ m.start ≤ n ∧ n < m.start + a.outs.length) ∧
    s.f.data = packBytes F v m a.outs ∧ s.f.consistent = true ∧
    ∀ i o, a.outs[i]? = some o → o.hdr.number = m.start + i ∧ o.hdr.epoch = m.epoch := by
  have hi := (h.inv hF).live
  refine ⟨live_by_number hF hi, live_bytes hi, live_latest hF hi, live_count hF hi, ?_, hi.data,
    live_consistent hi, hi.nums⟩
  intro n
  have hl : s.f.pos.length = a.outs.length := by rw [hi.pos, posFrom_length]
  unfold Files.containsNumber
  rw [Bool.and_eq_true, decide_eq_true_eq, decide_eq_true_eq, hl]
  constructor <;> (rintro ⟨h1, h2⟩; exact ⟨h1, by omega⟩)

/-- What is accepted: exactly the next number of the right epoch; a number that is already there is
ignored, any other is an error. -/
theorem pack_save {F : Fmt} (hF : F.Ok) {v : Nat} {m : Meta} {s : St} {a : Abs} (h : Run F v m s a)
    (o : Out) (hs : m.start ≤ o.hdr.number) :
    (o.hdr.epoch ≠ m.epoch → s.f.save F v m o = .wrongEpoch) ∧
    (o.hdr.epoch = m.epoch → o.hdr.number < m.start + a.outs.length → s.f.save F v m o = .already) ∧
    (o.hdr.epoch = m.epoch → o.hdr.number = m.start + a.outs.length →
      s.f.save F v m o = .saved (s.f.append F v o)) ∧
    (o.hdr.epoch = m.epoch → m.start + a.outs.length < o.hdr.number →
      s.f.save F v m o = .wrongNumber) := by
  have hi := (h.inv hF).live
  have hl : s.f.pos.length = a.outs.length := by rw [hi.pos, posFrom_length]
  unfold Files.save
  refine ⟨fun he => if_pos he, fun he hn => ?_, fun he hn => ?_, fun he hn => ?_⟩
  · rw [if_neg (fun x => x he), if_pos (by omega)]
  · rw [if_neg (fun x => x he), if_neg (by omega), if_neg (by omega)]
  · rw [if_neg (fun x => x he), if_neg (by omega), if_pos (by omega)]

/-- A lookup by digest never returns anything else than a record with that digest, whatever the indexes
contain. -/
theorem by_digest_sound (F : Fmt) (f : Files) (d : Nat) :
    (∀ h, f.headerByDigest F d = some h → F.hdig h = d) ∧ (∀ b, f.batch F d = some b → F.bdig b = d) := by
  constructor
  · intro h hh
    unfold Files.headerByDigest at hh
    split at hh
    · cases hh
    · split at hh
      · cases hh
      · split at hh
        · split at hh
          · next e => cases hh; exact e
          · cases hh
        · cases hh
  · intro b hb
    unfold Files.batch at hb
    split at hb
    · cases hb
    · split at hb
      · cases hb
      · split at hb
        · split at hb
          · next e => cases hb; exact e
          · cases hb
        · cases hb

theorem readAt_append {a b : Bytes} {p n : Nat} {x : Bytes} (h : readAt a p n = some x) :
    readAt (a ++ b) p n = some x := by
  unfold readAt at *
  split at h
  · next hle =>
    rw [if_pos (by rw [List.length_append]; omega)]
    rw [← h, List.drop_append_of_le_length (by omega), List.take_append_of_le_length]
    rw [List.length_drop]; omega
  · cases h

theorem fetch_append {F : Fmt} {a b : Bytes} {p : Nat} {r : Rec} (h : fetch F a p = some r) :
    fetch F (a ++ b) p = some r := by
  unfold fetch at *
  cases h1 : readAt a p 4 with
  | none => rw [h1] at h; cases h
  | some sz =>
    rw [h1] at h
    rw [readAt_append h1]
    dsimp only at h ⊢
    unfold fetchBody at *
    split at h
    · cases h
    · next hm =>
      rw [if_neg hm]
      cases h2 : readAt a (p + 4) (Codec.leNat sz) with
      | none => rw [h2] at h; cases h
      | some body =>
        cases h3 : readAt a (p + 4 + Codec.leNat sz) 4 with
        | none => rw [h2, h3] at h; cases h
        | some crc =>
          rw [h2, h3] at h
          rw [readAt_append h2, readAt_append h3]; exact h

/-- The digest indexes of a run without a crash: every output and batch is findable. -/
structure Indexed (F : Fmt) (outs : List Out) (f : Files) : Prop where
  hdrs : ∀ o ∈ outs, ∃ p h, f.cidx (F.hdig o.hdr) = some p ∧ fetch F f.data p = some (.hdr h) ∧
    F.hdig h = F.hdig o.hdr
  bats : ∀ o ∈ outs, ∀ b ∈ o.batches, ∃ p b', f.bidx (F.bdig b) = some p ∧
    fetch F f.data p = some (.bat b') ∧ F.bdig b' = F.bdig b

theorem saveBats_bidx {F : Fmt} (hF : F.Ok) : ∀ (bs : List (Nat × Bat)) (f : Files) (d : Nat),
    (∀ x ∈ bs, F.bdig x.2 = x.1 ∧ F.Fits (.bat x.2)) →
    (d ∈ bs.map (·.1) ∨ ∃ p b', f.bidx d = some p ∧ fetch F f.data p = some (.bat b') ∧ F.bdig b' = d) →
    ∃ p b', (saveBats F bs f).bidx d = some p ∧ fetch F (saveBats F bs f).data p = some (.bat b') ∧
      F.bdig b' = d := by
  intro bs
  induction bs with
  | nil => intro f d _ h; simpa [saveBats] using h
  | cons x xs ih =>
    obtain ⟨d0, b⟩ := x
    intro f d hd h
    simp only [saveBats]
    apply ih _ d (fun x hx => hd x (by simp [hx]))
    have hb : F.bdig b = d0 := (hd (d0, b) (by simp)).1
    by_cases hdd : d = d0
    · right
      refine ⟨f.data.length, b, ?_, ?_, by rw [hb, hdd]⟩
      · show upd f.bidx d0 f.data.length d = _
        unfold upd; rw [if_pos hdd]
      · have := fetch_frame hF f.data [] (.bat b) (hd (d0, b) (by simp)).2
        rw [List.append_nil] at this; exact this
    · rcases h with h | ⟨p, b', h1, h2, h3⟩
      · left
        simp only [List.map_cons, List.mem_cons] at h
        exact h.resolve_left hdd
      · right
        refine ⟨p, b', ?_, fetch_append h2, h3⟩
        show upd f.bidx d0 f.data.length d = _
        unfold upd; rw [if_neg hdd]; exact h1

theorem collect_dig (F : Fmt) (o : Out) (ho : o.Fits F) :
    ∀ x ∈ collect F o, F.bdig x.2 = x.1 ∧ F.Fits (.bat x.2) := by
  intro x hx
  have := SMap.mem_of_mem_ofList hx
  obtain ⟨b, hb, rfl⟩ := List.mem_map.mp this
  exact ⟨rfl, ho.2 b hb⟩

theorem mem_collect (F : Fmt) (o : Out) (b : Bat) (hb : b ∈ o.batches) :
    F.bdig b ∈ (collect F o).map (·.1) := by
  unfold collect
  rw [SMap.mem_keys_ofList]
  exact List.mem_map.mpr ⟨(F.bdig b, b), List.mem_map.mpr ⟨b, hb, rfl⟩, rfl⟩

theorem append_bidx {F : Fmt} (hF : F.Ok) (v : Nat) (o : Out) (ho : o.Fits F) (f : Files) (d : Nat)
    (h : d ∈ (collect F o).map (·.1) ∨
      ∃ p b', f.bidx d = some p ∧ fetch F f.data p = some (.bat b') ∧ F.bdig b' = d) :
    ∃ p b', (f.append F v o).bidx d = some p ∧ fetch F (f.append F v o).data p = some (.bat b') ∧
      F.bdig b' = d := by
  unfold Files.append saveBefore saveAfter
  dsimp only
  by_cases hv : v = 0
  · have hv' : ¬ 0 < v := by omega
    rw [if_pos hv, if_neg hv']
    dsimp only
    obtain ⟨p, b', h1, h2, h3⟩ := saveBats_bidx hF (collect F o) f d (collect_dig F o ho) h
    exact ⟨p, b', h1, fetch_append h2, h3⟩
  · have hv' : 0 < v := by omega
    rw [if_neg hv, if_pos hv']
    apply saveBats_bidx hF (collect F o) _ d (collect_dig F o ho)
    rcases h with h | ⟨p, b', h1, h2, h3⟩
    · exact Or.inl h
    · exact Or.inr ⟨p, b', h1, fetch_append h2, h3⟩

theorem append_cidx (F : Fmt) (v : Nat) (o : Out) (f : Files) :
    (f.append F v o).cidx = upd f.cidx (F.hdig o.hdr) (f.data.length + hdrOff F v o) := by
  unfold Files.append saveBefore saveAfter hdrOff
  dsimp only
  by_cases hv : v = 0
  · have hv' : ¬ 0 < v := by omega
    rw [if_pos hv, if_neg hv', if_pos hv]
    dsimp only
    rw [(saveBats_data F _ _).1, (saveBats_data F _ _).2.2, List.length_append]
  · have hv' : 0 < v := by omega
    rw [if_neg hv, if_pos hv', if_neg hv, (saveBats_data F _ _).2.2]; rfl

theorem Run.indexed {F : Fmt} (hF : F.Ok) {v : Nat} {m : Meta} {s : St} {a : Abs} (h : Run F v m s a)
    (hc : a.crashed = false) : Indexed F a.outs s.f := by
  induction h with
  | new => exact ⟨by simp, by simp⟩
  | @save s a o f hr hs hfit hsv ih =>
    obtain ⟨rfl, hn, he⟩ := save_saved (hr.inv hF).live hs hsv
    have ihx := ih hc
    constructor
    · intro o' ho'
      show ∃ p h, (s.f.append F v o).cidx (F.hdig o'.hdr) = some p ∧
        fetch F (s.f.append F v o).data p = some (.hdr h) ∧ _
      rw [append_cidx, append_data]
      unfold upd
      by_cases hd : F.hdig o'.hdr = F.hdig o.hdr
      · rw [if_pos hd]
        have := fetch_hdr hF (v := v) s.f.data [] o hfit
        rw [List.append_nil] at this
        exact ⟨_, o.hdr, rfl, this, hd.symm⟩
      · rw [if_neg hd]
        rcases List.mem_append.mp ho' with ho' | ho'
        · obtain ⟨p, h, h1, h2, h3⟩ := ihx.hdrs o' ho'
          exact ⟨p, h, h1, fetch_append h2, h3⟩
        · rw [List.mem_singleton.mp ho'] at hd; exact absurd rfl hd
    · intro o' ho' b hb
      apply append_bidx hF v o hfit s.f (F.bdig b)
      rcases List.mem_append.mp ho' with ho' | ho'
      · exact Or.inr (ihx.bats o' ho' b hb)
      · rw [List.mem_singleton.mp ho'] at hb; exact Or.inl (mem_collect F o b hb)
  | @persist s a _ ih => exact ⟨(ih hc).hdrs, (ih hc).bats⟩
  | @crash s a j d p ci bi _ _ _ _ _ _ ih =>
    unfold Abs.crash at hc
    split at hc <;> cases hc

theorem fetch_lt {F : Fmt} {a : Bytes} {p : Nat} {r : Rec} (h : fetch F a p = some r) : p < a.length := by
  rcases Nat.lt_or_ge p a.length with h' | h'
  · exact h'
  · rw [fetch_past F a p h'] at h; cases h

/-- Until a crash, every output in the pack is found by its digest, and so is every batch of it. -/
theorem by_digest_complete {F : Fmt} (hF : F.Ok) {v : Nat} {m : Meta} {s : St} {a : Abs}
    (h : Run F v m s a) (hc : a.crashed = false) :
    (∀ o ∈ a.outs, ∃ h, s.f.headerByDigest F (F.hdig o.hdr) = some h ∧ F.hdig h = F.hdig o.hdr) ∧
    (∀ o ∈ a.outs, ∀ b ∈ o.batches, ∃ b', s.f.batch F (F.bdig b) = some b' ∧ F.bdig b' = F.bdig b) := by
  have hx := h.indexed hF hc
  constructor
  · intro o ho
    obtain ⟨p, hd, h1, h2, h3⟩ := hx.hdrs o ho
    have := fetch_lt h2
    refine ⟨hd, ?_, h3⟩
    unfold Files.headerByDigest
    rw [h1]
    dsimp only
    rw [if_neg (by omega), h2]
    dsimp only
    rw [if_pos h3]
  · intro o ho b hb
    obtain ⟨p, b', h1, h2, h3⟩ := hx.bats o ho b hb
    have := fetch_lt h2
    refine ⟨b', ?_, h3⟩
    unfold Files.batch
    rw [h1]
    dsimp only
    rw [if_neg (by omega), h2]
    dsimp only
    rw [if_pos h3]

/-! ## The excluded window -/

/-- **Finding.** The window is real, for every format and every first output of an epoch: the output is
saved and persisted, and the crash comes after the position index was synced but before the batch digests
were (all of the data survives). Repair cuts the data back to the empty pack but keeps the index entry:
from then on reading the latest header is an error (so is the header of that number), and saving the
output again is silently ignored. -/
theorem dangling_entry {F : Fmt} (hF : F.Ok) (v : Nat) (m : Meta) (o : Out)
    (hn : o.hdr.number = m.start) (he : o.hdr.epoch = m.epoch) (hfit : o.Fits F) (j : Nat) (hj : j = 2 ∨ j = 3)
    (ci bi : Nat → Option Nat) :
    ∃ s a, Run F v m s a ∧ a.outs = [o] ∧
      let t := (s.persistTo j).reopen s.f.data.length 1 ci bi
      t.f.latest F m = none ∧ t.f.headerByNumber F m m.start = none ∧ t.f.save F v m o = .already ∧
      t.f.data = (St.new F m).f.data := by
  have hinv := new_inv F v m
  have hsv : (St.new F m).f.save F v m o = .saved ((St.new F m).f.append F v o) := by
    unfold Files.save
    rw [if_neg (fun x => x he), if_neg (by simp [St.new]), if_neg (by simp [St.new]; omega)]
  have hrun := Run.save o _ (Run.new (F := F) (v := v) (m := m)) (by omega) hfit hsv
  refine ⟨_, _, hrun, rfl, ?_⟩
  dsimp only
  have hpos : ((St.new F m).f.append F v o).pos = [⟨(St.new F m).f.data.length + hdrOff F v o,
      (St.new F m).f.data.length, (St.new F m).f.data.length + (outBytes F v o).length⟩] := append_pos _ _ _ _
  have hdata := append_data F v o (St.new F m).f
  have hbase : 36 ≤ (St.new F m).f.data.length := by
    have := frame_length F (.epoch m)
    have h2 := hF.header
    simp only [St.new, List.length_append]; omega
  have hob := outBytes_pos F v o
  have hclen : ((St.new F m).f.append F v o).clen = ((St.new F m).f.append F v o).data.length := rfl
  generalize hf0 : (St.new F m).f = f0 at *
  have hd0 : (St.new F m).dB = f0.data.length := by rw [← hf0]; rfl
  have hd1 : (St.new F m).dC = f0.data.length := by rw [← hf0]; rfl
  have hlen : (f0.append F v o).data.length = f0.data.length + (outBytes F v o).length := by
    rw [hdata, List.length_append]
  -- the healed files
  have hheal : ∀ clen, f0.data.length ≤ clen → (Files.heal ⟨(f0.append F v o).data.take (f0.append F v o).data.length,
      (f0.append F v o).pos.take 1, ci, clen, bi, f0.data.length⟩).data = f0.data ∧
      (Files.heal ⟨(f0.append F v o).data.take (f0.append F v o).data.length,
      (f0.append F v o).pos.take 1, ci, clen, bi, f0.data.length⟩).pos = (f0.append F v o).pos := by
    intro clen hcl
    unfold Files.heal
    dsimp only
    rw [List.take_length, hpos]
    have hcut : cutLen (f0.append F v o).data.length clen f0.data.length = f0.data.length := by
      unfold cutLen
      rw [if_pos (Or.inr (by omega))]
      by_cases hc : f0.data.length < clen
      · rw [if_pos ⟨hc, by omega⟩]
      · rw [if_neg (fun x => hc x.1), if_pos (by omega)]; omega
    have hcd : cut (cutLen (f0.append F v o).data.length clen f0.data.length) (f0.append F v o).data =
        f0.data := by
      rw [hcut, cut_eq _ _ (by omega), hdata, List.take_left]
    rw [hcd]
    have hloop : healLoop f0.data.length (0 : Nat) 0 [⟨f0.data.length + hdrOff F v o, f0.data.length,
        f0.data.length + (outBytes F v o).length⟩] = ([⟨f0.data.length + hdrOff F v o, f0.data.length,
        f0.data.length + (outBytes F v o).length⟩], f0.data.length + (outBytes F v o).length) := by
      unfold healLoop
      simp only [List.getElem?_cons_zero]
      rw [if_neg (by omega), if_neg (by omega)]
    simp only [List.take_succ_cons, List.take_zero, List.length_singleton, Nat.sub_self]
    rw [if_neg (by simp), hloop]
    dsimp only
    have : min (f0.data.length + (outBytes F v o).length) f0.data.length = f0.data.length := by omega
    rw [this, cut_eq _ _ (Nat.le_refl _), List.take_length]
    exact ⟨rfl, rfl⟩
  have hc : f0.data.length ≤ (({ St.new F m with f := f0.append F v o } : St).persistTo j).dC := by
    show f0.data.length ≤ (if 3 ≤ j then (f0.append F v o).clen else (St.new F m).dC)
    rw [hclen, hd1]; split <;> omega
  have hB : (({ St.new F m with f := f0.append F v o } : St).persistTo j).dB = f0.data.length := by
    show (if 4 ≤ j then (f0.append F v o).blen else (St.new F m).dB) = _
    rw [if_neg (by omega), hd0]
  obtain ⟨h1, h2⟩ := hheal _ hc
  have ht : ((({ St.new F m with f := f0.append F v o } : St).persistTo j).reopen
      (f0.append F v o).data.length 1 ci bi).f = Files.heal ⟨(f0.append F v o).data.take (f0.append F v o).data.length,
      (f0.append F v o).pos.take 1, ci, (({ St.new F m with f := f0.append F v o } : St).persistTo j).dC, bi,
      f0.data.length⟩ := by
    rw [← hB]; rfl
  rw [ht]
  generalize (Files.heal ⟨(f0.append F v o).data.take (f0.append F v o).data.length,
      (f0.append F v o).pos.take 1, ci, (({ St.new F m with f := f0.append F v o } : St).persistTo j).dC, bi,
      f0.data.length⟩) = g at *
  have hby : g.headerByNumber F m m.start = none := by
    unfold Files.headerByNumber
    rw [if_neg (by omega), h2, hpos, if_neg (by simp)]
    simp only [Nat.sub_self, List.getElem?_cons_zero]
    rw [h1, fetch_past F _ _ (by omega)]
  refine ⟨?_, hby, ?_, h1⟩
  · unfold Files.latest
    have e : g.pos.length = 1 := by rw [h2, hpos]; rfl
    rw [e, if_neg (by omega)]
    have : m.start + 1 - 1 = m.start := by omega
    rw [this, hby]
  · unfold Files.save
    rw [if_neg (fun x => x he), if_pos (by rw [h2, hpos]; simp; omega)]

end Pack
end Verif
