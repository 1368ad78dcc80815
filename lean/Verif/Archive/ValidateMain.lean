import Verif.Archive.ValidateImport
/-
C89: a file found valid is one that can be imported, up to the checks only the import makes.
-/
namespace Verif
namespace Import

section

variable {E : Env} {m : Meta}

/-- What the first header's parent is compared with, for both. -/
def toExpect : Option Nat → Expect
  | none => .none
  | some p => .parent p

theorem expectOk_iff {p : Option Nat} {h : CHdr} : expectOk E (toExpect p) h = true ↔ ∀ q, p = some q → h.parent = q := by
  cases p with
  | none => simp [toExpect, expectOk]
  | some p => simp [toExpect, expectOk]

/-- Batches as the stream gives them. -/
def bm (bs : List Bat) : List (Option Rec) := bs.map fun b => some (Rec.bat b)

theorem expected_nil {h : CHdr} (hd : h.digests = []) : h.expected = [] := by
  unfold CHdr.expected; rw [hd]; rfl

theorem byDigest_keys {bs : List Bat} {d : Nat} : (SMap.get? d (byDigest E bs)).isSome ↔ d ∈ bs.map E.bdig := by
  rw [SMap.get?_isSome, byDigest, SMap.mem_keys_ofList]
  simp

/-! ### Version 1 -/

theorem readBats_group (rest : List (Option Rec)) : ∀ bs : List Bat, readBats E (bs.map E.bdig) (bm bs ++ rest) = .ok (bs, rest)
  | [] => rfl
  | b :: bs => by
    have ih := readBats_group rest bs
    simp only [List.map_cons, bm, List.cons_append, readBats] at ih ⊢
    rw [if_pos trivial, ih]

theorem decode1_group {x : Expect} {h : CHdr} {bs : List Bat} (hx : expectOk E x h = true) (hb : bs.map E.bdig = h.expected)
    (hl : bs.length ≤ E.maxB m.members.length) (hk : Known m h) (rest : List (Option Rec)) :
    ∃ o, decode1 E m x (some (.hdr h) :: (bm bs ++ rest)) = .ok (o, rest) ∧ o.hdr = h := by
  rw [decode1, if_pos hx, decodeBody]
  split
  · rename_i hd
    rw [expected_nil hd, List.map_eq_nil_iff] at hb
    subst hb
    exact ⟨⟨h, []⟩, rfl, rfl⟩
  · have hlen : h.expected.length = bs.length := by rw [← hb, List.length_map]
    rw [if_neg (by omega), ← hb, readBats_group]
    dsimp only
    obtain ⟨o, h1, h2⟩ := finish_ok (E := E) (m := m) (h := h) (refd := bs.map E.bdig) (av := byDigest E bs) (SMap.sorted_ofList _)
      (byDigest_ok bs) (fun d hd => byDigest_keys.mpr (by rw [hb]; exact mem_expected.mpr hd))
      (fun d hd => by rw [hb]; exact mem_expected.mpr hd) hk
    rw [h1]
    exact ⟨o, rfl, h2⟩

/-- The stream does not go on with a batch. -/
def NoBat (rs : List (Option Rec)) : Prop := ∀ b rs', rs ≠ some (.bat b) :: rs'

theorem noBat_flat1 (gs : List (CHdr × List Bat)) : NoBat ((flat1 gs).map some) := by
  intro b rs' h
  cases gs with
  | nil => cases h
  | cons g gs => cases h

theorem readBats_inv {rest : List (Option Rec)} (hn : NoBat rest) : ∀ (ds : List Nat) (bs xs : List Bat) (r : List (Option Rec)),
    readBats E ds (bm bs ++ rest) = .ok (xs, r) →
    (∃ b2, bs = xs ++ b2 ∧ xs.map E.bdig = ds ∧ r = bm b2 ++ rest) ∨ (xs = bs ∧ bs.length < ds.length ∧ r = [] ∧ rest = [])
  | [], bs, xs, r, h => by
    simp only [readBats, Except.ok.injEq, Prod.mk.injEq] at h
    obtain ⟨rfl, rfl⟩ := h
    exact Or.inl ⟨bs, rfl, rfl, rfl⟩
  | d :: ds, [], xs, r, h => by
    cases rest with
    | nil =>
      simp only [bm, List.map_nil, List.nil_append, readBats, Except.ok.injEq, Prod.mk.injEq] at h
      obtain ⟨rfl, rfl⟩ := h
      exact Or.inr ⟨rfl, by simp, rfl, rfl⟩
    | cons y ys =>
      simp only [bm, List.map_nil, List.nil_append] at h
      cases y with
      | none => simp [readBats] at h
      | some y =>
        cases y with
        | epoch m => simp [readBats] at h
        | bat b => exact absurd rfl (hn b ys)
        | hdr c => simp [readBats] at h
  | d :: ds, b :: bs, xs, r, h => by
    simp only [bm, List.map_cons, List.cons_append, readBats] at h
    split at h
    · rename_i hd
      split at h
      · rename_i xs' r' hr
        simp only [Except.ok.injEq, Prod.mk.injEq] at h
        obtain ⟨rfl, rfl⟩ := h
        rcases readBats_inv hn ds bs xs' r' hr with ⟨b2, h1, h2, h3⟩ | ⟨h1, h2, h3, h4⟩
        · exact Or.inl ⟨b2, by rw [h1]; rfl, by simp [hd, h2], h3⟩
        · exact Or.inr ⟨by rw [h1], by simp only [List.length_cons]; omega, h3, h4⟩
      · cases h
    · cases h

theorem decode1_inv {x : Expect} {h : CHdr} {bs : List Bat} {rest r : List (Option Rec)} {o : Out} (hn : NoBat rest)
    (hd : decode1 E m x (some (.hdr h) :: (bm bs ++ rest)) = .ok (o, r)) :
    o.hdr = h ∧ expectOk E x h = true ∧ Known m h ∧ h.expected.length ≤ E.maxB m.members.length ∧
      ∃ b1 b2, bs = b1 ++ b2 ∧ b1.map E.bdig = h.expected ∧ r = bm b2 ++ rest := by
  have hcount := decode1_count hd
  rw [decode1] at hd
  split at hd
  · rename_i hx
    unfold decodeBody at hd
    split at hd
    · rename_i h0
      simp only [Except.ok.injEq, Prod.mk.injEq] at hd
      obtain ⟨rfl, rfl⟩ := hd
      exact ⟨rfl, hx, fun hne => absurd h0 hne, hcount, [], bs, rfl, by rw [expected_nil h0]; rfl, rfl⟩
    · split at hd
      · cases hd
      · split at hd
        · cases hd
        · rename_i xs r' hr
          split at hd
          · cases hd
          · rename_i o' hf
            simp only [Except.ok.injEq, Prod.mk.injEq] at hd
            obtain ⟨rfl, rfl⟩ := hd
            obtain ⟨h1, h2, h3⟩ := finish_src hf
            rw [h1] at hcount
            refine ⟨h1, hx, h2, hcount, ?_⟩
            rcases readBats_inv hn _ _ _ _ hr with ⟨b2, e1, e2, e3⟩ | ⟨e1, e2, -, -⟩
            · exact ⟨xs, b2, e1, e2, e3⟩
            · subst e1
              have hsub : h.expected ⊆ xs.map E.bdig := by
                intro d hd
                rcases h3 d (mem_expected.mp hd) with h | h
                · exact byDigest_keys.mp (SMap.get?_isSome.mpr h)
                · exact h
              have hnd : h.expected.Nodup := (expected_sorted h).imp (fun h => Nat.ne_of_lt h)
              have := (List.subperm_of_subset hnd hsub).length_le
              rw [List.length_map] at this
              omega
  · cases hd

/-! ### Version 0 -/

theorem decode0_stop {x : Expect} : ∀ (bs : List Bat) (n : Nat) (av : List (Nat × Bat)) (rs : List (Option Rec)),
    n ≤ E.maxB m.members.length → ¬ n + bs.length ≤ E.maxB m.members.length →
    decode0 E m x n av (bm bs ++ rs) = .error .other
  | [], n, av, rs, h0, h => absurd h0 h
  | b :: bs, n, av, rs, h0, h => by
    simp only [bm, List.map_cons, List.cons_append, decode0]
    split
    · rfl
    · exact decode0_stop bs (n + 1) _ rs (by omega) (by simp only [List.length_cons] at h; omega)

theorem legacy_iff {x : Expect} {h : CHdr} {bs : List Bat} :
    legacyOk E x h (byDigest E bs) = true ↔ expectOk E x h = true ∧ ∀ d, d ∈ bs.map E.bdig ↔ d ∈ h.digests := by
  unfold legacyOk
  simp only [Bool.and_eq_true, List.all_eq_true, decide_eq_true_eq]
  have hkeys : ∀ d, d ∈ (byDigest E bs).map (·.1) ↔ d ∈ bs.map E.bdig := fun d => by
    rw [← byDigest_keys, SMap.get?_isSome]
  have hnd1 : h.expected.Nodup := (expected_sorted h).imp (fun h => Nat.ne_of_lt h)
  have hnd2 : ((byDigest E bs).map (·.1)).Nodup := SMap.nodup_keys (SMap.sorted_ofList _)
  constructor
  · rintro ⟨⟨h1, h2⟩, h3⟩
    have hsub : h.expected ⊆ (byDigest E bs).map (·.1) := by
      intro d hd
      exact (hkeys d).mpr (byDigest_keys.mp (h2 d (mem_expected.mp hd)))
    have hp := (List.subperm_of_subset hnd1 hsub).perm_of_length_le (by rw [List.length_map]; exact h3)
    refine ⟨h1, fun d => ?_⟩
    rw [← hkeys, ← hp.mem_iff, mem_expected]
  · rintro ⟨h1, h2⟩
    refine ⟨⟨h1, fun d hd => byDigest_keys.mpr ((h2 d).mpr hd)⟩, ?_⟩
    have hsub : (byDigest E bs).map (·.1) ⊆ h.expected := by
      intro d hd
      exact mem_expected.mpr ((h2 d).mp ((hkeys d).mp hd))
    have := (List.subperm_of_subset hnd2 hsub).length_le
    rwa [List.length_map] at this

theorem decode0_head {x : Expect} {h : CHdr} {bs : List Bat} (hl : bs.length ≤ E.maxB m.members.length) (rest : List (Option Rec)) :
    decode0 E m x 0 [] (bm bs ++ some (.hdr h) :: rest) =
      if legacyOk E x h (byDigest E bs) then
        match finish E m h h.expected (byDigest E bs) with
        | none => .error .other
        | some o => .ok (o, rest)
      else .error .other := by
  rw [bm, decode0_bats bs 0 [] _ (by omega)]
  rfl

theorem decode0_group {x : Expect} {h : CHdr} {bs : List Bat} (hx : expectOk E x h = true)
    (hb : ∀ d, d ∈ bs.map E.bdig ↔ d ∈ h.digests)
    (hl : bs.length ≤ E.maxB m.members.length) (hk : Known m h) (rest : List (Option Rec)) :
    ∃ o, decode0 E m x 0 [] (bm bs ++ some (.hdr h) :: rest) = .ok (o, rest) ∧ o.hdr = h := by
  rw [decode0_head hl, if_pos (legacy_iff.mpr ⟨hx, hb⟩)]
  obtain ⟨o, h1, h2⟩ := finish_ok (E := E) (m := m) (h := h) (refd := h.expected) (av := byDigest E bs) (SMap.sorted_ofList _)
    (byDigest_ok bs) (fun d hd => byDigest_keys.mpr ((hb d).mpr hd)) (fun d hd => mem_expected.mpr hd) hk
  rw [h1]
  exact ⟨o, rfl, h2⟩

theorem decode0_inv {x : Expect} {h : CHdr} {bs : List Bat} {rest r : List (Option Rec)} {o : Out}
    (hd : decode0 E m x 0 [] (bm bs ++ some (.hdr h) :: rest) = .ok (o, r)) :
    o.hdr = h ∧ expectOk E x h = true ∧ Known m h ∧ bs.length ≤ E.maxB m.members.length ∧
      (∀ d, d ∈ bs.map E.bdig ↔ d ∈ h.digests) ∧ r = rest := by
  by_cases hl : bs.length ≤ E.maxB m.members.length
  · rw [decode0_head hl] at hd
    split at hd
    · rename_i hok
      split at hd
      · cases hd
      · rename_i o' hf
        simp only [Except.ok.injEq, Prod.mk.injEq] at hd
        obtain ⟨rfl, rfl⟩ := hd
        obtain ⟨h1, h2, -⟩ := finish_src hf
        obtain ⟨h3, h4⟩ := legacy_iff.mp hok
        exact ⟨h1, h3, h2, hl, h4, rfl⟩
    · cases hd
  · rw [decode0_stop bs 0 [] _ (Nat.zero_le _) (by omega)] at hd
    cases hd

/-! ### The loop -/

/-- What only the import checks of a header and its batches. -/
structure GroupOk (E : Env) (m : Meta) (fin : Nat) (g : CHdr × List Bat) : Prop where
  known : Known m g.1
  epoch : g.1.leaderEpoch = some m.epoch
  final : g.1.number ≤ fin
  limit : g.2.length ≤ E.maxB m.members.length

theorem save_next {outs : List Out} {o : Out} (he : o.hdr.leaderEpoch = some m.epoch)
    (hn : o.hdr.number = m.start + outs.length) : save m outs o = .ok (outs ++ [o]) := by
  unfold save
  rw [he]
  dsimp only
  rw [if_neg (fun h => h rfl), if_neg (by omega), if_neg (by omega)]

theorem save_epoch {outs outs' : List Out} {o : Out} (h : save m outs o = .ok outs') : o.hdr.leaderEpoch = some m.epoch := by
  unfold save at h
  split at h
  · cases h
  · rename_i e he
    split at h
    · cases h
    · rename_i h1
      rw [he, Classical.not_not.mp h1]

/-- One group in the stream of either version. -/
def piece (v : Nat) (g : CHdr × List Bat) : List (Option Rec) :=
  if v = 0 then bm g.2 ++ [some (.hdr g.1)] else some (.hdr g.1) :: bm g.2

/-- A file in the stream of either version; in version 0 with batches at the end. -/
def stream (v : Nat) (gs : List (CHdr × List Bat)) (tail : List Bat) : List (Option Rec) :=
  gs.flatMap (piece v) ++ (if v = 0 then bm tail else [])

theorem stream_cons (v : Nat) (g : CHdr × List Bat) (gs : List (CHdr × List Bat)) (tail : List Bat) :
    stream v (g :: gs) tail = piece v g ++ stream v gs tail := by
  simp [stream]

theorem noBat_stream {v : Nat} (hv : v ≠ 0) (gs : List (CHdr × List Bat)) (tail : List Bat) : NoBat (stream v gs tail) := by
  intro b rs' h
  rw [stream, if_neg hv] at h
  cases gs with
  | nil => cases h
  | cons g gs =>
    rw [List.flatMap_cons, piece, if_neg hv] at h
    cases h

theorem decode_group {v : Nat} {p : Option Nat} {g : CHdr × List Bat} {fin : Nat} (hp : ∀ q, p = some q → g.1.parent = q)
    (hr : Right E v g.1 g.2) (hg : GroupOk E m fin g) (rest : List (Option Rec)) :
    ∃ o, decode E m v (toExpect p) (piece v g ++ rest) = .ok (o, rest) ∧ o.hdr = g.1 := by
  unfold decode piece
  unfold Right at hr
  by_cases hv : v = 0
  · rw [if_pos hv] at hr
    rw [if_pos hv, if_pos hv, List.append_assoc, List.singleton_append]
    exact decode0_group (expectOk_iff.mpr hp) hr hg.limit hg.known rest
  · rw [if_neg hv] at hr
    rw [if_neg hv, if_neg hv, List.cons_append]
    exact decode1_group (expectOk_iff.mpr hp) hr hg.limit hg.known rest

theorem decode_end {v : Nat} {x : Expect} {tail : List Bat} (ht : tail.length ≤ E.maxB m.members.length) :
    decode E m v x (stream v [] tail) = .error .notConsensus := by
  unfold decode stream
  by_cases hv : v = 0
  · rw [if_pos hv, if_pos hv, List.flatMap_nil, List.nil_append, ← List.append_nil (bm tail), bm, decode0_bats tail 0 [] _ (by omega)]
    rfl
  · rw [if_neg hv, if_neg hv]
    rfl

theorem decode_end_inv {v : Nat} {x : Expect} {tail : List Bat} {o : Out} {r : List (Option Rec)} :
    decode E m v x (stream v [] tail) ≠ .ok (o, r) := by
  unfold decode stream
  by_cases hv : v = 0
  · rw [if_pos hv, if_pos hv, List.flatMap_nil, List.nil_append]
    by_cases ht : tail.length ≤ E.maxB m.members.length
    · rw [← List.append_nil (bm tail), bm, decode0_bats tail 0 [] _ (by omega)]
      intro h; cases h
    · rw [← List.append_nil (bm tail), decode0_stop tail 0 [] _ (Nat.zero_le _) (by omega)]
      intro h; cases h
  · rw [if_neg hv, if_neg hv]
    intro h; cases h

theorem loop_ok {v fin : Nat} {tail : List Bat} (ht : v = 0 → tail.length ≤ E.maxB m.members.length) :
    ∀ (gs : List (CHdr × List Bat)) (fuel : Nat) (p : Option Nat) (outs : List Out), gs.length < fuel →
    Seq E v m.start p outs.length gs → (∀ g ∈ gs, GroupOk E m fin g) →
    ∃ outs', loop E m v fin fuel (toExpect p) outs (stream v gs tail) = .ok m outs' ∧
      outs'.map (·.hdr) = outs.map (·.hdr) ++ gs.map (·.1)
  | [], fuel, p, outs, hf, _, _ => by
    cases fuel with
    | zero => simp at hf
    | succ fuel =>
      refine ⟨outs, ?_, by simp⟩
      rw [loop]
      have : decode E m v (toExpect p) (stream v [] tail) = .error .notConsensus := by
        by_cases hv : v = 0
        · exact decode_end (ht hv)
        · unfold decode stream
          rw [if_neg hv, if_neg hv]
          rfl
      rw [this]
  | (h, bs) :: gs, fuel, p, outs, hf, hs, hg => by
    cases fuel with
    | zero => simp at hf
    | succ fuel =>
      obtain ⟨h1, h2, h3, h4⟩ := hs
      have hgo := hg (h, bs) (by simp)
      obtain ⟨o, hd, ho⟩ := decode_group (E := E) (m := m) (v := v) (g := (h, bs)) h2 h3 hgo (stream v gs tail)
      dsimp only at ho
      rw [loop, stream_cons, hd]
      dsimp only
      have hfin := hgo.final
      dsimp only at hfin
      rw [if_neg (by rw [ho]; omega), save_next (by rw [ho]; exact hgo.epoch) (by rw [ho]; exact h1)]
      dsimp only
      have hlen : (outs ++ [o]).length = outs.length + 1 := by simp
      obtain ⟨outs', h5, h6⟩ := loop_ok ht gs fuel (some (E.dig h)) (outs ++ [o]) (by simp only [List.length_cons] at hf; omega)
        (by rw [hlen]; exact h4) (fun g hgm => hg g (by simp [hgm]))
      refine ⟨outs', ?_, ?_⟩
      · rw [ho]; exact h5
      · rw [h6]; simp [ho]

/-- Headers numbered in their order. -/
def Numbered (start : Nat) : Nat → List CHdr → Prop
  | _, [] => True
  | n, h :: hs => h.number = start + n ∧ Numbered start (n + 1) hs

theorem loop_bat {v fin : Nat} (hv : v ≠ 0) {fuel : Nat} {x : Expect} {outs outs' : List Out} {b : Bat} {rs : List (Option Rec)} {m' : Meta} :
    loop E m v fin fuel x outs (some (.bat b) :: rs) ≠ .ok m' outs' := by
  cases fuel with
  | zero => intro h; cases h
  | succ fuel =>
    rw [loop, decode, if_neg hv, decode1]
    · intro h; cases h
    · intro c h; cases h

theorem loop_inv {v fin : Nat} {tail : List Bat} {m' : Meta} : ∀ (gs : List (CHdr × List Bat)) (fuel : Nat) (p : Option Nat) (outs outs' : List Out),
    loop E m v fin fuel (toExpect p) outs (stream v gs tail) = .ok m' outs' → Numbered m.start outs.length (gs.map (·.1)) →
    Seq E v m.start p outs.length gs ∧ (∀ g ∈ gs, GroupOk E m fin g) ∧ (v = 0 → tail.length ≤ E.maxB m.members.length)
  | [], fuel, p, outs, outs', hl, _ => by
    refine ⟨trivial, (fun g hg => by cases hg), fun hv => ?_⟩
    cases fuel with
    | zero => cases hl
    | succ fuel =>
      rw [loop] at hl
      by_contra ht
      have : decode E m v (toExpect p) (stream v [] tail) = .error .other := by
        unfold decode stream
        rw [if_pos hv, if_pos hv, List.flatMap_nil, List.nil_append, ← List.append_nil (bm tail),
          decode0_stop tail 0 [] _ (Nat.zero_le _) (by omega)]
      rw [this] at hl
      cases hl
  | (h, bs) :: gs, fuel, p, outs, outs', hl, hn => by
    cases fuel with
    | zero => cases hl
    | succ fuel =>
      obtain ⟨hn1, hn2⟩ := hn
      dsimp only at hn1
      rw [loop, stream_cons] at hl
      split at hl
      · rename_i hd
        exfalso
        unfold decode piece at hd
        by_cases hv : v = 0
        · rw [if_pos hv, if_pos hv, List.append_assoc, List.singleton_append] at hd
          by_cases hlim : bs.length ≤ E.maxB m.members.length
          · rw [decode0_head hlim] at hd
            split at hd
            · split at hd <;> cases hd
            · cases hd
          · rw [decode0_stop bs 0 [] _ (Nat.zero_le _) (by omega)] at hd
            cases hd
        · rw [if_neg hv, if_neg hv, List.cons_append, decode1] at hd
          have hbody : ∀ (rs : List (Option Rec)), decodeBody E m h rs ≠ .error .notConsensus := by
            intro rs hb
            unfold decodeBody at hb
            split at hb
            · cases hb
            · split at hb
              · cases hb
              · split at hb
                · rename_i e he
                  have : ∀ (ds : List Nat) (rs : List (Option Rec)), readBats E ds rs ≠ .error .notConsensus := by
                    intro ds
                    induction ds with
                    | nil => intro rs h; cases h
                    | cons d ds ih =>
                      intro rs h
                      cases rs with
                      | nil => cases h
                      | cons r rs =>
                        cases r with
                        | none => cases h
                        | some r =>
                          cases r with
                          | epoch m => cases h
                          | hdr c => cases h
                          | bat b =>
                            rw [readBats] at h
                            split at h
                            · split at h
                              · cases h
                              · rename_i e2 he2
                                cases h
                                exact ih _ he2
                            · cases h
                  cases hb
                  exact this _ _ he
                · split at hb <;> cases hb
          split at hd
          · exact hbody _ hd
          · cases hd
      · cases hl
      · rename_i o r hd
        split at hl
        · cases hl
        · rename_i hfin
          split at hl
          · cases hl
          · cases hl
          · rename_i outs1 hsave
            have key : o.hdr = h ∧ expectOk E (toExpect p) h = true ∧ Known m h ∧ bs.length ≤ E.maxB m.members.length ∧
                Right E v h bs ∧ r = stream v gs tail := by
              unfold decode piece at hd
              by_cases hv : v = 0
              · rw [if_pos hv, if_pos hv, List.append_assoc, List.singleton_append] at hd
                obtain ⟨k1, k2, k3, k4, k5, k6⟩ := decode0_inv hd
                exact ⟨k1, k2, k3, k4, by rw [Right, if_pos hv]; exact k5, k6⟩
              · rw [if_neg hv, if_neg hv, List.cons_append] at hd
                obtain ⟨k1, k2, k3, k4, b1, b2, k5, k6, k7⟩ := decode1_inv (noBat_stream hv gs tail) hd
                dsimp only at k1 k2 k3 k4 k5 k6
                cases b2 with
                | nil =>
                  rw [List.append_nil] at k5
                  subst k5
                  refine ⟨k1, k2, k3, ?_, by rw [Right, if_neg hv]; exact k6, k7⟩
                  rw [← k6, List.length_map] at k4
                  exact k4
                | cons b b2 =>
                  rw [k7] at hl
                  exact absurd hl (loop_bat hv)
            obtain ⟨k1, k2, k3, k4, k5, rfl⟩ := key
            have hep := save_epoch hsave
            rw [k1] at hep hfin hl
            have hs2 := save_next (outs := outs) (o := o) (by rw [k1]; exact hep) (by rw [k1]; exact hn1)
            rw [hs2] at hsave
            cases hsave
            have hlen : (outs ++ [o]).length = outs.length + 1 := by simp
            obtain ⟨i1, i2, i3⟩ := loop_inv gs fuel (some (E.dig h)) _ _ hl (by rw [hlen]; exact hn2)
            rw [hlen] at i1
            refine ⟨⟨hn1, expectOk_iff.mp k2, k5, i1⟩, ?_, i3⟩
            intro g hg
            rcases List.mem_cons.mp hg with rfl | hg
            · exact ⟨k3, hep, by dsimp only; omega, k4⟩
            · exact i2 g hg

/-! ### What an import reads -/

theorem readBats_pure : ∀ {ds : List Nat} {rs rest : List (Option Rec)} {bs : List Bat}, readBats E ds rs = .ok (bs, rest) →
    ∀ r ∈ rs, r ∈ rest ∨ ∃ b, r = some (.bat b)
  | [], rs, rest, bs, h => by
    simp only [readBats, Except.ok.injEq, Prod.mk.injEq] at h
    obtain ⟨rfl, rfl⟩ := h
    exact fun r hr => Or.inl hr
  | d :: ds, [], rest, bs, h => fun r hr => by cases hr
  | d :: ds, none :: rs, rest, bs, h => by cases h
  | d :: ds, some (.epoch _) :: rs, rest, bs, h => by cases h
  | d :: ds, some (.hdr _) :: rs, rest, bs, h => by cases h
  | d :: ds, some (.bat b) :: rs, rest, bs, h => by
    rw [readBats] at h
    split at h
    · split at h
      · rename_i xs r' hr
        simp only [Except.ok.injEq, Prod.mk.injEq] at h
        obtain ⟨rfl, rfl⟩ := h
        intro r hm
        rcases List.mem_cons.mp hm with rfl | hm
        · exact Or.inr ⟨b, rfl⟩
        · exact readBats_pure hr r hm
      · cases h
    · cases h

/-- no second meta record and nothing unreadable -/
def Fine (r : Option Rec) : Prop := (∃ b, r = some (.bat b)) ∨ ∃ h, r = some (.hdr h)

theorem decode1_pure {x : Expect} {rs rest : List (Option Rec)} {o : Out} (h : decode1 E m x rs = .ok (o, rest)) :
    ∀ r ∈ rs, r ∈ rest ∨ Fine r := by
  match rs, h with
  | [], h => cases h
  | none :: rs, h => cases h
  | some (.bat _) :: rs, h => cases h
  | some (.epoch _) :: rs, h => cases h
  | some (.hdr c) :: rs, h =>
    intro r hm
    rcases List.mem_cons.mp hm with rfl | hm
    · exact Or.inr (Or.inr ⟨c, rfl⟩)
    · rw [decode1] at h
      split at h
      · unfold decodeBody at h
        split at h
        · simp only [Except.ok.injEq, Prod.mk.injEq] at h
          obtain ⟨rfl, rfl⟩ := h
          exact Or.inl hm
        · split at h
          · cases h
          · split at h
            · cases h
            · rename_i hr
              split at h
              · cases h
              · simp only [Except.ok.injEq, Prod.mk.injEq] at h
                obtain ⟨rfl, rfl⟩ := h
                rcases readBats_pure hr r hm with h | h
                · exact Or.inl h
                · exact Or.inr (Or.inl h)
      · cases h

theorem decode0_pure {x : Expect} : ∀ {rs rest : List (Option Rec)} {n : Nat} {av : List (Nat × Bat)} {o : Out},
    decode0 E m x n av rs = .ok (o, rest) → ∀ r ∈ rs, r ∈ rest ∨ Fine r
  | [], rest, n, av, o, h => by cases h
  | none :: rs, rest, n, av, o, h => by cases h
  | some (.epoch _) :: rs, rest, n, av, o, h => by cases h
  | some (.bat b) :: rs, rest, n, av, o, h => by
    intro r hm
    rcases List.mem_cons.mp hm with rfl | hm
    · exact Or.inr (Or.inl ⟨b, rfl⟩)
    · rw [decode0] at h
      split at h
      · cases h
      · exact decode0_pure h r hm
  | some (.hdr c) :: rs, rest, n, av, o, h => by
    intro r hm
    rcases List.mem_cons.mp hm with rfl | hm
    · exact Or.inr (Or.inr ⟨c, rfl⟩)
    · rw [decode0] at h
      split at h
      · split at h
        · cases h
        · simp only [Except.ok.injEq, Prod.mk.injEq] at h
          obtain ⟨rfl, rfl⟩ := h
          exact Or.inl hm
      · cases h

theorem decode0_end {x : Expect} : ∀ {rs : List (Option Rec)} {n : Nat} {av : List (Nat × Bat)},
    decode0 E m x n av rs = .error .notConsensus → ∀ r ∈ rs, Fine r
  | [], _, _, _ => fun r hr => by cases hr
  | none :: rs, n, av, h => by cases h
  | some (.epoch _) :: rs, n, av, h => by cases h
  | some (.bat b) :: rs, n, av, h => by
    intro r hm
    rcases List.mem_cons.mp hm with rfl | hm
    · exact Or.inl ⟨b, rfl⟩
    · rw [decode0] at h
      split at h
      · cases h
      · exact decode0_end h r hm
  | some (.hdr c) :: rs, n, av, h => by
    rw [decode0] at h
    split at h
    · split at h <;> cases h
    · cases h

theorem readBats_other : ∀ (ds : List Nat) (rs : List (Option Rec)), readBats E ds rs ≠ .error .notConsensus
  | [], rs, h => by cases h
  | d :: ds, [], h => by cases h
  | d :: ds, none :: rs, h => by cases h
  | d :: ds, some (.epoch _) :: rs, h => by cases h
  | d :: ds, some (.hdr _) :: rs, h => by cases h
  | d :: ds, some (.bat b) :: rs, h => by
    rw [readBats] at h
    split at h
    · split at h
      · cases h
      · rename_i e2 he2
        cases h
        exact readBats_other ds rs he2
    · cases h

theorem decode1_end {x : Expect} {rs : List (Option Rec)} (h : decode1 E m x rs = .error .notConsensus) : rs = [] := by
  match rs, h with
  | [], h => rfl
  | none :: rs, h => cases h
  | some (.bat _) :: rs, h => cases h
  | some (.epoch _) :: rs, h => cases h
  | some (.hdr c) :: rs, h =>
    rw [decode1] at h
    split at h
    · unfold decodeBody at h
      split at h
      · cases h
      · split at h
        · cases h
        · split at h
          · rename_i he
            cases h
            exact absurd he (readBats_other _ _)
          · split at h <;> cases h
    · cases h

theorem loop_pure {v fin : Nat} : ∀ {fuel : Nat} {x : Expect} {outs outs' : List Out} {rs : List (Option Rec)} {m' : Meta},
    loop E m v fin fuel x outs rs = .ok m' outs' → m' = m ∧ ∀ r ∈ rs, Fine r
  | 0, x, outs, outs', rs, m', h => by cases h
  | fuel + 1, x, outs, outs', rs, m', h => by
    rw [loop] at h
    split at h
    · rename_i hd
      cases h
      refine ⟨rfl, ?_⟩
      unfold decode at hd
      split at hd
      · exact decode0_end hd
      · rw [decode1_end hd]
        intro r hr
        cases hr
    · cases h
    · rename_i o rest hd
      split at h
      · cases h
      · split at h
        · cases h
        · cases h
        · obtain ⟨h1, h2⟩ := loop_pure h
          refine ⟨h1, fun r hr => ?_⟩
          have : r ∈ rest ∨ Fine r := by
            unfold decode at hd
            split at hd
            · exact decode0_pure hd r hr
            · exact decode1_pure hd r hr
          rcases this with h | h
          · exact h2 r h
          · exact h

theorem fine_list : ∀ {rs : List (Option Rec)}, (∀ r ∈ rs, Fine r) → ∃ l : List Rec, rs = l.map some ∧ ∀ m, Rec.epoch m ∉ l
  | [], _ => ⟨[], rfl, fun m h => by cases h⟩
  | r :: rs, h => by
    obtain ⟨l, rfl, hl⟩ := fine_list (rs := rs) (fun x hx => h x (List.mem_cons_of_mem _ hx))
    rcases h r (by simp) with ⟨b, rfl⟩ | ⟨c, rfl⟩
    · exact ⟨.bat b :: l, rfl, fun m hm => by simpa [hl m] using hm⟩
    · exact ⟨.hdr c :: l, rfl, fun m hm => by simpa [hl m] using hm⟩

/-! ### Runs of batches -/

/-- No run of batches is longer than `B`. -/
def Short (B : Nat) (l : List Rec) : Prop := ∀ (pre : List Rec) (bs : List Bat) (post : List Rec),
  l = pre ++ (bs.map .bat ++ post) → bs.length ≤ B

theorem short_bats {B : Nat} {xs : List Bat} (h : xs.length ≤ B) : Short B (xs.map .bat) := by
  intro pre bs post e
  have := congrArg List.length e
  simp only [List.length_map, List.length_append] at this
  omega

theorem short_step {B : Nat} {xs : List Bat} {g : CHdr} {F : List Rec} (h : xs.length ≤ B) (hF : Short B F) :
    Short B (xs.map .bat ++ .hdr g :: F) := by
  intro pre bs post e
  rcases List.append_eq_append_iff.mp e with ⟨a', h1, h2⟩ | ⟨c', h1, h2⟩
  · cases a' with
    | nil =>
      cases bs with
      | nil => exact Nat.zero_le _
      | cons b bs => cases h2
    | cons x a' =>
      simp only [List.cons_append, List.cons.injEq] at h2
      exact hF a' bs post h2.2
  · have hc : c'.length ≤ xs.length := by
      have := congrArg List.length h1
      simp only [List.length_map, List.length_append] at this
      omega
    rcases List.append_eq_append_iff.mp h2 with ⟨e', h3, h4⟩ | ⟨e', h3, h4⟩
    · have := congrArg List.length h3
      simp only [List.length_map, List.length_append] at this
      omega
    · cases e' with
      | nil =>
        have := congrArg List.length h3
        simp only [List.length_map, List.append_nil] at this
        omega
      | cons y e' =>
        simp only [List.cons_append, List.cons.injEq] at h4
        have : y ∈ bs.map Rec.bat := by rw [h3]; simp
        obtain ⟨b, -, hb⟩ := List.mem_map.mp this
        rw [← h4.1] at hb
        cases hb

theorem short_flat0 {B : Nat} {tail : List Bat} (ht : tail.length ≤ B) : ∀ (gs : List (CHdr × List Bat)),
    (∀ g ∈ gs, g.2.length ≤ B) → Short B (flat0 gs tail)
  | [], _ => by
    have : flat0 [] tail = tail.map .bat := rfl
    rw [this]
    exact short_bats ht
  | g :: gs, h => by
    have : flat0 (g :: gs) tail = g.2.map .bat ++ (.hdr g.1 :: flat0 gs tail) := by simp [flat0]
    rw [this]
    exact short_step (h g (by simp)) (short_flat0 ht gs (fun x hx => h x (by simp [hx])))

theorem short_flat1 {B : Nat} : ∀ (gs : List (CHdr × List Bat)) (xs : List Bat), xs.length ≤ B →
    (∀ g ∈ gs, g.2.length ≤ B) → Short B (xs.map .bat ++ flat1 gs)
  | [], xs, hx, _ => by
    have : flat1 [] = [] := rfl
    rw [this, List.append_nil]
    exact short_bats hx
  | g :: gs, xs, hx, h => by
    have : flat1 (g :: gs) = .hdr g.1 :: (g.2.map .bat ++ flat1 gs) := rfl
    rw [this]
    exact short_step hx (short_flat1 gs g.2 (h g (by simp)) (fun x hx => h x (by simp [hx])))

theorem of_short_flat0 {B : Nat} {tail : List Bat} : ∀ (gs : List (CHdr × List Bat)), Short B (flat0 gs tail) →
    (∀ g ∈ gs, g.2.length ≤ B) ∧ tail.length ≤ B
  | [], h => ⟨(fun g hg => by cases hg), h [] tail [] (by simp [flat0])⟩
  | g :: gs, h => by
    have e : flat0 (g :: gs) tail = g.2.map .bat ++ (.hdr g.1 :: flat0 gs tail) := by simp [flat0]
    obtain ⟨h1, h2⟩ := of_short_flat0 gs (fun pre bs post e' => h (g.2.map .bat ++ .hdr g.1 :: pre) bs post (by rw [e, e']; simp))
    refine ⟨?_, h2⟩
    intro x hx
    rcases List.mem_cons.mp hx with rfl | hx
    · exact h [] x.2 _ (by rw [e]; rfl)
    · exact h1 x hx

theorem of_short_flat1 {B : Nat} : ∀ (gs : List (CHdr × List Bat)), Short B (flat1 gs) → ∀ g ∈ gs, g.2.length ≤ B
  | [], h => fun g hg => by cases hg
  | g :: gs, h => by
    have e : flat1 (g :: gs) = .hdr g.1 :: (g.2.map .bat ++ flat1 gs) := rfl
    have h1 := of_short_flat1 gs (fun pre bs post e' => h (.hdr g.1 :: (g.2.map .bat ++ pre)) bs post (by rw [e, e']; simp))
    intro x hx
    rcases List.mem_cons.mp hx with rfl | hx
    · exact h [.hdr x.1] x.2 _ (by rw [e]; rfl)
    · exact h1 x hx

/-! ### Main theorems -/

/-- What only the import looks at: authors, epoch, last number, number of batches, and in version 1 that no batch
stands before the first header. -/
structure Importable (E : Env) (m : Meta) (v fin : Nat) (l : List Rec) : Prop where
  known : ∀ h ∈ hdrs l, Known m h
  epoch : ∀ h ∈ hdrs l, h.leaderEpoch = some m.epoch
  final : ∀ h ∈ hdrs l, h.number ≤ fin
  limit : Short (E.maxB m.members.length) l
  first : v ≠ 0 → ∀ b l', l ≠ .bat b :: l'

theorem stream_flat0 {v : Nat} (hv : v = 0) (gs : List (CHdr × List Bat)) (tail : List Bat) : stream v gs tail = (flat0 gs tail).map some := by
  induction gs with
  | nil => simp [stream, flat0, bm, hv]
  | cons g gs ih =>
    have : flat0 (g :: gs) tail = g.2.map .bat ++ (.hdr g.1 :: flat0 gs tail) := by simp [flat0]
    rw [stream_cons, ih, this]
    simp [piece, hv, bm]

theorem stream_flat1 {v : Nat} (hv : v ≠ 0) (gs : List (CHdr × List Bat)) (tail : List Bat) : stream v gs tail = (flat1 gs).map some := by
  have hp : (fun g => List.map some (Rec.hdr g.1 :: g.2.map Rec.bat)) = piece v := by
    funext g
    simp [piece, hv, bm]
  simp only [stream, flat1, List.map_flatMap, hp, if_neg hv, List.append_nil]

theorem seq_numbered {v start : Nat} : ∀ (gs : List (CHdr × List Bat)) (p : Option Nat) (n : Nat), Seq E v start p n gs →
    Numbered start n (gs.map (·.1))
  | [], _, _, _ => trivial
  | g :: gs, p, n, h => ⟨h.1, seq_numbered gs _ _ h.2.2.2⟩

theorem numbered_iff {start : Nat} : ∀ (l : List Rec) (n : Nat), Numbered start n (hdrs l) ↔
    ∀ pre h post, l = pre ++ .hdr h :: post → h.number = start + (n + (hdrs pre).length)
  | [], n => by
    constructor
    · intro _ pre h post e
      simp at e
    · intro _; trivial
  | r :: l, n => by
    have cons_plain : ∀ (r : Rec), (∀ c, r ≠ .hdr c) → hdrs (r :: l) = hdrs l → (∀ pre, hdrs (r :: pre) = hdrs pre) →
        (Numbered start n (hdrs (r :: l)) ↔
        ∀ pre h post, r :: l = pre ++ .hdr h :: post → h.number = start + (n + (hdrs pre).length)) := by
      intro r hr h1 h2
      rw [h1, numbered_iff l n]
      constructor
      · intro h pre c post e
        cases pre with
        | nil =>
          simp only [List.nil_append, List.cons.injEq] at e
          exact absurd e.1 (hr c)
        | cons x pre =>
          simp only [List.cons_append, List.cons.injEq] at e
          rw [← e.1, h2]
          exact h pre c post e.2
      · intro h pre c post e
        have := h (r :: pre) c post (by rw [e]; rfl)
        rwa [h2] at this
    cases r with
    | epoch m => exact cons_plain _ (fun c h => by cases h) rfl (fun _ => rfl)
    | bat b => exact cons_plain _ (fun c h => by cases h) rfl (fun _ => rfl)
    | hdr c =>
      show (c.number = start + n ∧ Numbered start (n + 1) (hdrs l)) ↔ _
      rw [numbered_iff l (n + 1)]
      constructor
      · rintro ⟨h1, h2⟩ pre h post e
        cases pre with
        | nil =>
          simp only [List.nil_append, List.cons.injEq, Rec.hdr.injEq] at e
          rw [← e.1]
          exact h1
        | cons x pre =>
          simp only [List.cons_append, List.cons.injEq] at e
          rw [← e.1]
          have := h2 pre h post e.2
          have hl : (hdrs (Rec.hdr c :: pre)).length = (hdrs pre).length + 1 := rfl
          omega
      · intro h
        refine ⟨h [] c l rfl, fun pre c' post e => ?_⟩
        have := h (.hdr c :: pre) c' post (by rw [e]; rfl)
        have hl : (hdrs (Rec.hdr c :: pre)).length = (hdrs pre).length + 1 := rfl
        omega

theorem metaIssues_nil {epoch : Nat} {prev : Ep.Rec} : metaIssues epoch (some prev) m = [] ↔ verifyMeta epoch prev m = true := by
  unfold metaIssues
  constructor
  · intro h
    rw [List.append_eq_nil_iff] at h
    by_contra hc
    rw [Bool.not_eq_true] at hc
    simp [hc] at h
  · intro h
    have he : m.epoch = epoch := (verifyMeta_iff.mp h).epochIs
    simp [h, he]

theorem valid_nil {v epoch : Nat} {prev : Ep.Rec} {l : List Rec} :
    (∃ r, validate E v epoch (some prev) (some (.epoch m) :: l.map some) = some r ∧ r.valid) ↔
      verifyMeta epoch prev m = true ∧ walk E v m.start (anchor epoch (some prev)) l = [] := by
  simp only [validate, readAll_map, Report.valid, Option.some.injEq, exists_eq_left', List.map_eq_nil_iff,
    List.append_eq_nil_iff, metaIssues_nil]

theorem firstExpect_eq (epoch : Nat) (prev : Ep.Rec) : firstExpect epoch prev = toExpect (anchor epoch (some prev)) := by
  unfold firstExpect anchor
  split <;> rfl

/-- **A valid file imports.**  If the validation, given the previous epoch's record, finds nothing, and what only the
import looks at is in order, the import of the same stream succeeds with exactly the file's headers. -/
theorem valid_imports {v epoch fin : Nat} {prev : Ep.Rec} {l : List Rec} {r : Report}
    (h : validate E v epoch (some prev) (some (.epoch m) :: l.map some) = some r) (hv : r.valid) (hi : Importable E m v fin l) :
    ∃ outs, packImport E epoch prev v fin (some (.epoch m) :: l.map some) = .ok m outs ∧ outs.map (·.hdr) = hdrs l := by
  obtain ⟨h1, h2⟩ := valid_nil.mp ⟨r, h, hv⟩
  have hno : ∀ m', Rec.epoch m' ∉ l := by
    intro m' hm'
    have := (walk_mem (E := E) (start := m.start) (a := anchor epoch (some prev)) v l (i := .metaMismatch)).mpr (Or.inl ⟨rfl, m', hm'⟩)
    rw [h2] at this
    cases this
  rw [packImport, if_pos h1, firstExpect_eq, List.length_map]
  by_cases hv0 : v = 0
  · obtain ⟨gs, tail, rfl⟩ := exists_flat0 l hno
    obtain ⟨l1, l2⟩ := of_short_flat0 gs hi.limit
    unfold walk at h2
    rw [if_pos hv0, walk0_seq] at h2
    have hk := hi.known
    have he := hi.epoch
    have hf := hi.final
    rw [hdrs_flat0] at hk he hf ⊢
    have hlen : gs.length ≤ (flat0 gs tail).length := by
      have : (hdrs (flat0 gs tail)).length ≤ (flat0 gs tail).length := List.length_filterMap_le _ _
      rw [hdrs_flat0, List.length_map] at this
      exact this
    obtain ⟨outs, h5, h6⟩ := loop_ok (E := E) (m := m) (v := v) (fin := fin) (tail := tail) (fun _ => l2) gs ((flat0 gs tail).length + 1)
      (anchor epoch (some prev)) [] (by omega) (by rw [hv0]; exact h2)
      (fun g hg => ⟨hk g.1 (List.mem_map_of_mem hg), he g.1 (List.mem_map_of_mem hg), hf g.1 (List.mem_map_of_mem hg), l1 g hg⟩)
    rw [stream_flat0 hv0] at h5
    exact ⟨outs, h5, by simpa using h6⟩
  · obtain ⟨bs, gs, rfl⟩ := exists_flat1 l hno
    cases bs with
    | cons b bs => exact absurd rfl (hi.first hv0 b _)
    | nil =>
      rw [List.map_nil, List.nil_append] at h2 hi ⊢
      have l1 := of_short_flat1 gs hi.limit
      unfold walk at h2
      rw [if_neg hv0, walk1_seq hv0] at h2
      have hk := hi.known
      have he := hi.epoch
      have hf := hi.final
      rw [hdrs_flat1] at hk he hf ⊢
      have hlen : gs.length ≤ (flat1 gs).length := by
        have : (hdrs (flat1 gs)).length ≤ (flat1 gs).length := List.length_filterMap_le _ _
        rw [hdrs_flat1, List.length_map] at this
        exact this
      obtain ⟨outs, h5, h6⟩ := loop_ok (E := E) (m := m) (v := v) (fin := fin) (tail := []) (fun h => absurd h hv0) gs ((flat1 gs).length + 1)
        (anchor epoch (some prev)) [] (by omega) h2
        (fun g hg => ⟨hk g.1 (List.mem_map_of_mem hg), he g.1 (List.mem_map_of_mem hg), hf g.1 (List.mem_map_of_mem hg), l1 g hg⟩)
      rw [stream_flat1 hv0] at h5
      exact ⟨outs, h5, by simpa using h6⟩

/-- **What imports is valid.**  A stream the import takes, whose headers are numbered in their order from the epoch's
first number, is found valid, and everything only the import looks at is in order. -/
theorem imported_valid {v epoch fin : Nat} {prev : Ep.Rec} {rs : List (Option Rec)} {outs : List Out} {m' : Meta}
    (h : packImport E epoch prev v fin rs = .ok m' outs) : ∃ l, rs = some (.epoch m') :: l.map some ∧
      ((∀ pre c post, l = pre ++ .hdr c :: post → c.number = m'.start + (hdrs pre).length) →
        (∃ r, validate E v epoch (some prev) rs = some r ∧ r.valid) ∧ Importable E m' v fin l) := by
  unfold packImport at h
  split at h
  · rename_i m rs
    split at h
    · rename_i hm
      obtain ⟨rfl, hfine⟩ := loop_pure h
      obtain ⟨l, rfl, hno⟩ := fine_list hfine
      refine ⟨l, rfl, fun hnum => ?_⟩
      have hN : Numbered m'.start 0 (hdrs l) := (numbered_iff l 0).mpr (fun pre c post e => by rw [Nat.zero_add]; exact hnum pre c post e)
      rw [valid_nil]
      rw [firstExpect_eq] at h
      by_cases hv0 : v = 0
      · obtain ⟨gs, tail, rfl⟩ := exists_flat0 l hno
        rw [← stream_flat0 hv0] at h
        rw [hdrs_flat0] at hN
        obtain ⟨h1, h2, h3⟩ := loop_inv gs _ _ [] outs h hN
        refine ⟨⟨hm, ?_⟩, ?_⟩
        · unfold walk
          rw [if_pos hv0, walk0_seq]
          rw [hv0] at h1
          exact h1
        · refine ⟨?_, ?_, ?_, short_flat0 (h3 hv0) gs (fun g hg => (h2 g hg).limit), fun hv => absurd hv0 hv⟩
          · rw [hdrs_flat0]
            intro c hc
            obtain ⟨g, hg, rfl⟩ := List.mem_map.mp hc
            exact (h2 g hg).known
          · rw [hdrs_flat0]
            intro c hc
            obtain ⟨g, hg, rfl⟩ := List.mem_map.mp hc
            exact (h2 g hg).epoch
          · rw [hdrs_flat0]
            intro c hc
            obtain ⟨g, hg, rfl⟩ := List.mem_map.mp hc
            exact (h2 g hg).final
      · obtain ⟨bs, gs, rfl⟩ := exists_flat1 l hno
        cases bs with
        | cons b bs => exact absurd h (loop_bat hv0)
        | nil =>
          rw [List.map_nil, List.nil_append] at h hN ⊢
          rw [← stream_flat1 hv0 gs []] at h
          rw [hdrs_flat1] at hN
          obtain ⟨h1, h2, -⟩ := loop_inv gs _ _ [] outs h hN
          refine ⟨⟨hm, ?_⟩, ?_⟩
          · unfold walk
            rw [if_neg hv0, walk1_seq hv0]
            exact h1
          · refine ⟨?_, ?_, ?_, ?_, ?_⟩
            · rw [hdrs_flat1]
              intro c hc
              obtain ⟨g, hg, rfl⟩ := List.mem_map.mp hc
              exact (h2 g hg).known
            · rw [hdrs_flat1]
              intro c hc
              obtain ⟨g, hg, rfl⟩ := List.mem_map.mp hc
              exact (h2 g hg).epoch
            · rw [hdrs_flat1]
              intro c hc
              obtain ⟨g, hg, rfl⟩ := List.mem_map.mp hc
              exact (h2 g hg).final
            · exact short_flat1 gs [] (Nat.zero_le _) (fun g hg => (h2 g hg).limit)
            · intro _ b l' e
              cases gs with
              | nil => cases e
              | cons g gs => cases e
    · cases h
  · cases h

end

/-! ### Examples, and where the two differ -/

namespace VEx

def E : Env := ⟨fun h => h.id, fun b => b + 100, fun n => n * 10⟩
def prev : Ep.Rec := ⟨0, [1, 2], [1, 2], 0, (5, 5), 2, 50⟩
def m : Meta := ⟨1, [(1, 11), (2, 12)], 3, (5, 5), 2, 50⟩
def k1 : CHdr := ⟨50, 3, [⟨1, 1, [107, 106]⟩, ⟨2, 1, [107]⟩], 60⟩
def k2 : CHdr := ⟨60, 4, [⟨2, 1, [108]⟩], 61⟩

/-- the issues found in a file and the result of its import -/
def both (v : Nat) (l : List Rec) : Option (List Issue) × Res :=
  ((validate E v 1 (some prev) (some (.epoch m) :: l.map some)).map (·.issues),
    packImport E 1 prev v 9 (some (.epoch m) :: l.map some))

/-- A good file of each version. -/
theorem good : both 1 [.hdr k1, .bat 6, .bat 7, .hdr k2, .bat 8] =
      (some [], .ok m [⟨k1, [(11, [7, 6]), (12, [7])]⟩, ⟨k2, [(12, [8])]⟩]) ∧
    both 0 [.bat 7, .bat 6, .hdr k1, .bat 8, .hdr k2] =
      (some [], .ok m [⟨k1, [(11, [7, 6]), (12, [7])]⟩, ⟨k2, [(12, [8])]⟩]) := by decide

/-- A misplaced and an absent batch, an extra one, a wrong order, a wrong number and a wrong parent. -/
theorem bad : both 1 [.hdr k1, .bat 6, .hdr k2, .bat 7] =
      (some [.missing 3 107 true, .missing 3 107 true, .missing 4 108 false, .extra 4 107], .err) ∧
    both 1 [.hdr k1, .bat 7, .bat 6, .hdr k2, .bat 8] = (some [.unsorted 3], .err) ∧
    both 1 [.hdr k1, .bat 6, .bat 7, .hdr { k2 with number := 5, parent := 7 }, .bat 8] =
      (some [.nonSeq 4 5, .chainBreak 5 60 7], .err) := by decide

/-- **Valid, not importable** (finding): in version 1 batches before the first header count for it; the authors, the
epoch and even an empty sub-dag (on which the import panics) are not looked at. -/
theorem valid_not_importable :
    both 1 [.bat 6, .bat 7, .hdr k1] = (some [], .err) ∧
    both 1 [.hdr ⟨50, 3, [⟨9, 1, [107]⟩], 60⟩, .bat 7] = (some [], .err) ∧
    both 1 [.hdr ⟨50, 3, [⟨1, 7, []⟩], 60⟩] = (some [], .err) ∧
    both 1 [.hdr ⟨50, 3, [], 60⟩] = (some [], .panic) := by decide

/-- **Invalid, imported** (finding): a header that repeats a number is skipped by the import, and a first number below
the epoch's is taken for the first. -/
theorem invalid_imported :
    both 1 [.hdr ⟨50, 3, [⟨1, 1, []⟩], 60⟩, .hdr ⟨60, 3, [⟨1, 1, []⟩], 61⟩] =
      (some [.nonSeq 4 3], .ok m [⟨⟨50, 3, [⟨1, 1, []⟩], 60⟩, []⟩]) ∧
    both 1 [.hdr ⟨50, 1, [⟨1, 1, []⟩], 60⟩] = (some [.nonSeq 3 1], .ok m [⟨⟨50, 1, [⟨1, 1, []⟩], 60⟩, []⟩]) := by decide

/-- **Left-overs** (finding): in version 0 batches behind the last header are neither reported nor refused. -/
theorem leftover_unseen : both 0 [.bat 8, .hdr ⟨50, 3, [⟨2, 1, [108]⟩], 61⟩, .bat 77] =
    (some [], .ok m [⟨⟨50, 3, [⟨2, 1, [108]⟩], 61⟩, [(12, [8])]⟩]) := by decide

/-- The conditions of `valid_imports` are met. -/
example : Importable E m 1 9 [.hdr k1, .bat 6, .bat 7, .hdr k2, .bat 8] := by
  have h0 : packImport E 1 prev 1 9
      (some (.epoch m) :: ([.hdr k1, .bat 6, .bat 7, .hdr k2, .bat 8] : List Rec).map some) =
      .ok m [⟨k1, [(11, [7, 6]), (12, [7])]⟩, ⟨k2, [(12, [8])]⟩] := congrArg Prod.snd good.1
  obtain ⟨l, h1, h2⟩ := imported_valid h0
  have e : l = [.hdr k1, .bat 6, .bat 7, .hdr k2, .bat 8] := by
    have := (List.cons.inj h1).2
    exact (List.map_injective_iff.mpr (Option.some_injective _) this).symm
  subst e
  refine (h2 ?_).2
  have := (numbered_iff [.hdr k1, .bat 6, .bat 7, .hdr k2, .bat 8] 0 (start := 3)).mp ⟨rfl, rfl, trivial⟩
  intro pre c post e
  have h := this pre c post e
  rw [Nat.zero_add] at h
  exact h

end VEx

end Import
end Verif
