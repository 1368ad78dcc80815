import Verif.Archive.ImportMain
/-
C54: what an honest peer sends is accepted.
-/
namespace Verif
namespace Import

variable {E : Env} {m : Meta}

/-- The batches of an output. -/
def Out.bats (o : Out) : List Bat := o.certified.flatMap (·.2)

theorem Out.Good.digests {o : Out} (h : o.Good E m) : o.bats.map E.bdig = o.hdr.digests := by
  unfold Out.Good at h
  unfold Out.bats CHdr.digests
  by_cases hd : o.hdr.digests = []
  · rw [if_pos hd] at h
    rw [h]
    exact hd.symm
  · rw [if_neg hd] at h
    clear hd
    revert h
    generalize o.hdr.heads = hs
    generalize o.certified = cs
    intro h
    induction h with
    | nil => rfl
    | cons p q ih => simp only [List.flatMap_cons, List.map_append, ih, p.2]

/-- The sorted digests of the batches are those the header expects. -/
theorem keys_ofList_unit {β : Type} (l : List (Nat × β)) :
    (SMap.ofList (l.map (fun x => (x.1, ())))).map (·.1) = (SMap.ofList l).map (·.1) := by
  have aux : ∀ (l : List (Nat × β)) (m : List (Nat × β)) (m' : List (Nat × Unit)), m'.map (·.1) = m.map (·.1) →
      ((l.map (fun x => (x.1, ()))).foldl (fun m kv => SMap.insert kv.1 kv.2 m) m').map (·.1) =
        (l.foldl (fun m kv => SMap.insert kv.1 kv.2 m) m).map (·.1) := by
    intro l
    induction l with
    | nil => intro m m' h; exact h
    | cons x xs ih =>
      intro m m' h
      refine ih _ _ ?_
      clear ih
      induction m generalizing m' with
      | nil =>
        cases m' with
        | nil => rfl
        | cons => simp at h
      | cons y ys ih2 =>
        cases m' with
        | nil => simp at h
        | cons y' ys' =>
          simp only [List.map_cons, List.cons.injEq] at h
          obtain ⟨k, w⟩ := y
          obtain ⟨k', w'⟩ := y'
          dsimp only at h
          obtain ⟨rfl, h⟩ := h
          dsimp only [SMap.insert]
          split
          · simp [h]
          · split
            · simp [h]
            · simp only [List.map_cons, ih2 ys' h]
  exact aux l [] [] rfl

theorem expected_eq {o : Out} (h : o.Good E m) : o.hdr.expected = (byDigest E o.bats).map (·.1) := by
  unfold CHdr.expected byDigest
  rw [← h.digests]
  have := keys_ofList_unit (o.bats.map (fun b => (E.bdig b, b)))
  rw [← this]
  simp only [List.map_map, Function.comp_def]

theorem readBats_export (l : List (Nat × Bat)) (hl : ∀ x ∈ l, E.bdig x.2 = x.1) (rest : List (Option Rec)) :
    readBats E (l.map (·.1)) (l.map (fun x => some (Rec.bat x.2)) ++ rest) = .ok (l.map (·.2), rest) := by
  induction l with
  | nil => rfl
  | cons x xs ih =>
    have h1 := hl x (by simp)
    have h2 := ih (fun y hy => hl y (by simp [hy]))
    simp only [List.map_cons, List.cons_append, readBats, h2]
    rw [if_pos h1]

/-- The digest of batches does not collide. -/
def InjBats (E : Env) (K : List Bat) : Prop := ∀ a ∈ K, ∀ b ∈ K, E.bdig a = E.bdig b → a = b

/-- Every batch that is still needed is available or was placed. -/
def Covered (E : Env) (K : List Bat) (av : List (Nat × Bat)) (pl : List Bat) : Prop :=
  SMap.Sorted av ∧ (∀ x ∈ av, E.bdig x.2 = x.1 ∧ x.2 ∈ K) ∧ (∀ b ∈ pl, b ∈ K) ∧
    ∀ b ∈ K, (E.bdig b, b) ∈ av ∨ b ∈ pl

theorem pick_complete {K : List Bat} (hK : InjBats E K) {refd : List Nat} {av : List (Nat × Bat)} {pl : List Bat}
    (hc : Covered E K av pl) {b : Bat} (hb : b ∈ K) (hr : E.bdig b ∈ refd) :
    ∃ av', pick E refd av pl (E.bdig b) = some (b, av') ∧ Covered E K av' (pl ++ [b]) := by
  obtain ⟨c1, c2, c3, c4⟩ := hc
  unfold pick
  cases hg : SMap.get? (E.bdig b) av with
  | some b' =>
    have hm := SMap.mem_of_get? hg
    have h1 := c2 _ hm
    have hbb : b' = b := hK b' h1.2 b hb h1.1
    subst hbb
    refine ⟨SMap.erase (E.bdig b') av, rfl, SMap.sorted_erase c1, ?_, ?_, ?_⟩
    · intro x hx
      exact c2 x ((SMap.erase_sublist _ _).subset hx)
    · intro x hx
      rcases List.mem_append.mp hx with hx | hx
      · exact c3 x hx
      · rw [List.mem_singleton.mp hx]; exact hb
    · intro x hx
      rcases c4 x hx with hx1 | hx1
      · by_cases he : E.bdig x = E.bdig b'
        · rw [hK x hx b' hb he]
          exact Or.inr (by simp)
        · refine Or.inl (SMap.mem_of_get? ?_)
          rw [SMap.get?_erase c1, if_neg he]
          exact SMap.get?_of_mem c1 hx1
      · exact Or.inr (by simp [hx1])
  | none =>
    have hpl : b ∈ pl := by
      rcases c4 b hb with h | h
      · rw [SMap.get?_of_mem c1 h] at hg
        cases hg
      · exact h
    have hf : pl.find? (fun x => E.bdig x == E.bdig b) = some b := by
      cases hq : pl.find? (fun x => E.bdig x == E.bdig b) with
      | none =>
        rw [List.find?_eq_none] at hq
        exact absurd (by simp) (hq b hpl)
      | some w =>
        have h1 := List.find?_some hq
        have h2 := List.mem_of_find?_eq_some hq
        rw [hK w (c3 w h2) b hb (by simpa using h1)]
    refine ⟨av, ?_, c1, c2, ?_, ?_⟩
    · dsimp only
      rw [if_pos hr, hf]
      rfl
    · intro x hx
      rcases List.mem_append.mp hx with hx | hx
      · exact c3 x hx
      · rw [List.mem_singleton.mp hx]; exact hb
    · intro x hx
      rcases c4 x hx with h | h
      · exact Or.inl h
      · exact Or.inr (by simp [h])

theorem pickAll_complete {K : List Bat} (hK : InjBats E K) {refd : List Nat} (hr : ∀ b ∈ K, E.bdig b ∈ refd) :
    ∀ {bs : List Bat} {av : List (Nat × Bat)} {pl : List Bat}, Covered E K av pl → (∀ b ∈ bs, b ∈ K) →
    ∃ av', pickAll E refd (bs.map E.bdig) av pl = some (bs, av') ∧ Covered E K av' (pl ++ bs)
  | [], av, pl, hc, _ => ⟨av, rfl, by simpa using hc⟩
  | b :: bs, av, pl, hc, hb => by
    obtain ⟨av1, h1, h2⟩ := pick_complete hK hc (hb b (by simp)) (hr b (hb b (by simp)))
    obtain ⟨av2, h3, h4⟩ := pickAll_complete (bs := bs) hK hr h2 (fun x hx => hb x (by simp [hx]))
    refine ⟨av2, ?_, by simpa using h4⟩
    simp only [List.map_cons, pickAll, h1, h3, Option.map_some]

theorem assemble_complete {K : List Bat} (hK : InjBats E K) {refd : List Nat} (hr : ∀ b ∈ K, E.bdig b ∈ refd)
    {hs : List SubHdr} {cs : List (Nat × List Bat)}
    (h : List.Forall₂ (fun h c => m.address h.author = some c.1 ∧ c.2.map E.bdig = h.payload) hs cs) :
    ∀ {av : List (Nat × Bat)} {pl : List Bat}, Covered E K av pl → (∀ b ∈ cs.flatMap (·.2), b ∈ K) →
    assemble E m refd hs av pl = some cs := by
  induction h with
  | nil => intro av pl _ _; rfl
  | @cons x c xs cs p q ih =>
    intro av pl hc hb
    obtain ⟨av1, h1, h2⟩ := pickAll_complete hK hr hc (bs := c.2) (fun b hb1 => hb b (by
      rw [List.flatMap_cons]; exact List.mem_append_left _ hb1))
    have h3 := ih h2 (fun b hb1 => hb b (by rw [List.flatMap_cons]; exact List.mem_append_right _ hb1))
    simp only [assemble, ← p.2, h1, p.1, h3, Option.map_some]

theorem byDigest_covered {K : List Bat} (hK : InjBats E K) : Covered E K (byDigest E K) [] := by
  refine ⟨SMap.sorted_ofList _, ?_, by simp, ?_⟩
  · intro x hx
    have := SMap.mem_of_mem_ofList hx
    rw [List.mem_map] at this
    obtain ⟨b, hb, rfl⟩ := this
    exact ⟨rfl, hb⟩
  · intro b hb
    refine Or.inl ?_
    have hk : E.bdig b ∈ (byDigest E K).map (·.1) := by
      rw [byDigest, SMap.mem_keys_ofList]
      exact List.mem_map.mpr ⟨(E.bdig b, b), List.mem_map.mpr ⟨b, hb, rfl⟩, rfl⟩
    obtain ⟨⟨k, w⟩, hw, he⟩ := List.mem_map.mp hk
    have hw' := SMap.mem_of_mem_ofList hw
    obtain ⟨w', hw1, he1⟩ := List.mem_map.mp hw'
    simp only [Prod.mk.injEq] at he1
    obtain ⟨rfl, rfl⟩ := he1
    dsimp only at he
    rw [hK w' hw1 b hb he] at hw
    exact hw

theorem insert_last {k : Nat} {v : Bat} : ∀ {l : List (Nat × Bat)}, (∀ x ∈ l, x.1 < k) →
    SMap.insert k v l = l ++ [(k, v)]
  | [], _ => rfl
  | (k', v') :: l, h => by
    have h1 : k' < k := h (k', v') (by simp)
    have h2 := insert_last (v := v) (fun x hx => h x (List.mem_cons_of_mem _ hx))
    dsimp only [SMap.insert]
    rw [if_neg (by omega), if_neg (by omega), h2]
    rfl

theorem ofList_sorted {l : List (Nat × Bat)} (h : SMap.Sorted l) : SMap.ofList l = l := by
  induction l using List.reverseRecOn with
  | nil => rfl
  | append_singleton l x ih =>
    unfold SMap.Sorted at h
    rw [List.map_append, List.pairwise_append] at h
    unfold SMap.ofList at ih ⊢
    rw [List.foldl_append, ih h.1]
    refine insert_last (fun y hy => ?_)
    exact h.2.2 y.1 (List.mem_map.mpr ⟨y, hy, rfl⟩) x.1 (by simp)

/-- The exported batches in order give the same map again. -/
theorem byDigest_vals (K : List Bat) : byDigest E ((byDigest E K).map (·.2)) = byDigest E K := by
  have h1 : ((byDigest E K).map (·.2)).map (fun b => (E.bdig b, b)) = byDigest E K := by
    rw [List.map_map]
    refine (List.map_congr_left (fun x hx => ?_)).trans (List.map_id _)
    exact Prod.ext (byDigest_ok K x hx) rfl
  rw [byDigest, h1]
  exact ofList_sorted (SMap.sorted_ofList _)

theorem finish_complete {o : Out} (hg : o.Good E m) (hK : InjBats E o.bats) {refd : List Nat}
    (hr : ∀ b ∈ o.bats, E.bdig b ∈ refd) : finish E m o.hdr refd (byDigest E o.bats) = some o := by
  unfold finish
  by_cases hd : o.hdr.digests = []
  · rw [if_pos hd]
    unfold Out.Good at hg
    rw [if_pos hd] at hg
    obtain ⟨h, c⟩ := o
    dsimp only at hg
    rw [hg]
  · rw [if_neg hd]
    unfold Out.Good at hg
    rw [if_neg hd] at hg
    rw [assemble_complete hK hr hg (byDigest_covered hK) (fun b hb => hb)]
    rfl

/-- One output, header first. -/
theorem decode1_complete {o : Out} (hg : o.Good E m) (hK : InjBats E o.bats) {x : Expect}
    (hx : expectOk E x o.hdr = true) (hmax : o.hdr.expected.length ≤ E.maxB m.members.length) {v : Nat} (hv : v ≠ 0)
    (rest : List (Option Rec)) : decode1 E m x ((export1 E v o).map some ++ rest) = .ok (o, rest) := by
  have he : (export1 E v o).map some ++ rest =
      some (.hdr o.hdr) :: ((byDigest E o.bats).map (fun x => some (Rec.bat x.2)) ++ rest) := by
    unfold export1
    rw [if_neg hv]
    simp [Out.bats, List.map_map, Function.comp_def]
  rw [he]
  simp only [decode1]
  rw [if_pos hx]
  unfold decodeBody
  by_cases hd : o.hdr.digests = []
  · rw [if_pos hd]
    have hb : o.bats = [] := by
      have := hg.digests
      rw [hd] at this
      exact List.map_eq_nil_iff.mp this
    unfold Out.Good at hg
    rw [if_pos hd] at hg
    rw [hb]
    obtain ⟨h, c⟩ := o
    dsimp only at hg
    subst hg
    rfl
  · rw [if_neg hd, if_neg (by omega), expected_eq hg, readBats_export _ (byDigest_ok _)]
    dsimp only
    rw [byDigest_vals, finish_complete hg hK]
    intro b hb
    rcases (byDigest_covered hK).2.2.2 b hb with h | h
    · exact List.mem_map.mpr ⟨b, List.mem_map.mpr ⟨_, h, rfl⟩, rfl⟩
    · simp at h

theorem decode0_bats {x : Expect} : ∀ (bs : List Bat) (n : Nat) (av : List (Nat × Bat)) (rs : List (Option Rec)),
    n + bs.length ≤ E.maxB m.members.length →
    decode0 E m x n av (bs.map (fun b => some (Rec.bat b)) ++ rs) =
      decode0 E m x (n + bs.length) ((bs.map (fun b => (E.bdig b, b))).foldl (fun m kv => SMap.insert kv.1 kv.2 m) av) rs
  | [], n, av, rs, _ => rfl
  | b :: bs, n, av, rs, h => by
    simp only [List.length_cons] at h
    simp only [List.map_cons, List.cons_append, decode0, List.foldl_cons, List.length_cons]
    rw [if_neg (by omega), decode0_bats bs (n + 1) _ rs (by omega), show n + 1 + bs.length = n + (bs.length + 1) by omega]

/-- One output, batches first. -/
theorem decode0_complete {o : Out} (hg : o.Good E m) (hK : InjBats E o.bats) {x : Expect}
    (hx : expectOk E x o.hdr = true) (hmax : o.hdr.expected.length ≤ E.maxB m.members.length)
    (rest : List (Option Rec)) : decode0 E m x 0 [] ((export1 E 0 o).map some ++ rest) = .ok (o, rest) := by
  have he : (export1 E 0 o).map some ++ rest =
      ((byDigest E o.bats).map (·.2)).map (fun b => some (Rec.bat b)) ++ (some (.hdr o.hdr) :: rest) := by
    unfold export1
    rw [if_pos rfl]
    simp [Out.bats, List.map_map, Function.comp_def]
  have hlen : ((byDigest E o.bats).map (·.2)).length = o.hdr.expected.length := by
    rw [expected_eq hg]
    simp
  rw [he, decode0_bats _ _ _ _ (by omega)]
  have hav : (((byDigest E o.bats).map (·.2)).map (fun b => (E.bdig b, b))).foldl
      (fun m kv => SMap.insert kv.1 kv.2 m) [] = byDigest E o.bats := byDigest_vals o.bats
  rw [hav]
  simp only [decode0]
  have hl : legacyOk E x o.hdr (byDigest E o.bats) = true := by
    unfold legacyOk
    simp only [Bool.and_eq_true, hx, true_and, List.all_eq_true, decide_eq_true_eq]
    refine ⟨?_, by rw [expected_eq hg]; simp⟩
    intro d hd
    rw [← hg.digests] at hd
    obtain ⟨b, hb, rfl⟩ := List.mem_map.mp hd
    rcases (byDigest_covered hK).2.2.2 b hb with h | h
    · have : SMap.get? (E.bdig b) (byDigest E o.bats) = some b := SMap.get?_of_mem (SMap.sorted_ofList _) h
      rw [this]
      rfl
    · simp at h
  rw [if_pos hl, finish_complete hg hK]
  intro b hb
  rw [expected_eq hg]
  rcases (byDigest_covered hK).2.2.2 b hb with h | h
  · exact List.mem_map.mpr ⟨_, h, rfl⟩
  · simp at h

theorem decode_complete {o : Out} (hg : o.Good E m) (hK : InjBats E o.bats) {x : Expect}
    (hx : expectOk E x o.hdr = true) (hmax : o.hdr.expected.length ≤ E.maxB m.members.length) (v : Nat)
    (rest : List (Option Rec)) : decode E m v x ((export1 E v o).map some ++ rest) = .ok (o, rest) := by
  unfold decode
  by_cases hv : v = 0
  · subst hv
    rw [if_pos rfl]
    exact decode0_complete hg hK hx hmax rest
  · rw [if_neg hv]
    exact decode1_complete hg hK hx hmax hv rest

/-- A pack an honest node holds of an epoch. -/
structure Pack.Honest (E : Env) (p : Pack) : Prop where
  good : ∀ o ∈ p.outs, o.Good E p.m
  bats : ∀ o ∈ p.outs, InjBats E o.bats
  count : ∀ o ∈ p.outs, o.hdr.expected.length ≤ E.maxB p.m.members.length
  epochs : ∀ o ∈ p.outs, o.hdr.leaderEpoch = some p.m.epoch
  numbers : ∀ i o, p.outs[i]? = some o → o.hdr.number = p.m.start + i

theorem decode_nil (v : Nat) (x : Expect) : decode E m v x [] = .error .notConsensus := by
  unfold decode
  split <;> rfl

theorem loop_complete {v fin : Nat} : ∀ (S : List Out) (fuel : Nat) (x : Expect) (outs : List Out),
    ((S.flatMap (export1 E v)).map some).length < fuel → LinkedX E x (S.map (·.hdr)) →
    (∀ o ∈ S, o.Good E m) → (∀ o ∈ S, InjBats E o.bats) →
    (∀ o ∈ S, o.hdr.expected.length ≤ E.maxB m.members.length) → (∀ o ∈ S, o.hdr.leaderEpoch = some m.epoch) →
    (∀ i o, S[i]? = some o → o.hdr.number = m.start + outs.length + i) → (∀ o ∈ S, o.hdr.number ≤ fin) →
    loop E m v fin fuel x outs ((S.flatMap (export1 E v)).map some) = .ok m (outs ++ S)
  | [], fuel + 1, x, outs, _, _, _, _, _, _, _, _ => by
    simp only [List.flatMap_nil, List.map_nil, loop, decode_nil, List.append_nil]
  | [], 0, x, outs, hf, _, _, _, _, _, _, _ => by simp at hf
  | o :: S, 0, x, outs, hf, _, _, _, _, _, _, _ => by simp at hf
  | o :: S, fuel + 1, x, outs, hf, hl, hg, hb, hm, he, hn, hfin => by
    have hmem : o ∈ o :: S := by simp
    have hs : ∀ y ∈ S, y ∈ o :: S := fun y hy => by simp [hy]
    have h1 := decode_complete (hg o hmem) (hb o hmem) (x := x) hl.1 (hm o hmem) v ((S.flatMap (export1 E v)).map some)
    have h0 := hn 0 o rfl
    have hsv : save m outs o = .ok (outs ++ [o]) := by
      unfold save
      rw [he o hmem]
      dsimp only
      rw [if_neg (by simp), if_neg (by omega), if_neg (by omega)]
    have hlen : 1 ≤ (export1 E v o).length := by
      unfold export1
      split <;> simp
    simp only [List.flatMap_cons, List.map_append, List.length_append, List.length_map] at hf
    have ih := loop_complete (v := v) (fin := fin) S fuel (.parent (E.dig o.hdr)) (outs ++ [o])
      (by simp only [List.length_map]; omega) ((linkedX_parent E _ _).mpr hl.2) (fun y hy => hg y (hs y hy))
      (fun y hy => hb y (hs y hy)) (fun y hy => hm y (hs y hy)) (fun y hy => he y (hs y hy))
      (fun i y hy => by
        have := hn (i + 1) y (by simpa using hy)
        simp only [List.length_append, List.length_singleton]
        omega) (fun y hy => hfin y (hs y hy))
    simp only [List.flatMap_cons, List.map_append, loop, h1]
    rw [if_neg (by have := hfin o hmem; omega), hsv]
    dsimp only
    rw [ih, List.append_assoc]
    rfl

/-- **C54** The stream of a complete pack is accepted, and gives the same pack, in both versions of the format. -/
theorem import_complete {rec prev : Ep.Rec} {p : Pack} (hh : p.Honest E) (hmeta : MetaOk rec.epoch prev p.m)
    (hl : LinkedX E (firstExpect rec.epoch prev) (p.outs.map (·.hdr)))
    (hlast : ∃ l : Out, p.outs.getLast? = some l ∧ l.hdr.number = rec.finalNum ∧ E.dig l.hdr = rec.finalHash) {own : Option Pack} (hown : have_ E rec own = false) (v : Nat) :
    chainImport E rec prev v false own (exportAll E v p) = (.ok, some p) := by
  obtain ⟨l, l1, l2, l3⟩ := hlast
  have hlast : lastOk E rec p.outs = true := by unfold lastOk; rw [l1]; simp [l2, l3]
  have hfin : ∀ o ∈ p.outs, o.hdr.number ≤ rec.finalNum := by
    intro o ho
    obtain ⟨i, hi⟩ := List.getElem?_of_mem ho
    have h1 := hh.numbers i o hi
    have hlt : i < p.outs.length := by
      rcases Nat.lt_or_ge i p.outs.length with h | h
      · exact h
      · rw [List.getElem?_eq_none h] at hi; cases hi
    have h2 := hh.numbers (p.outs.length - 1) l (by rw [← l1, List.getLast?_eq_getElem?])
    omega
  have key := loop_complete (E := E) (m := p.m) (v := v) (fin := rec.finalNum) p.outs
    (((p.outs.flatMap (export1 E v)).map some).length + 1) (firstExpect rec.epoch prev) [] (by omega) hl hh.good hh.bats
    hh.count hh.epochs (fun i o ho => by have := hh.numbers i o ho; simpa using this) hfin
  have hp : packImport E rec.epoch prev v rec.finalNum (exportAll E v p) = .ok p.m p.outs := by
    unfold exportAll
    simp only [packImport]
    rw [if_pos (verifyMeta_iff.mpr hmeta)]
    exact key
  unfold chainImport
  rw [hown, hp]
  dsimp only
  rw [if_neg (by simp), if_neg (by simp), if_pos hlast]

end Import
end Verif
