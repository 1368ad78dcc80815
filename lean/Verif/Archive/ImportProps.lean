import Verif.Archive.Import
/-
C54: what an imported pack contains.
-/
namespace Verif
namespace Import

variable {E : Env} {m : Meta}

/-- The batches of an output are those its header names, in order, each with the address its author has in the
committee. -/
def Out.Good (E : Env) (m : Meta) (o : Out) : Prop :=
  if o.hdr.digests = [] then o.certified = []
  else List.Forall₂ (fun h c => m.address h.author = some c.1 ∧ c.2.map E.bdig = h.payload) o.hdr.heads o.certified

/-! ### Decoding -/

theorem pick_sound {refd : List Nat} {av av' : List (Nat × Bat)} {pl : List Bat} {d : Nat} {b : Bat}
    (hav : ∀ x ∈ av, E.bdig x.2 = x.1) (h : pick E refd av pl d = some (b, av')) :
    E.bdig b = d ∧ (∀ x ∈ av', E.bdig x.2 = x.1) ∧ (b ∈ av.map (·.2) ∨ b ∈ pl) := by
  unfold pick at h
  split at h
  · rename_i b' hb
    simp only [Option.some.injEq, Prod.mk.injEq] at h
    obtain ⟨rfl, rfl⟩ := h
    have hm := SMap.mem_of_get? hb
    exact ⟨hav _ hm, fun x hx => hav x ((SMap.erase_sublist d av).subset hx),
      Or.inl (List.mem_map.mpr ⟨_, hm, rfl⟩)⟩
  · split at h
    · rw [Option.map_eq_some_iff] at h
      obtain ⟨b', hb, he⟩ := h
      simp only [Prod.mk.injEq] at he
      obtain ⟨rfl, rfl⟩ := he
      exact ⟨by simpa using List.find?_some hb, hav, Or.inr (List.mem_of_find?_eq_some hb)⟩
    · exact absurd h (by simp)

theorem pickAll_sound {refd : List Nat} : ∀ {ds : List Nat} {av av' : List (Nat × Bat)} {pl bs : List Bat},
    (∀ x ∈ av, E.bdig x.2 = x.1) → pickAll E refd ds av pl = some (bs, av') →
    bs.map E.bdig = ds ∧ (∀ x ∈ av', E.bdig x.2 = x.1)
  | [], av, av', pl, bs, hav, h => by
    simp only [pickAll, Option.some.injEq, Prod.mk.injEq] at h
    obtain ⟨rfl, rfl⟩ := h
    exact ⟨rfl, hav⟩
  | d :: ds, av, av', pl, bs, hav, h => by
    simp only [pickAll] at h
    split at h
    · exact absurd h (by simp)
    · rename_i b av1 hp
      obtain ⟨h1, h2, -⟩ := pick_sound hav hp
      rw [Option.map_eq_some_iff] at h
      obtain ⟨⟨bs1, av2⟩, hr, he⟩ := h
      simp only [Prod.mk.injEq] at he
      obtain ⟨rfl, rfl⟩ := he
      obtain ⟨h3, h4⟩ := pickAll_sound h2 hr
      exact ⟨by simp [h1, h3], h4⟩

theorem assemble_sound {refd : List Nat} : ∀ {hs : List SubHdr} {av : List (Nat × Bat)} {pl : List Bat}
    {c : List (Nat × List Bat)}, (∀ x ∈ av, E.bdig x.2 = x.1) → assemble E m refd hs av pl = some c →
    List.Forall₂ (fun h c => m.address h.author = some c.1 ∧ c.2.map E.bdig = h.payload) hs c
  | [], av, pl, c, hav, h => by
    simp only [assemble, Option.some.injEq] at h
    subst h
    exact .nil
  | x :: hs, av, pl, c, hav, h => by
    simp only [assemble] at h
    split at h
    · exact absurd h (by simp)
    · rename_i bs av1 hp
      obtain ⟨h1, h2⟩ := pickAll_sound hav hp
      split at h
      · exact absurd h (by simp)
      · rename_i a ha
        rw [Option.map_eq_some_iff] at h
        obtain ⟨r, hr, rfl⟩ := h
        exact .cons ⟨ha, h1⟩ (assemble_sound h2 hr)

theorem finish_sound {h : CHdr} {refd : List Nat} {av : List (Nat × Bat)} {o : Out}
    (hav : ∀ x ∈ av, E.bdig x.2 = x.1) (hf : finish E m h refd av = some o) : o.hdr = h ∧ o.Good E m := by
  unfold finish at hf
  by_cases hd : h.digests = []
  · rw [if_pos hd] at hf
    cases hf
    exact ⟨rfl, by unfold Out.Good; rw [if_pos hd]⟩
  · rw [if_neg hd, Option.map_eq_some_iff] at hf
    obtain ⟨c, hc, rfl⟩ := hf
    exact ⟨rfl, by unfold Out.Good; rw [if_neg hd]; exact assemble_sound hav hc⟩

theorem readBats_suffix : ∀ {ds : List Nat} {rs rest : List (Option Rec)} {bs : List Bat},
    readBats E ds rs = .ok (bs, rest) → rest <:+ rs
  | [], rs, rest, bs, h => by
    simp only [readBats, Except.ok.injEq, Prod.mk.injEq] at h
    rw [h.2]
  | d :: ds, [], rest, bs, h => by
    simp only [readBats, Except.ok.injEq, Prod.mk.injEq] at h
    rw [← h.2]
  | d :: ds, none :: rs, rest, bs, h => by simp [readBats] at h
  | d :: ds, some (.epoch _) :: rs, rest, bs, h => by simp [readBats] at h
  | d :: ds, some (.hdr _) :: rs, rest, bs, h => by simp [readBats] at h
  | d :: ds, some (.bat b) :: rs, rest, bs, h => by
    simp only [readBats] at h
    split at h
    · split at h
      · rename_i bs1 rest1 hr
        simp only [Except.ok.injEq, Prod.mk.injEq] at h
        rw [← h.2]
        exact (readBats_suffix hr).trans (List.suffix_cons _ _)
      · exact absurd h (by simp)
    · exact absurd h (by simp)

theorem byDigest_ok (bs : List Bat) : ∀ x ∈ byDigest E bs, E.bdig x.2 = x.1 := by
  intro x hx
  have := SMap.mem_of_mem_ofList hx
  rw [List.mem_map] at this
  obtain ⟨b, -, rfl⟩ := this
  rfl

/-- What the decoders have in common. -/
structure Decoded (E : Env) (m : Meta) (x : Expect) (rs : List (Option Rec)) (o : Out)
    (rest : List (Option Rec)) : Prop where
  expect : expectOk E x o.hdr = true
  good : o.Good E m
  mem : some (.hdr o.hdr) ∈ rs
  suffix : rest <:+ rs
  shorter : rest.length < rs.length

theorem decode1_sound {x : Expect} {rs rest : List (Option Rec)} {o : Out}
    (h : decode1 E m x rs = .ok (o, rest)) : Decoded E m x rs o rest := by
  match rs, h with
  | [], h => simp [decode1] at h
  | none :: rs, h => simp [decode1] at h
  | some (.epoch _) :: rs, h => simp [decode1] at h
  | some (.bat _) :: rs, h => simp [decode1] at h
  | some (.hdr c) :: rs, h =>
    simp only [decode1] at h
    split at h
    · rename_i he
      unfold decodeBody at h
      by_cases hd : c.digests = []
      · rw [if_pos hd] at h
        simp only [Except.ok.injEq, Prod.mk.injEq] at h
        obtain ⟨rfl, rfl⟩ := h
        exact ⟨he, by unfold Out.Good; rw [if_pos hd], by simp, List.suffix_cons _ _, by simp⟩
      · rw [if_neg hd] at h
        split at h
        · exact absurd h (by simp)
        · split at h
          · exact absurd h (by simp)
          · rename_i bs rest1 hr
            split at h
            · exact absurd h (by simp)
            · rename_i o1 hf
              simp only [Except.ok.injEq, Prod.mk.injEq] at h
              obtain ⟨rfl, rfl⟩ := h
              obtain ⟨h1, h2⟩ := finish_sound (byDigest_ok bs) hf
              subst h1
              have hs := readBats_suffix hr
              exact ⟨he, h2, by simp, hs.trans (List.suffix_cons _ _), by
                have := hs.length_le
                simp only [List.length_cons]
                omega⟩
    · exact absurd h (by simp)

theorem insert_ok {b : Bat} {av : List (Nat × Bat)} (hs : SMap.Sorted av) (h : ∀ x ∈ av, E.bdig x.2 = x.1) :
    ∀ x ∈ SMap.insert (E.bdig b) b av, E.bdig x.2 = x.1 := by
  rintro ⟨k, w⟩ hx
  rcases (SMap.mem_insert hs).mp hx with ⟨rfl, rfl⟩ | ⟨-, hx⟩
  · rfl
  · exact h _ hx

theorem decode0_sound {x : Expect} : ∀ {rs rest : List (Option Rec)} {n : Nat} {av : List (Nat × Bat)} {o : Out},
    SMap.Sorted av → (∀ y ∈ av, E.bdig y.2 = y.1) → decode0 E m x n av rs = .ok (o, rest) →
    Decoded E m x rs o rest
  | [], rest, n, av, o, hs, hav, h => by simp [decode0] at h
  | none :: rs, rest, n, av, o, hs, hav, h => by simp [decode0] at h
  | some (.epoch _) :: rs, rest, n, av, o, hs, hav, h => by simp [decode0] at h
  | some (.bat b) :: rs, rest, n, av, o, hs, hav, h => by
    simp only [decode0] at h
    split at h
    · exact absurd h (by simp)
    · obtain ⟨h1, h2, h3, h4, h5⟩ := decode0_sound (SMap.sorted_insert hs) (insert_ok hs hav) h
      exact ⟨h1, h2, List.mem_cons_of_mem _ h3, h4.trans (List.suffix_cons _ _), by
        simp only [List.length_cons]; omega⟩
  | some (.hdr c) :: rs, rest, n, av, o, hs, hav, h => by
    simp only [decode0] at h
    split at h
    · rename_i hl
      split at h
      · exact absurd h (by simp)
      · rename_i o1 hf
        simp only [Except.ok.injEq, Prod.mk.injEq] at h
        obtain ⟨rfl, rfl⟩ := h
        obtain ⟨h1, h2⟩ := finish_sound hav hf
        subst h1
        unfold legacyOk at hl
        simp only [Bool.and_eq_true] at hl
        exact ⟨hl.1.1, h2, by simp, List.suffix_cons _ _, by simp⟩
    · exact absurd h (by simp)

theorem decode_sound {v : Nat} {x : Expect} {rs rest : List (Option Rec)} {o : Out}
    (h : decode E m v x rs = .ok (o, rest)) : Decoded E m x rs o rest := by
  unfold decode at h
  split at h
  · exact decode0_sound SMap.sorted_nil (by simp) h
  · exact decode1_sound h

/-! ### The loop -/

/-- Headers each of which names the one before as its parent; the first one names `a`. -/
def Linked (dig : CHdr → Nat) : Nat → List CHdr → Prop
  | _, [] => True
  | a, h :: hs => h.parent = a ∧ Linked dig (dig h) hs

/-- As `Linked`, the first header meets an expectation. -/
def LinkedX (E : Env) : Expect → List CHdr → Prop
  | _, [] => True
  | x, h :: hs => expectOk E x h = true ∧ Linked E.dig (E.dig h) hs

theorem linkedX_parent (E : Env) (a : Nat) (hs : List CHdr) : LinkedX E (.parent a) hs ↔ Linked E.dig a hs := by
  cases hs <;> simp [LinkedX, Linked, expectOk]

/-- The saves of the loop: an output that is numbered like an earlier one is skipped. -/
inductive Saves (start : Nat) : List Out → List Out → List Out → Prop
  | nil {outs : List Out} : Saves start outs [] outs
  | skip {outs S outs' : List Out} {o : Out} (h : o.hdr.number - start < outs.length) (hs : Saves start outs S outs') :
    Saves start outs (o :: S) outs'
  | keep {outs S outs' : List Out} {o : Out} (h : o.hdr.number - start = outs.length)
    (hs : Saves start (outs ++ [o]) S outs') : Saves start outs (o :: S) outs'

/-- The decoded outputs `S` of an import that did not fail. -/
structure Stream (E : Env) (m : Meta) (fin : Nat) (x : Expect) (rs : List (Option Rec)) (outs S outs' : List Out) :
    Prop where
  linked : LinkedX E x (S.map (·.hdr))
  good : ∀ o ∈ S, o.Good E m
  mem : ∀ o ∈ S, some (Rec.hdr o.hdr) ∈ rs
  epoch : ∀ o ∈ S, o.hdr.leaderEpoch = some m.epoch
  fin : ∀ o ∈ S, o.hdr.number ≤ fin
  saves : Saves m.start outs S outs'

theorem save_ok {outs outs' : List Out} {o : Out} (h : save m outs o = .ok outs') :
    o.hdr.leaderEpoch = some m.epoch ∧
      ((o.hdr.number - m.start < outs.length ∧ outs' = outs) ∨
        (o.hdr.number - m.start = outs.length ∧ outs' = outs ++ [o])) := by
  unfold save at h
  split at h
  · exact absurd h (by simp)
  · rename_i e he
    split at h
    · exact absurd h (by simp)
    · rename_i hee
      have hee : e = m.epoch := by simpa using hee
      subst hee
      refine ⟨he, ?_⟩
      split at h
      · rename_i hl
        cases h
        exact Or.inl ⟨hl, rfl⟩
      · split at h
        · exact absurd h (by simp)
        · rename_i h1 h2
          cases h
          exact Or.inr ⟨by simpa using h2, rfl⟩

theorem loop_sound {v fin : Nat} : ∀ {fuel : Nat} {x : Expect} {outs outs' : List Out} {rs : List (Option Rec)}
    {m' : Meta}, loop E m v fin fuel x outs rs = .ok m' outs' → m' = m ∧ ∃ S : List Out, Stream E m fin x rs outs S outs'
  | 0, x, outs, outs', rs, m', h => by simp [loop] at h
  | fuel + 1, x, outs, outs', rs, m', h => by
    simp only [loop] at h
    split at h
    · cases h
      exact ⟨rfl, [], by simp [LinkedX], by simp, by simp, by simp, by simp, .nil⟩
    · exact absurd h (by simp)
    · rename_i o rest hd
      obtain ⟨h1, h2, h3, h4, h5⟩ := decode_sound hd
      split at h
      · exact absurd h (by simp)
      · rename_i hf
        split at h
        · exact absurd h (by simp)
        · exact absurd h (by simp)
        · rename_i outs1 hsv
          obtain ⟨e1, e2⟩ := save_ok hsv
          obtain ⟨rfl, S, g1, g2, g3, g4, g5, g6⟩ := loop_sound h
          refine ⟨rfl, o :: S, ⟨h1, (linkedX_parent E _ _).mp g1⟩, ?_, ?_, ?_, ?_, ?_⟩
          · intro y hy
            rcases List.mem_cons.mp hy with rfl | hy
            · exact h2
            · exact g2 y hy
          · intro y hy
            rcases List.mem_cons.mp hy with rfl | hy
            · exact h3
            · exact h4.subset (g3 y hy)
          · intro y hy
            rcases List.mem_cons.mp hy with rfl | hy
            · exact e1
            · exact g4 y hy
          · intro y hy
            rcases List.mem_cons.mp hy with rfl | hy
            · omega
            · exact g5 y hy
          · rcases e2 with ⟨e2, rfl⟩ | ⟨e2, rfl⟩
            · exact .skip e2 g6
            · exact .keep e2 g6

theorem packImport_sound {epoch v fin : Nat} {prev : Ep.Rec} {rs : List (Option Rec)} {outs : List Out}
    (h : packImport E epoch prev v fin rs = .ok m outs) :
    verifyMeta epoch prev m = true ∧ ∃ S : List Out, Stream E m fin (firstExpect epoch prev) rs [] S outs := by
  match rs, h with
  | [], h => simp [packImport] at h
  | none :: rs, h => simp [packImport] at h
  | some (.bat _) :: rs, h => simp [packImport] at h
  | some (.hdr _) :: rs, h => simp [packImport] at h
  | some (.epoch m') :: rs, h =>
    simp only [packImport] at h
    split at h
    · rename_i hv
      obtain ⟨rfl, S, g1, g2, g3, g4, g5, g6⟩ := loop_sound h
      exact ⟨hv, S, g1, g2, fun o ho => List.mem_cons_of_mem _ (g3 o ho), g4, g5, g6⟩
    · exact absurd h (by simp)

/-! ### The number of batches of an output -/

theorem keys_length_le {l : List (Nat × Unit)} {av : List (Nat × Bat)} (hl : SMap.Sorted l)
    (h : ∀ x ∈ l, (SMap.get? x.1 av).isSome) : l.length ≤ av.length := by
  have h1 : (l.map (·.1)).Nodup := SMap.nodup_keys hl
  have h2 : l.map (·.1) ⊆ av.map (·.1) := by
    intro k hk
    obtain ⟨x, hx, rfl⟩ := List.mem_map.mp hk
    obtain ⟨b, hb⟩ := Option.isSome_iff_exists.mp (h x hx)
    exact List.mem_map.mpr ⟨_, SMap.mem_of_get? hb, rfl⟩
  have := (List.subperm_of_subset h1 h2).length_le
  simpa using this

theorem expected_le {h : CHdr} {av : List (Nat × Bat)} (hd : ∀ d ∈ h.digests, (SMap.get? d av).isSome) :
    h.expected.length ≤ av.length := by
  unfold CHdr.expected
  rw [List.length_map]
  apply keys_length_le (SMap.sorted_ofList _)
  intro x hx
  obtain ⟨d, hd', e⟩ := List.mem_map.mp (SMap.mem_of_mem_ofList hx)
  rw [← e]
  exact hd d hd'

theorem insert_length_le (k : Nat) (b : Bat) : ∀ av : List (Nat × Bat), (SMap.insert k b av).length ≤ av.length + 1
  | [] => by simp [SMap.insert]
  | x :: av => by
    have := insert_length_le k b av
    simp only [SMap.insert]
    split
    · simp
    · split <;> simp only [List.length_cons] <;> omega

theorem decode0_count {x : Expect} : ∀ {rs rest : List (Option Rec)} {n : Nat} {av : List (Nat × Bat)} {o : Out},
    SMap.Sorted av → av.length ≤ n → n ≤ E.maxB m.members.length → decode0 E m x n av rs = .ok (o, rest) →
    o.hdr.expected.length ≤ E.maxB m.members.length
  | [], rest, n, av, o, hs, hav, hn, h => by simp [decode0] at h
  | none :: rs, rest, n, av, o, hs, hav, hn, h => by simp [decode0] at h
  | some (.epoch _) :: rs, rest, n, av, o, hs, hav, hn, h => by simp [decode0] at h
  | some (.bat b) :: rs, rest, n, av, o, hs, hav, hn, h => by
    simp only [decode0] at h
    split at h
    · exact absurd h (by simp)
    · refine decode0_count (SMap.sorted_insert hs) ?_ (by omega) h
      have := insert_length_le (E.bdig b) b av
      omega
  | some (.hdr c) :: rs, rest, n, av, o, hs, hav, hn, h => by
    simp only [decode0] at h
    split at h
    · rename_i hl
      split at h
      · exact absurd h (by simp)
      · rename_i o1 hf
        simp only [Except.ok.injEq, Prod.mk.injEq] at h
        obtain ⟨rfl, rfl⟩ := h
        have e : o1.hdr = c := by
          unfold finish at hf
          split at hf
          · cases hf; rfl
          · obtain ⟨z, -, rfl⟩ := Option.map_eq_some_iff.mp hf; rfl
        unfold legacyOk at hl
        simp only [Bool.and_eq_true, List.all_eq_true] at hl
        rw [e]
        have := expected_le hl.1.2
        omega
    · exact absurd h (by simp)

theorem decode1_count {x : Expect} {rs rest : List (Option Rec)} {o : Out}
    (h : decode1 E m x rs = .ok (o, rest)) : o.hdr.expected.length ≤ E.maxB m.members.length := by
  match rs, h with
  | [], h => simp [decode1] at h
  | none :: rs, h => simp [decode1] at h
  | some (.bat _) :: rs, h => simp [decode1] at h
  | some (.epoch _) :: rs, h => simp [decode1] at h
  | some (.hdr c) :: rs, h =>
    simp only [decode1] at h
    split at h
    · unfold decodeBody at h
      split at h
      · rename_i hd
        simp only [Except.ok.injEq, Prod.mk.injEq] at h
        rw [← h.1]
        have : c.expected = [] := by unfold CHdr.expected; rw [hd]; rfl
        show c.expected.length ≤ _
        rw [this]; exact Nat.zero_le _
      · split at h
        · exact absurd h (by simp)
        · rename_i hle
          split at h
          · exact absurd h (by simp)
          · split at h
            · exact absurd h (by simp)
            · rename_i o1 hf
              simp only [Except.ok.injEq, Prod.mk.injEq] at h
              obtain ⟨rfl, rfl⟩ := h
              have e : o1.hdr = c := by
                unfold finish at hf
                split at hf
                · cases hf; rfl
                · obtain ⟨z, -, rfl⟩ := Option.map_eq_some_iff.mp hf; rfl
              rw [e]; omega
    · exact absurd h (by simp)

theorem loop_count {v fin : Nat} : ∀ {fuel : Nat} {x : Expect} {outs outs' : List Out} {rs : List (Option Rec)}
    {m' : Meta}, loop E m v fin fuel x outs rs = .ok m' outs' →
    (∀ o ∈ outs, o.hdr.expected.length ≤ E.maxB m.members.length) →
    ∀ o ∈ outs', o.hdr.expected.length ≤ E.maxB m'.members.length
  | 0, x, outs, outs', rs, m', h, _ => by simp [loop] at h
  | fuel + 1, x, outs, outs', rs, m', h, ho => by
    simp only [loop] at h
    split at h
    · cases h; exact ho
    · exact absurd h (by simp)
    · rename_i o rest hd
      split at h
      · exact absurd h (by simp)
      · split at h
        · exact absurd h (by simp)
        · exact absurd h (by simp)
        · rename_i outs1 hsv
          refine loop_count h ?_
          obtain ⟨-, e2⟩ := save_ok hsv
          rcases e2 with ⟨-, rfl⟩ | ⟨-, rfl⟩
          · exact ho
          · intro y hy
            rcases List.mem_append.mp hy with hy | hy
            · exact ho y hy
            · rw [List.mem_singleton.mp hy]
              unfold decode at hd
              split at hd
              · exact decode0_count SMap.sorted_nil (Nat.le_refl _) (Nat.zero_le _) hd
              · exact decode1_count hd

theorem packImport_count {epoch v fin : Nat} {prev : Ep.Rec} {rs : List (Option Rec)} {outs : List Out}
    (h : packImport E epoch prev v fin rs = .ok m outs) :
    ∀ o ∈ outs, o.hdr.expected.length ≤ E.maxB m.members.length := by
  match rs, h with
  | [], h => simp [packImport] at h
  | none :: rs, h => simp [packImport] at h
  | some (.bat _) :: rs, h => simp [packImport] at h
  | some (.hdr _) :: rs, h => simp [packImport] at h
  | some (.epoch m') :: rs, h =>
    simp only [packImport] at h
    split at h
    · exact loop_count h (by simp)
    · exact absurd h (by simp)

/-! ### Saves -/

theorem Saves.subset {start : Nat} {outs S outs' : List Out} (h : Saves start outs S outs') :
    ∃ T : List Out, outs' = outs ++ T ∧ T.Sublist S := by
  induction h with
  | nil => exact ⟨[], by simp, List.nil_sublist _⟩
  | skip h hs ih =>
    obtain ⟨T, e, s⟩ := ih
    exact ⟨T, e, s.cons _⟩
  | @keep outs S outs' o h hs ih =>
    obtain ⟨T, e, s⟩ := ih
    exact ⟨o :: T, by rw [e, List.append_assoc]; rfl, s.cons_cons _⟩

/-- The saves end with the last output that was kept. -/
theorem Saves.split {start : Nat} {outs S outs' : List Out} (h : Saves start outs S outs') {l : Out}
    (hl : outs'.getLast? = some l) (hne : outs' ≠ outs) :
    ∃ S1 S2 : List Out, S = S1 ++ l :: S2 ∧ Saves start outs (S1 ++ [l]) outs' := by
  induction h with
  | nil => exact absurd rfl hne
  | skip h hs ih =>
    obtain ⟨S1, S2, rfl, h2⟩ := ih hl hne
    exact ⟨_ :: S1, S2, rfl, .skip h h2⟩
  | @keep outs S outs' o h hs ih =>
    by_cases he : outs' = outs ++ [o]
    · subst he
      rw [List.getLast?_concat] at hl
      cases hl
      exact ⟨[], S, rfl, .keep h .nil⟩
    · obtain ⟨S1, S2, rfl, h2⟩ := ih hl he
      exact ⟨o :: S1, S2, rfl, .keep h h2⟩

theorem Saves.det {start : Nat} {outs S a b : List Out} (ha : Saves start outs S a) (hb : Saves start outs S b) :
    a = b := by
  induction ha with
  | nil => cases hb; rfl
  | skip h hs ih =>
    cases hb with
    | skip h' hs' => exact ih hs'
    | keep h' hs' => omega
  | keep h hs ih =>
    cases hb with
    | skip h' hs' => omega
    | keep h' hs' => exact ih hs'

/-- Numbers without gaps: everything is kept. -/
theorem Saves.all {start : Nat} {outs S outs' : List Out} (h : Saves start outs S outs')
    (hn : ∀ i o, S[i]? = some o → o.hdr.number = start + outs.length + i) : outs' = outs ++ S := by
  induction h with
  | nil => simp
  | skip h hs ih =>
    have := hn 0 _ rfl
    omega
  | @keep outs S outs' o h hs ih =>
    rw [ih (fun i y hy => by
      have := hn (i + 1) y (by simpa using hy)
      simp only [List.length_append, List.length_singleton]
      omega), List.append_assoc]
    rfl

/-- The place of every kept output. -/
theorem Saves.index {start : Nat} {outs S outs' : List Out} (h : Saves start outs S outs')
    (ho : ∀ i o, outs[i]? = some o → o.hdr.number - start = i) :
    ∀ i o, outs'[i]? = some o → o.hdr.number - start = i := by
  induction h with
  | nil => exact ho
  | skip h hs ih => exact ih ho
  | @keep outs S outs' o h hs ih =>
    refine ih ?_
    intro i y hy
    rw [List.getElem?_append] at hy
    split at hy
    · exact ho i y hy
    · rename_i hi
      have hi0 : i - outs.length = 0 := by
        rcases Nat.eq_zero_or_pos (i - outs.length) with h0 | h0
        · exact h0
        · rw [List.getElem?_eq_none (by simp only [List.length_singleton]; omega)] at hy
          exact absurd hy (by simp)
      rw [hi0] at hy
      cases hy
      omega

/-! ### Chains -/

theorem linked_append {dig : CHdr → Nat} : ∀ {a : Nat} {xs : List CHdr} {y : CHdr},
    Linked dig a (xs ++ [y]) ↔ Linked dig a xs ∧ y.parent = (xs.getLast?.map dig).getD a
  | a, [], y => by simp [Linked]
  | a, x :: xs, y => by
    simp only [List.cons_append, Linked]
    rw [linked_append]
    cases xs with
    | nil => simp [Linked]
    | cons z zs =>
      rw [List.getLast?_cons_cons]
      constructor
      · rintro ⟨h1, h2, h3⟩
        refine ⟨⟨h1, h2⟩, ?_⟩
        rw [h3]
        cases h : (z :: zs).getLast? with
        | none => simp at h
        | some w => rfl
      · rintro ⟨⟨h1, h2⟩, h3⟩
        refine ⟨h1, h2, ?_⟩
        rw [h3]
        cases h : (z :: zs).getLast? with
        | none => simp at h
        | some w => rfl

/-- Two chains from the same point to the same header are equal, unless one of them comes back to that point. -/
theorem linked_unique {dig : CHdr → Nat} {a : Nat} : ∀ {xs ys : List CHdr} {x y : CHdr},
    Linked dig a (xs ++ [x]) → Linked dig a (ys ++ [y]) →
    (∀ u ∈ xs ++ [x], ∀ w ∈ ys ++ [y], dig u = dig w → u = w) →
    (∀ u ∈ xs ++ ys, dig u ≠ a) → dig x = dig y → xs ++ [x] = ys ++ [y] := by
  intro xs
  induction xs using List.reverseRecOn with
  | nil =>
    intro ys x y hx hy hinj hna he
    have hxy := hinj x (by simp) y (by simp) he
    subst hxy
    rcases List.eq_nil_or_concat ys with rfl | ⟨zs, z, rfl⟩
    · rfl
    · rw [linked_append] at hx hy
      rw [List.concat_eq_append] at hy
      rw [List.getLast?_concat] at hy
      have h1 : x.parent = a := hx.2
      have h2 : x.parent = dig z := hy.2
      exact absurd (h2.symm.trans h1) (hna z (by simp))
  | append_singleton xs x' ih =>
    intro ys x y hx hy hinj hna he
    have hxy := hinj x (by simp) y (by simp) he
    subst hxy
    rw [linked_append, List.getLast?_concat] at hx
    rcases List.eq_nil_or_concat ys with rfl | ⟨zs, z, rfl⟩
    · rw [linked_append] at hy
      have h1 : x.parent = dig x' := hx.2
      have h2 : x.parent = a := hy.2
      exact absurd (h1.symm.trans h2) (hna x' (by simp))
    · rw [List.concat_eq_append] at hy hinj hna ⊢
      rw [linked_append, List.getLast?_concat] at hy
      have h1 : x.parent = dig x' := hx.2
      have h2 : x.parent = dig z := hy.2
      have := ih hx.1 hy.1
        (fun u hu w hw => hinj u (List.mem_append_left _ hu) w (List.mem_append_left _ hw))
        (fun u hu => by
          rcases List.mem_append.mp hu with hu | hu
          · exact hna u (by simp [hu])
          · exact hna u (by simp [hu])) (h1.symm.trans h2)
      rw [this]

end Import
end Verif
