import Verif.Archive.ValidateProps
import Verif.Archive.ImportMain
/-
The validation against the import.
-/
namespace Verif
namespace Import

variable {E : Env} {m : Meta}

/-! ### Assembly of an output -/

theorem pick_ok {refd : List Nat} {av : List (Nat × Bat)} {pl : List Bat} {d : Nat} {D : List Nat}
    (hs : SMap.Sorted av) (hr : ∀ d ∈ D, d ∈ refd)
    (hD : ∀ d ∈ D, (SMap.get? d av).isSome ∨ ∃ b ∈ pl, E.bdig b = d) (hav : ∀ x ∈ av, E.bdig x.2 = x.1) (hd : d ∈ D) :
    ∃ b av', pick E refd av pl d = some (b, av') ∧ SMap.Sorted av' ∧ (∀ x ∈ av', E.bdig x.2 = x.1) ∧
      (∀ d ∈ D, (SMap.get? d av').isSome ∨ ∃ b' ∈ pl ++ [b], E.bdig b' = d) := by
  unfold pick
  cases hg : SMap.get? d av with
  | some b =>
    refine ⟨b, _, rfl, SMap.sorted_erase hs, fun x hx => hav x ((SMap.erase_sublist d av).subset hx), ?_⟩
    intro e he
    rw [SMap.get?_erase hs]
    by_cases hed : e = d
    · subst hed
      exact Or.inr ⟨b, by simp, hav _ (SMap.mem_of_get? hg)⟩
    · rcases hD e he with h | ⟨b', hb, hb2⟩
      · left
        simpa [hed] using h
      · exact Or.inr ⟨b', by simp [hb], hb2⟩
  | none =>
    rcases hD d hd with h | ⟨b', hb, hb2⟩
    · rw [hg] at h; cases h
    · dsimp only
      rw [if_pos (hr d hd)]
      cases hf : pl.find? (fun b => E.bdig b == d) with
      | none =>
        rw [List.find?_eq_none] at hf
        exact absurd (by simpa using hb2) (hf b' hb)
      | some b =>
        refine ⟨b, av, rfl, hs, hav, ?_⟩
        intro e he
        rcases hD e he with h | ⟨b', hb, hb2⟩
        · exact Or.inl h
        · exact Or.inr ⟨b', by simp [hb], hb2⟩

theorem pickAll_ok {refd : List Nat} {D : List Nat} (hr : ∀ d ∈ D, d ∈ refd) : ∀ (ds : List Nat) {av : List (Nat × Bat)} {pl : List Bat},
    SMap.Sorted av → (∀ d ∈ D, (SMap.get? d av).isSome ∨ ∃ b ∈ pl, E.bdig b = d) → (∀ x ∈ av, E.bdig x.2 = x.1) →
    (∀ d ∈ ds, d ∈ D) →
    ∃ bs av', pickAll E refd ds av pl = some (bs, av') ∧ SMap.Sorted av' ∧ (∀ x ∈ av', E.bdig x.2 = x.1) ∧
      (∀ d ∈ D, (SMap.get? d av').isSome ∨ ∃ b' ∈ pl ++ bs, E.bdig b' = d)
  | [], av, pl, hs, hD, hav, _ => ⟨[], av, rfl, hs, hav, by simpa using hD⟩
  | d :: ds, av, pl, hs, hD, hav, hd => by
    obtain ⟨b, av1, h1, h2, h3, h4⟩ := pick_ok hs hr hD hav (hd d (by simp))
    obtain ⟨bs, av2, h5, h6, h7, h8⟩ := pickAll_ok hr ds h2 h4 h3 (fun e he => hd e (by simp [he]))
    refine ⟨b :: bs, av2, ?_, h6, h7, by simpa using h8⟩
    rw [pickAll, h1]
    dsimp only
    rw [h5]
    rfl

theorem assemble_ok {refd : List Nat} {D : List Nat} (hr : ∀ d ∈ D, d ∈ refd) : ∀ (hs : List SubHdr) {av : List (Nat × Bat)} {pl : List Bat},
    SMap.Sorted av → (∀ d ∈ D, (SMap.get? d av).isSome ∨ ∃ b ∈ pl, E.bdig b = d) → (∀ x ∈ av, E.bdig x.2 = x.1) →
    (∀ s ∈ hs, (∀ d ∈ s.payload, d ∈ D) ∧ (m.address s.author).isSome) → ∃ c, assemble E m refd hs av pl = some c
  | [], _, _, _, _, _, _ => ⟨[], rfl⟩
  | s :: hs, av, pl, h0, hD, hav, hh => by
    obtain ⟨h1, h2⟩ := hh s (by simp)
    obtain ⟨bs, av2, h5, h6, h7, h8⟩ := pickAll_ok hr s.payload h0 hD hav h1
    obtain ⟨c, hc⟩ := assemble_ok hr hs h6 h8 h7 (fun e he => hh e (by simp [he]))
    obtain ⟨ad, ha⟩ := Option.isSome_iff_exists.mp h2
    exact ⟨(ad, bs) :: c, by rw [assemble, h5]; dsimp only; rw [ha]; dsimp only; rw [hc]; rfl⟩

/-- The authors of a header with batches are in the committee. -/
def Known (m : Meta) (h : CHdr) : Prop := h.digests ≠ [] → ∀ s ∈ h.heads, (m.address s.author).isSome

theorem finish_ok {h : CHdr} {refd : List Nat} {av : List (Nat × Bat)} (hs : SMap.Sorted av)
    (hav : ∀ x ∈ av, E.bdig x.2 = x.1) (hD : ∀ d ∈ h.digests, (SMap.get? d av).isSome) (hr : ∀ d ∈ h.digests, d ∈ refd)
    (hk : Known m h) : ∃ o, finish E m h refd av = some o ∧ o.hdr = h := by
  unfold finish
  split
  · exact ⟨_, rfl, rfl⟩
  · rename_i hne
    obtain ⟨c, hc⟩ := assemble_ok (E := E) (m := m) (D := h.digests) hr h.heads (pl := []) hs (fun d hd => Or.inl (hD d hd)) hav
      (fun s hs => ⟨fun d hd => List.mem_flatMap.mpr ⟨s, hs, hd⟩, hk hne s hs⟩)
    exact ⟨⟨h, c⟩, by rw [hc]; rfl, rfl⟩

theorem pick_src {refd : List Nat} {av av' : List (Nat × Bat)} {pl : List Bat} {d : Nat} {b : Bat}
    (h : pick E refd av pl d = some (b, av')) : (d ∈ av.map (·.1) ∨ d ∈ refd) ∧ av' ⊆ av := by
  unfold pick at h
  split at h
  · rename_i b' hb
    simp only [Option.some.injEq, Prod.mk.injEq] at h
    obtain ⟨rfl, rfl⟩ := h
    exact ⟨Or.inl (List.mem_map.mpr ⟨_, SMap.mem_of_get? hb, rfl⟩), (SMap.erase_sublist d av).subset⟩
  · split at h
    · rename_i hr
      rw [Option.map_eq_some_iff] at h
      obtain ⟨b', -, he⟩ := h
      simp only [Prod.mk.injEq] at he
      obtain ⟨rfl, rfl⟩ := he
      exact ⟨Or.inr hr, fun x hx => hx⟩
    · cases h

theorem pickAll_src {refd : List Nat} : ∀ {ds : List Nat} {av av' : List (Nat × Bat)} {pl bs : List Bat},
    pickAll E refd ds av pl = some (bs, av') → (∀ d ∈ ds, d ∈ av.map (·.1) ∨ d ∈ refd) ∧ av' ⊆ av
  | [], av, av', pl, bs, h => by
    simp only [pickAll, Option.some.injEq, Prod.mk.injEq] at h
    obtain ⟨rfl, rfl⟩ := h
    exact ⟨(fun d hd => by cases hd), fun x hx => hx⟩
  | d :: ds, av, av', pl, bs, h => by
    simp only [pickAll] at h
    split at h
    · cases h
    · rename_i b av1 hp
      obtain ⟨h1, h2⟩ := pick_src hp
      rw [Option.map_eq_some_iff] at h
      obtain ⟨⟨bs1, av2⟩, hr, he⟩ := h
      simp only [Prod.mk.injEq] at he
      obtain ⟨rfl, rfl⟩ := he
      obtain ⟨h3, h4⟩ := pickAll_src hr
      refine ⟨?_, fun x hx => h2 (h4 hx)⟩
      intro e he
      rcases List.mem_cons.mp he with rfl | he
      · exact h1
      · rcases h3 e he with h | h
        · exact Or.inl (List.map_subset _ h2 h)
        · exact Or.inr h

theorem assemble_src {refd : List Nat} : ∀ {hs : List SubHdr} {av : List (Nat × Bat)} {pl : List Bat}
    {c : List (Nat × List Bat)}, assemble E m refd hs av pl = some c →
    ∀ s ∈ hs, (∀ d ∈ s.payload, d ∈ av.map (·.1) ∨ d ∈ refd) ∧ (m.address s.author).isSome
  | [], _, _, _, _ => fun s hs => by cases hs
  | x :: hs, av, pl, c, h => by
    simp only [assemble] at h
    split at h
    · cases h
    · rename_i bs av1 hp
      obtain ⟨h1, h2⟩ := pickAll_src hp
      split at h
      · cases h
      · rename_i a ha
        rw [Option.map_eq_some_iff] at h
        obtain ⟨r, hr, rfl⟩ := h
        intro s hs
        rcases List.mem_cons.mp hs with rfl | hs
        · exact ⟨h1, by rw [ha]; rfl⟩
        · obtain ⟨h3, h4⟩ := assemble_src hr s hs
          refine ⟨fun d hd => ?_, h4⟩
          rcases h3 d hd with h | h
          · exact Or.inl (List.map_subset _ h2 h)
          · exact Or.inr h

theorem finish_src {h : CHdr} {refd : List Nat} {av : List (Nat × Bat)} {o : Out} (hf : finish E m h refd av = some o) :
    o.hdr = h ∧ Known m h ∧ ∀ d ∈ h.digests, d ∈ av.map (·.1) ∨ d ∈ refd := by
  unfold finish at hf
  split at hf
  · rename_i hd
    cases hf
    exact ⟨rfl, fun h => absurd hd h, by rw [hd]; intro d h; cases h⟩
  · obtain ⟨c, hc, rfl⟩ := Option.map_eq_some_iff.mp hf
    have := assemble_src hc
    refine ⟨rfl, fun _ s hs => (this s hs).2, ?_⟩
    intro d hd
    obtain ⟨s, hs, hd⟩ := List.mem_flatMap.mp hd
    exact (this s hs).1 d hd

/-! ### Files as groups -/

/-- A version-1 file: headers, each with its batches behind. -/
def flat1 (gs : List (CHdr × List Bat)) : List Rec := gs.flatMap fun g => .hdr g.1 :: g.2.map .bat

/-- A version-0 file: headers, each with its batches before, and what is left over. -/
def flat0 (gs : List (CHdr × List Bat)) (tail : List Bat) : List Rec :=
  (gs.flatMap fun g => g.2.map Rec.bat ++ [.hdr g.1]) ++ tail.map .bat

theorem exists_flat1 (l : List Rec) (h : ∀ m, Rec.epoch m ∉ l) : ∃ (bs : List Bat) (gs : List (CHdr × List Bat)), l = bs.map .bat ++ flat1 gs := by
  induction l with
  | nil => exact ⟨[], [], rfl⟩
  | cons r l ih =>
    obtain ⟨bs, gs, e⟩ := ih (fun m hm => h m (by simp [hm]))
    cases r with
    | epoch m => exact absurd (by simp) (h m)
    | bat b => exact ⟨b :: bs, gs, by rw [e]; rfl⟩
    | hdr c => exact ⟨[], (c, bs) :: gs, by rw [e]; rfl⟩

theorem exists_flat0 (l : List Rec) (h : ∀ m, Rec.epoch m ∉ l) : ∃ gs tail, l = flat0 gs tail := by
  induction l with
  | nil => exact ⟨[], [], rfl⟩
  | cons r l ih =>
    obtain ⟨gs, tail, e⟩ := ih (fun m hm => h m (by simp [hm]))
    cases r with
    | epoch m => exact absurd (by simp) (h m)
    | bat b =>
      cases gs with
      | nil => exact ⟨[], b :: tail, by rw [e]; rfl⟩
      | cons g gs => exact ⟨(g.1, b :: g.2) :: gs, tail, by rw [e]; rfl⟩
    | hdr c => exact ⟨(c, []) :: gs, tail, by rw [e]; rfl⟩

theorem hdrs_bats (bs : List Bat) : hdrs (bs.map .bat) = [] := by
  induction bs with
  | nil => rfl
  | cons b bs ih => exact ih

theorem hdrs_flat1 (gs : List (CHdr × List Bat)) : hdrs (flat1 gs) = gs.map (·.1) := by
  induction gs with
  | nil => rfl
  | cons g gs ih =>
    have : flat1 (g :: gs) = .hdr g.1 :: (g.2.map .bat ++ flat1 gs) := rfl
    rw [this, show ∀ x : List Rec, hdrs (.hdr g.1 :: x) = g.1 :: hdrs x from fun _ => rfl, hdrs_append, hdrs_bats, ih]
    rfl

theorem hdrs_flat0 (gs : List (CHdr × List Bat)) (tail : List Bat) : hdrs (flat0 gs tail) = gs.map (·.1) := by
  induction gs with
  | nil => exact hdrs_bats tail
  | cons g gs ih =>
    have : flat0 (g :: gs) tail = g.2.map .bat ++ (.hdr g.1 :: flat0 gs tail) := by simp [flat0]
    rw [this, hdrs_append, hdrs_bats, show ∀ x : List Rec, hdrs (.hdr g.1 :: x) = g.1 :: hdrs x from fun _ => rfl, ih]
    rfl

/-- The right batches for a header. -/
def Right (E : Env) (v : Nat) (h : CHdr) (bs : List Bat) : Prop :=
  if v = 0 then ∀ d, d ∈ bs.map E.bdig ↔ d ∈ h.digests else bs.map E.bdig = h.expected

/-- Numbered, linked, with the right batches. -/
def Seq (E : Env) (v start : Nat) : Option Nat → Nat → List (CHdr × List Bat) → Prop
  | _, _, [] => True
  | parent, n, (h, bs) :: gs =>
    h.number = start + n ∧ (∀ p, parent = some p → h.parent = p) ∧ Right E v h bs ∧ Seq E v start (some (E.dig h)) (n + 1) gs

theorem seqIssue_nil {start n : Nat} {h : CHdr} : seqIssue start n h = [] ↔ h.number = start + n := by
  unfold seqIssue
  split <;> simp [*]

theorem chainIssue_nil {parent : Option Nat} {h : CHdr} : chainIssue parent h = [] ↔ ∀ p, parent = some p → h.parent = p := by
  unfold chainIssue
  cases parent with
  | none => simp
  | some p =>
    dsimp only
    split <;> simp [*]

theorem closeGroup_nil {h : CHdr} {bs : List Nat} : closeGroup h bs = [] ↔ bs = h.expected := by
  unfold closeGroup
  rw [List.append_eq_nil_iff, List.append_eq_nil_iff]
  constructor
  · rintro ⟨⟨h1, h2⟩, h3⟩
    by_contra hne
    unfold orderIssue at h3
    rw [if_pos ⟨h1, h2, hne⟩] at h3
    cases h3
  · intro e
    have h1 : missingIssues h bs = [] := missing_nil.mpr (fun d hd => by rw [e]; exact mem_expected.mpr hd)
    have h2 : extraIssues h bs = [] := extra_nil.mpr (fun d hd => by rw [e] at hd; exact mem_expected.mp hd)
    refine ⟨⟨h1, h2⟩, ?_⟩
    unfold orderIssue
    rw [if_neg (fun hc => hc.2.2 e)]

theorem walk1_bats {start : Nat} {o : Option CHdr} {p : Option Nat} {n : Nat} (rest : List Rec) : ∀ (bs : List Bat) (pre : List Nat),
    walk1 E start (bs.map .bat ++ rest) o pre p n = walk1 E start rest o (pre ++ bs.map E.bdig) p n
  | [], pre => by simp
  | b :: bs, pre => by
    have w : walk1 E start (.bat b :: (bs.map .bat ++ rest)) o pre p n =
        walk1 E start (bs.map .bat ++ rest) o (pre ++ [E.bdig b]) p n := by cases o <;> rfl
    rw [List.map_cons, List.cons_append, w, walk1_bats rest bs]
    simp

theorem walk0_bats {start : Nat} {p : Option Nat} {n : Nat} (rest : List Rec) : ∀ (bs : List Bat) (pre : List Nat),
    walk0 E start (bs.map .bat ++ rest) pre p n = walk0 E start rest (pre ++ bs.map E.bdig) p n
  | [], pre => by simp
  | b :: bs, pre => by
    rw [List.map_cons, List.cons_append, walk0, walk0_bats rest bs]
    simp

theorem walk1_open {v start : Nat} (hv : v ≠ 0) : ∀ (gs : List (CHdr × List Bat)) (h : CHdr) (bs : List Nat) (p : Option Nat) (n : Nat),
    walk1 E start (flat1 gs) (some h) bs p n = [] ↔ bs = h.expected ∧ Seq E v start p n gs
  | [], h, bs, p, n => by
    simp only [flat1, List.flatMap_nil, walk1, closeGroup_nil, Seq, and_true]
  | (g, gb) :: gs, h, bs, p, n => by
    have : flat1 ((g, gb) :: gs) = .hdr g :: (gb.map .bat ++ flat1 gs) := rfl
    rw [this, walk1, walk1_bats, List.append_eq_nil_iff, List.append_eq_nil_iff, List.append_eq_nil_iff, walk1_open hv gs,
      closeGroup_nil, seqIssue_nil, chainIssue_nil, List.nil_append, Seq, Right, if_neg hv]
    constructor
    · rintro ⟨⟨⟨h1, h2⟩, h3⟩, h4, h5⟩; exact ⟨h1, h2, h3, h4, h5⟩
    · rintro ⟨h1, h2, h3, h4, h5⟩; exact ⟨⟨⟨h1, h2⟩, h3⟩, h4, h5⟩

theorem walk1_seq {v start : Nat} (hv : v ≠ 0) (gs : List (CHdr × List Bat)) (p : Option Nat) :
    walk1 E start (flat1 gs) none [] p 0 = [] ↔ Seq E v start p 0 gs := by
  cases gs with
  | nil => simp [flat1, walk1, Seq]
  | cons g gs =>
    obtain ⟨g, gb⟩ := g
    have : flat1 ((g, gb) :: gs) = .hdr g :: (gb.map .bat ++ flat1 gs) := rfl
    rw [this, walk1, walk1_bats, List.append_eq_nil_iff, List.append_eq_nil_iff, walk1_open hv gs,
      seqIssue_nil, chainIssue_nil, List.nil_append, Seq, Right, if_neg hv, and_assoc]

theorem walk0_seq {start : Nat} (tail : List Bat) : ∀ (gs : List (CHdr × List Bat)) (p : Option Nat) (n : Nat),
    walk0 E start (flat0 gs tail) [] p n = [] ↔ Seq E 0 start p n gs
  | [], p, n => by
    have : flat0 [] tail = tail.map .bat ++ [] := by simp [flat0]
    rw [this, walk0_bats]
    simp [walk0, Seq]
  | (g, gb) :: gs, p, n => by
    have : flat0 ((g, gb) :: gs) tail = gb.map .bat ++ (.hdr g :: flat0 gs tail) := by simp [flat0]
    rw [this, walk0_bats, walk0, List.append_eq_nil_iff, List.append_eq_nil_iff, List.append_eq_nil_iff, List.append_eq_nil_iff,
      walk0_seq tail gs, seqIssue_nil, chainIssue_nil, missing_nil, extra_nil, List.nil_append, Seq, Right, if_pos rfl]
    constructor
    · rintro ⟨⟨⟨⟨h1, h2⟩, h3⟩, h4⟩, h5⟩; exact ⟨h1, h2, fun d => ⟨h4 d, h3 d⟩, h5⟩
    · rintro ⟨h1, h2, h3, h4⟩; exact ⟨⟨⟨⟨h1, h2⟩, fun d => (h3 d).mpr⟩, fun d => (h3 d).mp⟩, h4⟩

end Import
end Verif
