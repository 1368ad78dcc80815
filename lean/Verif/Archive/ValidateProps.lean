import Verif.Archive.Validate
import Verif.Archive.ImportComplete
/-
What the validation reports.
-/
namespace Verif
namespace Import

variable {E : Env} {start : Nat} {a : Option Nat}

theorem allDigests_append (xs ys : List Rec) : allDigests E (xs ++ ys) = allDigests E xs ++ allDigests E ys :=
  List.filterMap_append ..

theorem hdrs_append (xs ys : List Rec) : hdrs (xs ++ ys) = hdrs xs ++ hdrs ys := List.filterMap_append ..

/-- The parent a header is compared with. -/
def parentOf (E : Env) (a : Option Nat) (pre : List Rec) : Option Nat :=
  match (hdrs pre).getLast? with
  | none => a
  | some g => some (E.dig g)

/-- The issues of one header. -/
def issueAt (E : Env) (v start : Nat) (a : Option Nat) (pre : List Rec) (h : CHdr) (post : List Rec) : List Issue :=
  seqIssue start (hdrs pre).length h ++ chainIssue (parentOf E a pre) h ++ missingIssues h (groupOf E v pre post) ++
    extraIssues h (groupOf E v pre post) ++ (if v = 0 then [] else orderIssue h (groupOf E v pre post))

theorem split_cons {P : List Rec → CHdr → List Rec → Prop} {pre rest : List Rec} {r : Rec} :
    (∃ p1 h p2, r :: rest = p1 ++ .hdr h :: p2 ∧ P (pre ++ p1) h p2) ↔
      (∃ h, r = .hdr h ∧ P pre h rest) ∨ (∃ p1 h p2, rest = p1 ++ .hdr h :: p2 ∧ P ((pre ++ [r]) ++ p1) h p2) := by
  constructor
  · rintro ⟨p1, h, p2, e, hp⟩
    cases p1 with
    | nil =>
      simp only [List.nil_append, List.cons.injEq] at e
      obtain ⟨rfl, rfl⟩ := e
      exact Or.inl ⟨h, rfl, by simpa using hp⟩
    | cons x p1 =>
      simp only [List.cons_append, List.cons.injEq] at e
      obtain ⟨rfl, rfl⟩ := e
      exact Or.inr ⟨p1, h, p2, rfl, by simpa using hp⟩
  · rintro (⟨h, rfl, hp⟩ | ⟨p1, h, p2, rfl, hp⟩)
    · exact ⟨[], h, rest, rfl, by simpa using hp⟩
    · exact ⟨r :: p1, h, p2, rfl, by simpa using hp⟩

theorem parentOf_hdr (pre : List Rec) (h : CHdr) : parentOf E a (pre ++ [.hdr h]) = some (E.dig h) := by
  unfold parentOf
  rw [hdrs_append]
  simp [hdrs]

theorem parentOf_plain (pre : List Rec) (r : Rec) (hr : plain r = true) : parentOf E a (pre ++ [r]) = parentOf E a pre := by
  unfold parentOf
  rw [hdrs_append]
  have : hdrs [r] = [] := by cases r <;> first | rfl | cases hr
  rw [this, List.append_nil]

theorem hdrs_plain (pre : List Rec) (r : Rec) (hr : plain r = true) : hdrs (pre ++ [r]) = hdrs pre := by
  rw [hdrs_append]
  have : hdrs [r] = [] := by cases r <;> first | rfl | cases hr
  rw [this, List.append_nil]

theorem hdrs_hdr (pre : List Rec) (h : CHdr) : hdrs (pre ++ [.hdr h]) = hdrs pre ++ [h] := by
  rw [hdrs_append]; rfl

theorem tw_epoch (m : Meta) (l : List Rec) : (Rec.epoch m :: l).takeWhile plain = .epoch m :: l.takeWhile plain := rfl

theorem tw_bat (b : Bat) (l : List Rec) : (Rec.bat b :: l).takeWhile plain = .bat b :: l.takeWhile plain := rfl

theorem tw_hdr (h : CHdr) (l : List Rec) : (Rec.hdr h :: l).takeWhile plain = [] := rfl

theorem group0_hdr (pre post : List Rec) (h : CHdr) : groupOf E 0 (pre ++ [.hdr h]) post = [] := by
  simp [groupOf, plain, allDigests]

theorem group0_epoch (pre post post' : List Rec) (m : Meta) : groupOf E 0 (pre ++ [.epoch m]) post = groupOf E 0 pre post' := by
  simp [groupOf, tw_epoch, allDigests]

theorem group0_bat (pre post post' : List Rec) (b : Bat) :
    groupOf E 0 (pre ++ [.bat b]) post = groupOf E 0 pre post' ++ [E.bdig b] := by
  simp [groupOf, tw_bat, allDigests]

theorem walk0_mem {i : Issue} : ∀ (post pre : List Rec),
    i ∈ walk0 E start post (groupOf E 0 pre []) (parentOf E a pre) (hdrs pre).length ↔
      (i = .metaMismatch ∧ ∃ m, Rec.epoch m ∈ post) ∨
        ∃ p1 h p2, post = p1 ++ .hdr h :: p2 ∧ i ∈ issueAt E 0 start a (pre ++ p1) h p2 := by
  intro post
  induction post with
  | nil => intro pre; simp [walk0]
  | cons r post ih =>
    intro pre
    rw [split_cons (P := fun pre h post => i ∈ issueAt E 0 start a pre h post)]
    have ih := ih (pre ++ [r])
    cases r with
    | epoch m =>
      rw [group0_epoch pre [] [], parentOf_plain _ _ rfl, hdrs_plain _ _ rfl] at ih
      simp only [walk0, List.mem_cons, ih]
      constructor
      · rintro (h | ⟨h, m', hm⟩ | h)
        · exact Or.inl ⟨h, m, Or.inl rfl⟩
        · exact Or.inl ⟨h, m', Or.inr hm⟩
        · exact Or.inr (Or.inr h)
      · rintro (⟨h, -⟩ | ⟨h, e, -⟩ | h)
        · exact Or.inl h
        · cases e
        · exact Or.inr (Or.inr h)
    | bat b =>
      rw [group0_bat pre [] [], parentOf_plain _ _ rfl, hdrs_plain _ _ rfl] at ih
      simp only [walk0, ih]
      constructor
      · rintro (⟨h, m', hm⟩ | h)
        · exact Or.inl ⟨h, m', by simp [hm]⟩
        · exact Or.inr (Or.inr h)
      · rintro (⟨h, m', hm⟩ | ⟨h, e, -⟩ | h)
        · exact Or.inl ⟨h, m', by simpa using hm⟩
        · cases e
        · exact Or.inr h
    | hdr h =>
      rw [group0_hdr, parentOf_hdr, hdrs_hdr, List.length_append, List.length_singleton] at ih
      have e : issueAt E 0 start a pre h post = seqIssue start (hdrs pre).length h ++ chainIssue (parentOf E a pre) h ++
          missingIssues h (groupOf E 0 pre []) ++ extraIssues h (groupOf E 0 pre []) := by
        simp [issueAt, groupOf]
      rw [walk0, ← e, List.mem_append, ih]
      constructor
      · rintro (h1 | ⟨h1, m', hm⟩ | h1)
        · exact Or.inr (Or.inl ⟨h, rfl, h1⟩)
        · exact Or.inl ⟨h1, m', by simp [hm]⟩
        · exact Or.inr (Or.inr h1)
      · rintro (⟨h1, m', hm⟩ | ⟨h', e', h1⟩ | h1)
        · exact Or.inr (Or.inl ⟨h1, m', by simpa using hm⟩)
        · cases e'; exact Or.inl h1
        · exact Or.inr (Or.inr h1)

/-- What `walk1` holds after `pre`. -/
def Inv1 (E : Env) (pre : List Rec) (o : Option CHdr) (bs : List Nat) : Prop :=
  match o with
  | none => hdrs pre = [] ∧ bs = allDigests E pre
  | some _ => hdrs pre ≠ []

theorem group1_none {v : Nat} (hv : v ≠ 0) {pre post : List Rec} (h : hdrs pre = []) :
    groupOf E v pre post = allDigests E pre ++ allDigests E (post.takeWhile plain) := by
  rw [groupOf, if_neg hv, if_pos h]

theorem group1_some {v : Nat} (hv : v ≠ 0) {pre post : List Rec} (h : hdrs pre ≠ []) :
    groupOf E v pre post = allDigests E (post.takeWhile plain) := by
  rw [groupOf, if_neg hv, if_neg h, List.nil_append]

theorem issueAt_v1 {v : Nat} (hv : v ≠ 0) (pre post : List Rec) (h : CHdr) : issueAt E v start a pre h post =
    seqIssue start (hdrs pre).length h ++ chainIssue (parentOf E a pre) h ++ closeGroup h (groupOf E v pre post) := by
  simp [issueAt, hv, closeGroup]

theorem walk1_mem {v : Nat} (hv : v ≠ 0) {i : Issue} : ∀ (post pre : List Rec) (o : Option CHdr) (bs : List Nat), Inv1 E pre o bs →
    (i ∈ walk1 E start post o bs (parentOf E a pre) (hdrs pre).length ↔
      (∃ h, o = some h ∧ i ∈ closeGroup h (bs ++ allDigests E (post.takeWhile plain))) ∨
      (i = .metaMismatch ∧ ∃ m, Rec.epoch m ∈ post) ∨
        ∃ p1 h p2, post = p1 ++ .hdr h :: p2 ∧ i ∈ issueAt E v start a (pre ++ p1) h p2) := by
  intro post
  induction post with
  | nil =>
    intro pre o bs hI
    cases o <;> simp [walk1, allDigests]
  | cons r post ih =>
    intro pre o bs hI
    rw [split_cons (P := fun pre h post => i ∈ issueAt E v start a pre h post)]
    cases r with
    | epoch m =>
      have hI' : Inv1 E (pre ++ [.epoch m]) o bs := by
        unfold Inv1 at hI ⊢
        rw [hdrs_plain _ _ rfl, allDigests_append]
        cases o <;> simpa [allDigests] using hI
      have ih := ih _ o bs hI'
      rw [parentOf_plain _ _ rfl, hdrs_plain _ _ rfl] at ih
      have e : allDigests E (List.takeWhile plain (.epoch m :: post)) = allDigests E (post.takeWhile plain) := by
        simp [tw_epoch, allDigests]
      rw [e]
      have w : walk1 E start (.epoch m :: post) o bs (parentOf E a pre) (hdrs pre).length =
          .metaMismatch :: walk1 E start post o bs (parentOf E a pre) (hdrs pre).length := by
        cases o <;> rfl
      rw [w, List.mem_cons, ih]
      constructor
      · rintro (h | h | ⟨h, m', hm⟩ | h)
        · exact Or.inr (Or.inl ⟨h, m, by simp⟩)
        · exact Or.inl h
        · exact Or.inr (Or.inl ⟨h, m', by simp [hm]⟩)
        · exact Or.inr (Or.inr (Or.inr h))
      · rintro (h | ⟨h, -⟩ | ⟨h, e, -⟩ | h)
        · exact Or.inr (Or.inl h)
        · exact Or.inl h
        · cases e
        · exact Or.inr (Or.inr (Or.inr h))
    | bat b =>
      have hI' : Inv1 E (pre ++ [.bat b]) o (bs ++ [E.bdig b]) := by
        unfold Inv1 at hI ⊢
        rw [hdrs_plain _ _ rfl, allDigests_append]
        cases o with
        | none => exact ⟨hI.1, by rw [hI.2]; rfl⟩
        | some h => exact hI
      have ih := ih _ o _ hI'
      rw [parentOf_plain _ _ rfl, hdrs_plain _ _ rfl] at ih
      have e : bs ++ allDigests E (List.takeWhile plain (.bat b :: post)) = (bs ++ [E.bdig b]) ++ allDigests E (post.takeWhile plain) := by
        simp [tw_bat, allDigests]
      rw [e]
      have w : walk1 E start (.bat b :: post) o bs (parentOf E a pre) (hdrs pre).length =
          walk1 E start post o (bs ++ [E.bdig b]) (parentOf E a pre) (hdrs pre).length := by
        cases o <;> rfl
      rw [w, ih]
      constructor
      · rintro (h | ⟨h, m', hm⟩ | h)
        · exact Or.inl h
        · exact Or.inr (Or.inl ⟨h, m', by simp [hm]⟩)
        · exact Or.inr (Or.inr (Or.inr h))
      · rintro (h | ⟨h, m', hm⟩ | ⟨h, e, -⟩ | h)
        · exact Or.inl h
        · exact Or.inr (Or.inl ⟨h, m', by simpa using hm⟩)
        · cases e
        · exact Or.inr (Or.inr h)
    | hdr h =>
      have hne : hdrs (pre ++ [Rec.hdr h]) ≠ [] := by rw [hdrs_hdr]; simp
      have e : bs ++ allDigests E (List.takeWhile plain (.hdr h :: post)) = bs := by
        simp [tw_hdr, allDigests]
      rw [e]
      cases o with
      | none =>
        have ih := ih (pre ++ [Rec.hdr h]) (some h) bs hne
        rw [parentOf_hdr, hdrs_hdr, List.length_append, List.length_singleton] at ih
        have e1 := issueAt_v1 (E := E) (start := start) (a := a) hv pre post h
        rw [group1_none hv hI.1, ← hI.2] at e1
        rw [walk1, List.mem_append, ih]
        constructor
        · rintro (h1 | ⟨h', e', h1⟩ | ⟨h1, m', hm⟩ | h1)
          · exact Or.inr (Or.inr (Or.inl ⟨h, rfl, by rw [e1]; exact List.mem_append_left _ h1⟩))
          · cases e'; exact Or.inr (Or.inr (Or.inl ⟨h, rfl, by rw [e1]; exact List.mem_append_right _ h1⟩))
          · exact Or.inr (Or.inl ⟨h1, m', by simp [hm]⟩)
          · exact Or.inr (Or.inr (Or.inr h1))
        · rintro (⟨h', e', h1⟩ | ⟨h1, m', hm⟩ | ⟨h', e', h1⟩ | h1)
          · cases e'
          · exact Or.inr (Or.inr (Or.inl ⟨h1, m', by simpa using hm⟩))
          · cases e'
            rw [e1] at h1
            rcases List.mem_append.mp h1 with h1 | h1
            · exact Or.inl h1
            · exact Or.inr (Or.inl ⟨h, rfl, h1⟩)
          · exact Or.inr (Or.inr (Or.inr h1))
      | some p =>
        have ih := ih (pre ++ [Rec.hdr h]) (some h) [] hne
        rw [parentOf_hdr, hdrs_hdr, List.length_append, List.length_singleton, List.nil_append] at ih
        have e1 := issueAt_v1 (E := E) (start := start) (a := a) hv pre post h
        rw [group1_some hv hI] at e1
        rw [walk1, List.append_assoc, List.append_assoc, List.mem_append, ← List.append_assoc, List.mem_append, ih]
        constructor
        · rintro (h1 | h1 | ⟨h', e', h1⟩ | ⟨h1, m', hm⟩ | h1)
          · exact Or.inl ⟨p, rfl, h1⟩
          · exact Or.inr (Or.inr (Or.inl ⟨h, rfl, by rw [e1]; exact List.mem_append_left _ h1⟩))
          · cases e'; exact Or.inr (Or.inr (Or.inl ⟨h, rfl, by rw [e1]; exact List.mem_append_right _ h1⟩))
          · exact Or.inr (Or.inl ⟨h1, m', by simp [hm]⟩)
          · exact Or.inr (Or.inr (Or.inr h1))
        · rintro (⟨h', e', h1⟩ | ⟨h1, m', hm⟩ | ⟨h', e', h1⟩ | h1)
          · cases e'; exact Or.inl h1
          · exact Or.inr (Or.inr (Or.inr (Or.inl ⟨h1, m', by simpa using hm⟩)))
          · cases e'
            rw [e1] at h1
            rcases List.mem_append.mp h1 with h1 | h1
            · exact Or.inr (Or.inl h1)
            · exact Or.inr (Or.inr (Or.inl ⟨h, rfl, h1⟩))
          · exact Or.inr (Or.inr (Or.inr (Or.inr h1)))

theorem walk_mem (v : Nat) {i : Issue} (rs : List Rec) : i ∈ walk E v start a rs ↔
    (i = .metaMismatch ∧ ∃ m, Rec.epoch m ∈ rs) ∨
      ∃ p1 h p2, rs = p1 ++ .hdr h :: p2 ∧ i ∈ issueAt E v start a p1 h p2 := by
  unfold walk
  split
  · rename_i hv
    subst hv
    exact walk0_mem (E := E) (start := start) (a := a) rs []
  · rename_i hv
    have := walk1_mem (E := E) (start := start) (a := a) (i := i) hv rs [] none [] ⟨rfl, rfl⟩
    rw [show parentOf E a [] = a from rfl, show (hdrs []).length = 0 from rfl] at this
    rw [this]
    constructor
    · rintro (⟨h, e, -⟩ | h)
      · cases e
      · simpa using h
    · exact fun h => Or.inr (by simpa using h)

/-! ### Order -/

theorem expected_sorted (h : CHdr) : h.expected.Pairwise (· < ·) := SMap.sorted_ofList _

theorem mem_expected {h : CHdr} {d : Nat} : d ∈ h.expected ↔ d ∈ h.digests := by
  unfold CHdr.expected
  rw [SMap.mem_keys_ofList]
  simp

theorem sorted_same {l l' : List Nat} (h : l.Pairwise (· < ·)) (h' : l'.Pairwise (· < ·)) (hm : ∀ d, d ∈ l ↔ d ∈ l') : l = l' := by
  induction l generalizing l' with
  | nil =>
    cases l' with
    | nil => rfl
    | cons x l' => exact absurd ((hm x).mpr (by simp)) (by simp)
  | cons x l ih =>
    cases l' with
    | nil => exact absurd ((hm x).mp (by simp)) (by simp)
    | cons y l' =>
      rw [List.pairwise_cons] at h h'
      have hxy : x = y := by
        have h1 := (hm x).mp (by simp)
        have h2 := (hm y).mpr (by simp)
        rcases List.mem_cons.mp h1 with e | e
        · exact e
        · rcases List.mem_cons.mp h2 with e2 | e2
          · exact e2.symm
          · have := h'.1 x e
            have := h.1 y e2
            omega
      subst hxy
      rw [ih h.2 h'.2 ?_]
      intro d
      have := hm d
      rw [List.mem_cons, List.mem_cons] at this
      constructor
      · intro hd
        rcases this.mp (Or.inr hd) with e | e
        · have := h.1 d hd; omega
        · exact e
      · intro hd
        rcases this.mpr (Or.inr hd) with e | e
        · have := h'.1 d hd; omega
        · exact e

theorem missing_nil {h : CHdr} {bs : List Nat} : missingIssues h bs = [] ↔ ∀ d ∈ h.digests, d ∈ bs := by
  simp [missingIssues]

theorem extra_nil {h : CHdr} {bs : List Nat} : extraIssues h bs = [] ↔ ∀ d ∈ bs, d ∈ h.digests := by
  simp [extraIssues]

theorem mem_order {h : CHdr} {bs : List Nat} {i : Issue} : i ∈ orderIssue h bs ↔
    i = .unsorted h.number ∧ (∀ d, d ∈ bs ↔ d ∈ h.digests) ∧ ¬ bs.Pairwise (· < ·) := by
  unfold orderIssue
  have key : (∀ d ∈ h.digests, d ∈ bs) → (∀ d ∈ bs, d ∈ h.digests) → (bs ≠ h.expected ↔ ¬ bs.Pairwise (· < ·)) := by
    intro h1 h2
    refine not_congr ⟨fun e => by rw [e]; exact expected_sorted h, fun hs => ?_⟩
    exact sorted_same hs (expected_sorted h) (fun d => by rw [mem_expected]; exact ⟨h2 d, h1 d⟩)
  split
  · rename_i hc
    have c1 := missing_nil.mp hc.1
    have c2 := extra_nil.mp hc.2.1
    rw [List.mem_singleton]
    exact ⟨fun e => ⟨e, fun d => ⟨c2 d, c1 d⟩, (key c1 c2).mp hc.2.2⟩, fun e => e.1⟩
  · rename_i hc
    constructor
    · intro h; cases h
    · rintro ⟨-, h1, h2⟩
      exact absurd ⟨missing_nil.mpr fun d hd => (h1 d).mpr hd, extra_nil.mpr fun d hd => (h1 d).mp hd,
        (key (fun d hd => (h1 d).mpr hd) (fun d hd => (h1 d).mp hd)).mpr h2⟩ hc

/-- **Every problem is reported, and only problems are.** -/
theorem walk_exact (v : Nat) (rs : List Rec) (i : Issue) :
    i ∈ (walk E v start a rs).map (classify (allDigests E rs)) ↔ Defect E v start a rs i := by
  rw [List.mem_map]
  constructor
  · rintro ⟨j, hj, rfl⟩
    rw [walk_mem] at hj
    rcases hj with ⟨rfl, m, hm⟩ | ⟨pre, h, post, e, hj⟩
    · exact .again m hm
    · simp only [issueAt, List.mem_append] at hj
      rcases hj with (((hj | hj) | hj) | hj) | hj
      · unfold seqIssue at hj
        split at hj
        · cases hj
        · rename_i hn
          rw [List.mem_singleton] at hj
          subst hj
          exact .number pre post h e hn
      · unfold chainIssue parentOf at hj
        cases hg : (hdrs pre).getLast? with
        | none =>
          rw [hg] at hj
          cases ha : a with
          | none => rw [ha] at hj; cases hj
          | some p =>
            rw [ha] at hj
            dsimp only at hj
            split at hj
            · cases hj
            · rename_i hp
              rw [List.mem_singleton] at hj
              subst hj
              exact .first pre post h p e (List.getLast?_eq_none_iff.mp hg) rfl hp
        | some g =>
          rw [hg] at hj
          dsimp only at hj
          split at hj
          · cases hj
          · rename_i hp
            rw [List.mem_singleton] at hj
            subst hj
            exact .link pre post h g e hg hp
      · obtain ⟨d, hd, rfl⟩ := List.mem_map.mp hj
        rw [List.mem_filter] at hd
        exact .missing pre post h d e hd.1 (by simpa using hd.2)
      · obtain ⟨d, hd, rfl⟩ := List.mem_map.mp hj
        rw [List.mem_filter, List.mem_dedup] at hd
        exact .extra pre post h d e (by simpa using hd.2) hd.1
      · split at hj
        · cases hj
        · rename_i hv
          rw [mem_order] at hj
          obtain ⟨rfl, h1, h2⟩ := hj
          exact .order pre post h hv e h1 h2
  · intro hd
    cases hd with
    | number pre post h e hn =>
      refine ⟨.nonSeq (start + (hdrs pre).length) h.number, (walk_mem v rs).mpr (Or.inr ⟨pre, h, post, e, ?_⟩), rfl⟩
      simp only [issueAt, List.mem_append, seqIssue, if_neg hn]
      simp
    | first pre post h p e h0 ha hp =>
      refine ⟨.chainBreak h.number p h.parent, (walk_mem v rs).mpr (Or.inr ⟨pre, h, post, e, ?_⟩), rfl⟩
      have : chainIssue (parentOf E a pre) h = [.chainBreak h.number p h.parent] := by
        simp only [parentOf, h0, List.getLast?_nil, ha, chainIssue, if_neg hp]
      simp only [issueAt, List.mem_append, this]
      simp
    | link pre post h g e hg hp =>
      refine ⟨.chainBreak h.number (E.dig g) h.parent, (walk_mem v rs).mpr (Or.inr ⟨pre, h, post, e, ?_⟩), rfl⟩
      have : chainIssue (parentOf E a pre) h = [.chainBreak h.number (E.dig g) h.parent] := by
        simp only [parentOf, hg, chainIssue, if_neg hp]
      simp only [issueAt, List.mem_append, this]
      simp
    | missing pre post h d e hd hm =>
      refine ⟨.missing h.number d false, (walk_mem v rs).mpr (Or.inr ⟨pre, h, post, e, ?_⟩), rfl⟩
      have : Issue.missing h.number d false ∈ missingIssues h (groupOf E v pre post) :=
        List.mem_map.mpr ⟨d, List.mem_filter.mpr ⟨hd, by simpa using hm⟩, rfl⟩
      simp only [issueAt, List.mem_append, this]
      simp
    | extra pre post h d e hd hm =>
      refine ⟨.extra h.number d, (walk_mem v rs).mpr (Or.inr ⟨pre, h, post, e, ?_⟩), rfl⟩
      have : Issue.extra h.number d ∈ extraIssues h (groupOf E v pre post) :=
        List.mem_map.mpr ⟨d, List.mem_filter.mpr ⟨List.mem_dedup.mpr hm, by simpa using hd⟩, rfl⟩
      simp only [issueAt, List.mem_append, this]
      simp
    | order pre post h hv e hs ho =>
      refine ⟨.unsorted h.number, (walk_mem v rs).mpr (Or.inr ⟨pre, h, post, e, ?_⟩), rfl⟩
      have : Issue.unsorted h.number ∈ orderIssue h (groupOf E v pre post) := mem_order.mpr ⟨rfl, hs, ho⟩
      simp only [issueAt, List.mem_append, if_neg hv, this]
      simp
    | again m hm => exact ⟨.metaMismatch, (walk_mem v rs).mpr (Or.inl ⟨rfl, m, hm⟩), rfl⟩

theorem readAll_map (l : List Rec) : readAll (l.map some) = some l := by
  induction l with
  | nil => rfl
  | cons r l ih => simp [readAll, ih]

theorem readAll_some {rs : List (Option Rec)} {l : List Rec} (h : readAll rs = some l) : rs = l.map some := by
  induction rs generalizing l with
  | nil => cases h; rfl
  | cons r rs ih =>
    cases r with
    | none => cases h
    | some r =>
      rw [readAll, Option.map_eq_some_iff] at h
      obtain ⟨l', h', rfl⟩ := h
      rw [ih h']
      rfl

/-- The report is made exactly if all records can be read and the first is the meta record. -/
theorem report_iff (E : Env) (v epoch : Nat) (prev : Option Ep.Rec) (rs : List (Option Rec)) :
    (∃ r, validate E v epoch prev rs = some r) ↔ ∃ (m : Meta) (l : List Rec), rs = some (.epoch m) :: l.map some := by
  constructor
  · rintro ⟨r, h⟩
    unfold validate at h
    split at h
    · rename_i m rs'
      cases hr : readAll rs' with
      | none => rw [hr] at h; cases h
      | some l => exact ⟨m, l, by rw [readAll_some hr]⟩
    · cases h
  · rintro ⟨m, l, rfl⟩
    simp only [validate, readAll_map]
    exact ⟨_, rfl⟩

/-- **The report.**  An issue is reported exactly if the file has that defect, or the meta record is not that of
the epoch or (if the previous record is given) does not follow it. -/
theorem report_exact {v epoch : Nat} {prev : Option Ep.Rec} {m : Meta} {l : List Rec} {r : Report}
    (h : validate E v epoch prev (some (.epoch m) :: l.map some) = some r) (i : Issue) :
    i ∈ r.issues ↔ Defect E v m.start (anchor epoch prev) l i ∨
      (i = .metaMismatch ∧ (m.epoch ≠ epoch ∨ ∃ p, prev = some p ∧ verifyMeta epoch p m = false)) := by
  simp only [validate, readAll_map] at h
  cases h
  dsimp only
  rw [List.map_append, List.mem_append, walk_exact, or_comm]
  refine or_congr Iff.rfl ?_
  unfold metaIssues
  by_cases he : m.epoch = epoch
  · rw [if_pos he]
    cases prev with
    | none => simp [he]
    | some p =>
      cases hv : verifyMeta epoch p m with
      | true => simp [he, hv]
      | false => simp [he, hv, classify]
  · rw [if_neg he]
    cases prev with
    | none => simp [he, classify]
    | some p =>
      cases hv : verifyMeta epoch p m with
      | true =>
        simp [he, classify]
        exact fun _ e => e.symm
      | false =>
        simp [he, classify]
        exact fun _ e => e.symm

end Import
end Verif
