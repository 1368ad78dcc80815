import Verif.Archive.CertPack
import Mathlib.Tactic.Common
/-
Properties of the certificate pack.
-/
namespace Verif
namespace CertPack

/-! ## Specification -/

/-- The pack gives this certificate for this digest, whatever reading damaged bytes would give. -/
def Gives (i : Inner) (k : Nat) (c : Cert) : Prop := c.digest = k ∧ ∀ junk, i.get junk k = some c

def Holds (i : Inner) (k : Nat) : Prop := ∃ c : Cert, Gives i k c

/-- The index has no entry for this digest, or one that leads to a certificate with it. -/
def SoundAt (i : Inner) (k : Nat) : Prop :=
  ∀ p, i.idx.raw k = some p → ∃ c : Cert, c.digest = k ∧ recAt i.file p = some c ∧ p + c.len ≤ i.idx.len

/-- Events without opening the pack again. -/
def Ev.inRun : Ev → Prop
  | .push _ => True
  | .work _ => True
  | .restart _ => False
  | .refuse _ => False

/-- Restarts that do not hit the split of the bucket of this digest. -/
def Ev.keeps (k : Nat) : Ev → Prop
  | .restart r => r.lost k = false
  | _ => True

/-- What follows the synced bytes after a crash is damaged or was written to the file. -/
def Ev.legal (s : Sys) : Ev → Prop
  | .restart r => ∀ c : Cert, .rec_ c ∈ r.tail → .rec_ c ∈ s.inner.file
  | _ => True

/-- A restart that does not interrupt the writing of the index: none was begun since the last completed
sync, and the index was not written on the way out unless it was synced. -/
def Ev.clean (s : Sys) : Ev → Prop
  | .restart r => s.inner.more = [] ∧ (r.written = true → s.inner.idx = s.inner.base)
  | _ => True

/-- A condition on each event in the state in which it happens. -/
def Along (P : Sys → Ev → Prop) : Sys → List Ev → Prop
  | _, [] => True
  | s, e :: l => P s e ∧ Along P (step s e) l

/-! ## The data file -/

theorem len_pos (c : Cert) : 0 < c.len := by unfold Cert.len; omega

theorem total_append (l m : List Seg) : total (l ++ m) = total l + total m := by
  induction l with
  | nil => simp [total]
  | cons s l ih => simp only [List.cons_append, total, ih]; omega

theorem atSeg_left {l : List Seg} {p : Nat} {c : Cert} (m : List Seg) :
    atSeg l p = some c → atSeg (l ++ m) p = some c := by
  induction l generalizing p with
  | nil => intro h; cases h
  | cons s l ih =>
    intro h
    simp only [List.cons_append, atSeg] at h ⊢
    split
    · rename_i h1; rw [if_pos h1] at h; exact h
    · rename_i h1; rw [if_neg h1] at h; exact ih h

theorem atSeg_end (l : List Seg) (c : Cert) : atSeg (l ++ [.rec_ c]) (total l) = some c := by
  induction l with
  | nil =>
    have := len_pos c
    simp [atSeg, total, Seg.len, Seg.cert, this]
  | cons s l ih =>
    simp only [List.cons_append, atSeg, total]
    rw [if_neg (by omega), Nat.add_sub_cancel_left]
    exact ih

theorem atSeg_le {l : List Seg} {p : Nat} {c : Cert} : atSeg l p = some c → p + c.len ≤ total l := by
  induction l generalizing p with
  | nil => intro h; cases h
  | cons s l ih =>
    intro h
    simp only [atSeg] at h
    simp only [total]
    split at h
    · split at h
      · cases s with
        | rec_ d => simp only [Seg.cert, Option.some.injEq] at h; subst h; simp only [Seg.len]; omega
        | junk n => cases h
      · cases h
    · have := ih h; omega

theorem atSeg_mem {l : List Seg} {p : Nat} {c : Cert} : atSeg l p = some c → Seg.rec_ c ∈ l := by
  induction l generalizing p with
  | nil => intro h; cases h
  | cons s l ih =>
    intro h
    simp only [atSeg] at h
    split at h
    · split at h
      · cases s with
        | rec_ d => simp only [Seg.cert, Option.some.injEq] at h; subst h; exact List.mem_cons_self
        | junk n => cases h
      · cases h
    · exact List.mem_cons_of_mem _ (ih h)

/-- Appending does not put another record where one begins, and a new one only at the end. -/
theorem atSeg_append {l : List Seg} {s : Seg} {p : Nat} {c : Cert} (h : atSeg (l ++ [s]) p = some c) :
    atSeg l p = some c ∨ p = total l ∧ s = .rec_ c := by
  induction l generalizing p with
  | nil =>
    right
    simp only [List.nil_append, atSeg] at h
    split at h
    · split at h
      · cases s with
        | rec_ d => simp only [Seg.cert, Option.some.injEq] at h; subst h; exact ⟨by assumption, rfl⟩
        | junk n => cases h
      · cases h
    · cases h
  | cons a l ih =>
    simp only [List.cons_append, atSeg] at h
    split at h
    · rename_i h1
      left
      simp only [atSeg]; rw [if_pos h1]; exact h
    · rename_i h1
      rcases ih h with h2 | ⟨h2, h3⟩
      · left; simp only [atSeg]; rw [if_neg h1]; exact h2
      · right; exact ⟨by simp only [total]; omega, h3⟩

theorem atSeg_cut {l : List Seg} {p n : Nat} {c : Cert} :
    atSeg l p = some c → p + c.len ≤ n → atSeg (cutSeg l n) p = some c := by
  induction l generalizing p n with
  | nil => intro h; cases h
  | cons s l ih =>
    intro h hn
    simp only [atSeg] at h
    simp only [cutSeg]
    split at h
    · rename_i h1
      split at h
      · cases s with
        | rec_ d =>
          simp only [Seg.cert, Option.some.injEq] at h; subst h
          rename_i h2
          rw [if_pos (show (Seg.rec_ d).len ≤ n by simp only [Seg.len]; omega)]
          simp only [atSeg]; rw [if_pos h1, if_pos h2]; rfl
        | junk n => cases h
      · cases h
    · rename_i h1
      rw [if_pos (by omega)]
      simp only [atSeg]; rw [if_neg h1]
      exact ih h (by omega)

theorem total_cut (l : List Seg) (n : Nat) : total (cutSeg l n) = min n (total l) := by
  induction l generalizing n with
  | nil => simp [cutSeg, total]
  | cons s l ih =>
    simp only [cutSeg]
    split
    · simp only [total, ih]; omega
    · rename_i h
      split
      · rename_i h0
        show 0 = min n (s.len + total l)
        omega
      · show n + 0 = min n (s.len + total l)
        omega

theorem cut_mem {l : List Seg} {n : Nat} {c : Cert} : Seg.rec_ c ∈ cutSeg l n → Seg.rec_ c ∈ l := by
  induction l generalizing n with
  | nil => intro h; simp [cutSeg] at h
  | cons s l ih =>
    intro h
    simp only [cutSeg] at h
    split at h
    · rcases List.mem_cons.1 h with h | h
      · exact h ▸ List.mem_cons_self
      · exact List.mem_cons_of_mem _ (ih h)
    · split at h
      · cases h
      · simp at h

theorem recAt_ge {l : List Seg} {p : Nat} {c : Cert} (h : recAt l p = some c) :
    header ≤ p ∧ atSeg l (p - header) = some c := by
  unfold recAt at h
  split at h
  · cases h
  · exact ⟨by omega, h⟩

theorem recAt_of {l : List Seg} {p : Nat} {c : Cert} (h1 : header ≤ p) (h2 : atSeg l (p - header) = some c) :
    recAt l p = some c := by
  unfold recAt; rw [if_neg (by omega)]; exact h2

theorem recAt_le {l : List Seg} {p : Nat} {c : Cert} (h : recAt l p = some c) : p + c.len ≤ fileLen l := by
  obtain ⟨h1, h2⟩ := recAt_ge h
  have := atSeg_le h2
  unfold fileLen; omega

theorem recAt_left {l : List Seg} {p : Nat} {c : Cert} (m : List Seg) (h : recAt l p = some c) :
    recAt (l ++ m) p = some c :=
  recAt_of (recAt_ge h).1 (atSeg_left m (recAt_ge h).2)

theorem recAt_end (l : List Seg) (c : Cert) : recAt (l ++ [.rec_ c]) (fileLen l) = some c := by
  refine recAt_of (by unfold fileLen; omega) ?_
  have : fileLen l - header = total l := by unfold fileLen; omega
  rw [this]; exact atSeg_end l c

theorem recAt_mem {l : List Seg} {p : Nat} {c : Cert} (h : recAt l p = some c) : Seg.rec_ c ∈ l :=
  atSeg_mem (recAt_ge h).2

theorem recAt_append {l : List Seg} {s : Seg} {p : Nat} {c : Cert} (h : recAt (l ++ [s]) p = some c) :
    recAt l p = some c ∨ p = fileLen l ∧ s = .rec_ c := by
  obtain ⟨h1, h2⟩ := recAt_ge h
  rcases atSeg_append h2 with h3 | ⟨h3, h4⟩
  · exact Or.inl (recAt_of h1 h3)
  · exact Or.inr ⟨by unfold fileLen; omega, h4⟩

theorem recAt_cut {l : List Seg} {p n : Nat} {c : Cert} (h : recAt l p = some c)
    (hn : p + c.len ≤ header + n) : recAt (cutSeg l n) p = some c := by
  obtain ⟨h1, h2⟩ := recAt_ge h
  exact recAt_of h1 (atSeg_cut h2 (by omega))

/-! ## Stored and synced certificates -/

/-- In the pack: the index leads to it. -/
def Stored (i : Inner) (k : Nat) (c : Cert) : Prop :=
  ∃ p : Nat, c.digest = k ∧ recAt i.file p = some c ∧ i.idx.raw k = some p ∧
    i.idx.vis k = true ∧ p + c.len ≤ i.idx.len

/-- On the disk, in every version of the index that can be found there. -/
def Good (i : Inner) (k : Nat) (c : Cert) : Prop :=
  ∃ p : Nat, c.digest = k ∧ recAt i.file p = some c ∧ p + c.len ≤ header + i.dur ∧
    ∀ v, v = i.idx ∨ v = i.base ∨ v ∈ i.more →
      v.raw k = some p ∧ v.vis k = true ∧ p + c.len ≤ v.len

theorem Good.stored {i : Inner} {k : Nat} {c : Cert} (h : Good i k c) : Stored i k c := by
  obtain ⟨p, h1, h2, _, h4⟩ := h
  exact ⟨p, h1, h2, h4 i.idx (Or.inl rfl)⟩

theorem Stored.load {i : Inner} {k : Nat} {c : Cert} (h : Stored i k c) : ∃ p, i.idx.load k = some p := by
  obtain ⟨p, _, _, h3, h4, _⟩ := h
  exact ⟨p, by unfold Snap.load; rw [if_pos h4, h3]⟩

theorem Stored.holds {i : Inner} {k : Nat} {c : Cert} (h : Stored i k c) : Gives i k c := by
  obtain ⟨p, h1, h2, h3, h4, h5⟩ := h
  refine ⟨h1, fun junk => ?_⟩
  have hl : i.idx.load k = some p := by unfold Snap.load; rw [if_pos h4, h3]
  have := recAt_le h2
  have := len_pos c
  unfold Inner.get
  rw [hl]; dsimp only
  rw [if_neg (by omega), h2]
  simp only [Option.some_or]
  rw [if_pos h1]

theorem Stored.contains {i : Inner} {k : Nat} {c : Cert} (h : Stored i k c) : i.contains k = true := by
  obtain ⟨p, h1, h2, h3, h4, h5⟩ := h
  have hl : i.idx.load k = some p := by unfold Snap.load; rw [if_pos h4, h3]
  have := recAt_le h2
  have := len_pos c
  unfold Inner.contains
  rw [hl]; dsimp only
  rw [decide_eq_true_eq]; omega

theorem Stored.sound {i : Inner} {k : Nat} {c : Cert} (h : Stored i k c) : SoundAt i k := by
  obtain ⟨p, h1, h2, h3, h4, h5⟩ := h
  intro q hq
  rw [h3] at hq; cases hq
  exact ⟨c, h1, h2, h5⟩

theorem stored_of_load {i : Inner} {k : Nat} (hs : SoundAt i k) (hl : i.idx.load k ≠ none) :
    ∃ c, Stored i k c := by
  unfold Snap.load at hl
  by_cases hv : i.idx.vis k = true
  · rw [if_pos hv] at hl
    obtain ⟨p, hp⟩ := Option.ne_none_iff_exists'.1 hl
    obtain ⟨c, h1, h2, h3⟩ := hs p hp
    exact ⟨c, p, h1, h2, hp, hv, h3⟩
  · rw [if_neg hv] at hl; exact absurd rfl hl

/-- What a save does, case by case. -/
theorem save_cases (i : Inner) (c : Cert) (o : SaveOut) :
    (∃ p, i.idx.load c.digest = some p ∧ i.save c o = (i, none)) ∨
    i.idx.load c.digest = none ∧
      ((∃ e, i.save c o = (i, some e)) ∨
       (∃ e n, i.readOnly = false ∧ i.save c o =
          ({ i with file := i.file ++ [.junk n], failed := some e }, some (.append e))) ∨
       (∃ e, i.readOnly = false ∧ i.save c o =
          ({ i with file := i.file ++ [.rec_ c] }, some (.indexAppend e))) ∨
       ∃ extra, i.readOnly = false ∧ i.failed = none ∧ i.save c o =
          ({ i with file := i.file ++ [.rec_ c],
                    idx := { i.idx.save c.digest (fileLen i.file) extra with
                               len := fileLen (i.file ++ [.rec_ c]) } }, none)) := by
  unfold Inner.save
  cases hl : i.idx.load c.digest with
  | some p => exact Or.inl ⟨p, rfl, rfl⟩
  | none =>
    right
    refine ⟨rfl, ?_⟩
    dsimp only
    by_cases hr : i.readOnly = true
    · rw [if_pos hr]; exact Or.inl ⟨_, rfl⟩
    · rw [if_neg hr]
      have hr' : i.readOnly = false := by simpa using hr
      cases hf : i.failed with
      | some e => exact Or.inl ⟨_, rfl⟩
      | none =>
        cases o with
        | serialize e => exact Or.inl ⟨_, rfl⟩
        | write e n => exact Or.inr (Or.inl ⟨e, n, hr', rfl⟩)
        | index e => exact Or.inr (Or.inr (Or.inl ⟨e, hr', by rfl⟩))
        | fine extra => exact Or.inr (Or.inr (Or.inr ⟨extra, hr', rfl, by rfl⟩))

theorem save_readOnly (i : Inner) (c : Cert) (o : SaveOut) : (i.save c o).1.readOnly = i.readOnly := by
  rcases save_cases i c o with ⟨p, _, h⟩ | ⟨_, ⟨e, h⟩ | ⟨e, n, _, h⟩ | ⟨e, _, h⟩ | ⟨x, _, _, h⟩⟩ <;> rw [h]

/-- A save that succeeds leaves an entry that is found. -/
theorem save_load {i : Inner} {c : Cert} {o : SaveOut} (h : (i.save c o).2 = none) :
    (i.save c o).1.idx.load c.digest ≠ none := by
  rcases save_cases i c o with ⟨p, hp, e⟩ | ⟨_, ⟨x, e⟩ | ⟨x, n, _, e⟩ | ⟨x, _, e⟩ | ⟨x, _, _, e⟩⟩
  · rw [e]; simp [hp]
  · rw [e] at h; cases h
  · rw [e] at h; cases h
  · rw [e] at h; cases h
  · rw [e]; simp [Snap.load, Snap.save]

/-- Saving one digest leaves the entry of another as it is. -/
theorem load_save_ne {v : Snap} {j p n k q : Nat} {extra : Nat → Bool} (hk : k ≠ j)
    (h : v.load k = some q) : Snap.load { v.save j p extra with len := n } k = some q := by
  unfold Snap.load at h
  by_cases hv : v.vis k = true
  · rw [if_pos hv] at h
    have h1 : ({ v.save j p extra with len := n } : Snap).vis k = true := by
      show (v.vis k || extra k || decide (k = j)) = true
      rw [hv]; rfl
    unfold Snap.load
    rw [if_pos h1]
    show (if k = j then some p else v.raw k) = some q
    rw [if_neg hk]; exact h
  · rw [if_neg hv] at h; cases h

theorem load_save {v : Snap} {j p n k : Nat} {extra : Nat → Bool} (h : v.load k ≠ none) :
    Snap.load { v.save j p extra with len := n } k ≠ none := by
  by_cases hk : k = j
  · have h1 : ({ v.save j p extra with len := n } : Snap).vis k = true := by
      show (v.vis k || extra k || decide (k = j)) = true
      simp [hk]
    unfold Snap.load
    rw [if_pos h1]
    show (if k = j then some p else v.raw k) ≠ none
    rw [if_pos hk]; simp
  · obtain ⟨q, hq⟩ := Option.ne_none_iff_exists'.1 h
    rw [load_save_ne hk hq]; simp

/-- An entry that is found stays found. -/
theorem save_load_mono {i : Inner} {c : Cert} {o : SaveOut} {k : Nat} (h : i.idx.load k ≠ none) :
    (i.save c o).1.idx.load k ≠ none := by
  rcases save_cases i c o with ⟨p, hp, e⟩ | ⟨_, ⟨x, e⟩ | ⟨x, n, _, e⟩ | ⟨x, _, e⟩ | ⟨x, _, _, e⟩⟩
  · rw [e]; exact h
  · rw [e]; exact h
  · rw [e]; exact h
  · rw [e]; exact h
  · rw [e]
    exact load_save h

theorem save_sound {i : Inner} {c : Cert} {o : SaveOut} {k : Nat} (h : SoundAt i k) :
    SoundAt (i.save c o).1 k := by
  rcases save_cases i c o with ⟨p, hp, e⟩ | ⟨_, ⟨x, e⟩ | ⟨x, n, _, e⟩ | ⟨x, _, e⟩ | ⟨x, _, _, e⟩⟩
  · rw [e]; exact h
  · rw [e]; exact h
  · rw [e]; intro p hp
    obtain ⟨d, h1, h2, h3⟩ := h p hp
    exact ⟨d, h1, recAt_left _ h2, h3⟩
  · rw [e]; intro p hp
    obtain ⟨d, h1, h2, h3⟩ := h p hp
    exact ⟨d, h1, recAt_left _ h2, h3⟩
  · rw [e]; intro p hp
    simp only [Snap.save] at hp
    by_cases hk : k = c.digest
    · rw [if_pos hk] at hp
      cases hp
      exact ⟨c, hk.symm, recAt_end _ _, recAt_le (recAt_end _ _)⟩
    · rw [if_neg hk] at hp
      obtain ⟨d, h1, h2, h3⟩ := h p hp
      exact ⟨d, h1, recAt_left _ h2, recAt_le (recAt_left [.rec_ c] h2)⟩

theorem save_stored {i : Inner} {c d : Cert} {o : SaveOut} {k : Nat} (h : Stored i k d) :
    Stored (i.save c o).1 k d := by
  obtain ⟨q, hq⟩ := h.load
  obtain ⟨p, h1, h2, h3, h4, h5⟩ := h
  rcases save_cases i c o with ⟨x, hp, e⟩ | ⟨hl, ⟨x, e⟩ | ⟨x, n, _, e⟩ | ⟨x, _, e⟩ | ⟨x, _, _, e⟩⟩
  · rw [e]; exact ⟨p, h1, h2, h3, h4, h5⟩
  · rw [e]; exact ⟨p, h1, h2, h3, h4, h5⟩
  · rw [e]; exact ⟨p, h1, recAt_left _ h2, h3, h4, h5⟩
  · rw [e]; exact ⟨p, h1, recAt_left _ h2, h3, h4, h5⟩
  · rw [e]
    have hk : k ≠ c.digest := by intro hk; rw [← hk, hq] at hl; cases hl
    refine ⟨p, h1, recAt_left _ h2, ?_, ?_, recAt_le (recAt_left [.rec_ c] h2)⟩
    · simp only [Snap.save]; rw [if_neg hk]; exact h3
    · simp only [Snap.save]; rw [h4]; rfl

theorem save_good {i : Inner} {c d : Cert} {o : SaveOut} {k : Nat} (h : Good i k d) :
    Good (i.save c o).1 k d := by
  obtain ⟨q, hq⟩ := h.stored.load
  obtain ⟨p, h1, h2, h3, h4⟩ := h
  rcases save_cases i c o with ⟨x, hp, e⟩ | ⟨hl, ⟨x, e⟩ | ⟨x, n, _, e⟩ | ⟨x, _, e⟩ | ⟨x, _, _, e⟩⟩
  · rw [e]; exact ⟨p, h1, h2, h3, h4⟩
  · rw [e]; exact ⟨p, h1, h2, h3, h4⟩
  · rw [e]; exact ⟨p, h1, recAt_left _ h2, h3, h4⟩
  · rw [e]; exact ⟨p, h1, recAt_left _ h2, h3, h4⟩
  · rw [e]
    have hk : k ≠ c.digest := by intro hk; rw [← hk, hq] at hl; cases hl
    refine ⟨p, h1, recAt_left _ h2, h3, ?_⟩
    intro v hv
    rcases hv with hv | hv | hv
    · obtain ⟨a, b, _⟩ := h4 i.idx (Or.inl rfl)
      subst hv
      refine ⟨?_, ?_, recAt_le (recAt_left [.rec_ c] h2)⟩
      · simp only [Snap.save]; rw [if_neg hk]; exact a
      · simp only [Snap.save]; rw [b]; rfl
    · exact h4 v (Or.inr (Or.inl hv))
    · exact h4 v (Or.inr (Or.inr hv))

theorem persist_cases (i : Inner) (o : PersistOut) :
    i.readOnly = true ∧ i.persist o = (i, none) ∨
    i.readOnly = false ∧ ((∃ e, i.persist o = (i, some e)) ∨
      (∃ e, i.persist o =
        ({ i with dur := total i.file, more := i.more ++ [i.idx] }, some (.persist e))) ∨
      i.persist o = ({ i with dur := total i.file, base := i.idx, more := [] }, none)) := by
  unfold Inner.persist
  by_cases hr : i.readOnly = true
  · rw [if_pos hr]; exact Or.inl ⟨hr, rfl⟩
  · rw [if_neg hr]
    right
    refine ⟨by simpa using hr, ?_⟩
    cases hf : i.failed with
    | some e => exact Or.inl ⟨_, rfl⟩
    | none =>
      cases o with
      | data e => exact Or.inl ⟨_, rfl⟩
      | index e => exact Or.inr (Or.inl ⟨e, by rfl⟩)
      | fine => exact Or.inr (Or.inr (by rfl))

theorem persist_idx (i : Inner) (o : PersistOut) :
    (i.persist o).1.idx = i.idx ∧ (i.persist o).1.file = i.file ∧
      (i.persist o).1.readOnly = i.readOnly := by
  rcases persist_cases i o with ⟨_, h⟩ | ⟨_, ⟨e, h⟩ | ⟨e, h⟩ | h⟩ <;> rw [h] <;> exact ⟨rfl, rfl, rfl⟩

theorem persist_sound {i : Inner} {o : PersistOut} {k : Nat} (h : SoundAt i k) :
    SoundAt (i.persist o).1 k := by
  obtain ⟨e1, e2, _⟩ := persist_idx i o
  unfold SoundAt; rw [e1, e2]; exact h

theorem persist_stored {i : Inner} {o : PersistOut} {k : Nat} {d : Cert} (h : Stored i k d) :
    Stored (i.persist o).1 k d := by
  obtain ⟨e1, e2, _⟩ := persist_idx i o
  unfold Stored; rw [e1, e2]; exact h

theorem persist_good {i : Inner} {o : PersistOut} {k : Nat} {d : Cert} (h : Good i k d) :
    Good (i.persist o).1 k d := by
  obtain ⟨p, h1, h2, h3, h4⟩ := h
  rcases persist_cases i o with ⟨_, e⟩ | ⟨_, ⟨x, e⟩ | ⟨x, e⟩ | e⟩
  · rw [e]; exact ⟨p, h1, h2, h3, h4⟩
  · rw [e]; exact ⟨p, h1, h2, h3, h4⟩
  · rw [e]
    refine ⟨p, h1, h2, recAt_le h2, fun v hv => ?_⟩
    rcases hv with hv | hv | hv
    · exact h4 v (Or.inl hv)
    · exact h4 v (Or.inr (Or.inl hv))
    · rcases List.mem_append.1 hv with hv | hv
      · exact h4 v (Or.inr (Or.inr hv))
      · exact h4 v (Or.inl (List.mem_singleton.1 hv))
  · rw [e]
    refine ⟨p, h1, h2, recAt_le h2, fun v hv => ?_⟩
    rcases hv with hv | hv | hv
    · exact h4 v (Or.inl hv)
    · exact h4 v (Or.inl hv)
    · cases hv

/-- A flush without error makes what is in the pack durable. -/
theorem persist_makes_good {i : Inner} {o : PersistOut} {k : Nat} {d : Cert} (h : Stored i k d)
    (hr : i.readOnly = false) (ho : (i.persist o).2 = none) : Good (i.persist o).1 k d := by
  obtain ⟨p, h1, h2, h3, h4, h5⟩ := h
  rcases persist_cases i o with ⟨r, e⟩ | ⟨_, ⟨x, e⟩ | ⟨x, e⟩ | e⟩
  · rw [hr] at r; cases r
  · rw [e] at ho; cases ho
  · rw [e] at ho; cases ho
  · rw [e]
    refine ⟨p, h1, h2, recAt_le h2, fun v hv => ?_⟩
    rcases hv with hv | hv | hv
    · subst hv; exact ⟨h3, h4, h5⟩
    · subst hv; exact ⟨h3, h4, h5⟩
    · cases hv

/-- The versions of the index that can be found. -/
theorem version_mem (i : Inner) (w : Bool) (n : Nat) :
    i.version w n = i.base ∨ i.version w n ∈ i.more ∨ w = true ∧ i.version w n = i.idx := by
  unfold Inner.version
  cases w with
  | true =>
    rw [if_pos rfl]
    cases h : (i.more ++ [i.idx])[n]? with
    | none => exact Or.inl rfl
    | some v =>
      have hm := List.mem_of_getElem? h
      rcases List.mem_append.1 hm with h1 | h1
      · exact Or.inr (Or.inl h1)
      · exact Or.inr (Or.inr ⟨rfl, List.mem_singleton.1 h1⟩)
  | false =>
    rw [if_neg (by decide)]
    cases h : i.more[n]? with
    | none => exact Or.inl rfl
    | some v => exact Or.inr (Or.inl (List.mem_of_getElem? h))

/-- Opening a pack again keeps every record within the synced bytes and the length in the index. -/
theorem reopen_recAt {i : Inner} {r : Restart} {p : Nat} {c : Cert} (h : recAt i.file p = some c)
    (hd : p + c.len ≤ header + i.dur) (hl : p + c.len ≤ (i.found r).len) :
    recAt (i.reopen r).file p = some c := by
  have h1 : recAt (cutSeg i.file i.dur ++ r.tail) p = some c := recAt_left _ (recAt_cut h hd)
  unfold Inner.reopen
  dsimp only
  by_cases hr : r.readOnly = true
  · rw [if_pos hr]; exact h1
  · rw [if_neg hr]
    dsimp only
    split
    · rename_i hc
      refine recAt_cut h1 ?_
      have := hc.2
      omega
    · exact h1

theorem reopen_idx (i : Inner) (r : Restart) :
    (i.reopen r).idx.raw = (i.found r).raw ∧ (i.reopen r).idx.vis = (i.found r).vis ∧
      ((i.reopen r).idx.len = (i.found r).len ∨
        (i.found r).len < header ∧ (i.reopen r).idx.len = fileLen (i.reopen r).file) ∧
      (i.reopen r).base = i.found r ∧ (i.reopen r).more = [] ∧
      (i.reopen r).dur = min i.dur (total (i.reopen r).file) ∧ (i.reopen r).readOnly = r.readOnly ∧
      (i.reopen r).failed = none := by
  unfold Inner.reopen
  dsimp only
  by_cases hr : r.readOnly = true
  · rw [if_pos hr]; exact ⟨rfl, rfl, Or.inl rfl, rfl, rfl, rfl, hr.symm, rfl⟩
  · rw [if_neg hr]
    dsimp only
    refine ⟨?_, ?_, ?_, rfl, rfl, rfl, by simpa using hr, rfl⟩
    · split <;> rfl
    · split <;> rfl
    · split
      · rename_i h; exact Or.inr ⟨h, rfl⟩
      · exact Or.inl rfl

theorem reopen_good {i : Inner} {r : Restart} {k : Nat} {c : Cert} (h : Good i k c) (hk : r.lost k = false) :
    Good (i.reopen r) k c := by
  obtain ⟨p, h1, h2, h3, h4⟩ := h
  have hv : ∀ n, (i.version r.written n).raw k = some p ∧ p + c.len ≤ (i.version r.written n).len := by
    intro n
    rcases version_mem i r.written n with e | e | ⟨_, e⟩
    · rw [e]; obtain ⟨a, _, b⟩ := h4 i.base (Or.inr (Or.inl rfl)); exact ⟨a, b⟩
    · obtain ⟨a, _, b⟩ := h4 _ (Or.inr (Or.inr e)); exact ⟨a, b⟩
    · rw [e]; obtain ⟨a, _, b⟩ := h4 i.idx (Or.inl rfl); exact ⟨a, b⟩
  have hfl : p + c.len ≤ (i.found r).len := (hv r.lenPick).2
  have hraw : (i.found r).raw k = some p := by
    show (if r.lost k then none else _) = _
    rw [hk, if_neg (by decide)]; exact (hv _).1
  have hvis : (i.found r).vis k = true := by
    show (i.base.vis k || r.seen k) = true
    rw [(h4 i.base (Or.inr (Or.inl rfl))).2.1]; rfl
  have hat := reopen_recAt (r := r) h2 h3 hfl
  obtain ⟨e1, e2, e3, e4, e5, e6, _, _⟩ := reopen_idx i r
  refine ⟨p, h1, hat, ?_, ?_⟩
  · rw [e6]
    have := recAt_le hat
    unfold fileLen at this
    omega
  · intro v hv'
    rcases hv' with e | e | e
    · subst e
      refine ⟨by rw [e1]; exact hraw, by rw [e2]; exact hvis, ?_⟩
      rcases e3 with e3 | ⟨_, e3⟩
      · rw [e3]; exact hfl
      · rw [e3]; exact recAt_le hat
    · rw [e4] at e; subst e; exact ⟨hraw, hvis, hfl⟩
    · rw [e5] at e; cases e

/-! ## The thread -/

theorem run_cons (s : Sys) (e : Ev) (l : List Ev) : run s (e :: l) = run (step s e) l := rfl

/-- What one message changes, for what is kept about the pack. -/
theorem handle_keeps {P : Inner → Prop} (hs : ∀ i c o, P i → P (Inner.save i c o).1)
    (hp : ∀ i o, P i → P (Inner.persist i o).1) (s : Sys) (m : Msg) (o : Out) (h : P s.inner) :
    P (s.handle m o).inner := by
  cases m with
  | save c => exact hs _ _ _ h
  | get k => exact h
  | contains k => exact h
  | persist => exact hp _ _ h
  | shutdown => exact hp _ _ h
  | shutdownAsync => exact hp _ _ h

theorem work_keeps {P : Inner → Prop} (hs : ∀ i c o, P i → P (Inner.save i c o).1)
    (hp : ∀ i o, P i → P (Inner.persist i o).1) (s : Sys) (o : Out) (h : P s.inner) :
    P (s.work o).inner := by
  unfold Sys.work
  split
  · cases hq : s.q with
    | nil => exact h
    | cons m q => exact handle_keeps hs hp s m o h
  · exact h

theorem push_inner (s : Sys) (m : Msg) : (s.push m).inner = s.inner := by
  unfold Sys.push; split <;> rfl

/-- Durable certificates stay durable through every event, restarts included. -/
theorem step_good {s : Sys} {k : Nat} {c : Cert} (h : Good s.inner k c) {e : Ev} (he : e.keeps k) :
    Good (step s e).inner k c := by
  cases e with
  | push m => show Good (s.push m).inner k c; rw [push_inner]; exact h
  | work o =>
    exact work_keeps (P := fun i => Good i k c) (fun i c o h => save_good h)
      (fun i o h => persist_good h) s o h
  | restart r => exact reopen_good h he
  | refuse e => exact h

theorem run_good {k : Nat} {c : Cert} (l : List Ev) : ∀ {s : Sys}, Good s.inner k c → (∀ e ∈ l, Ev.keeps k e) →
    Good (run s l).inner k c := by
  induction l with
  | nil => intro s h _; exact h
  | cons e l ih =>
    intro s h hk
    exact ih (step_good h (hk e List.mem_cons_self)) (fun x hx => hk x (List.mem_cons_of_mem _ hx))

theorem getElem?_drop_head {l q : List Msg} {n : Nat} {m : Msg} (h : l.drop n = m :: q) :
    l[n]? = some m ∧ l.drop (n + 1) = q ∧ n < l.length := by
  have h1 : n < l.length := by
    by_contra hc
    rw [List.drop_eq_nil_of_le (by omega)] at h; cases h
  refine ⟨?_, ?_, h1⟩
  · have := congrArg (fun x : List Msg => x[0]?) h
    simpa using this
  · rw [← List.tail_drop, h]; rfl

/-- What holds while a pack is open. -/
structure HInv (s : Sys) : Prop where
  fifo : s.pushed.drop s.handled = s.q
  room : s.q.length ≤ capacity
  le : s.handled ≤ s.pushed.length
  mode : s.inner.readOnly = s.opened.readOnly
  sound : ∀ k, SoundAt s.opened k → SoundAt s.inner k
  saved : s.err = none → ∀ (j : Nat) (c : Cert), j < s.handled → s.pushed[j]? = some (.save c) →
    s.inner.idx.load c.digest ≠ none
  before : ∀ i r, (i, r) ∈ s.replies → i < s.handled
  flushed : ∀ i, (i, Reply.flushed none) ∈ s.replies → ∀ (j : Nat) (c : Cert), j < i →
    s.pushed[j]? = some (.save c) → SoundAt s.opened c.digest →
    ∃ d, Stored s.inner c.digest d ∧ (s.opened.readOnly = false → Good s.inner c.digest d)

theorem hinv_start (i : Inner) (ever : List Cert) : HInv (Sys.start i ever) :=
  { fifo := rfl, room := Nat.zero_le _, le := Nat.le_refl _, mode := rfl, sound := fun _ h => h,
    saved := fun _ j c hj => absurd hj (Nat.not_lt_zero _), before := (fun _ _ h => by cases h),
    flushed := (fun _ h => by cases h) }

theorem hinv_refused (i : Inner) (e : Err) (ever : List Cert) : HInv (Sys.refused i e ever) :=
  { fifo := rfl, room := Nat.zero_le _, le := Nat.le_refl _, mode := rfl, sound := fun _ h => h,
    saved := (fun h => by cases h), before := (fun _ _ h => by cases h),
    flushed := (fun _ h => by cases h) }

theorem hinv_push {s : Sys} (h : HInv s) (m : Msg) : HInv (s.push m) := by
  unfold Sys.push
  split
  · rename_i hc
    have hq : ∀ {j : Nat} {x : Msg}, j < s.pushed.length → (s.pushed ++ [m])[j]? = some x →
        s.pushed[j]? = some x := by
      intro j x hj hx; rwa [List.getElem?_append_left hj] at hx
    refine { fifo := ?_, room := ?_, le := ?_, mode := h.mode, sound := h.sound, saved := ?_,
             before := h.before, flushed := ?_ }
    · show (s.pushed ++ [m]).drop s.handled = s.q ++ [m]
      rw [List.drop_append_of_le_length h.le, h.fifo]
    · show (s.q ++ [m]).length ≤ capacity
      rw [List.length_append, List.length_singleton]; have := hc.2; omega
    · show s.handled ≤ (s.pushed ++ [m]).length
      rw [List.length_append]; have := h.le; omega
    · intro he j c hj hx
      have := h.le
      exact h.saved he j c hj (hq (Nat.lt_of_lt_of_le hj h.le) hx)
    · intro i hi j c hj hx
      have h1 := h.before i _ hi
      have := h.le
      exact h.flushed i hi j c hj (hq (by omega) hx)
  · exact h

theorem latch_ne (slot : Option Err) (e : Err) : latch slot e ≠ none := by
  unfold latch; cases slot <;> simp

theorem hinv_work {s : Sys} (h : HInv s) (o : Out) : HInv (s.work o) := by
  unfold Sys.work
  split
  swap
  · exact h
  cases hq : s.q with
  | nil => exact h
  | cons m q =>
    obtain ⟨hm, hd, hlt⟩ := getElem?_drop_head (h.fifo.trans hq)
    have hroom : q.length ≤ capacity := by have := h.room; rw [hq, List.length_cons] at this; omega
    have hb' : ∀ i r, (i, r) ∈ s.replies → i < s.handled + 1 :=
      fun i r hi => Nat.lt_succ_of_lt (h.before i r hi)
    -- a flush reply that is `Ok` now
    have hflush : ∀ po : PersistOut, fold s.err (s.inner.persist po).2 = none →
        ∀ (j : Nat) (c : Cert), j < s.handled → s.pushed[j]? = some (.save c) →
        SoundAt s.opened c.digest → ∃ d, Stored (s.inner.persist po).1 c.digest d ∧
          (s.opened.readOnly = false → Good (s.inner.persist po).1 c.digest d) := by
      intro po hf j c hj hx hs
      have he : s.err = none := by
        cases h' : s.err with
        | none => rfl
        | some e => rw [h'] at hf; cases hf
      rw [he] at hf
      obtain ⟨d, hst⟩ := stored_of_load (h.sound _ hs) (h.saved he j c hj hx)
      exact ⟨d, persist_stored hst, fun hr => persist_makes_good hst (h.mode.trans hr) hf⟩
    have hold : ∀ po : PersistOut, ∀ i, (i, Reply.flushed none) ∈ s.replies → ∀ (j : Nat) (c : Cert),
        j < i → s.pushed[j]? = some (.save c) → SoundAt s.opened c.digest →
        ∃ d, Stored (s.inner.persist po).1 c.digest d ∧
          (s.opened.readOnly = false → Good (s.inner.persist po).1 c.digest d) := by
      intro po i hi j c hj hx hs
      obtain ⟨d, a, b⟩ := h.flushed i hi j c hj hx hs
      exact ⟨d, persist_stored a, fun hr => persist_good (b hr)⟩
    have hsavedP : ∀ po : PersistOut, ∀ x : Msg, m = x → (∀ c, x ≠ .save c) → s.err = none →
        ∀ (j : Nat) (c : Cert), j < s.handled + 1 → s.pushed[j]? = some (.save c) →
        (s.inner.persist po).1.idx.load c.digest ≠ none := by
      intro po x hx hn he j c hj hp
      rw [(persist_idx _ _).1]
      by_cases hjh : j = s.handled
      · rw [hjh, hm, hx] at hp; cases hp; exact absurd rfl (hn c)
      · exact h.saved he j c (by omega) hp
    cases m with
    | save c =>
      refine { fifo := hd, room := hroom, le := hlt, mode := (save_readOnly _ _ _).trans h.mode,
               sound := fun k hk => save_sound (h.sound k hk), saved := ?_, before := hb',
               flushed := ?_ }
      · intro he j d hj hx
        have he0 : (s.inner.save c o.save).2 = none ∧ s.err = none := by
          dsimp only [Sys.handle] at he
          cases h' : (s.inner.save c o.save).2 with
          | none => rw [h'] at he; exact ⟨rfl, he⟩
          | some e => rw [h'] at he; exact absurd he (latch_ne _ _)
        by_cases hjh : j = s.handled
        · subst hjh
          have hx' : s.pushed[s.handled]? = some (.save d) := hx
          rw [hm] at hx'; cases hx'
          exact save_load he0.1
        · refine save_load_mono (h.saved he0.2 j d (by
            have hj' : j < s.handled + 1 := hj
            omega) hx)
      · intro i hi j d hj hx hs
        obtain ⟨x, a, b⟩ := h.flushed i hi j d hj hx hs
        exact ⟨x, save_stored a, fun hr => save_good (b hr)⟩
    | get k =>
      refine { fifo := hd, room := hroom, le := hlt, mode := h.mode, sound := h.sound, saved := ?_,
               before := ?_, flushed := ?_ }
      · intro he j c hj hx
        by_cases hjh : j = s.handled
        · subst hjh
          have hx' : s.pushed[s.handled]? = some (.save c) := hx
          rw [hm] at hx'; cases hx'
        · exact h.saved he j c (by have hj' : j < s.handled + 1 := hj; omega) hx
      · intro i r hi
        rcases List.mem_append.1 hi with hi | hi
        · exact hb' i r hi
        · cases List.mem_singleton.1 hi; exact Nat.lt_succ_self _
      · intro i hi
        rcases List.mem_append.1 hi with hi | hi
        · exact h.flushed i hi
        · cases List.mem_singleton.1 hi
    | contains k =>
      refine { fifo := hd, room := hroom, le := hlt, mode := h.mode, sound := h.sound, saved := ?_,
               before := ?_, flushed := ?_ }
      · intro he j c hj hx
        by_cases hjh : j = s.handled
        · subst hjh
          have hx' : s.pushed[s.handled]? = some (.save c) := hx
          rw [hm] at hx'; cases hx'
        · exact h.saved he j c (by have hj' : j < s.handled + 1 := hj; omega) hx
      · intro i r hi
        rcases List.mem_append.1 hi with hi | hi
        · exact hb' i r hi
        · cases List.mem_singleton.1 hi; exact Nat.lt_succ_self _
      · intro i hi
        rcases List.mem_append.1 hi with hi | hi
        · exact h.flushed i hi
        · cases List.mem_singleton.1 hi
    | persist =>
      refine { fifo := hd, room := hroom, le := hlt, mode := (persist_idx _ _).2.2.trans h.mode,
               sound := fun k hk => persist_sound (h.sound k hk),
               saved := hsavedP o.persist _ rfl (fun c hc => by cases hc), before := ?_, flushed := ?_ }
      · intro i r hi
        rcases List.mem_append.1 hi with hi | hi
        · exact hb' i r hi
        · cases List.mem_singleton.1 hi; exact Nat.lt_succ_self _
      · intro i hi
        rcases List.mem_append.1 hi with hi | hi
        · exact hold o.persist i hi
        · have h1 := List.mem_singleton.1 hi
          have h2 : i = s.handled := congrArg Prod.fst h1
          have h3 : Reply.flushed none = Reply.flushed (fold s.err (s.inner.persist o.persist).2) :=
            congrArg Prod.snd h1
          injection h3 with h3
          rw [h2]
          exact hflush o.persist h3.symm
    | shutdown =>
      exact { fifo := hd, room := hroom, le := hlt, mode := (persist_idx _ _).2.2.trans h.mode,
              sound := fun k hk => persist_sound (h.sound k hk),
              saved := hsavedP o.persist _ rfl (fun c hc => by cases hc), before := hb',
              flushed := hold o.persist }
    | shutdownAsync =>
      refine { fifo := hd, room := hroom, le := hlt, mode := (persist_idx _ _).2.2.trans h.mode,
               sound := fun k hk => persist_sound (h.sound k hk),
               saved := hsavedP o.persist _ rfl (fun c hc => by cases hc), before := ?_, flushed := ?_ }
      · intro i r hi
        rcases List.mem_append.1 hi with hi | hi
        · exact hb' i r hi
        · cases List.mem_singleton.1 hi; exact Nat.lt_succ_self _
      · intro i hi
        rcases List.mem_append.1 hi with hi | hi
        · exact hold o.persist i hi
        · have h1 := List.mem_singleton.1 hi
          have h2 : i = s.handled := congrArg Prod.fst h1
          have h3 : Reply.flushed none = Reply.flushed (fold s.err (s.inner.persist o.persist).2) :=
            congrArg Prod.snd h1
          injection h3 with h3
          rw [h2]
          exact hflush o.persist h3.symm

theorem hinv_step {s : Sys} (h : HInv s) (e : Ev) : HInv (step s e) := by
  cases e with
  | push m => exact hinv_push h m
  | work o => exact hinv_work h o
  | restart r => exact hinv_start _ _
  | refuse e => exact hinv_refused _ _ _

theorem hinv_run (l : List Ev) : ∀ {s : Sys}, HInv s → HInv (run s l) := by
  induction l with
  | nil => intro s h; exact h
  | cons e l ih => intro s h; exact ih (hinv_step h e)

/-! ## The theorems -/

/-- **C94, what is read.** Whatever is in the file, the certificate that is returned has the digest that was
asked for. -/
theorem get_digest (junk : Nat → Option Cert) (i : Inner) (k : Nat) (c : Cert)
    (h : i.get junk k = some c) : c.digest = k := by
  unfold Inner.get at h
  split at h
  · cases h
  · split at h
    · cases h
    · split at h
      · cases h
      · split at h
        · rename_i hd; cases h; exact hd
        · cases h

/-- **C94, barrier.** In any history of saves, reads, flushes, failures, crashes and restarts, starting with
a new pack: when a flush or a shutdown has answered without error, every certificate handed over before it
(since the pack was opened) is in the pack: a certificate `d` with its digest is returned; and, if the pack
is open for writing, the same `d` is returned after everything that happens later, crashes and restarts
included.
The exceptions are digests whose index entry led to nothing when the pack was opened (`stuck`) and restarts
that hit the split of the digest's bucket (`Hdx.split_crash_loses`). -/
theorem flush_is_barrier (l : List Ev) (i j : Nat) (c : Cert)
    (hr : (i, Reply.flushed none) ∈ (run init l).replies) (hj : j < i)
    (hs : (run init l).pushed[j]? = some (.save c)) (ho : SoundAt (run init l).opened c.digest) :
    ∃ d, Gives (run init l).inner c.digest d ∧
    ((run init l).opened.readOnly = false →
      ∀ l', (∀ e ∈ l', Ev.keeps c.digest e) → Gives (run (run init l) l').inner c.digest d) := by
  obtain ⟨d, a, b⟩ := (hinv_run l (hinv_start _ _)).flushed i hr j c hj hs ho
  exact ⟨d, a.holds, fun hw l' hl' => (run_good l' (b hw) hl').stored.holds⟩

/-- What every event keeps: the versions of the index on the disk are right, as long as no restart
interrupts the writing of the index. -/
structure CInv (i : Inner) : Prop where
  idx : ∀ k, SoundAt i k
  base : ∀ k p, i.base.raw k = some p → ∃ c : Cert, c.digest = k ∧ recAt i.file p = some c ∧
    p + c.len ≤ i.base.len ∧ p + c.len ≤ header + i.dur

theorem cinv_save {i : Inner} (h : CInv i) (c : Cert) (o : SaveOut) : CInv (i.save c o).1 := by
  refine ⟨fun k => save_sound (h.idx k), fun k p hp => ?_⟩
  rcases save_cases i c o with ⟨x, hp', e⟩ | ⟨hl, ⟨x, e⟩ | ⟨x, n, _, e⟩ | ⟨x, _, e⟩ | ⟨x, _, _, e⟩⟩
  · rw [e] at hp ⊢; exact h.base k p hp
  · rw [e] at hp ⊢; exact h.base k p hp
  all_goals
    rw [e] at hp ⊢
    obtain ⟨d, h1, h2, h3, h4⟩ := h.base k p hp
    exact ⟨d, h1, recAt_left _ h2, h3, h4⟩

theorem cinv_persist {i : Inner} (h : CInv i) (o : PersistOut) : CInv (i.persist o).1 := by
  refine ⟨fun k => persist_sound (h.idx k), fun k p hp => ?_⟩
  rcases persist_cases i o with ⟨_, e⟩ | ⟨_, ⟨x, e⟩ | ⟨x, e⟩ | e⟩
  · rw [e] at hp ⊢; exact h.base k p hp
  · rw [e] at hp ⊢; exact h.base k p hp
  · rw [e] at hp ⊢
    obtain ⟨d, h1, h2, h3, h4⟩ := h.base k p hp
    exact ⟨d, h1, h2, h3, recAt_le h2⟩
  · rw [e] at hp ⊢
    obtain ⟨d, h1, h2, h3⟩ := h.idx k p hp
    exact ⟨d, h1, h2, h3, recAt_le h2⟩

theorem cinv_reopen {i : Inner} (h : CInv i) (r : Restart)
    (hm : i.more = []) (hw : r.written = true → i.idx = i.base) : CInv (i.reopen r) := by
  have hv : ∀ n, i.version r.written n = i.base := by
    intro n
    rcases version_mem i r.written n with e | e | ⟨hw', e⟩
    · exact e
    · rw [hm] at e; cases e
    · rw [e, hw hw']
  have key : ∀ k p, (i.found r).raw k = some p → ∃ c : Cert, c.digest = k ∧
      recAt (i.reopen r).file p = some c ∧ p + c.len ≤ (i.found r).len ∧
      p + c.len ≤ header + (i.reopen r).dur := by
    intro k p hp
    have hp' : (if r.lost k then none else (i.version r.written (r.pick k)).raw k) = some p := hp
    split at hp'
    · cases hp'
    · rw [hv] at hp'
      obtain ⟨d, h1, h2, h3, h4⟩ := h.base k p hp'
      have hl : p + d.len ≤ (i.found r).len := by
        show _ ≤ (i.version r.written r.lenPick).len
        rw [hv]; exact h3
      have hat := reopen_recAt (r := r) h2 h4 hl
      refine ⟨d, h1, hat, hl, ?_⟩
      rw [(reopen_idx i r).2.2.2.2.2.1]
      have := recAt_le hat
      unfold fileLen at this
      omega
  obtain ⟨e1, e2, e3, e4, _⟩ := reopen_idx i r
  constructor
  · intro k p hp
    rw [e1] at hp
    obtain ⟨d, h1, h2, h3, _⟩ := key k p hp
    refine ⟨d, h1, h2, ?_⟩
    rcases e3 with e3 | ⟨_, e3⟩
    · rw [e3]; exact h3
    · rw [e3]; exact recAt_le h2
  · intro k p hp
    rw [e4] at hp ⊢
    exact key k p hp

theorem cinv_run (l : List Ev) : ∀ {s : Sys}, CInv s.inner → CInv s.opened →
    Along (fun s e => e.clean s) s l → CInv (run s l).inner ∧ CInv (run s l).opened := by
  induction l with
  | nil => intro s h h' _; exact ⟨h, h'⟩
  | cons e l ih =>
    intro s h h' hl
    obtain ⟨h1, h2⟩ := hl
    cases e with
    | push m =>
      refine ih (s := step s (.push m)) ?_ ?_ h2
      · show CInv (s.push m).inner; rw [push_inner]; exact h
      · show CInv (s.push m).opened; unfold Sys.push; split <;> exact h'
    | work o =>
      refine ih (s := step s (.work o)) ?_ ?_ h2
      · exact work_keeps (P := CInv) (fun i c o h => cinv_save h c o) (fun i o h => cinv_persist h o) s o h
      · show CInv (s.work o).opened
        unfold Sys.work
        split
        · cases s.q with
          | nil => exact h'
          | cons m q => cases m <;> exact h'
        · exact h'
    | restart r =>
      have := cinv_reopen h r h1.1 h1.2
      exact ih (s := step s (.restart r)) this this h2
    | refuse e => exact ih (s := step s (.refuse e)) h h h2

theorem cinv_new : CInv Inner.new :=
  ⟨(fun k p hp => by cases hp), (fun k p hp => by cases hp)⟩

/-- **C94, barrier without exceptions.** If no restart interrupts the writing of the index, every
certificate handed over before a flush that answered without error is in the pack. -/
theorem flush_is_barrier_clean (l : List Ev) (hl : Along (fun s e => e.clean s) init l) (i j : Nat)
    (c : Cert) (hr : (i, Reply.flushed none) ∈ (run init l).replies) (hj : j < i)
    (hs : (run init l).pushed[j]? = some (.save c)) : Holds (run init l).inner c.digest := by
  obtain ⟨d, h, _⟩ := flush_is_barrier l i j c hr hj hs ((cinv_run l cinv_new cinv_new hl).2.idx _)
  exact ⟨d, h⟩

/-- **C94, membership.** Then `contains` says of every digest whether `get` finds it. -/
theorem contains_iff_get (l : List Ev) (hl : Along (fun s e => e.clean s) init l) (k : Nat) :
    (run init l).inner.contains k = true ↔ Holds (run init l).inner k := by
  have hs := (cinv_run l cinv_new cinv_new hl).1.idx k
  constructor
  · intro h
    obtain ⟨c, hc⟩ := stored_of_load hs (by
      intro h0
      unfold Inner.contains at h; rw [h0] at h; cases h)
    exact ⟨c, hc.holds⟩
  · rintro ⟨c, _, h⟩
    obtain ⟨c, hc⟩ := stored_of_load hs (by
      intro h0
      have := h (fun _ => none)
      unfold Inner.get at this; rw [h0] at this; cases this)
    exact hc.contains

/-- **C94, nothing invented.** Every record of the file is a certificate that was handed over, in this run or
an earlier one; so is every certificate that is returned, if reading where no record begins fails. -/
theorem recs_ever (l : List Ev) : ∀ {s : Sys},
    (∀ c : Cert, Seg.rec_ c ∈ s.inner.file ∨ Msg.save c ∈ s.q → c ∈ s.ever) →
    Along (fun s e => e.legal s) s l →
    ∀ c : Cert, Seg.rec_ c ∈ (run s l).inner.file ∨ Msg.save c ∈ (run s l).q → c ∈ (run s l).ever := by
  induction l with
  | nil => intro s h _; exact h
  | cons e l ih =>
    intro s h hl
    obtain ⟨h1, h2⟩ := hl
    refine ih (s := step s e) ?_ h2
    cases e with
    | push m =>
      show ∀ c : Cert, Seg.rec_ c ∈ (s.push m).inner.file ∨ Msg.save c ∈ (s.push m).q → c ∈ (s.push m).ever
      unfold Sys.push
      split
      · intro c hc
        have hc' : Seg.rec_ c ∈ s.inner.file ∨ Msg.save c ∈ s.q ++ [m] := hc
        have hsub : ∀ x, x ∈ s.ever → x ∈ (match m with | .save c => s.ever ++ [c] | _ => s.ever) := by
          intro x hx
          cases m <;> first | exact hx | exact List.mem_append_left _ hx
        rcases hc' with hc' | hc'
        · exact hsub _ (h c (Or.inl hc'))
        · rcases List.mem_append.1 hc' with hc' | hc'
          · exact hsub _ (h c (Or.inr hc'))
          · cases List.mem_singleton.1 hc'
            exact List.mem_append_right _ (List.mem_singleton.2 rfl)
      · exact h
    | work o =>
      show ∀ c : Cert, Seg.rec_ c ∈ (s.work o).inner.file ∨ Msg.save c ∈ (s.work o).q → c ∈ (s.work o).ever
      unfold Sys.work
      split
      swap
      · exact h
      cases hq : s.q with
      | nil => exact h
      | cons m q =>
        have hp : ∀ c : Cert, Seg.rec_ c ∈ (s.inner.persist o.persist).1.file ∨ Msg.save c ∈ q →
            c ∈ s.ever := by
          intro c hc
          rw [(persist_idx _ _).2.1] at hc
          rcases hc with hc | hc
          · exact h c (Or.inl hc)
          · exact h c (Or.inr (by rw [hq]; exact List.mem_cons_of_mem _ hc))
        have hg : ∀ c : Cert, Seg.rec_ c ∈ s.inner.file ∨ Msg.save c ∈ q → c ∈ s.ever := by
          intro c hc
          rcases hc with hc | hc
          · exact h c (Or.inl hc)
          · exact h c (Or.inr (by rw [hq]; exact List.mem_cons_of_mem _ hc))
        cases m with
        | save d =>
          intro c hc
          have hc' : Seg.rec_ c ∈ (s.inner.save d o.save).1.file ∨ Msg.save c ∈ q := hc
          show c ∈ s.ever
          have hd : d ∈ s.ever := h d (Or.inr (by rw [hq]; exact List.mem_cons_self))
          rcases save_cases s.inner d o.save with
            ⟨x, hp', e⟩ | ⟨hl, ⟨x, e⟩ | ⟨x, n, _, e⟩ | ⟨x, _, e⟩ | ⟨x, _, _, e⟩⟩
          · rw [e] at hc'; exact hg c hc'
          · rw [e] at hc'; exact hg c hc'
          all_goals
            rw [e] at hc'
            rcases hc' with hc' | hc'
            · rcases List.mem_append.1 hc' with hc' | hc'
              · exact hg c (Or.inl hc')
              · cases List.mem_singleton.1 hc'
                try exact hd
            · exact hg c (Or.inr hc')
        | get k => exact hg
        | contains k => exact hg
        | persist => exact hp
        | shutdown => exact hp
        | shutdownAsync => exact hp
    | restart r =>
      intro c hc
      have hc' : Seg.rec_ c ∈ (s.inner.reopen r).file ∨ Msg.save c ∈ ([] : List Msg) := hc
      show c ∈ s.ever
      rcases hc' with hc' | hc'
      swap
      · cases hc'
      have h0 : Seg.rec_ c ∈ cutSeg s.inner.file s.inner.dur ++ r.tail → Seg.rec_ c ∈ s.inner.file := by
        intro hx
        rcases List.mem_append.1 hx with hx | hx
        · exact cut_mem hx
        · exact h1 c hx
      refine h c (Or.inl ?_)
      unfold Inner.reopen at hc'
      dsimp only at hc'
      split at hc'
      · exact h0 hc'
      · dsimp only at hc'
        split at hc'
        · exact h0 (cut_mem hc')
        · exact h0 hc'
    | refuse e =>
      intro c hc
      have hc' : Seg.rec_ c ∈ s.inner.file ∨ Msg.save c ∈ ([] : List Msg) := hc
      rcases hc' with hc' | hc'
      · exact h c (Or.inl hc')
      · cases hc'

theorem get_saved (l : List Ev) (hl : Along (fun s e => e.legal s) init l) (k : Nat) (c : Cert)
    (h : (run init l).inner.get (fun _ => none) k = some c) : c ∈ (run init l).ever := by
  refine recs_ever l (s := init) (fun c hc => ?_) hl c (Or.inl ?_)
  · rcases hc with hc | hc <;> cases hc
  · unfold Inner.get at h
    split at h
    · cases h
    · rename_i p _
      split at h
      · cases h
      · split at h
        · cases h
        · rename_i d hd
          split at h
          · cases h
            rw [Option.or_none] at hd
            exact recAt_mem hd
          · cases h

/-- **C94, the first error is kept.** An error in the slot stays there, unchanged, until the pack is opened
again, and every flush or shutdown answered from then on answers with it. -/
theorem error_kept (l : List Ev) : ∀ (s : Sys) (e : Err), s.err = some e → (∀ x ∈ l, Ev.inRun x) →
    (run s l).err = some e ∧ ∃ new, (run s l).replies = s.replies ++ new ∧
      ∀ i r, (i, Reply.flushed r) ∈ new → r = some e := by
  induction l with
  | nil => intro s e h _; exact ⟨h, [], (List.append_nil _).symm, fun i r hi => by cases hi⟩
  | cons x l ih =>
    intro s e h hl
    have hstep : (step s x).err = some e ∧ ∃ new, (step s x).replies = s.replies ++ new ∧
        ∀ i r, (i, Reply.flushed r) ∈ new → r = some e := by
      cases x with
      | push m =>
        show (s.push m).err = _ ∧ ∃ new, (s.push m).replies = _ ∧ _
        unfold Sys.push
        split <;> exact ⟨h, [], (List.append_nil _).symm, fun i r hi => by cases hi⟩
      | work o =>
        show (s.work o).err = _ ∧ ∃ new, (s.work o).replies = _ ∧ _
        unfold Sys.work
        split
        swap
        · exact ⟨h, [], (List.append_nil _).symm, fun i r hi => by cases hi⟩
        cases hq : s.q with
        | nil => exact ⟨h, [], (List.append_nil _).symm, fun i r hi => by cases hi⟩
        | cons m q =>
          cases m with
          | save c =>
            refine ⟨?_, [], (List.append_nil _).symm, fun i r hi => by cases hi⟩
            show (match (s.inner.save c o.save).2 with | some e => latch s.err e | none => s.err) = some e
            rw [h]
            cases (s.inner.save c o.save).2 <;> rfl
          | get k =>
            exact ⟨h, _, rfl, fun i r hi => by
              have := congrArg Prod.snd (List.mem_singleton.1 hi); cases this⟩
          | contains k =>
            exact ⟨h, _, rfl, fun i r hi => by
              have := congrArg Prod.snd (List.mem_singleton.1 hi); cases this⟩
          | persist =>
            refine ⟨h, _, rfl, fun i r hi => ?_⟩
            have h3 : Reply.flushed r = Reply.flushed (fold s.err (s.inner.persist o.persist).2) :=
              congrArg Prod.snd (List.mem_singleton.1 hi)
            injection h3 with h3
            rw [h3, h]; rfl
          | shutdown => exact ⟨h, [], (List.append_nil _).symm, fun i r hi => by cases hi⟩
          | shutdownAsync =>
            refine ⟨h, _, rfl, fun i r hi => ?_⟩
            have h3 : Reply.flushed r = Reply.flushed (fold s.err (s.inner.persist o.persist).2) :=
              congrArg Prod.snd (List.mem_singleton.1 hi)
            injection h3 with h3
            rw [h3, h]; rfl
      | restart r => exact absurd (hl _ List.mem_cons_self) (fun h => h)
      | refuse e => exact absurd (hl _ List.mem_cons_self) (fun h => h)
    obtain ⟨h1, n1, e1, p1⟩ := hstep
    obtain ⟨h2, n2, e2, p2⟩ := ih (step s x) e h1 (fun y hy => hl y (List.mem_cons_of_mem _ hy))
    refine ⟨h2, n1 ++ n2, by rw [run_cons, e2, e1, List.append_assoc], fun i r hi => ?_⟩
    rcases List.mem_append.1 hi with hi | hi
    · exact p1 i r hi
    · exact p2 i r hi

/-- A save that fails is the one whose error is kept, if none was before it. -/
theorem error_latched (s : Sys) (c : Cert) (q : List Msg) (o : Out) (e : Err) (hr : s.running = true)
    (hq : s.q = .save c :: q) (he : (s.inner.save c o.save).2 = some e) (hn : s.err = none) :
    (s.work o).err = some e := by
  unfold Sys.work
  rw [if_pos hr, hq]
  show (match (s.inner.save c o.save).2 with | some e => latch s.err e | none => s.err) = some e
  rw [he, hn]; rfl

/-- A failed write is repeated as the answer to every later save and flush of the run: the cause does not
get lost. -/
theorem failed_repeats (i : Inner) (e : Nat) (hf : i.failed = some e) (hr : i.readOnly = false) (c : Cert)
    (o : SaveOut) (po : PersistOut) (hl : i.idx.load c.digest = none) :
    i.save c o = (i, some (.append e)) ∧ i.persist po = (i, some (.persist e)) := by
  constructor
  · unfold Inner.save; rw [hl]; dsimp only; rw [hr, if_neg (by decide), hf]
  · unfold Inner.persist; rw [hr, if_neg (by decide), hf]

/-- **C94, the consensus task.** `try_save` enters the certificate into the channel, or says why not, and the
pack is given up only when the thread has ended. -/
theorem offer_spec (s : Sys) (sampled : Option Err) (c : Cert) :
    (s.trySave sampled c).1 = none ∧ (s.trySave sampled c).2.pushed = s.pushed ++ [.save c] ∧
        (offer true s sampled c).1 = true ∧ sampled = none ∧ s.running = true ∧ s.q.length < capacity ∨
    (s.trySave sampled c).1 ≠ none ∧ (s.trySave sampled c).2 = s ∧
      ((∃ e, sampled = some e ∧ (s.trySave sampled c).1 = some e ∧
          ((offer true s sampled c).1 = true ↔ e ≠ .sendFailed)) ∨
       sampled = none ∧ s.running = true ∧ capacity ≤ s.q.length ∧
         (offer true s sampled c).1 = true ∨
       sampled = none ∧ s.running = false ∧ (offer true s sampled c).1 = false) := by
  unfold offer Sys.trySave
  cases sampled with
  | some e => right; exact ⟨by simp, rfl, Or.inl ⟨e, rfl, rfl, by cases e <;> simp⟩⟩
  | none =>
    cases hr : s.running with
    | false => right; simp
    | true =>
      by_cases hc : s.q.length < capacity
      · left
        simp only [if_true, Sys.push, hr, and_self, hc]
      · right
        simp only [if_true, if_neg hc]
        exact ⟨by simp, trivial, Or.inr (Or.inl ⟨trivial, trivial, by omega, trivial⟩)⟩

/-- The messages that end the thread. -/
def Msg.ends : Msg → Bool
  | .shutdown => true
  | .shutdownAsync => true
  | _ => false

theorem work_one (s : Sys) (m : Msg) (q : List Msg) (o : Out) (hr : s.running = true) (hq : s.q = m :: q) :
    (s.work o).q = q ∧ (s.work o).handled = s.handled + 1 ∧
      ((s.work o).running = !m.ends) ∧ ∃ new, (s.work o).replies = s.replies ++ new := by
  unfold Sys.work
  rw [if_pos hr, hq]
  cases m with
  | save c => exact ⟨rfl, rfl, hr, [], (List.append_nil _).symm⟩
  | get k => exact ⟨rfl, rfl, hr, _, rfl⟩
  | contains k => exact ⟨rfl, rfl, hr, _, rfl⟩
  | persist => exact ⟨rfl, rfl, hr, _, rfl⟩
  | shutdown => exact ⟨rfl, rfl, rfl, [], (List.append_nil _).symm⟩
  | shutdownAsync => exact ⟨rfl, rfl, rfl, _, rfl⟩

theorem replies_grow (os : List Out) : ∀ s : Sys, ∃ new,
    (run s (os.map Ev.work)).replies = s.replies ++ new := by
  induction os with
  | nil => intro s; exact ⟨[], (List.append_nil _).symm⟩
  | cons o os ih =>
    intro s
    obtain ⟨n2, h2⟩ := ih (s.work o)
    have h1 : ∃ new, (s.work o).replies = s.replies ++ new := by
      by_cases hr : s.running = true
      · cases hq : s.q with
        | nil => unfold Sys.work; rw [if_pos hr, hq]; exact ⟨[], (List.append_nil _).symm⟩
        | cons m q => exact (work_one s m q o hr hq).2.2.2
      · unfold Sys.work; rw [if_neg hr]; exact ⟨[], (List.append_nil _).symm⟩
    obtain ⟨n1, h1⟩ := h1
    refine ⟨n1 ++ n2, ?_⟩
    show (run (s.work o) (os.map Ev.work)).replies = _
    rw [h2, h1, List.append_assoc]

/-- **C94, answered.** A flush, or a shutdown, in the channel of a thread that runs is answered once the
messages before it are handled, whatever the disk does, unless one of those ends the thread. -/
theorem flush_answered (a b : List Msg) (m : Msg) (hm : m = .persist ∨ m = .shutdownAsync) :
    ∀ (s : Sys), s.running = true → s.q = a ++ m :: b → (∀ x ∈ a, x.ends = false) →
    ∀ os : List Out, a.length < os.length →
      ∃ e, (s.handled + a.length, Reply.flushed e) ∈ (run s (os.map Ev.work)).replies := by
  induction a with
  | nil =>
    intro s hr hq _ os hl
    cases os with
    | nil => cases hl
    | cons o os =>
      obtain ⟨new, hn⟩ := replies_grow os (s.work o)
      have h1 : (s.handled, Reply.flushed (fold s.err (s.inner.persist o.persist).2)) ∈
          (s.work o).replies := by
        unfold Sys.work
        rw [if_pos hr, hq]
        rcases hm with rfl | rfl
        · exact List.mem_append_right _ (List.mem_singleton.2 rfl)
        · exact List.mem_append_right _ (List.mem_singleton.2 rfl)
      refine ⟨fold s.err (s.inner.persist o.persist).2, ?_⟩
      · show _ ∈ (run (s.work o) (os.map Ev.work)).replies
        rw [hn]
        exact List.mem_append_left _ h1
  | cons x a ih =>
    intro s hr hq ha os hl
    cases os with
    | nil => cases hl
    | cons o os =>
      obtain ⟨h1, h2, h3, _⟩ := work_one s x (a ++ m :: b) o hr hq
      rw [ha x List.mem_cons_self] at h3
      obtain ⟨e, he⟩ := ih (s.work o) h3 h1 (fun y hy => ha y (List.mem_cons_of_mem _ hy)) os
        (by simp only [List.length_cons] at hl; omega)
      refine ⟨e, ?_⟩
      rw [h2] at he
      have : s.handled + (x :: a).length = s.handled + 1 + a.length := by
        rw [List.length_cons]; omega
      rw [this]; exact he

/-! ## Finding: an entry that leads to nothing -/

/-- The index has an entry for this digest, and no certificate with it is where the entry leads. -/
def Dangling (i : Inner) (k : Nat) : Prop :=
  ∃ p, i.idx.load k = some p ∧ ∀ c, recAt i.file p = some c → c.digest ≠ k

theorem dangling_save {i : Inner} {c : Cert} {o : SaveOut} {k : Nat} (h : Dangling i k) :
    Dangling (i.save c o).1 k := by
  obtain ⟨p, h1, h2⟩ := h
  rcases save_cases i c o with ⟨x, hp', e⟩ | ⟨hl, ⟨x, e⟩ | ⟨x, n, _, e⟩ | ⟨x, _, e⟩ | ⟨x, _, _, e⟩⟩
  · rw [e]; exact ⟨p, h1, h2⟩
  · rw [e]; exact ⟨p, h1, h2⟩
  all_goals
    have hk : k ≠ c.digest := by intro hk; rw [← hk, h1] at hl; cases hl
    rw [e]
  · refine ⟨p, h1, fun d hd => ?_⟩
    rcases recAt_append hd with hd | ⟨_, hd⟩
    · exact h2 d hd
    · cases hd
  · refine ⟨p, h1, fun d hd => ?_⟩
    rcases recAt_append hd with hd | ⟨_, hd⟩
    · exact h2 d hd
    · cases hd; exact fun h => hk h.symm
  · refine ⟨p, ?_, fun d hd => ?_⟩
    · exact load_save_ne hk h1
    · rcases recAt_append hd with hd | ⟨_, hd⟩
      · exact h2 d hd
      · cases hd; exact fun h => hk h.symm

theorem dangling_persist {i : Inner} {o : PersistOut} {k : Nat} (h : Dangling i k) :
    Dangling (i.persist o).1 k := by
  obtain ⟨e1, e2, _⟩ := persist_idx i o
  unfold Dangling; rw [e1, e2]; exact h

/-- **Finding.** A digest whose index entry leads to nothing can never be stored again while the pack is
open: a save of it reports no error, stores nothing, and the certificate is never returned. -/
theorem stuck (s : Sys) (k : Nat) (h : Dangling s.inner k) (l : List Ev) (hl : ∀ e ∈ l, Ev.inRun e) :
    Dangling (run s l).inner k ∧ (run s l).inner.get (fun _ => none) k = none ∧
    ∀ (c : Cert) (o : SaveOut), c.digest = k → (run s l).inner.save c o = ((run s l).inner, none) := by
  have hd : Dangling (run s l).inner k := by
    induction l generalizing s with
    | nil => exact h
    | cons e l ih =>
      refine ih (step s e) ?_ (fun x hx => hl x (List.mem_cons_of_mem _ hx))
      cases e with
      | push m => show Dangling (s.push m).inner k; rw [push_inner]; exact h
      | work o =>
        exact work_keeps (P := fun i => Dangling i k) (fun i c o h => dangling_save h)
          (fun i o h => dangling_persist h) s o h
      | restart r => exact absurd (hl _ List.mem_cons_self) (fun h => h)
      | refuse e => exact absurd (hl _ List.mem_cons_self) (fun h => h)
  refine ⟨hd, ?_, ?_⟩
  · obtain ⟨p, h1, h2⟩ := hd
    unfold Inner.get
    rw [h1]; dsimp only
    split
    · rfl
    · rw [Option.or_none]
      cases hr : recAt (run s l).inner.file p with
      | none => rfl
      | some c => dsimp only; rw [if_neg (h2 c hr)]
  · intro c o hc
    obtain ⟨p, h1, _⟩ := hd
    unfold Inner.save
    rw [hc, h1]

end CertPack
end Verif
