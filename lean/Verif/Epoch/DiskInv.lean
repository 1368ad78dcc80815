import Verif.Epoch.Disk
/-
Property C104: the invariant of the database of epoch records on the disk.
-/
namespace Verif
namespace EDisk
open CertPack (Inner Snap Seg SaveOut Restart total header fileLen recAt cutSeg atSeg)

/-! ### Files -/

theorem atSeg_of_cut {l : List Seg} : ∀ {n p : Nat} {c : Rec}, atSeg (cutSeg l n) p = some c → atSeg l p = some c := by
  induction l with
  | nil => intro n p c h; simpa [cutSeg] using h
  | cons s l ih =>
    intro n p c h
    simp only [cutSeg] at h
    split at h
    · simp only [atSeg] at h ⊢
      split at h
      · rename_i h1
        rw [if_pos h1]
        exact h
      · rename_i h1
        rw [if_neg h1]
        exact ih h
    · split at h
      · simp [atSeg] at h
      · simp only [atSeg] at h
        split at h
        · split at h
          · cases h
          · cases h
        · cases h

theorem recAt_of_cut {l : List Seg} {n p : Nat} {c : Rec} (h : recAt (cutSeg l n) p = some c) : recAt l p = some c :=
  CertPack.recAt_of (CertPack.recAt_ge h).1 (atSeg_of_cut (CertPack.recAt_ge h).2)

theorem recAt_of_junk {l : List Seg} {n p : Nat} {c : Rec} (h : recAt (l ++ junkSeg n) p = some c) : recAt l p = some c := by
  unfold junkSeg at h
  split at h
  · rw [List.append_nil] at h; exact h
  · rcases CertPack.recAt_append h with h | ⟨_, h⟩
    · exact h
    · cases h

theorem recAt_of_cutTo {l : List Seg} {n p : Nat} {c : Rec} (h : recAt (cutTo l n) p = some c) : recAt l p = some c := by
  unfold cutTo at h
  split at h
  · exact recAt_of_cut h
  · exact h

/-- A cut to the length in the index keeps what ends before it. -/
theorem recAt_cutTo {l : List Seg} {n p : Nat} {c : Rec} (h : recAt l p = some c) (hn : n ≤ header ∨ p + c.len ≤ n) :
    recAt (cutTo l n) p = some c := by
  unfold cutTo
  split
  · rename_i hc
    refine CertPack.recAt_cut h ?_
    have := hc.2
    rcases hn with hn | hn <;> omega
  · exact h

/-- After that cut the file ends before the length in the index, if there is one. -/
theorem cutTo_le (l : List Seg) (n : Nat) : n ≤ header ∨ fileLen (cutTo l n) ≤ n := by
  unfold cutTo
  by_cases hn : n ≤ header
  · exact Or.inl hn
  · right
    split
    · unfold fileLen
      rw [CertPack.total_cut]
      omega
    · rename_i hc
      omega

theorem recAt_cutEnd {l : List Seg} {o : Option Nat} {p : Nat} {c : Rec} (h : recAt l p = some c)
    (hn : ∀ n, o = some n → p + c.len ≤ n) : recAt (cutEnd l o) p = some c := by
  unfold cutEnd
  cases o with
  | none => exact h
  | some n =>
    dsimp only
    split
    · refine CertPack.recAt_cut h ?_
      have := hn n rfl
      omega
    · exact h

/-- What the loop of the healing finds. -/
theorem healLoop_spec (file : List Seg) (pos : List Nat) : ∀ i,
    (healLoop file pos i = ([], none) ∧ ∀ j p, j ≤ i → pos[j]? = some p → recAt file p = none) ∨
    (∃ j p c, j ≤ i ∧ pos[j]? = some p ∧ recAt file p = some c ∧
      healLoop file pos i = (pos.take (j + 1), some (p + c.len)) ∧
      ∀ j' p', j < j' → j' ≤ i → pos[j']? = some p' → recAt file p' = none)
  | 0 => by
    unfold healLoop
    cases hp : pos[0]? with
    | none =>
      left
      refine ⟨rfl, fun j p hj h => ?_⟩
      have : j = 0 := by omega
      subst this
      rw [hp] at h; cases h
    | some p =>
      dsimp only
      cases hr : recAt file p with
      | none =>
        left
        refine ⟨rfl, fun j q hj h => ?_⟩
        have : j = 0 := by omega
        subst this
        rw [hp] at h; cases h
        exact hr
      | some c =>
        right
        refine ⟨0, p, c, Nat.le_refl _, hp, hr, rfl, fun j' p' h1 h2 _ => ?_⟩
        omega
  | i + 1 => by
    have ih := healLoop_spec file pos i
    have hdown : (∀ q, pos[i + 1]? = some q → recAt file q = none) →
        healLoop file pos (i + 1) = healLoop file pos i →
        (healLoop file pos (i + 1) = ([], none) ∧ ∀ j p, j ≤ i + 1 → pos[j]? = some p → recAt file p = none) ∨
        (∃ j p c, j ≤ i + 1 ∧ pos[j]? = some p ∧ recAt file p = some c ∧
          healLoop file pos (i + 1) = (pos.take (j + 1), some (p + c.len)) ∧
          ∀ j' p', j < j' → j' ≤ i + 1 → pos[j']? = some p' → recAt file p' = none) := by
      intro hun he
      rcases ih with ⟨h1, h2⟩ | ⟨j, p, c, h1, h2, h3, h4, h5⟩
      · left
        refine ⟨by rw [he, h1], fun j p hj hp => ?_⟩
        by_cases hji : j = i + 1
        · subst hji; exact hun p hp
        · exact h2 j p (by omega) hp
      · right
        refine ⟨j, p, c, by omega, h2, h3, by rw [he, h4], fun j' p' hj hj' hp' => ?_⟩
        by_cases hji : j' = i + 1
        · subst hji; exact hun p' hp'
        · exact h5 j' p' hj (by omega) hp'
    cases hp : pos[i + 1]? with
    | none =>
      refine hdown ?_ ?_
      · intro q hq; rw [hp] at hq; cases hq
      · conv => lhs; unfold healLoop
        rw [hp]
    | some p =>
      cases hr : recAt file p with
      | none =>
        refine hdown ?_ ?_
        · intro q hq; rw [hp] at hq; cases hq; exact hr
        · conv => lhs; unfold healLoop
          rw [hp]
          dsimp only
          rw [hr]
      | some c =>
        right
        refine ⟨i + 1, p, c, Nat.le_refl _, hp, hr, ?_, fun j' p' h1 h2 _ => ?_⟩
        · conv => lhs; unfold healLoop
          rw [hp]
          dsimp only
          rw [hr]
        · omega

/-! ### The invariant -/

/-- `saved`: the records stored, by epoch; the first `kept` of them survive everything. -/
structure Inv (ep : Rec → Nat) (saved : List Rec) (kept : Nat) (d : Disk) : Prop where
  len : d.pos.length = saved.length
  rec_ : ∀ (i p : Nat) (c : Rec), d.pos[i]? = some p → saved[i]? = some c → ep c = i ∧ recAt d.recs.file p = some c
  mono : ∀ (i j p q : Nat) (c : Rec), i < j → d.pos[i]? = some p → d.pos[j]? = some q → saved[i]? = some c → p + c.len ≤ q
  kp : kept ≤ d.dpos ∧ kept ≤ saved.length
  dur : ∀ (i p : Nat) (c : Rec), i < kept → d.pos[i]? = some p → saved[i]? = some c → p + c.len ≤ header + d.recs.dur
  lens : ∀ v, v = d.recs.idx ∨ v = d.recs.base ∨ v ∈ d.recs.more → ∀ (i p : Nat) (c : Rec), i < kept → d.pos[i]? = some p →
    saved[i]? = some c → v.len ≤ header ∨ p + c.len ≤ v.len
  cur : ∀ (i p : Nat) (c : Rec), d.pos[i]? = some p → saved[i]? = some c → d.recs.idx.len ≤ header ∨ p + c.len ≤ d.recs.idx.len

theorem Inv.new (ep : Rec → Nat) : Inv ep [] 0 Disk.new := by
  refine ⟨rfl, ?_, ?_, ⟨Nat.le_refl _, Nat.le_refl _⟩, ?_, ?_, ?_⟩
  · intro i p c h; simp [Disk.new] at h
  · intro i j p q c _ h; simp [Disk.new] at h
  · intro i p c h; omega
  · intro v _ i p c h; omega
  · intro i p c h; simp [Disk.new] at h

/-- Entry and record go together. -/
theorem Inv.both {ep : Rec → Nat} {saved : List Rec} {kept : Nat} {d : Disk} (h : Inv ep saved kept d) {i p : Nat}
    (hp : d.pos[i]? = some p) : ∃ c, saved[i]? = some c := by
  have hi : i < d.pos.length := (List.getElem?_eq_some_iff.mp hp).1
  rw [h.len] at hi
  exact ⟨saved[i], List.getElem?_eq_getElem hi⟩

theorem Inv.byEpoch {ep : Rec → Nat} {saved : List Rec} {kept : Nat} {d : Disk} (h : Inv ep saved kept d) (e : Nat) :
    d.recordByEpoch e = saved[e]? := by
  unfold Disk.recordByEpoch
  cases hp : d.pos[e]? with
  | none =>
    have : saved.length ≤ e := by rw [← h.len]; exact List.getElem?_eq_none_iff.mp hp
    rw [List.getElem?_eq_none_iff.mpr this]
    rfl
  | some p =>
    obtain ⟨c, hc⟩ := h.both hp
    rw [hc]
    exact (h.rec_ e p c hp hc).2

/-- Only the records' file grows. -/
theorem Inv.grow {ep : Rec → Nat} {saved : List Rec} {kept : Nat} {d : Disk} (h : Inv ep saved kept d) (s : Seg)
    (failed : Option Nat) (idx : Snap) (hl : idx.len = d.recs.idx.len) :
    Inv ep saved kept { d with recs := { d.recs with file := d.recs.file ++ [s], failed := failed, idx := idx } } := by
  refine ⟨h.len, ?_, h.mono, h.kp, h.dur, ?_, ?_⟩
  · intro i p c hp hc
    exact ⟨(h.rec_ i p c hp hc).1, CertPack.recAt_left _ (h.rec_ i p c hp hc).2⟩
  · intro v hv i p c hi hp hc
    rcases hv with hv | hv | hv
    · have hvl : v.len = d.recs.idx.len := by rw [hv]; exact hl
      rw [hvl]
      exact h.cur i p c hp hc
    · exact h.lens v (Or.inr (Or.inl hv)) i p c hi hp hc
    · exact h.lens v (Or.inr (Or.inr hv)) i p c hi hp hc
  · intro i p c hp hc
    change idx.len ≤ header ∨ p + c.len ≤ idx.len
    rw [hl]
    exact h.cur i p c hp hc

/-- The save of a record: stored when it is the next, otherwise nothing changes. -/
theorem saveRecord_inv {ep : Rec → Nat} {saved : List Rec} {kept : Nat} {d : Disk} (h : Inv ep saved kept d) (r : Rec)
    (o : RecOut) :
    (Inv ep saved kept (d.saveRecord ep r o).1 ∧ ((d.saveRecord ep r o).2 = none → ep r < saved.length)) ∨
    (Inv ep (saved ++ [r]) kept (d.saveRecord ep r o).1 ∧ (d.saveRecord ep r o).2 = none ∧ ep r = saved.length) := by
  unfold Disk.saveRecord
  by_cases h1 : ep r < d.pos.length
  · rw [if_pos h1]
    exact Or.inl ⟨h, fun _ => by rw [← h.len]; exact h1⟩
  · rw [if_neg h1]
    by_cases h2 : ep r ≠ d.pos.length
    · rw [if_pos h2]
      exact Or.inl ⟨h, fun h' => by cases h'⟩
    · rw [if_neg h2]
      have h3 : ep r = d.pos.length := Decidable.not_not.mp h2
      cases hf : d.recs.failed with
      | some e => exact Or.inl ⟨h, fun h' => by cases h'⟩
      | none =>
        dsimp only
        cases o with
        | pos e extra =>
          left
          refine ⟨?_, fun h' => by cases h'⟩
          have := h.grow (.rec_ r) none (d.recs.idx.save r.digest (fileLen d.recs.file) extra) rfl
          rw [← hf] at this
          exact this
        | low o =>
          cases o with
          | serialize e => exact Or.inl ⟨h, fun h' => by cases h'⟩
          | write e n =>
            left
            exact ⟨h.grow (.junk n) (some e) d.recs.idx rfl, fun h' => by cases h'⟩
          | index e =>
            left
            refine ⟨?_, fun h' => by cases h'⟩
            have := h.grow (.rec_ r) none d.recs.idx rfl
            rw [← hf] at this
            exact this
          | fine extra =>
            right
            refine ⟨?_, rfl, by rw [h3, h.len]⟩
            have hget : ∀ (i p : Nat), (d.pos ++ [fileLen d.recs.file])[i]? = some p →
                (d.pos[i]? = some p ∧ i < d.pos.length) ∨ (i = d.pos.length ∧ p = fileLen d.recs.file) := by
              intro i p hp
              rw [List.getElem?_append] at hp
              by_cases hi : i < d.pos.length
              · rw [if_pos hi] at hp; exact Or.inl ⟨hp, hi⟩
              · rw [if_neg hi] at hp
                have h4 := (List.getElem?_eq_some_iff.mp hp).1
                have h5 := List.mem_of_getElem? hp
                simp only [List.length_cons, List.length_nil] at h4
                exact Or.inr ⟨by omega, List.mem_singleton.mp h5⟩
            have hsave : ∀ (i : Nat) c, (saved ++ [r])[i]? = some c →
                (i < d.pos.length → saved[i]? = some c) ∧ (i = d.pos.length → c = r) := by
              intro i c hc
              constructor
              · intro hi
                rw [h.len] at hi
                rw [List.getElem?_append_left hi] at hc
                exact hc
              · intro hi
                subst hi
                rw [h.len] at hc
                simp at hc
                exact hc.symm
            have hend : ∀ (i p : Nat) (c : Rec), (d.pos ++ [fileLen d.recs.file])[i]? = some p → (saved ++ [r])[i]? = some c →
                recAt (d.recs.file ++ [.rec_ r]) p = some c ∧ ep c = i := by
              intro i p c hp hc
              rcases hget i p hp with ⟨hp, hi⟩ | ⟨hi, hp⟩
              · have := h.rec_ i p c hp ((hsave i c hc).1 hi)
                exact ⟨CertPack.recAt_left _ this.2, this.1⟩
              · have := (hsave i c hc).2 hi
                subst this
                subst hp
                exact ⟨CertPack.recAt_end _ _, by rw [h3, hi]⟩
            refine ⟨by simp [h.len], ?_, ?_, ?_, ?_, ?_, ?_⟩
            · intro i p c hp hc
              exact ⟨(hend i p c hp hc).2, (hend i p c hp hc).1⟩
            · intro i j p q c hij hp hq hc
              rcases hget j q hq with ⟨hq, hj⟩ | ⟨hj, hq⟩
              · rcases hget i p hp with ⟨hp, hi⟩ | ⟨hi, _⟩
                · exact h.mono i j p q c hij hp hq ((hsave i c hc).1 hi)
                · omega
              · rcases hget i p hp with ⟨hp, hi⟩ | ⟨hi, _⟩
                · have := CertPack.recAt_le (h.rec_ i p c hp ((hsave i c hc).1 hi)).2
                  omega
                · omega
            · have := h.kp
              exact ⟨this.1, by simp only [List.length_append, List.length_cons, List.length_nil]; omega⟩
            · intro i p c hi hp hc
              have hk := h.kp.2
              rw [← h.len] at hk
              rcases hget i p hp with ⟨hp, hi'⟩ | ⟨hi', _⟩
              · exact h.dur i p c hi hp ((hsave i c hc).1 hi')
              · omega
            · intro v hv i p c hi hp hc
              have hk := h.kp.2
              rw [← h.len] at hk
              rcases hv with hv | hv | hv
              · subst hv
                right
                exact CertPack.recAt_le (hend i p c hp hc).1
              · rcases hget i p hp with ⟨hp, hi'⟩ | ⟨hi', _⟩
                · exact h.lens v (Or.inr (Or.inl hv)) i p c hi hp ((hsave i c hc).1 hi')
                · omega
              · rcases hget i p hp with ⟨hp, hi'⟩ | ⟨hi', _⟩
                · exact h.lens v (Or.inr (Or.inr hv)) i p c hi hp ((hsave i c hc).1 hi')
                · omega
            · intro i p c hp hc
              right
              exact CertPack.recAt_le (hend i p c hp hc).1

/-- Nothing of the records changes. -/
theorem Inv.frame {ep : Rec → Nat} {saved : List Rec} {kept : Nat} {d t : Disk} (h : Inv ep saved kept d)
    (h1 : t.recs = d.recs) (h2 : t.pos = d.pos) (h3 : t.dpos = d.dpos) : Inv ep saved kept t := by
  obtain ⟨r, p, dp, c⟩ := t
  dsimp only at h1 h2 h3
  subst h1 h2 h3
  exact ⟨h.len, h.rec_, h.mono, h.kp, h.dur, h.lens, h.cur⟩

theorem saveCert_inv {ep : Rec → Nat} {saved : List Rec} {kept : Nat} {d : Disk} (h : Inv ep saved kept d) (c : Rec)
    (o : SaveOut) : Inv ep saved kept (d.saveCert c o).1 := h.frame rfl rfl rfl

/-- More is synced. -/
theorem Inv.synced {ep : Rec → Nat} {saved : List Rec} {kept : Nat} {d : Disk} (h : Inv ep saved kept d) :
    Inv ep saved kept { d with recs := { d.recs with dur := total d.recs.file } } := by
  refine ⟨h.len, h.rec_, h.mono, h.kp, ?_, h.lens, h.cur⟩
  intro i p c _ hp hc
  exact CertPack.recAt_le (h.rec_ i p c hp hc).2

theorem Inv.posSynced {ep : Rec → Nat} {saved : List Rec} {kept : Nat} {d : Disk} (h : Inv ep saved kept d) :
    Inv ep saved kept { d with dpos := d.pos.length } :=
  ⟨h.len, h.rec_, h.mono, ⟨by rw [h.len]; exact h.kp.2, h.kp.2⟩, h.dur, h.lens, h.cur⟩

/-- The end of a persist that worked. -/
theorem Inv.allKept {ep : Rec → Nat} {saved : List Rec} {kept : Nat} {d : Disk} (h : Inv ep saved kept d)
    (hd : d.recs.dur = total d.recs.file) (hp : d.dpos = d.pos.length) (hb : d.recs.base = d.recs.idx)
    (hm : d.recs.more = []) : Inv ep saved saved.length d := by
  refine ⟨h.len, h.rec_, h.mono, ⟨by rw [hp, h.len]; exact Nat.le_refl _, Nat.le_refl _⟩, ?_, ?_, h.cur⟩
  · intro i p c _ hp hc
    rw [hd]
    exact CertPack.recAt_le (h.rec_ i p c hp hc).2
  · intro v hv i p c _ hp hc
    have : v = d.recs.idx := by
      rcases hv with hv | hv | hv
      · exact hv
      · rw [hv, hb]
      · rw [hm] at hv; cases hv
    subst this
    exact h.cur i p c hp hc

theorem persist_inv {ep : Rec → Nat} {saved : List Rec} {kept : Nat} {d : Disk} (h : Inv ep saved kept d) (o : PersistOut) :
    Inv ep saved kept (d.persist o).1 ∧ ((d.persist o).2 = none → Inv ep saved saved.length (d.persist o).1) := by
  unfold Disk.persist
  cases h1 : d.recs.failed.or (o.at_ 1) with
  | some e => exact ⟨h, fun h' => by cases h'⟩
  | none =>
    dsimp only
    have hs := h.synced
    cases h2 : d.certs.failed.or (o.at_ 2) with
    | some e => exact ⟨hs, fun h' => by cases h'⟩
    | none =>
      dsimp only
      cases h3 : o.at_ 3 with
      | some e => exact ⟨hs.frame rfl rfl rfl, fun h' => by cases h'⟩
      | none =>
        dsimp only
        have hp := hs.posSynced
        unfold Disk.syncIdx
        cases h4 : o.at_ 4 with
        | some e =>
          refine ⟨⟨hp.len, hp.rec_, hp.mono, hp.kp, hp.dur, ?_, hp.cur⟩, fun h' => by cases h'⟩
          intro v hv i p c hi hpp hc
          rcases hv with hv | hv | hv
          · exact hp.lens v (Or.inl hv) i p c hi hpp hc
          · exact hp.lens v (Or.inr (Or.inl hv)) i p c hi hpp hc
          · change v ∈ d.recs.more ++ [d.recs.idx] at hv
            rw [List.mem_append, List.mem_singleton] at hv
            rcases hv with hv | hv
            · exact hp.lens v (Or.inr (Or.inr hv)) i p c hi hpp hc
            · exact hp.lens v (Or.inl hv) i p c hi hpp hc
        | none =>
          dsimp only
          have hb : Inv ep saved kept
              { d with recs := { d.recs with dur := total d.recs.file, base := d.recs.idx, more := [] },
                       dpos := d.pos.length } := by
            refine ⟨hp.len, hp.rec_, hp.mono, hp.kp, hp.dur, ?_, hp.cur⟩
            intro v hv i p c hi hpp hc
            rcases hv with hv | hv | hv
            · exact hp.lens v (Or.inl hv) i p c hi hpp hc
            · exact hp.lens v (Or.inl hv) i p c hi hpp hc
            · cases hv
          cases h5 : o.at_ 5 with
          | some e => exact ⟨hb.frame rfl rfl rfl, fun h' => by cases h'⟩
          | none =>
            exact ⟨hb.frame rfl rfl rfl, fun _ => (hb.allKept rfl rfl rfl rfl).frame rfl rfl rfl⟩

/-- The length found in the index. -/
theorem found_len {ep : Rec → Nat} {saved : List Rec} {kept : Nat} {d : Disk} (h : Inv ep saved kept d) (r : Restart) :
    ∀ (i p : Nat) (c : Rec), i < kept → d.pos[i]? = some p → saved[i]? = some c →
      (d.recs.found r).len ≤ header ∨ p + c.len ≤ (d.recs.found r).len := by
  intro i p c hi hp hc
  show (d.recs.version r.written r.lenPick).len ≤ header ∨ p + c.len ≤ (d.recs.version r.written r.lenPick).len
  rcases CertPack.version_mem d.recs r.written r.lenPick with e | e | ⟨_, e⟩
  · rw [e]; exact h.lens _ (Or.inr (Or.inl rfl)) i p c hi hp hc
  · exact h.lens _ (Or.inr (Or.inr e)) i p c hi hp hc
  · rw [e]; exact h.lens _ (Or.inl rfl) i p c hi hp hc

theorem take_get {α : Type} {l : List α} {n i : Nat} {x : α} (h : (l.take n)[i]? = some x) : l[i]? = some x ∧ i < n := by
  rw [List.getElem?_take] at h
  split at h
  · rename_i hi; exact ⟨h, hi⟩
  · cases h

/-- Opening again: a beginning of the records is found, with all that were kept. -/
theorem reopen_inv {ep : Rec → Nat} {saved : List Rec} {kept : Nat} {d : Disk} (h : Inv ep saved kept d) {f : Found}
    (hf : f.Legal d) : ∃ m, kept ≤ m ∧ Inv ep (saved.take m) kept (d.reopen f) := by
  -- the file as found and after the first cut
  have hback : ∀ (p : Nat) (c : Rec), recAt (cutTo (d.foundFile f) (d.recs.found f.ri).len) p = some c → recAt d.recs.file p = some c := by
    intro p c hc
    exact recAt_of_cut (recAt_of_junk (recAt_of_cutTo hc))
  have hkeep : ∀ (i p : Nat) (c : Rec), d.pos[i]? = some p → saved[i]? = some c →
      p + c.len ≤ header + max d.recs.dur f.data →
      ((d.recs.found f.ri).len ≤ header ∨ p + c.len ≤ (d.recs.found f.ri).len) →
      recAt (cutTo (d.foundFile f) (d.recs.found f.ri).len) p = some c := by
    intro i p c hp hc h1 h2
    exact recAt_cutTo (CertPack.recAt_left _ (CertPack.recAt_cut (h.rec_ i p c hp hc).2 h1)) h2
  have hsurv : ∀ (i p : Nat) (c : Rec), i < kept → d.pos[i]? = some p → saved[i]? = some c →
      recAt (cutTo (d.foundFile f) (d.recs.found f.ri).len) p = some c := by
    intro i p c hi hp hc
    refine hkeep i p c hp hc ?_ (found_len h f.ri i p c hi hp hc)
    have := h.dur i p c hi hp hc
    omega
  have hbad : ∀ p ∈ f.bad, recAt (cutTo (d.foundFile f) (d.recs.found f.ri).len) p = none := by
    intro p hp
    cases hc : recAt (cutTo (d.foundFile f) (d.recs.found f.ri).len) p with
    | none => rfl
    | some c =>
      have := recAt_of_cutTo hc
      rw [hf.bad p hp] at this
      cases this
  have hP : ∀ (i p : Nat), (d.pos.take (max d.dpos f.entries) ++ f.bad)[i]? = some p →
      (d.pos[i]? = some p ∧ i < max d.dpos f.entries) ∨ p ∈ f.bad := by
    intro i p hp
    rw [List.getElem?_append] at hp
    split at hp
    · exact Or.inl (take_get hp)
    · exact Or.inr (List.mem_of_getElem? hp)
  have hkP : ∀ (i p : Nat), i < kept → d.pos[i]? = some p → (d.pos.take (max d.dpos f.entries) ++ f.bad)[i]? = some p := by
    intro i p hi hp
    have hk := h.kp.1
    have h1 : (d.pos.take (max d.dpos f.entries))[i]? = some p := by
      rw [List.getElem?_take, if_pos (by omega)]
      exact hp
    rw [List.getElem?_append_left (List.getElem?_eq_some_iff.mp h1).1]
    exact h1
  have hkget : ∀ i, i < kept → ∃ p c, d.pos[i]? = some p ∧ saved[i]? = some c := by
    intro i hi
    have hk := h.kp.2
    have hi' : i < d.pos.length := by rw [h.len]; omega
    exact ⟨d.pos[i], saved[i], List.getElem?_eq_getElem hi', List.getElem?_eq_getElem (by omega)⟩
  have hempty : ∀ t : Disk, t.pos = [] → kept = 0 → Inv ep [] kept t := by
    intro t ht hk
    subst hk
    refine ⟨by rw [ht]; rfl, ?_, ?_, ⟨Nat.zero_le _, Nat.le_refl _⟩, ?_, ?_, ?_⟩
    · intro i p c hp; rw [ht] at hp; simp at hp
    · intro i j p q c _ hp; rw [ht] at hp; simp at hp
    · intro i p c hi; omega
    · intro v _ i p c hi; omega
    · intro i p c hp; rw [ht] at hp; simp at hp
  by_cases hnil : d.pos.take (max d.dpos f.entries) ++ f.bad = []
  · have hk0 : kept = 0 := by
      by_contra hk
      obtain ⟨p, c, hp, _⟩ := hkget 0 (by omega)
      have := hkP 0 p (by omega) hp
      rw [hnil] at this
      simp at this
    refine ⟨0, by omega, ?_⟩
    rw [List.take_zero]
    refine hempty _ ?_ hk0
    unfold Disk.reopen healRecords
    dsimp only
    rw [if_pos hnil]
  · rcases healLoop_spec (cutTo (d.foundFile f) (d.recs.found f.ri).len) (d.pos.take (max d.dpos f.entries) ++ f.bad)
        ((d.pos.take (max d.dpos f.entries) ++ f.bad).length - 1) with ⟨hl, hun⟩ | ⟨j, p, c, hj, hpj, hcj, hl, hun⟩
    · have hk0 : kept = 0 := by
        by_contra hk
        obtain ⟨p, c, hp, hc⟩ := hkget 0 (by omega)
        have := hun 0 p (by omega) (hkP 0 p (by omega) hp)
        rw [hsurv 0 p c (by omega) hp hc] at this
        cases this
      refine ⟨0, by omega, ?_⟩
      rw [List.take_zero]
      refine hempty _ ?_ hk0
      unfold Disk.reopen healRecords
      dsimp only
      rw [if_neg hnil, hl]
    · have hjp : d.pos[j]? = some p ∧ j < max d.dpos f.entries := by
        rcases hP j p hpj with h' | h'
        · exact h'
        · rw [hbad p h'] at hcj; cases hcj
      obtain ⟨c', hc'⟩ := h.both hjp.1
      have hcc : c' = c := by
        have h1 := (h.rec_ j p c' hjp.1 hc').2
        rw [hback p c hcj] at h1
        cases h1; rfl
      subst hcc
      have hjlen : j < d.pos.length := (List.getElem?_eq_some_iff.mp hjp.1).1
      have hposq : (d.pos.take (max d.dpos f.entries) ++ f.bad).take (j + 1) = d.pos.take (j + 1) := by
        rw [List.take_append_of_le_length (by rw [List.length_take]; omega), List.take_take]
        congr 1
        omega
      have hkj : kept ≤ j + 1 := by
        by_contra hk
        obtain ⟨q, x, hq, hx⟩ := hkget (j + 1) (by omega)
        have hqP := hkP (j + 1) q (by omega) hq
        have := hun (j + 1) q (by omega)
          (by have := (List.getElem?_eq_some_iff.mp hqP).1; omega) hqP
        rw [hsurv (j + 1) q x (by omega) hq hx] at this
        cases this
      have hshape : (d.reopen f).pos = d.pos.take (j + 1) ∧
          (d.reopen f).recs.file = cutEnd (cutTo (d.foundFile f) (d.recs.found f.ri).len) (some (p + c'.len)) := by
        unfold Disk.reopen healRecords
        dsimp only
        rw [if_neg hnil, hl]
        exact ⟨hposq, rfl⟩
      have hend : ∀ (i q : Nat) (x : Rec), i ≤ j → d.pos[i]? = some q → saved[i]? = some x → q + x.len ≤ p + c'.len := by
        intro i q x hi hq hx
        by_cases hij : i = j
        · subst hij
          rw [hjp.1] at hq; cases hq
          rw [hc'] at hx; cases hx
          exact Nat.le_refl _
        · have := h.mono i j q p x (by omega) hq hjp.1 hx
          omega
      have hlim1 : p + c'.len ≤ header + max d.recs.dur f.data := by
        have h1 := CertPack.recAt_le (recAt_of_junk (recAt_of_cutTo hcj))
        unfold fileLen at h1
        rw [CertPack.total_cut] at h1
        omega
      have hlim2 : (d.recs.found f.ri).len ≤ header ∨ p + c'.len ≤ (d.recs.found f.ri).len := by
        rcases cutTo_le (d.foundFile f) (d.recs.found f.ri).len with h1 | h1
        · exact Or.inl h1
        · have := CertPack.recAt_le hcj
          exact Or.inr (by omega)
      have hrec : ∀ (i q : Nat) (x : Rec), i ≤ j → d.pos[i]? = some q → saved[i]? = some x → recAt (d.reopen f).recs.file q = some x := by
        intro i q x hi hq hx
        have he := hend i q x hi hq hx
        rw [hshape.2]
        refine recAt_cutEnd (hkeep i q x hq hx (by omega) ?_) ?_
        · rcases hlim2 with h' | h'
          · exact Or.inl h'
          · exact Or.inr (by omega)
        · intro n hn
          cases hn
          exact he
      have hslot : ∀ (i q : Nat) (x : Rec), (d.reopen f).pos[i]? = some q → (saved.take (j + 1))[i]? = some x →
          d.pos[i]? = some q ∧ saved[i]? = some x ∧ i ≤ j := by
        intro i q x hq hx
        rw [hshape.1] at hq
        have h1 := take_get hq
        have h2 := take_get hx
        exact ⟨h1.1, h2.1, by omega⟩
      have hidx : (d.reopen f).recs.idx = d.recs.found f.ri ∧ (d.reopen f).recs.base = d.recs.found f.ri ∧
          (d.reopen f).recs.more = [] ∧
          (d.reopen f).recs.dur = min d.recs.dur (total (d.reopen f).recs.file) ∧
          (d.reopen f).dpos = min d.dpos (d.reopen f).pos.length := ⟨rfl, rfl, rfl, rfl, rfl⟩
      obtain ⟨hi1, hi2, hi3, hi4, hi5⟩ := hidx
      refine ⟨j + 1, hkj, ⟨?_, ?_, ?_, ⟨?_, ?_⟩, ?_, ?_, ?_⟩⟩
      · rw [hshape.1, List.length_take, List.length_take, h.len]
      · intro i q x hq hx
        obtain ⟨a, b, e⟩ := hslot i q x hq hx
        exact ⟨(h.rec_ i q x a b).1, hrec i q x e a b⟩
      · intro i k q r x hik hq hr hx
        rw [hshape.1] at hr
        obtain ⟨a, b, _⟩ := hslot i q x hq hx
        exact h.mono i k q r x hik a (take_get hr).1 b
      · rw [hi5, hshape.1, List.length_take]
        have := h.kp.1
        omega
      · rw [List.length_take, ← h.len]
        omega
      · intro i q x hi hq hx
        obtain ⟨a, b, e⟩ := hslot i q x hq hx
        have h1 := h.dur i q x hi a b
        have h2 := CertPack.recAt_le (hrec i q x e a b)
        rw [hi4]
        unfold fileLen at h2
        omega
      · intro v hv i q x hi hq hx
        obtain ⟨a, b, _⟩ := hslot i q x hq hx
        have : v = d.recs.found f.ri := by
          rcases hv with hv | hv | hv
          · rw [hv, hi1]
          · rw [hv, hi2]
          · rw [hi3] at hv; cases hv
        subst this
        exact found_len h f.ri i q x hi a b
      · intro i q x hq hx
        obtain ⟨a, b, e⟩ := hslot i q x hq hx
        rw [hi1]
        have := hend i q x e a b
        rcases hlim2 with h' | h'
        · exact Or.inl h'
        · exact Or.inr (by omega)

end EDisk
end Verif
