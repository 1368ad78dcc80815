import Verif.Archive.Hdx
/-
What a crash does to the digest index: `HdxIndex::sync` (index.rs:784-795) writes the dirty buckets in an
arbitrary order (a hash map is drained, index.rs:505-526), then the header, then the filter
(index.rs:449-455), and only then calls `sync_all`; `open_hdx_file` (index.rs:283-391) reads them back.
-/
namespace Verif
namespace Hdx

/-- How far an interrupted `sync` got: some buckets; all buckets and the header; everything. -/
inductive Reached where
  | buckets
  | header
  | all

/-- The index reopened after a crash during `sync`. `d`: the index at the previous completed `sync`, `s`:
the index in memory, `w`: the buckets that were written. Sub-page torn writes are not modelled (a
torn bucket fails its checksum). index.rs:449-455, 505-526, 784-795. -/
def reopened (d s : Idx) (w : Nat → Bool) : Reached → Idx
  | .buckets => { d with tbl := fun i => if w i then s.tbl i else d.tbl i }
  | .header => { s with bits := d.bits }
  | .all => s

theorem contains_mono {P : Params} {b b' : Nat → Bool} (h : ∀ i, b i = true → b' i = true) {k : Nat}
    (hc : contains P b k = true) : contains P b' k = true := by
  unfold contains at *
  rw [List.all_eq_true] at *
  exact fun j hj => h _ (hc j hj)

/-- A history of saves on a table that is only known to be well placed. -/
theorem saves_placed {P : Params} {fuel : Nat} : ∀ (hist : List Entry) {s : Idx}, s.Placed P →
    ∃ s', s.saves P fuel hist = some s' ∧ s'.Placed P ∧ (∀ i, s.bits i = true → s'.bits i = true) ∧
      (∀ k p, lastSaved hist k = some p → contains P s'.bits k = true) ∧
      ∀ k, s'.raw P k = (lastSaved hist k).or (s.raw P k) := by
  intro hist
  induction hist with
  | nil =>
    intro s hi
    exact ⟨s, rfl, hi, fun _ h => h, fun k p h => by simp [lastSaved, find] at h,
      fun k => by simp [lastSaved, find]⟩
  | cons e es ih =>
    intro s hi
    obtain ⟨s1, e1, i1, b1, r1⟩ := save_placed (fuel := fuel) hi e.1 e.2
    obtain ⟨s2, e2, i2, b2, c2, r2⟩ := ih i1
    have hmono : ∀ i, s.bits i = true → s1.bits i = true := by
      intro i h; rw [b1]; unfold accrue; rw [h]; rfl
    refine ⟨s2, by simp only [Idx.saves]; rw [e1]; exact e2, i2, fun i h => b2 i (hmono i h), ?_, ?_⟩
    · intro k p hk
      unfold lastSaved at hk
      rw [List.reverse_cons, find_append] at hk
      cases h : find k es.reverse with
      | some v => exact c2 k v h
      | none =>
        rw [h] at hk
        simp only [Option.none_or, find] at hk
        by_cases c : e.1 = k
        · apply contains_mono b2
          rw [b1]
          exact contains_accrue P s.bits e.1 k (Or.inl c.symm)
        · rw [if_neg c] at hk; cases hk
    · intro k
      rw [r2, r1]
      unfold lastSaved
      rw [List.reverse_cons, find_append]
      cases h : find k es.reverse with
      | some v => simp
      | none =>
        simp only [Option.none_or, find]
        by_cases c : k = e.1
        · rw [if_pos c, if_pos c.symm]; simp
        · rw [if_neg c, if_neg (fun x => c x.symm)]; simp

/-- Interrupted without a split since the last `sync`, or after the header: the table is well placed and
every digest keeps its old position or has its newer one. -/
theorem reopened_raw {P : Params} {d s : Idx} (hd : d.Placed P) (hs : s.Placed P) (w : Nat → Bool)
    (r : Reached) (hr : match r with | .buckets => s.buckets = d.buckets | _ => True) :
    (reopened d s w r).Placed P ∧
      ∀ k, (reopened d s w r).raw P k = d.raw P k ∨ (reopened d s w r).raw P k = s.raw P k := by
  cases r with
  | all => exact ⟨hs, fun k => Or.inr rfl⟩
  | header => exact ⟨⟨hs.pos, hs.placed⟩, fun k => Or.inr rfl⟩
  | buckets =>
    dsimp only at hr
    refine ⟨⟨hd.pos, ?_⟩, fun k => ?_⟩
    · intro i hi e he
      have hi' : i < d.buckets := hi
      have he' : e ∈ (if w i then s.tbl i else d.tbl i).entries := he
      show bucketOf d.buckets (P.hash e.1) = i
      cases hw : w i with
      | true =>
        rw [hw, if_pos rfl] at he'
        have := hs.placed i (by rw [hr]; exact hi') e he'
        rwa [hr] at this
      | false =>
        rw [hw, if_neg (by decide)] at he'
        exact hd.placed i hi' e he'
    · show ((if w (bucketOf d.buckets (P.hash k)) then s.tbl (bucketOf d.buckets (P.hash k))
          else d.tbl (bucketOf d.buckets (P.hash k))).get k = _) ∨ _
      cases hw : w (bucketOf d.buckets (P.hash k)) with
      | true =>
        right
        show (if w (bucketOf d.buckets (P.hash k)) then s.tbl (bucketOf d.buckets (P.hash k))
          else d.tbl (bucketOf d.buckets (P.hash k))).get k = _
        rw [hw, if_pos rfl]; unfold Idx.raw; rw [hr]
      | false => left; rw [if_neg (by decide)]; rfl

/-- **C46, crash.** Take an index at a completed `sync` (`d`, after the saves `old`), then more saves
(`new`), then a crash at any point of the next `sync`, in which no bucket was split (or after the header
was written); reopen it and save anything (`after`). Every digest that was there at the completed `sync`
is still found: at its position of `after` if saved again, else at its synced position or at its position
of `new`. -/
theorem crash_keeps_synced (P : Params) (fuel n : Nat) (hn : 1 ≤ n) (old new after : List Entry)
    (d s : Idx) (hd : (fresh n).saves P fuel old = some d) (hs : d.saves P fuel new = some s)
    (w : Nat → Bool) (r : Reached)
    (hr : match r with | .buckets => s.buckets = d.buckets | _ => True) :
    ∃ t, (reopened d s w r).saves P fuel after = some t ∧
      ∀ k p, lastSaved old k = some p →
        (t.load P k = lastSaved after k ∨ lastSaved after k = none ∧
          (t.load P k = some p ∨ t.load P k = lastSaved new k)) ∧ t.load P k ≠ none := by
  obtain ⟨d', e1, id, rd⟩ := saves_ok (P := P) (fuel := fuel) old (fresh_inv P n hn)
  rw [hd] at e1; cases e1
  obtain ⟨s', e2, ps, hb, _, rs⟩ := saves_placed (P := P) (fuel := fuel) new id.toPlaced
  rw [hs] at e2; cases e2
  obtain ⟨pr, hraw⟩ := reopened_raw id.toPlaced ps w r hr
  obtain ⟨t, e3, _, hbt, hct, rt⟩ := saves_placed (P := P) (fuel := fuel) after pr
  have hfresh : ∀ k, (fresh n).raw P k = none := by
    intro k; simp [fresh, Idx.raw, Bucket.get, Bucket.entries, find]
  refine ⟨t, e3, fun k p hk => ?_⟩
  have hdk : d.raw P k = some p := by rw [rd k, hk]; rfl
  have hcd : contains P d.bits k = true := id.seen k p hdk
  have hcr : contains P (reopened d s w r).bits k = true := by
    cases r with
    | buckets => exact hcd
    | header => exact hcd
    | all => exact contains_mono hb hcd
  have hload : t.load P k = t.raw P k := by
    unfold Idx.load; rw [if_pos (contains_mono hbt hcr)]; rfl
  rw [hload, rt k]
  cases ha : lastSaved after k with
  | some q => exact ⟨Or.inl rfl, by simp⟩
  | none =>
    simp only [Option.none_or]
    rcases hraw k with h | h
    · rw [h, hdk]; exact ⟨Or.inr ⟨trivial, Or.inl rfl⟩, by simp⟩
    · rw [h, rs k, hdk]
      cases hnk : lastSaved new k with
      | some q => exact ⟨Or.inr ⟨trivial, Or.inr rfl⟩, by simp⟩
      | none => exact ⟨Or.inr ⟨trivial, Or.inl rfl⟩, by simp⟩

theorem expand_le {P : Params} : ∀ (n : Nat) {s s' : Idx}, s.expand P n = some s' →
    s.buckets ≤ s'.buckets := by
  intro n
  induction n with
  | zero => intro s s' h; simp only [Idx.expand, Option.some.injEq] at h; rw [h]; exact Nat.le_refl _
  | succ n ih =>
    intro s s' h
    simp only [Idx.expand] at h
    by_cases c : P.limit s.buckets ≤ s.values
    · rw [if_pos c] at h
      unfold Idx.split at h
      cases hd : distribute P (s.buckets + 1) (splitAt s.buckets) s.buckets
          (s.tbl (splitAt s.buckets)).entries [] {} {} with
      | none => rw [hd] at h; cases h
      | some ab =>
        obtain ⟨a, b⟩ := ab
        rw [hd] at h
        have := ih h
        dsimp only at this
        omega
    · rw [if_neg c] at h; cases h; exact Nat.le_refl _

theorem saves_le {P : Params} {fuel : Nat} : ∀ (hist : List Entry) {s s' : Idx},
    s.saves P fuel hist = some s' → s.buckets ≤ s'.buckets := by
  intro hist
  induction hist with
  | nil => intro s s' h; simp only [Idx.saves, Option.some.injEq] at h; rw [h]; exact Nat.le_refl _
  | cons e es ih =>
    intro s s' h
    simp only [Idx.saves] at h
    cases h1 : s.save P fuel e.1 e.2 with
    | none => rw [h1] at h; cases h
    | some s1 =>
      rw [h1] at h
      have h2 := ih h
      unfold Idx.save at h1
      cases h3 : s.expand P fuel with
      | none => rw [h3] at h1; cases h1
      | some s2 =>
        rw [h3] at h1
        have := expand_le fuel h3
        cases h1
        exact Nat.le_trans this h2

/-- A key that lands in one of the first `b` buckets of a larger table lands there with `b` buckets. -/
theorem bucketOf_down (b x i : Nat) (hb : 1 ≤ b) (hi : i < b) : ∀ j, bucketOf (b + j) x = i →
    bucketOf b x = i := by
  intro j
  induction j with
  | zero => exact fun h => h
  | succ j ih =>
    intro h
    apply ih
    obtain ⟨m1, m2⟩ := bucketOf_succ (b + j) x (by omega)
    have hlt := splitAt_lt (b + j) (by omega)
    by_cases c : bucketOf (b + j) x = splitAt (b + j)
    · rcases m2 c with h' | h'
      · rw [c, ← h']; exact h
      · have h1 : bucketOf (b + j + 1) x = i := h
        omega
    · rw [← m1 c]; exact h

/-- **Finding.** The exception is real: when a bucket was split since the last completed `sync`, a crash
after the buckets and before the header loses every digest that moved to a new bucket, for any hash and
any threshold: it is not found any more, and no later save of other digests brings it back. -/
theorem split_crash_loses (P : Params) (fuel n : Nat) (hn : 1 ≤ n) (old new after : List Entry)
    (d s : Idx) (hd : (fresh n).saves P fuel old = some d) (hs : d.saves P fuel new = some s) (k : Nat)
    (hmoved : bucketOf s.buckets (P.hash k) ≠ bucketOf d.buckets (P.hash k))
    (hafter : lastSaved after k = none) :
    ∃ t, (reopened d s (fun _ => true) .buckets).saves P fuel after = some t ∧ t.load P k = none := by
  obtain ⟨d', e1, id, rd⟩ := saves_ok (P := P) (fuel := fuel) old (fresh_inv P n hn)
  rw [hd] at e1; cases e1
  obtain ⟨s', e2, ps, hb, _, rs⟩ := saves_placed (P := P) (fuel := fuel) new id.toPlaced
  rw [hs] at e2; cases e2
  have hle := saves_le new hs
  have pr : (reopened d s (fun _ => true) .buckets).Placed P := by
    refine ⟨id.pos, fun i hi e he => ?_⟩
    have hi' : i < d.buckets := hi
    have he' : e ∈ (s.tbl i).entries := he
    have := ps.placed i (by omega) e he'
    obtain ⟨j, hj⟩ := Nat.exists_eq_add_of_le hle
    rw [hj] at this
    exact bucketOf_down d.buckets _ i id.pos hi' j this
  have hraw : (reopened d s (fun _ => true) .buckets).raw P k = none := by
    show (s.tbl (bucketOf d.buckets (P.hash k))).get k = none
    unfold Bucket.get
    rw [find_none_iff]
    intro e he hk
    have hlt := bucketOf_lt d.buckets (P.hash k) id.pos
    have := ps.placed (bucketOf d.buckets (P.hash k)) (by omega) e he
    rw [hk] at this
    exact hmoved this
  obtain ⟨t, e3, _, _, _, rt⟩ := saves_placed (P := P) (fuel := fuel) after pr
  refine ⟨t, e3, ?_⟩
  have h1 : t.raw P k = none := by rw [rt k, hafter, hraw]; rfl
  unfold Idx.load
  by_cases c : contains P t.bits k = true
  · rw [if_pos c]; exact h1
  · rw [if_neg c]

/-! ## Concrete runs -/

namespace Ex

/-- A table that is expanded when it holds as many values as buckets. -/
def P : Params := { hash := fun k => k, bit := fun k _ => k, limit := fun b => b }

/-- Five digests in a table of two buckets: three splits; a repeated digest keeps its last position. -/
example : (((fresh 2).saves P 8 [(0, 10), (1, 11), (2, 12), (3, 13), (0, 20), (7, 17)]).map
    (fun s => decide (s.buckets = 5 ∧ s.load P 0 = some 20 ∧ s.load P 7 = some 17 ∧ s.load P 3 = some 13 ∧
      s.load P 9 = none))) = some true := by decide +kernel

/-- Forty digests in one bucket that is never split: an overflow page is written and still read. -/
example : (((fresh 1).saves { P with limit := fun _ => 1000 } 4
      ((List.range 40).map (fun i => (i, 100 + i)))).map
    (fun s => decide ((s.tbl 0).over.length = 1 ∧ s.load P 0 = some 100 ∧ s.load P 39 = some 139 ∧
      s.load P 40 = none))) = some true := by decide +kernel

/-- A persisted digest is lost: 2 is synced, the next save splits its bucket, the crash comes before the
header, and saving more digests afterwards does not bring it back. -/
theorem persisted_digest_lost :
    (((fresh 2).saves P 8 [(0, 10), (2, 12)]).bind fun d =>
      (d.saves P 8 [(5, 15)]).bind fun s =>
        ((reopened d s (fun _ => true) .buckets).saves P 8 [(5, 15), (6, 16)]).map fun t =>
          decide (d.load P 2 = some 12 ∧ s.load P 2 = some 12 ∧
            (reopened d s (fun _ => true) .buckets).load P 2 = none ∧ t.load P 2 = none ∧
            t.load P 5 = some 15)) = some true := by decide +kernel

end Ex
end Hdx
end Verif
