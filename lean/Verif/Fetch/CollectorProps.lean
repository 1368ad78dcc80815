import Verif.Fetch.Collector
/-
Property C72, first part: a request says exactly what is stored, and the answer is exactly what is missing.
-/
namespace Verif
namespace Fetch

open Codec (Bytes leNat)
open CertStore (Db nextRoundNumber readByIndex originsAfterRound Stored Uniq Reach Lists)

variable {U : Header → Prop} {keep : Nat} {db : Db}

/-! ### The next round -/

theorem countP_lt {α : Type} {p q : α → Bool} {l : List α} (hle : ∀ x ∈ l, q x = true → p x = true) {a : α} (ha : a ∈ l)
    (hp : p a = true) (hq : q a = false) : l.countP q < l.countP p := by
  induction l with
  | nil => cases ha
  | cons x l ih =>
    rw [List.countP_cons, List.countP_cons]
    have hsub : ∀ y ∈ l, q y = true → p y = true := fun y hy => hle y (by simp [hy])
    have hmono : l.countP q ≤ l.countP p := List.countP_mono_left hsub
    rcases List.mem_cons.mp ha with rfl | ha
    · rw [hp, hq]; simp only [if_true]; simp; omega
    · have := ih hsub ha
      have hx := hle x (by simp)
      by_cases h : q x = true
      · rw [if_pos h, if_pos (hx h)]; omega
      · rw [if_neg h]; omega

/-- Rows of `o` above `cur`. -/
def above (db : Db) (o : AuthorityId) (cur : Round) : Nat :=
  db.byOrigin.countP (fun kv => decide (kv.1.1 = o) && decide (cur < kv.1.2))

/-- **The next round**: the lowest stored one above `cur` that is not to be skipped. -/
theorem findNext_exact (hU : Uniq U) (h : Reach U keep db) (o : AuthorityId) (cur : Round) (skip : List Round) :
    match findNext db o cur skip with
    | none => ∀ c, Stored db c → c.header.author = o → cur < c.header.round → c.header.round ∈ skip
    | some n => cur < n ∧ n ∉ skip ∧ (∃ c, Stored db c ∧ c.header.author = o ∧ c.header.round = n) ∧
        ∀ c, Stored db c → c.header.author = o → cur < c.header.round → c.header.round < n → c.header.round ∈ skip := by
  have key : ∀ fuel cur, above db o cur < fuel →
      match findNextAux db o skip fuel cur with
      | none => ∀ c, Stored db c → c.header.author = o → cur < c.header.round → c.header.round ∈ skip
      | some n => cur < n ∧ n ∉ skip ∧ (∃ c, Stored db c ∧ c.header.author = o ∧ c.header.round = n) ∧
          ∀ c, Stored db c → c.header.author = o → cur < c.header.round → c.header.round < n →
            c.header.round ∈ skip := by
    intro fuel
    induction fuel with
    | zero => intro cur hf; omega
    | succ fuel ih =>
      intro cur hf
      have hn := CertStore.nextRoundNumber_exact hU h o cur
      unfold findNextAux
      cases hr : nextRoundNumber db o cur with
      | none =>
        rw [hr] at hn
        dsimp only at hn ⊢
        intro c hc ho hlt
        have := hn c hc ho
        omega
      | some r =>
        rw [hr] at hn
        dsimp only at hn ⊢
        obtain ⟨h1, ⟨x, hx, hxo, hxr⟩, h3⟩ := hn
        by_cases hs : skip.contains r = true
        · rw [if_pos hs]
          have hdec : above db o r < fuel := by
            have hrow := CertStore.origin_row (h.ok hU) hx
            rw [hxo, hxr] at hrow
            have : above db o r < above db o cur := by
              unfold above
              refine countP_lt ?_ hrow ?_ ?_
              · intro y _ hy
                simp only [Bool.and_eq_true, decide_eq_true_eq] at hy ⊢
                exact ⟨hy.1, by omega⟩
              · simp only [decide_true, Bool.true_and, decide_eq_true_eq]; exact h1
              · simp
            omega
          have hi := ih r hdec
          have hmem : r ∈ skip := by simpa using hs
          cases hf2 : findNextAux db o skip fuel r with
          | none =>
            rw [hf2] at hi
            dsimp only at hi ⊢
            intro c hc ho hlt
            rcases Nat.lt_or_ge r c.header.round with hg | hg
            · exact hi c hc ho hg
            · have := h3 c hc ho hlt
              have he : c.header.round = r := by omega
              rw [he]; exact hmem
          | some n =>
            rw [hf2] at hi
            dsimp only at hi ⊢
            obtain ⟨i1, i2, i3, i4⟩ := hi
            refine ⟨by omega, i2, i3, ?_⟩
            intro c hc ho hlt hlt2
            rcases Nat.lt_or_ge r c.header.round with hg | hg
            · exact i4 c hc ho hg hlt2
            · have := h3 c hc ho hlt
              have he : c.header.round = r := by omega
              rw [he]; exact hmem
        · rw [if_neg hs]
          dsimp only
          refine ⟨h1, by simpa using hs, ⟨x, hx, hxo, hxr⟩, ?_⟩
          intro c hc ho hlt hlt2
          have := h3 c hc ho hlt
          omega
  refine key _ _ ?_
  have : above db o cur ≤ db.byOrigin.length := List.countP_le_length
  omega

/-! ### The queue -/

/-- The order of the queue and of the answer. -/
def QLt (a b : Round × AuthorityId) : Prop := a.1 < b.1 ∨ (a.1 = b.1 ∧ a.2 < b.2)

theorem qpush_perm (x : Round × AuthorityId) (q : Queue) : (qpush x q).Perm (x :: q) := by
  induction q with
  | nil => exact .refl _
  | cons y q ih =>
    unfold qpush
    split
    · exact .refl _
    · exact (ih.cons y).trans (.swap x y q)

theorem mem_qpush {x y : Round × AuthorityId} {q : Queue} : y ∈ qpush x q ↔ y = x ∨ y ∈ q := by
  rw [(qpush_perm x q).mem_iff, List.mem_cons]

theorem qpush_sorted {x : Round × AuthorityId} {q : Queue} (h : q.Pairwise QLt) (hx : ∀ y ∈ q, y.2 ≠ x.2) :
    (qpush x q).Pairwise QLt := by
  induction q with
  | nil => simp [qpush]
  | cons y q ih =>
    rw [List.pairwise_cons] at h
    have hne := hx y (by simp)
    unfold qpush
    split
    · rename_i hle
      have hxy : QLt x y := by
        rcases hle with hle | ⟨h1, h2⟩
        · exact .inl hle
        · exact .inr ⟨h1, Nat.lt_of_le_of_ne h2 (fun e => hne e.symm)⟩
      rw [List.pairwise_cons]
      refine ⟨?_, List.pairwise_cons.mpr h⟩
      intro z hz
      rcases List.mem_cons.mp hz with rfl | hz
      · exact hxy
      · have := h.1 z hz
        unfold QLt at this hxy ⊢
        omega
    · rename_i hle
      have hyx : QLt y x := by
        unfold QLt
        omega
      rw [List.pairwise_cons]
      refine ⟨?_, ih h.2 (fun z hz => hx z (by simp [hz]))⟩
      intro z hz
      rcases mem_qpush.mp hz with rfl | hz
      · exact hyx
      · exact h.1 z hz

theorem qpush_nodup {x : Round × AuthorityId} {q : Queue} (h : (q.map (·.2)).Nodup) (hx : ∀ y ∈ q, y.2 ≠ x.2) :
    ((qpush x q).map (·.2)).Nodup := by
  rw [((qpush_perm x q).map _).nodup_iff, List.map_cons, List.nodup_cons]
  refine ⟨?_, h⟩
  intro hm
  obtain ⟨y, hy, he⟩ := List.mem_map.mp hm
  exact hx y hy he

/-- A round that the requester did not ask to skip, of an authority it named, above its bound. -/
def Asked (lower : Round) (skip : List (AuthorityId × List Round)) (r : Round) (o : AuthorityId) : Prop :=
  lower < r ∧ ∃ s, SMap.get? o skip = some s ∧ r ∉ s

/-- The queue: in order, one entry for an authority, only rounds that are asked for. -/
structure QOk (lower : Round) (skip : List (AuthorityId × List Round)) (q : Queue) : Prop where
  sorted : q.Pairwise QLt
  nodup : (q.map (·.2)).Nodup
  asked : ∀ x ∈ q, Asked lower skip x.1 x.2

theorem QOk.tail {lower : Round} {skip : List (AuthorityId × List Round)} {x : Round × AuthorityId} {q : Queue}
    (h : QOk lower skip (x :: q)) : QOk lower skip q ∧ ∀ y ∈ q, y.2 ≠ x.2 := by
  obtain ⟨h1, h2, h3⟩ := h
  rw [List.pairwise_cons] at h1
  rw [List.map_cons, List.nodup_cons] at h2
  refine ⟨⟨h1.2, h2.2, fun y hy => h3 y (by simp [hy])⟩, ?_⟩
  intro y hy he
  exact h2.1 (List.mem_map.mpr ⟨y, hy, he⟩)

theorem QOk.push {lower : Round} {skip : List (AuthorityId × List Round)} {x : Round × AuthorityId} {q : Queue}
    (h : QOk lower skip q) (hx : ∀ y ∈ q, y.2 ≠ x.2) (ha : Asked lower skip x.1 x.2) : QOk lower skip (qpush x q) := by
  refine ⟨qpush_sorted h.sorted hx, qpush_nodup h.nodup hx, ?_⟩
  intro y hy
  rcases mem_qpush.mp hy with rfl | hy
  · exact ha
  · exact h.asked y hy

/-- Certificates still to come from the queue `q`. -/
def ToCome (lower : Round) (skip : List (AuthorityId × List Round)) (q : Queue) (c : Certificate) : Prop :=
  Asked lower skip c.header.round c.header.author ∧ ∃ x ∈ q, x.2 = c.header.author ∧ x.1 ≤ c.header.round

/-- Every entry of the queue is a stored certificate. -/
def QStored (db : Db) (q : Queue) : Prop :=
  ∀ x ∈ q, ∃ c, Stored db c ∧ c.header.author = x.2 ∧ c.header.round = x.1

theorem initQueue_ok (hU : Uniq U) (h : Reach U keep db) (lower : Round) (skip sub : List (AuthorityId × List Round))
    (hs : SMap.Sorted sub) (hsub : ∀ e ∈ sub, SMap.get? e.1 skip = some e.2) :
    QOk lower skip (initQueue db lower sub) ∧ QStored db (initQueue db lower sub) ∧
      (∀ x ∈ initQueue db lower sub, x.2 ∈ sub.map (·.1)) ∧
      ∀ c, Stored db c → Asked lower skip c.header.round c.header.author → c.header.author ∈ sub.map (·.1) →
        ToCome lower skip (initQueue db lower sub) c := by
  induction sub with
  | nil =>
    refine ⟨⟨.nil, .nil, fun x hx => (by cases hx)⟩, fun x hx => (by cases hx), fun x hx => (by cases hx), ?_⟩
    intro c _ _ hm; cases hm
  | cons e sub ih =>
    obtain ⟨o, s⟩ := e
    have hs' : SMap.Sorted sub := by
      unfold SMap.Sorted at hs ⊢
      rw [List.map_cons, List.pairwise_cons] at hs
      exact hs.2
    have hno : o ∉ sub.map (·.1) := by
      unfold SMap.Sorted at hs
      rw [List.map_cons, List.pairwise_cons] at hs
      intro hm
      exact Nat.lt_irrefl _ (hs.1 o hm)
    obtain ⟨i1, i2, i3, i4⟩ := ih hs' (fun e he => hsub e (by simp [he]))
    have hget : SMap.get? o skip = some s := hsub (o, s) (by simp)
    have hf := findNext_exact hU h o lower s
    unfold initQueue
    cases hn : findNext db o lower s with
    | none =>
      rw [hn] at hf
      dsimp only at hf ⊢
      refine ⟨i1, i2, fun x hx => by rw [List.map_cons]; exact List.mem_cons_of_mem _ (i3 x hx), ?_⟩
      intro c hc ha hm
      rw [List.map_cons] at hm
      rcases List.mem_cons.mp hm with he | hm
      · exfalso
        obtain ⟨hlt, s', hs2, hns⟩ := ha
        simp only at he
        rw [he, hget] at hs2
        cases hs2
        exact hns (hf c hc he hlt)
      · exact i4 c hc ha hm
    | some n =>
      rw [hn] at hf
      dsimp only at hf ⊢
      obtain ⟨f1, f2, f3, f4⟩ := hf
      have hne : ∀ y ∈ initQueue db lower sub, y.2 ≠ o := fun y hy he => hno (he ▸ i3 y hy)
      refine ⟨i1.push hne ⟨f1, s, hget, f2⟩, ?_, ?_, ?_⟩
      · intro x hx
        rcases mem_qpush.mp hx with rfl | hx
        · exact f3
        · exact i2 x hx
      · intro x hx
        rw [List.map_cons]
        rcases mem_qpush.mp hx with rfl | hx
        · exact List.mem_cons_self ..
        · exact List.mem_cons_of_mem _ (i3 x hx)
      · intro c hc ha hm
        rw [List.map_cons] at hm
        refine ⟨ha, ?_⟩
        rcases List.mem_cons.mp hm with he | hm
        · simp only at he
          refine ⟨(n, o), mem_qpush.mpr (.inl rfl), he.symm, ?_⟩
          by_contra hlt
          obtain ⟨hl, s', hs2, hns⟩ := ha
          rw [he, hget] at hs2
          cases hs2
          exact hns (f4 c hc he hl (by simpa using hlt))
        · obtain ⟨_, x, hx, h1, h2⟩ := i4 c hc ha hm
          exact ⟨x, mem_qpush.mpr (.inr hx), h1, h2⟩

/-- The head of the queue is the next certificate of the answer. -/
theorem collect_take (hU : Uniq U) (h : Reach U keep db) {lower : Round} {skip : List (AuthorityId × List Round)} :
    ∀ (n : Nat) (q : Queue) (L : List Certificate), QOk lower skip q → QStored db q →
      Lists db (ToCome lower skip q) L → collect db skip n q = (L.take n).map some := by
  intro n
  induction n with
  | zero => intro q L _ _ _; simp [collect]
  | succ n ih =>
    intro q L hq hst hL
    cases q with
    | nil =>
      have : L = [] := by
        cases L with
        | nil => rfl
        | cons c L =>
          obtain ⟨_, _, x, hx, _⟩ := (hL.1 c).mp (by simp)
          cases hx
      subst this
      simp [collect, nextCertificate]
    | cons x q =>
      obtain ⟨r, o⟩ := x
      obtain ⟨ht, hne⟩ := hq.tail
      obtain ⟨c, hc, hco, hcr⟩ := hst (r, o) (by simp)
      simp only at hco hcr
      have hread : readByIndex db o r = some c := (CertStore.readByIndex_exact hU h o r c).mpr ⟨hc, hco, hcr⟩
      obtain ⟨hlow, s, hs, hrs⟩ := hq.asked (r, o) (by simp)
      simp only at hlow hs hrs
      -- `c` is the least certificate to come
      have hcome : ToCome lower skip ((r, o) :: q) c := by
        refine ⟨⟨by rw [hcr]; exact hlow, s, by rw [hco]; exact hs, by rw [hcr]; exact hrs⟩,
          (r, o), by simp, hco.symm, by simp only; omega⟩
      have hmin : ∀ y, ToCome lower skip ((r, o) :: q) y → y.header.round = r ∧ y.header.author = o ∨
          QLt (r, o) (y.header.round, y.header.author) := by
        intro y ⟨_, x, hx, hxo, hxr⟩
        have hso := hq.sorted
        rw [List.pairwise_cons] at hso
        rcases List.mem_cons.mp hx with rfl | hx
        · simp only at hxo hxr
          rcases Nat.lt_or_ge r y.header.round with hg | hg
          · exact .inr (.inl hg)
          · exact .inl ⟨by omega, hxo.symm⟩
        · right
          have := hso.1 x hx
          unfold QLt at this ⊢
          simp only at this ⊢
          omega
      cases L with
      | nil => exact absurd ((hL.1 c).mpr ⟨hc, hcome⟩) (by simp)
      | cons y L =>
        have hy := (hL.1 y).mp (by simp)
        have hpw := hL.2
        rw [List.pairwise_cons] at hpw
        have hyc : y = c := by
          rcases List.mem_cons.mp ((hL.1 c).mpr ⟨hc, hcome⟩) with e | e
          · exact e.symm
          · exfalso
            have h1 := hpw.1 c e
            rcases hmin y hy.2 with h2 | h2
            · omega
            · unfold QLt at h2; simp only at h2; omega
        subst hyc
        have hf := findNext_exact hU h o r s
        simp only [collect, nextCertificate, hread, hs]
        -- the rest
        have hrest : ∀ (q' : Queue), (∀ z, ToCome lower skip q' z ∧ Stored db z ↔
            (ToCome lower skip ((r, o) :: q) z ∧ Stored db z) ∧ z ≠ y) → Lists db (ToCome lower skip q') L := by
          intro q' hq'
          refine ⟨?_, hpw.2⟩
          intro z
          constructor
          · intro hz
            have hz1 := (hL.1 z).mp (by simp [hz])
            have hzne : z ≠ y := by
              rintro rfl
              have := hpw.1 z hz
              omega
            have := (hq' z).mpr ⟨⟨hz1.2, hz1.1⟩, hzne⟩
            exact ⟨this.2, this.1⟩
          · rintro ⟨hz1, hz2⟩
            obtain ⟨⟨h1, h2⟩, h3⟩ := (hq' z).mp ⟨hz2, hz1⟩
            rcases List.mem_cons.mp ((hL.1 z).mpr ⟨h2, h1⟩) with e | e
            · exact absurd e h3
            · exact e
        have same : ∀ z, Stored db z → z.header.author = o → z.header.round = r → z = y := by
          intro z hz h1 h2
          have e1 := (CertStore.readByIndex_exact hU h o r z).mpr ⟨hz, h1, h2⟩
          rw [hread] at e1
          cases e1
          rfl
        cases hn : findNext db o r s with
        | none =>
          rw [hn] at hf
          dsimp only at hf ⊢
          rw [List.take_succ_cons, List.map_cons]
          congr 1
          refine ih q L ht (fun x hx => hst x (by simp [hx])) (hrest q ?_)
          intro z
          constructor
          · rintro ⟨⟨ha, x, hx, hx1, hx2⟩, hz⟩
            refine ⟨⟨⟨ha, x, by simp [hx], hx1, hx2⟩, hz⟩, ?_⟩
            rintro rfl
            exact hne x hx (by rw [hx1, hco])
          · rintro ⟨⟨⟨ha, x, hx, hx1, hx2⟩, hz⟩, hzy⟩
            refine ⟨⟨ha, ?_⟩, hz⟩
            rcases List.mem_cons.mp hx with rfl | hx
            · exfalso
              simp only at hx1 hx2
              rcases Nat.lt_or_ge r z.header.round with hg | hg
              · obtain ⟨_, s', hs', hns⟩ := ha
                rw [← hx1, hs] at hs'
                cases hs'
                exact hns (hf z hz hx1.symm hg)
              · exact hzy (same z hz hx1.symm (by omega))
            · exact ⟨x, hx, hx1, hx2⟩
        | some m =>
          rw [hn] at hf
          dsimp only at hf ⊢
          obtain ⟨f1, f2, f3, f4⟩ := hf
          rw [List.take_succ_cons, List.map_cons]
          congr 1
          refine ih (qpush (m, o) q) L (ht.push hne ⟨by simp only; omega, s, hs, f2⟩) ?_ (hrest _ ?_)
          · intro x hx
            rcases mem_qpush.mp hx with rfl | hx
            · exact f3
            · exact hst x (by simp [hx])
          · intro z
            constructor
            · rintro ⟨⟨ha, x, hx, hx1, hx2⟩, hz⟩
              rcases mem_qpush.mp hx with rfl | hx
              · simp only at hx1 hx2
                refine ⟨⟨⟨ha, (r, o), by simp, hx1, by simp only; omega⟩, hz⟩, ?_⟩
                rintro rfl
                omega
              · refine ⟨⟨⟨ha, x, by simp [hx], hx1, hx2⟩, hz⟩, ?_⟩
                rintro rfl
                exact hne x hx (by rw [hx1, hco])
            · rintro ⟨⟨⟨ha, x, hx, hx1, hx2⟩, hz⟩, hzy⟩
              refine ⟨⟨ha, ?_⟩, hz⟩
              rcases List.mem_cons.mp hx with rfl | hx
              · simp only at hx1 hx2
                refine ⟨(m, o), mem_qpush.mpr (.inl rfl), hx1, ?_⟩
                simp only
                by_contra hlt
                rcases Nat.lt_or_ge r z.header.round with hg | hg
                · obtain ⟨_, s', hs', hns⟩ := ha
                  rw [← hx1, hs] at hs'
                  cases hs'
                  exact hns (f4 z hz hx1.symm hg (by omega))
                · exact hzy (same z hz hx1.symm (by omega))
              · exact ⟨x, mem_qpush.mpr (.inr hx), hx1, hx2⟩

/-- The list of everything asked for exists. -/
theorem lists_exists (hU : Uniq U) (h : Reach U keep db) (p : Certificate → Prop) : ∃ L, Lists db p L := by
  classical
  obtain ⟨cs, _, h1, h2⟩ := CertStore.afterRound_exact hU h 0
  refine ⟨cs.filter (fun c => decide (p c)), ?_, h2.sublist List.filter_sublist⟩
  intro c
  rw [List.mem_filter, h1 c]
  simp

end Fetch
end Verif
