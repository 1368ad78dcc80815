import Verif.Bullshark.Universe
/-
`order_dag`: termination, what it collects, and that the result does not depend on which
(causally complete) part of the certificates a node holds.
-/
namespace Verif
namespace Bull

variable {c : Committee} {U : Header → Prop}

theorem pastCommitted_iff {lc : List (Nat × Nat)} {y : Header} (hy : 1 ≤ y.round) :
    pastCommitted lc y = true ↔ y.round ≤ lcGet lc y.author := by
  unfold pastCommitted lcGet
  cases SMap.get? y.author lc with
  | none => simp; omega
  | some r => simp

/-! ### the inner loop -/

theorem find_parent (hU : Universe c U) {dag : Dag} {g : Round} (h : Good U dag g) {r : Round}
    {q : Header} (hq : q ∈ dag) (hr : q.round = r) :
    (atRound dag r).find? (fun y => y.digest == q.digest) = some q := by
  have hm : q ∈ atRound dag r := mem_atRound.mpr ⟨hq, hr⟩
  cases hf : (atRound dag r).find? (fun y => y.digest == q.digest) with
  | none =>
    rw [List.find?_eq_none] at hf
    exact absurd (by simp) (hf q hm)
  | some z =>
    have h1 := List.mem_of_find?_eq_some hf
    have h2 := List.find?_some hf
    simp at h2
    rw [hU.digestInj (h.sub _ (mem_atRound.mp h1).1) (h.sub _ hq) h2]

/-- What the inner loop does to stack and mark set. -/
theorem pushParents_spec (dag : Dag) (lc : List (Nat × Nat)) (x : Header) (ds : List Digest)
    (st : List Header × List Digest) :
    ∃ new : List Header,
      (pushParents dag lc x ds st).1 = new ++ st.1 ∧
      (pushParents dag lc x ds st).2 = new.map (·.digest) ++ st.2 ∧
      (new.map (·.digest)).Nodup ∧
      (∀ y ∈ new, y ∈ dag ∧ y.round = x.round - 1 ∧ y.digest ∈ ds ∧ y.digest ∉ st.2 ∧
        pastCommitted lc y = false) := by
  induction ds generalizing st with
  | nil => exact ⟨[], by simp [pushParents]⟩
  | cons d ds ih =>
    simp only [pushParents]
    split
    · obtain ⟨new, h1, h2, h3, h4⟩ := ih st
      exact ⟨new, h1, h2, h3, fun y hy => by
        have := h4 y hy; exact ⟨this.1, this.2.1, List.mem_cons_of_mem _ this.2.2.1, this.2.2.2⟩⟩
    · rename_i y hf
      have hm := List.mem_of_find?_eq_some hf
      have hd := List.find?_some hf
      simp at hd
      rw [mem_atRound] at hm
      split
      · obtain ⟨new, h1, h2, h3, h4⟩ := ih st
        exact ⟨new, h1, h2, h3, fun y hy => by
          have := h4 y hy; exact ⟨this.1, this.2.1, List.mem_cons_of_mem _ this.2.2.1, this.2.2.2⟩⟩
      · rename_i hns
        simp only [Bool.or_eq_true, not_or, Bool.not_eq_true] at hns
        obtain ⟨new, h1, h2, h3, h4⟩ := ih (y :: st.1, y.digest :: st.2)
        refine ⟨new ++ [y], by simp [h1], by simp [h2], ?_, ?_⟩
        · rw [List.map_append, List.nodup_append]
          refine ⟨h3, by simp, ?_⟩
          intro a ha b hb
          obtain ⟨z, hz, rfl⟩ := List.mem_map.mp ha
          simp at hb; subst hb
          have := (h4 z hz).2.2.2.1
          simp at this; exact this.1
        · intro z hz
          rcases List.mem_append.mp hz with hz | hz
          · have := h4 z hz
            refine ⟨this.1, this.2.1, List.mem_cons_of_mem _ this.2.2.1, ?_, this.2.2.2.2⟩
            have h5 := this.2.2.2.1
            simp at h5; exact h5.2
          · simp at hz; subst hz
            refine ⟨hm.1, hm.2, by simp [hd], ?_, hns.2⟩
            have := hns.1
            simpa using this

/-- Every parent that is in the DAG and not past its author's last commit is marked afterwards. -/
theorem pushParents_complete (hU : Universe c U) {dag : Dag} {g : Round} (h : Good U dag g)
    (lc : List (Nat × Nat)) (x : Header) (ds : List Digest) (st : List Header × List Digest)
    {y : Header} (hy : y ∈ dag) (hr : y.round = x.round - 1) (hd : y.digest ∈ ds)
    (hl : pastCommitted lc y = false) : y.digest ∈ (pushParents dag lc x ds st).2 := by
  induction ds generalizing st with
  | nil => simp at hd
  | cons d ds ih =>
    have mono : ∀ st : List Header × List Digest, y.digest ∈ st.2 →
        y.digest ∈ (pushParents dag lc x ds st).2 := by
      intro st hst
      obtain ⟨new, -, h2, -⟩ := pushParents_spec dag lc x ds st
      rw [h2]; exact List.mem_append_right _ hst
    rcases List.mem_cons.mp hd with rfl | hd
    · simp only [pushParents]
      rw [find_parent hU h hy hr]
      simp only [hl, Bool.or_false]
      split
      · rename_i hc
        exact mono _ (by simpa using hc)
      · exact mono _ (by simp)
    · simp only [pushParents]
      split
      · exact ih st hd
      · split
        · exact ih st hd
        · exact ih _ hd

/-! ### fuel -/

/-- Number of certificates of the DAG not yet marked. -/
def unmarked (dag : Dag) (seen : List Digest) : Nat :=
  (dag.filter (fun x => !seen.contains x.digest)).length

theorem unmarked_cons {dag : Dag} {seen : List Digest} {y : Header} (hy : y ∈ dag)
    (hs : y.digest ∉ seen) : unmarked dag (y.digest :: seen) + 1 ≤ unmarked dag seen := by
  unfold unmarked
  induction dag with
  | nil => simp at hy
  | cons z zs ih =>
    have hle : ∀ zs : List Header, (zs.filter (fun x => !(y.digest :: seen).contains x.digest)).length ≤
        (zs.filter (fun x => !seen.contains x.digest)).length := by
      intro zs
      induction zs with
      | nil => simp
      | cons w ws ihw =>
        simp only [List.filter_cons]
        by_cases h1 : w.digest = y.digest <;> by_cases h2 : w.digest ∈ seen <;>
          simp_all <;> omega
    rcases List.mem_cons.mp hy with rfl | hy
    · have := hle zs
      simp only [List.filter_cons]
      simp only [List.contains_cons, beq_self_eq_true, Bool.true_or, Bool.not_true,
        Bool.false_eq_true, if_false]
      have h2 : seen.contains y.digest = false := by simpa using hs
      simp only [h2, Bool.not_false, if_true, List.length_cons]
      simp only [List.contains_cons] at this
      omega
    · have := ih hy
      simp only [List.filter_cons]
      by_cases h1 : z.digest = y.digest <;> by_cases h2 : z.digest ∈ seen <;>
        simp_all <;> omega

theorem unmarked_append {dag : Dag} {seen : List Digest} (new : List Header)
    (h1 : (new.map (·.digest)).Nodup) (h2 : ∀ y ∈ new, y ∈ dag ∧ y.digest ∉ seen) :
    unmarked dag (new.map (·.digest) ++ seen) + new.length ≤ unmarked dag seen := by
  induction new with
  | nil => simp
  | cons y ys ih =>
    simp only [List.map_cons, List.nodup_cons] at h1
    have := ih h1.2 (fun z hz => h2 z (List.mem_cons_of_mem _ hz))
    have hy := h2 y (by simp)
    have h3 : y.digest ∉ ys.map (·.digest) ++ seen := by
      rw [List.mem_append]; rintro (h | h)
      · exact h1.1 h
      · exact hy.2 h
    have := unmarked_cons hy.1 h3
    simp only [List.map_cons, List.cons_append, List.length_cons]
    omega

/-- The bound on the number of iterations is never reached: any larger bound gives the same
result. -/
theorem orderLoop_stable (dag : Dag) (lc : List (Nat × Nat)) (gcL : Round) (f1 f2 : Nat)
    (buf : List Header) (seen : List Digest)
    (h1 : unmarked dag seen + buf.length ≤ f1) (h2 : unmarked dag seen + buf.length ≤ f2) :
    orderLoop dag lc gcL f1 buf seen = orderLoop dag lc gcL f2 buf seen := by
  induction f1 generalizing f2 buf seen with
  | zero =>
    have : buf = [] := List.length_eq_zero_iff.mp (by omega)
    subst this
    cases f2 <;> simp [orderLoop]
  | succ f1 ih =>
    cases buf with
    | nil => cases f2 <;> simp [orderLoop]
    | cons x buf =>
      simp only [List.length_cons] at h1 h2
      cases f2 with
      | zero => omega
      | succ f2 =>
        simp only [orderLoop]
        split
        · rw [ih f2 buf seen (by omega) (by omega)]
        · obtain ⟨new, e1, e2, e3, e4⟩ := pushParents_spec dag lc x x.parents (buf, seen)
          have hm := unmarked_append new e3 (fun y hy => ⟨(e4 y hy).1, (e4 y hy).2.2.2.1⟩)
          rw [ih f2]
          · rw [e1, e2]; simp only [List.length_append]; simp only at hm; omega
          · rw [e1, e2]; simp only [List.length_append]; simp only at hm; omega

theorem unmarked_nil (dag : Dag) : unmarked dag [] = dag.length := by
  simp [unmarked]

/-! ### what is collected -/

/-- Specification of the sub-dag of leader `l`: certificates reached from `l` by parent links,
where from a certificate at the horizon (`gcL + 1`) no link is followed and a certificate at or below
the last committed round of its author is not entered. -/
inductive History (U : Header → Prop) (last : AuthorityId → Round) (gcL : Round) (l : Header) :
    Header → Prop
  | leader : History U last gcL l l
  | parent {x y} : History U last gcL l x → gcL + 1 < x.round → U y → y.digest ∈ x.parents →
      y.round + 1 = x.round → last y.author < y.round → History U last gcL l y

theorem History.round_lt {last : AuthorityId → Round} {gcL : Round} {l y : Header}
    (h : History U last gcL l y) : y = l ∨ y.round < l.round := by
  induction h with
  | leader => exact Or.inl rfl
  | parent _ _ _ _ h1 _ ih =>
    rcases ih with rfl | ih
    · right; omega
    · right; omega

theorem History.above {last : AuthorityId → Round} {gcL : Round} {l y : Header}
    (h : History U last gcL l y) (hl : gcL < l.round) : gcL < y.round := by
  cases h with
  | leader => exact hl
  | parent _ h1 _ _ h2 _ => omega

theorem History.mem_U {last : AuthorityId → Round} {gcL : Round} {l y : Header}
    (h : History U last gcL l y) (hl : U l) : U y := by
  cases h with
  | leader => exact hl
  | parent _ _ h2 _ _ _ => exact h2

/-- Every header the loop outputs is on the stack or comes from a parent link. -/
theorem orderLoop_sound (hU : Universe c U) {dag : Dag} {g : Round} (h : Good U dag g)
    (lc : List (Nat × Nat)) (gcL : Round) (l : Header) (fuel : Nat)
    (buf : List Header) (seen : List Digest)
    (hb : ∀ x ∈ buf, History U (lcGet lc) gcL l x) (hl : gcL < l.round)
    (z : Header) (hz : z ∈ orderLoop dag lc gcL fuel buf seen) :
    History U (lcGet lc) gcL l z := by
  induction fuel generalizing buf seen with
  | zero => simp [orderLoop] at hz
  | succ fuel ih =>
    cases buf with
    | nil => simp [orderLoop] at hz
    | cons x buf =>
      simp only [orderLoop] at hz
      have hx := hb x (by simp)
      have hgx := hx.above hl
      split at hz
      · rcases List.mem_cons.mp hz with rfl | hz
        · exact hx
        · exact ih buf seen (fun y hy => hb y (by simp [hy])) hz
      · rename_i hne
        rcases List.mem_cons.mp hz with rfl | hz
        · exact hx
        · obtain ⟨new, e1, e2, e3, e4⟩ := pushParents_spec dag lc x x.parents (buf, seen)
          refine ih _ _ ?_ hz
          rw [e1]
          intro y hy
          rcases List.mem_append.mp hy with hy | hy
          · obtain ⟨hyd, hyr, hyp, -, hyl⟩ := e4 y hy
            have hyU := h.sub _ hyd
            have h1 := hU.roundPos hyU
            refine .parent hx (by omega) hyU hyp (by omega) ?_
            have := (pastCommitted_iff (lc := lc) h1).not
            simp only [hyl, Bool.false_eq_true, not_false_eq_true, true_iff] at this
            omega
          · exact hb y (by simp [hy])

/-- Completeness of the loop: the stack is output, and the output is closed under following
admissible parent links, up to what was marked at the start. -/
theorem orderLoop_complete (hU : Universe c U) {dag : Dag} {g : Round} (h : Good U dag g)
    (lc : List (Nat × Nat)) (gcL : Round) (hg : g ≤ gcL) (fuel : Nat)
    (buf : List Header) (seen : List Digest)
    (hbd : ∀ x ∈ buf, x ∈ dag ∧ gcL < x.round)
    (hf : unmarked dag seen + buf.length ≤ fuel) :
    (∀ x ∈ buf, x ∈ orderLoop dag lc gcL fuel buf seen) ∧
    (∀ x ∈ orderLoop dag lc gcL fuel buf seen, gcL + 1 < x.round → ∀ y, U y →
      y.digest ∈ x.parents → y.round + 1 = x.round → lcGet lc y.author < y.round →
      y ∈ orderLoop dag lc gcL fuel buf seen ∨ y.digest ∈ seen) := by
  induction fuel generalizing buf seen with
  | zero =>
    have : buf = [] := List.length_eq_zero_iff.mp (by omega)
    subst this; simp [orderLoop]
  | succ fuel ih =>
    cases buf with
    | nil => simp [orderLoop]
    | cons x buf =>
      simp only [List.length_cons] at hf
      simp only [orderLoop]
      split
      · rename_i hx
        obtain ⟨i1, i2⟩ := ih buf seen (fun y hy => hbd y (by simp [hy])) (by omega)
        refine ⟨?_, ?_⟩
        · intro y hy
          rcases List.mem_cons.mp hy with rfl | hy
          · simp
          · exact List.mem_cons_of_mem _ (i1 y hy)
        · intro z hz hzr y hyU hyp hyr hyl
          rcases List.mem_cons.mp hz with rfl | hz
          · omega
          · rcases i2 z hz hzr y hyU hyp hyr hyl with h1 | h1
            · exact Or.inl (List.mem_cons_of_mem _ h1)
            · exact Or.inr h1
      · rename_i hne
        have hx := hbd x (by simp)
        obtain ⟨new, e1, e2, e3, e4⟩ := pushParents_spec dag lc x x.parents (buf, seen)
        have hm := unmarked_append new e3 (fun y hy => ⟨(e4 y hy).1, (e4 y hy).2.2.2.1⟩)
        simp only at hm
        set st := pushParents dag lc x x.parents (buf, seen) with hst
        obtain ⟨i1, i2⟩ := ih st.1 st.2 (by
            rw [e1]; intro y hy
            rcases List.mem_append.mp hy with hy | hy
            · have := e4 y hy
              exact ⟨this.1, by omega⟩
            · exact hbd y (by simp [hy]))
          (by rw [e1, e2]; simp only [List.length_append]; omega)
        -- a digest marked during this iteration belongs to a header that is output
        have marked : ∀ y, U y → y.digest ∈ st.2 →
            y ∈ orderLoop dag lc gcL fuel st.1 st.2 ∨ y.digest ∈ seen := by
          intro y hyU hy
          rw [e2] at hy
          rcases List.mem_append.mp hy with hy | hy
          · obtain ⟨y', hy', hd⟩ := List.mem_map.mp hy
            have : y' = y := hU.digestInj (h.sub _ (e4 y' hy').1) hyU hd
            subst this
            left; apply i1; rw [e1]; exact List.mem_append_left _ hy'
          · exact Or.inr hy
        refine ⟨?_, ?_⟩
        · intro y hy
          rcases List.mem_cons.mp hy with rfl | hy
          · simp
          · exact List.mem_cons_of_mem _ (i1 y (by rw [e1]; exact List.mem_append_right _ hy))
        · intro z hz hzr y hyU hyp hyr hyl
          rcases List.mem_cons.mp hz with rfl | hz
          · obtain ⟨q, hq, hqr, hqd⟩ := h.closed z hx.1 (by omega) _ hyp
            have : q = y := hU.digestInj (h.sub _ hq) hyU hqd
            subst this
            have hpc : pastCommitted lc q = false := by
              have := (pastCommitted_iff (lc := lc) (hU.roundPos hyU))
              cases hb : pastCommitted lc q
              · rfl
              · rw [hb] at this; have := this.mp rfl; omega
            have := pushParents_complete hU h lc z z.parents (buf, seen) hq (by omega) hyp hpc
            rcases marked q hyU this with h1 | h1
            · exact Or.inl (List.mem_cons_of_mem _ h1)
            · exact Or.inr h1
          · rcases i2 z hz hzr y hyU hyp hyr hyl with h1 | h1
            · exact Or.inl (List.mem_cons_of_mem _ h1)
            · rcases marked y hyU h1 with h1 | h1
              · exact Or.inl (List.mem_cons_of_mem _ h1)
              · exact Or.inr h1

/-- Every output is on the stack, or was unmarked and below some element of the stack. -/
theorem orderLoop_origin (dag : Dag) (lc : List (Nat × Nat)) (gcL : Round) (fuel : Nat)
    (buf : List Header) (seen : List Digest) (hpos : ∀ x ∈ dag, 1 ≤ x.round) (z : Header)
    (hz : z ∈ orderLoop dag lc gcL fuel buf seen) :
    z ∈ buf ∨ (z.digest ∉ seen ∧ ∃ x ∈ buf, z.round < x.round) := by
  induction fuel generalizing buf seen with
  | zero => simp [orderLoop] at hz
  | succ fuel ih =>
    cases buf with
    | nil => simp [orderLoop] at hz
    | cons x buf =>
      simp only [orderLoop] at hz
      split at hz
      · rcases List.mem_cons.mp hz with rfl | hz
        · simp
        · rcases ih buf seen hz with h1 | ⟨h1, x', hx', h2⟩
          · simp [h1]
          · exact Or.inr ⟨h1, x', by simp [hx'], h2⟩
      · rcases List.mem_cons.mp hz with rfl | hz
        · simp
        · obtain ⟨new, e1, e2, e3, e4⟩ := pushParents_spec dag lc x x.parents (buf, seen)
          have hnew : ∀ y ∈ new, y.round < x.round := by
            intro y hy
            have h1 := (e4 y hy).2.1
            have h2 := hpos y (e4 y hy).1
            omega
          rcases ih _ _ hz with h1 | ⟨h1, x', hx', h2⟩
          · rw [e1] at h1
            rcases List.mem_append.mp h1 with h1 | h1
            · exact Or.inr ⟨(e4 z h1).2.2.2.1, x, by simp, hnew z h1⟩
            · simp [h1]
          · rw [e1] at hx'
            rw [e2] at h1
            refine Or.inr ⟨fun hh => h1 (List.mem_append_right _ hh), ?_⟩
            rcases List.mem_append.mp hx' with hx' | hx'
            · exact ⟨x, by simp, by have := hnew x' hx'; omega⟩
            · exact ⟨x', by simp [hx'], h2⟩

/-- No header is output twice. -/
theorem orderLoop_nodup (dag : Dag) (lc : List (Nat × Nat)) (gcL : Round) (fuel : Nat)
    (buf : List Header) (seen : List Digest) (hpos : ∀ x ∈ dag, 1 ≤ x.round)
    (hb : buf.Nodup)
    (hs : ∀ x ∈ buf, x.digest ∈ seen ∨ ∀ z ∈ buf, z.round ≤ x.round) :
    (orderLoop dag lc gcL fuel buf seen).Nodup := by
  induction fuel generalizing buf seen with
  | zero => simp [orderLoop]
  | succ fuel ih =>
    cases buf with
    | nil => simp [orderLoop]
    | cons x buf =>
      rw [List.nodup_cons] at hb
      simp only [orderLoop]
      split
      · rw [List.nodup_cons]
        refine ⟨?_, ih buf seen hb.2 ?_⟩
        · intro hx
          rcases orderLoop_origin dag lc gcL fuel buf seen hpos x hx with h1 | ⟨h1, x', hx', h2⟩
          · exact hb.1 h1
          · rcases hs x (by simp) with h3 | h3
            · exact h1 h3
            · have := h3 x' (by simp [hx']); omega
        · intro y hy
          rcases hs y (by simp [hy]) with h3 | h3
          · exact Or.inl h3
          · exact Or.inr (fun z hz => h3 z (by simp [hz]))
      · obtain ⟨new, e1, e2, e3, e4⟩ := pushParents_spec dag lc x x.parents (buf, seen)
        have hnew : ∀ y ∈ new, y.round < x.round := by
          intro y hy
          have h1 := (e4 y hy).2.1
          have h2 := hpos y (e4 y hy).1
          omega
        rw [List.nodup_cons]
        refine ⟨?_, ih _ _ ?_ ?_⟩
        · intro hx
          rcases orderLoop_origin dag lc gcL fuel _ _ hpos x hx with h1 | ⟨h1, x', hx', h2⟩
          · rw [e1] at h1
            rcases List.mem_append.mp h1 with h1 | h1
            · have := hnew x h1; omega
            · exact hb.1 h1
          · rw [e1] at hx'
            rw [e2] at h1
            rcases hs x (by simp) with h3 | h3
            · exact h1 (List.mem_append_right _ h3)
            · rcases List.mem_append.mp hx' with hx' | hx'
              · have := hnew x' hx'; omega
              · have := h3 x' (by simp [hx']); omega
        · rw [e1, List.nodup_append]
          refine ⟨(List.Nodup.of_map _ e3), hb.2, ?_⟩
          intro a ha b hbm hab
          subst hab
          have h1 := (e4 a ha).2.2.2.1
          rcases hs a (by simp [hbm]) with h3 | h3
          · exact h1 h3
          · have := h3 x (by simp)
            have := hnew a ha
            omega
        · rw [e1, e2]
          intro y hy
          rcases List.mem_append.mp hy with hy | hy
          · exact Or.inl (List.mem_append_left _ (List.mem_map.mpr ⟨y, hy, rfl⟩))
          · rcases hs y (by simp [hy]) with h3 | h3
            · exact Or.inl (List.mem_append_right _ h3)
            · refine Or.inr (fun z hz => ?_)
              rcases List.mem_append.mp hz with hz | hz
              · have := hnew z hz
                have := h3 x (by simp)
                omega
              · exact h3 z (by simp [hz])

/-! ### the sorted result -/

variable {p : Params}

theorem orderDag_perm (dag : Dag) (lc : List (Nat × Nat)) (l : Header) :
    (orderDag p dag lc l).Perm
      (orderLoop dag lc (gcOf p l.round) (dag.length + 1) [l] []) := by
  unfold orderDag; exact stableSort_perm _

/-- The sub-dag is exactly the specified history. -/
theorem mem_orderDag (hU : Universe c U) {dag : Dag} {g : Round} (h : Good U dag g)
    (lc : List (Nat × Nat)) {l : Header} (hl : l ∈ dag) (hg : g ≤ gcOf p l.round)
    (hgl : gcOf p l.round < l.round) (y : Header) :
    y ∈ orderDag p dag lc l ↔ History U (lcGet lc) (gcOf p l.round) l y := by
  rw [(orderDag_perm dag lc l).mem_iff]
  constructor
  · intro hy
    exact orderLoop_sound hU h lc _ l _ [l] [] (by simp; exact .leader) hgl y hy
  · intro hy
    obtain ⟨h1, h2⟩ := orderLoop_complete hU h lc _ hg (dag.length + 1) [l] []
      (by simp; exact ⟨hl, hgl⟩) (by rw [unmarked_nil]; simp)
    induction hy with
    | leader => exact h1 l (by simp)
    | parent _ hx hyU hyp hyr hyl ih =>
      rcases h2 _ ih hx _ hyU hyp hyr hyl with h3 | h3
      · exact h3
      · simp at h3

theorem orderDag_nodup (hU : Universe c U) {dag : Dag} {g : Round} (h : Good U dag g)
    (lc : List (Nat × Nat)) (l : Header) : (orderDag p dag lc l).Nodup := by
  rw [(orderDag_perm dag lc l).nodup_iff]
  exact orderLoop_nodup dag lc _ _ [l] [] (fun x hx => hU.roundPos (h.sub x hx)) (by simp) (by simp)

theorem orderDag_sorted (dag : Dag) (lc : List (Nat × Nat)) (l : Header) :
    (orderDag p dag lc l).Pairwise (fun a b => a.round ≤ b.round) := by
  unfold orderDag
  have := stableSort_pairwise (le := fun a b : Header => decide (a.round ≤ b.round))
    (by intro a b c; simp; omega) (by intro a b; simp; omega)
    (orderLoop dag lc (gcOf p l.round) (dag.length + 1) [l] [])
  simpa using this

/-- The leader comes last. -/
theorem orderDag_getLast (hU : Universe c U) {dag : Dag} {g : Round} (h : Good U dag g)
    (lc : List (Nat × Nat)) {l : Header} (hl : l ∈ dag) (hg : g ≤ gcOf p l.round)
    (hgl : gcOf p l.round < l.round) : (orderDag p dag lc l).getLast? = some l := by
  have hm := mem_orderDag (p := p) hU h lc hl hg hgl
  have hs := orderDag_sorted (p := p) dag lc l
  have hlm : l ∈ orderDag p dag lc l := (hm l).mpr .leader
  cases hgl' : (orderDag p dag lc l).getLast? with
  | none => rw [List.getLast?_eq_none_iff] at hgl'; rw [hgl'] at hlm; simp at hlm
  | some z =>
    obtain ⟨t, ht⟩ := List.getLast?_eq_some_iff.mp hgl'
    rw [ht] at hlm hs
    rcases ((hm z).mp (by rw [ht]; simp)).round_lt with rfl | hlt
    · rfl
    · rcases List.mem_append.mp hlm with h1 | h1
      · rw [List.pairwise_append] at hs
        have := hs.2.2 l h1 z (by simp)
        omega
      · simp at h1; rw [h1]

/-! ### independence of the node -/

/-- Two nodes that agree on the last committed rounds above the horizon run the inner loop in
lockstep. -/
theorem pushParents_agree (hU : Universe c U) {d1 d2 : Dag} {g1 g2 : Round} (h1 : Good U d1 g1)
    (h2 : Good U d2 g2) (lc1 lc2 : List (Nat × Nat)) (x : Header) (ds : List Digest)
    (st : List Header × List Digest)
    (hds : ∀ d ∈ ds, ∃ q ∈ d1, q ∈ d2 ∧ q.round = x.round - 1 ∧ q.digest = d ∧
      pastCommitted lc1 q = pastCommitted lc2 q) :
    pushParents d1 lc1 x ds st = pushParents d2 lc2 x ds st := by
  induction ds generalizing st with
  | nil => rfl
  | cons d ds ih =>
    obtain ⟨q, hq1, hq2, hqr, hqd, hqp⟩ := hds d (by simp)
    have ih := fun st => ih st (fun d hd => hds d (by simp [hd]))
    subst hqd
    simp only [pushParents]
    rw [find_parent hU h1 hq1 hqr, find_parent hU h2 hq2 hqr]
    simp only [hqp]
    split
    · exact ih st
    · exact ih _

theorem orderLoop_agree (hU : Universe c U) {d1 d2 : Dag} {g1 g2 : Round} (h1 : Good U d1 g1)
    (h2 : Good U d2 g2) (lc1 lc2 : List (Nat × Nat)) (gcL : Round) (hg1 : g1 ≤ gcL)
    (hg2 : g2 ≤ gcL)
    (hlc : ∀ y, U y → gcL < y.round → pastCommitted lc1 y = pastCommitted lc2 y)
    (fuel : Nat) (buf : List Header) (seen : List Digest)
    (hb : ∀ x ∈ buf, x ∈ d1 ∧ x ∈ d2 ∧ gcL < x.round) :
    orderLoop d1 lc1 gcL fuel buf seen = orderLoop d2 lc2 gcL fuel buf seen := by
  induction fuel generalizing buf seen with
  | zero => rfl
  | succ fuel ih =>
    cases buf with
    | nil => rfl
    | cons x buf =>
      have hx := hb x (by simp)
      simp only [orderLoop]
      split
      · rw [ih buf seen (fun y hy => hb y (by simp [hy]))]
      · have he : pushParents d1 lc1 x x.parents (buf, seen) =
            pushParents d2 lc2 x x.parents (buf, seen) := by
          apply pushParents_agree hU h1 h2
          intro d hd
          obtain ⟨q1, hq1, hr1, hd1⟩ := h1.closed x hx.1 (by omega) d hd
          obtain ⟨q2, hq2, hr2, hd2⟩ := h2.closed x hx.2.1 (by omega) d hd
          have : q1 = q2 := hU.digestInj (h1.sub _ hq1) (h2.sub _ hq2) (by rw [hd1, hd2])
          subst this
          exact ⟨q1, hq1, hq2, by omega, hd1, hlc q1 (h1.sub _ hq1) (by omega)⟩
        rw [he, ih]
        obtain ⟨new, e1, e2, e3, e4⟩ := pushParents_spec d2 lc2 x x.parents (buf, seen)
        obtain ⟨new', e1', e2', e3', e4'⟩ := pushParents_spec d1 lc1 x x.parents (buf, seen)
        rw [he] at e1'
        intro y hy
        rw [e1] at hy
        rcases List.mem_append.mp hy with hy | hy
        · have hnn : new' = new := by
            have := e1'.symm.trans e1
            exact List.append_cancel_right this
          exact ⟨(e4' y (by rw [hnn]; exact hy)).1, (e4 y hy).1, by
            have := (e4 y hy).2.1; omega⟩
        · exact hb y (by simp [hy])

/-- The sub-dag of a leader, including its order, is the same at every node that has the leader. -/
theorem orderDag_agree (hU : Universe c U) {d1 d2 : Dag} {g1 g2 : Round} (h1 : Good U d1 g1)
    (h2 : Good U d2 g2) (lc1 lc2 : List (Nat × Nat)) {l : Header} (hl1 : l ∈ d1) (hl2 : l ∈ d2)
    (hg1 : g1 ≤ gcOf p l.round) (hg2 : g2 ≤ gcOf p l.round) (hgl : gcOf p l.round < l.round)
    (hlc : ∀ y, U y → gcOf p l.round < y.round → pastCommitted lc1 y = pastCommitted lc2 y) :
    orderDag p d1 lc1 l = orderDag p d2 lc2 l := by
  unfold orderDag
  congr 1
  rw [orderLoop_stable d1 lc1 _ (d1.length + 1) (d1.length + d2.length + 1) [l] []
      (by rw [unmarked_nil]; simp) (by rw [unmarked_nil]; simp),
    orderLoop_stable d2 lc2 _ (d2.length + 1) (d1.length + d2.length + 1) [l] []
      (by rw [unmarked_nil]; simp) (by rw [unmarked_nil]; simp)]
  exact orderLoop_agree hU h1 h2 lc1 lc2 _ hg1 hg2 hlc _ [l] [] (by simp [hl1, hl2, hgl])

end Bull
end Verif
