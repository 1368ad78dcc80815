import Verif.Cert.Model
import Verif.Committee.Props
/-
Helper lemmas for certificates and aggregators.
-/
namespace Verif
namespace Certificate

theorem dropWhile_gt {vs : List (Key × Sig)} {k : Key} {s : Sig}
    (h : ∀ v ∈ vs, k < v.1) : vs.dropWhile (fun p => p.1 == k && p.2 == s) = vs := by
  cases vs with
  | nil => rfl
  | cons v vs =>
    have := h v (by simp)
    rw [List.dropWhile_cons, if_neg]
    simp; intro h'; omega

theorem walk_nil_votes (as : List Authority) (i : Nat) : walk as i [] = ([], [], []) := by
  induction as generalizing i with
  | nil => rfl
  | cons a as ih => simp [walk, ih]

/-- If the first remaining vote key is below all committee keys nothing matches. -/
theorem walk_below {as : List Authority} {i : Nat} {k : Key} {s : Sig} {vs : List (Key × Sig)}
    (h : ∀ a ∈ as, k < a.key) : walk as i ((k, s) :: vs) = ([], [], (k, s) :: vs) := by
  induction as generalizing i with
  | nil => rfl
  | cons a as ih =>
    have := h a (by simp)
    simp only [walk]
    rw [if_neg (by omega)]
    exact ih (fun b hb => h b (by simp [hb]))

theorem signedKeys_skip {ks : List Key} {i : Nat} {bs : List Nat} {k : Key}
    (h : ∀ b ∈ bs, i + 1 ≤ b) : signedKeys (k :: ks) i bs = signedKeys ks (i + 1) bs := by
  cases bs with
  | nil => cases ks <;> rfl
  | cons b bs =>
    have := h b (by simp)
    simp only [signedKeys]
    rw [if_neg (by omega)]

theorem walk_spec {as : List Authority} {i : Nat} {vs : List (Key × Sig)}
    (ha : (as.map (·.key)).Pairwise (· < ·)) (hv : (vs.map (·.1)).Pairwise (· < ·)) :
    (∀ b ∈ (walk as i vs).1, i ≤ b) ∧
    ((walk as i vs).2.2 = [] ↔ ∀ v ∈ vs, v.1 ∈ as.map (·.key)) ∧
    ((walk as i vs).2.2 = [] → signedKeys (as.map (·.key)) i (walk as i vs).1 = vs.map (·.1) ∧
      (walk as i vs).2.1 = vs.map (·.2)) := by
  induction as generalizing i vs with
  | nil =>
    simp only [walk]
    refine ⟨by simp, ?_, ?_⟩
    · cases vs with
      | nil => simp
      | cons v vs => simp only [reduceCtorEq, false_iff]; intro h; simpa using h v (by simp)
    · intro h; subst h; simp [signedKeys]
  | cons a as ih =>
    simp only [List.map_cons, List.pairwise_cons] at ha
    cases vs with
    | nil =>
      rw [walk_nil_votes]; simp [signedKeys]
    | cons v vs =>
      obtain ⟨k, s⟩ := v
      simp only [List.map_cons, List.pairwise_cons] at hv
      by_cases hk : a.key = k
      · have hgt : ∀ v ∈ vs, k < v.1 := fun v hvm => hv.1 v.1 (List.mem_map.mpr ⟨v, hvm, rfl⟩)
        have hw : walk (a :: as) i ((k, s) :: vs) =
            (i :: (walk as (i+1) vs).1, s :: (walk as (i+1) vs).2.1, (walk as (i+1) vs).2.2) := by
          simp only [walk]; rw [if_pos hk, dropWhile_gt hgt]
        obtain ⟨h1, h2, h3⟩ := ih (i := i + 1) ha.2 hv.2
        rw [hw]
        refine ⟨?_, ?_, ?_⟩
        · intro b hb
          rcases List.mem_cons.mp hb with rfl | hb
          · exact Nat.le_refl _
          · have := h1 b hb; omega
        · rw [h2]
          simp only [List.map_cons, List.mem_cons, forall_eq_or_imp]
          constructor
          · intro h
            exact ⟨Or.inl hk.symm, fun v hv => Or.inr (h v hv)⟩
          · rintro ⟨-, h⟩ v hvm
            rcases h v hvm with h' | h'
            · have := hgt v hvm; omega
            · exact h'
        · intro h
          obtain ⟨h4, h5⟩ := h3 h
          constructor
          · simp only [List.map_cons, signedKeys, if_true]
            rw [h4, hk]
          · simp [h5]
      · have hw : walk (a :: as) i ((k, s) :: vs) = walk as (i+1) ((k, s) :: vs) := by
          simp only [walk]; rw [if_neg hk]
        obtain ⟨h1, h2, h3⟩ := ih (i := i + 1) (vs := (k, s) :: vs) ha.2
          (by simp only [List.map_cons, List.pairwise_cons]; exact hv)
        rw [hw]
        refine ⟨fun b hb => by have := h1 b hb; omega, ?_, ?_⟩
        · rw [h2]
          constructor
          · intro h v hvm
            exact List.mem_cons_of_mem _ (h v hvm)
          · intro h v hvm
            rcases List.mem_cons.mp (h v hvm) with h' | h'
            · exfalso
              -- v.1 = a.key; then k ≤ a.key, k ≠ a.key, so k is not in the committee
              have hkk := h (k, s) (by simp)
              rcases List.mem_cons.mp hkk with h'' | h''
              · exact hk h''.symm
              · have h1' := ha.1 k h''
                rcases List.mem_cons.mp hvm with rfl | hvm
                · exact hk h'.symm
                · have := hv.1 v.1 (List.mem_map.mpr ⟨v, hvm, rfl⟩)
                  dsimp only at h'; omega
            · exact h'
        · intro h
          obtain ⟨h4, h5⟩ := h3 h
          refine ⟨?_, h5⟩
          rw [List.map_cons, signedKeys_skip h1, h4]

theorem signedKeys_sublist (ks : List Key) (i : Nat) (bs : List Nat) :
    (signedKeys ks i bs).Sublist ks := by
  induction ks generalizing i bs with
  | nil => simp [signedKeys]
  | cons k ks ih =>
    cases bs with
    | nil => simp [signedKeys]
    | cons b bs =>
      simp only [signedKeys]
      split
      · exact (ih _ _).cons_cons k
      · exact (ih _ _).cons k

theorem signedKeys_length_le (ks : List Key) (i : Nat) (bs : List Nat) :
    (signedKeys ks i bs).length ≤ bs.length := by
  induction ks generalizing i bs with
  | nil => simp [signedKeys]
  | cons k ks ih =>
    cases bs with
    | nil => simp [signedKeys]
    | cons b bs =>
      simp only [signedKeys]
      split
      · simpa using ih (i+1) bs
      · exact ih (i+1) (b :: bs)

end Certificate
end Verif
