import Mathlib.Data.Finset.Dedup
import Mathlib.Data.Finset.Card
import Verif.Epoch.Shuffle
/-
C55: the next committee has the announced size, no repeats and only eligible members, and every possible one is
equally likely.
-/
namespace Verif
namespace Shuffle

/-! ### Draws -/

theorem mem_draws : ∀ {bs ds : List Nat}, ds ∈ draws bs ↔ Valid bs ds
  | [], ds => by
    unfold Valid draws
    simp
  | b :: bs, ds => by
    unfold draws
    rw [List.mem_flatMap]
    constructor
    · rintro ⟨d, hd, h⟩
      obtain ⟨ds', h', rfl⟩ := List.mem_map.mp h
      exact List.Forall₂.cons (List.mem_range.mp hd) (mem_draws.mp h')
    · intro h
      cases h with
      | cons h1 h2 => exact ⟨_, List.mem_range.mpr h1, List.mem_map.mpr ⟨_, mem_draws.mpr h2, rfl⟩⟩

theorem nodup_draws : ∀ bs : List Nat, (draws bs).Nodup
  | [] => by simp [draws]
  | b :: bs => by
    unfold draws
    rw [List.nodup_flatMap]
    refine ⟨fun d _ => (nodup_draws bs).map (fun x y h => (List.cons.inj h).2), ?_⟩
    refine List.Pairwise.imp_of_mem ?_ (List.nodup_range (n := b))
    intro a c _ _ hac x h1 h2
    obtain ⟨_, _, rfl⟩ := List.mem_map.mp h1
    obtain ⟨_, _, h⟩ := List.mem_map.mp h2
    exact hac (List.cons.inj h).1.symm

theorem length_draws : ∀ bs : List Nat, (draws bs).length = bs.prod
  | [] => rfl
  | b :: bs => by
    simp [draws, List.length_flatMap, length_draws bs]

theorem countP_draws (b : Nat) (bs : List Nat) (P : List Nat → Bool) :
    (draws (b :: bs)).countP P = ((List.range b).map (fun d => (draws bs).countP (fun ds => P (d :: ds)))).sum := by
  rw [draws, List.countP_flatMap]
  simp only [Function.comp_def, List.countP_map]

theorem sum_range_ite (n c : Nat) (f : Nat → Nat) (p : Nat → Bool) (h : ∀ j, j < n → f j = if p j then c else 0) :
    ((List.range n).map f).sum = (List.range n).countP p * c := by
  induction n with
  | zero => simp
  | succ n ih =>
    rw [List.range_succ, List.map_append, List.sum_append, List.countP_append, ih (fun j hj => h j (by omega))]
    have := h n (by omega)
    by_cases hp : p n = true
    · simp [hp] at this
      simp [hp, this, Nat.add_mul]
    · simp [hp] at this
      simp [hp, this]

theorem countP_idx {α : Type} (p : α → Bool) : ∀ (l : List α) (n : Nat), l.length ≤ n →
    (List.range n).countP (fun k => (l[k]?).any p) = l.countP p
  | [], n, _ => by simp
  | x :: xs, 0, h => by simp at h
  | x :: xs, n + 1, h => by
    rw [List.range_succ_eq_map, List.countP_cons, List.countP_map]
    have := countP_idx p xs n (by simpa using h)
    simp only [Function.comp_def, List.getElem?_cons_succ, List.getElem?_cons_zero, Option.any_some]
    rw [this, List.countP_cons]

theorem countP_take_idx {α : Type} (p : α → Bool) (l : List α) (n : Nat) :
    (List.range n).countP (fun k => (l[k]?).any p) = (l.take n).countP p := by
  rw [← countP_idx p (l.take n) n (by simp)]
  refine List.countP_congr (fun k hk => ?_)
  rw [List.getElem?_take_of_lt (List.mem_range.mp hk)]

/-! ### The shuffle -/

section
variable {α : Type}

theorem swap_length (l : List α) (i j : Nat) : (swap l i j).length = l.length := by
  unfold swap
  split <;> simp

theorem swap_get (l : List α) {i j : Nat} (hi : i < l.length) (hj : j < l.length) (k : Nat) :
    (swap l i j)[k]? = if k = i then l[j]? else if k = j then l[i]? else l[k]? := by
  unfold swap
  rw [List.getElem?_eq_getElem hi, List.getElem?_eq_getElem hj]
  dsimp only
  rw [List.getElem?_set, List.getElem?_set]
  simp only [List.length_set]
  by_cases h1 : k = i
  · by_cases h2 : k = j
    · subst h1; subst h2; simp [hi]
    · have : ¬ j = k := fun h => h2 h.symm
      subst h1; simp [this, hi]
  · by_cases h2 : k = j
    · have : ¬ i = k := fun h => h1 h.symm
      subst h2; simp [h1, hj]
    · have h3 : ¬ i = k := fun h => h1 h.symm
      have h4 : ¬ j = k := fun h => h2 h.symm
      simp [h1, h2, h3, h4]

theorem perm_swap_set (l : List α) {i j : Nat} (hi : i < l.length) (hj : j < l.length) : (swap l i j).Perm l := by
  unfold swap
  rw [List.getElem?_eq_getElem hi, List.getElem?_eq_getElem hj]
  exact List.set_set_perm hi hj

theorem swap_perm (l : List α) (i j : Nat) : (swap l i j).Perm l := by
  by_cases hi : i < l.length
  · by_cases hj : j < l.length
    · exact perm_swap_set l hi hj
    · unfold swap
      rw [List.getElem?_eq_none (l := l) (i := j) (by omega)]
      split <;> simp_all
  · unfold swap
    rw [List.getElem?_eq_none (l := l) (i := i) (by omega)]

theorem shuffle_perm : ∀ (i : Nat) (l : List α) (ds : List Nat), (shuffle i l ds).Perm l
  | 0, _, _ => List.Perm.refl _
  | i + 1, l, _ => (shuffle_perm i _ _).trans (swap_perm l _ _)

/-- A swap below `k` leaves what is beyond alone. -/
theorem swap_drop (l : List α) {i j k : Nat} (hi : i < k) (hj : j < k) : (swap l i j).drop k = l.drop k := by
  unfold swap
  split
  · rw [List.drop_set_of_lt (by omega), List.drop_set_of_lt (by omega)]
  · rfl

theorem shuffle_drop : ∀ (i : Nat) (l : List α) (ds : List Nat) {k : Nat}, i < k → Valid (shufBounds i) ds →
    (shuffle i l ds).drop k = l.drop k
  | 0, _, _, _, _, _ => rfl
  | i + 1, l, ds, k, hk, hv => by
    cases hv with
    | cons h1 h2 =>
      simp only [shuffle, List.headD_cons, List.tail_cons]
      rw [shuffle_drop i _ _ (by omega) h2, swap_drop l (by omega) (by omega)]

theorem take_perm {l l' : List α} {k : Nat} (h : l'.Perm l) (hd : l'.drop k = l.drop k) :
    (l'.take k).Perm (l.take k) := by
  refine (List.perm_append_right_iff (l.drop k)).mp ?_
  rw [List.take_append_drop, ← hd, List.take_append_drop]
  exact h

/-- The first `k` are permuted among themselves. -/
theorem shuffle_take {i : Nat} {l : List α} {ds : List Nat} {k : Nat} (hk : i < k) (hv : Valid (shufBounds i) ds) :
    ((shuffle i l ds).take k).Perm (l.take k) := by
  exact take_perm (shuffle_perm i l ds) (shuffle_drop i l ds hk hv)

theorem swap_take (l : List α) {i j k : Nat} (hi : i < k) (hj : j < k) : ((swap l i j).take k).Perm (l.take k) := by
  exact take_perm (swap_perm l i j) (swap_drop l hi hj)

theorem prod_shuf : ∀ i : Nat, (shufBounds i).prod = (i + 1).factorial
  | 0 => rfl
  | i + 1 => by
    rw [shufBounds, List.prod_cons, prod_shuf i, ← Nat.factorial_succ]

variable [DecidableEq α]

theorem countP_mem {l : List α} (hl : l.Nodup) {S : Finset α} (hS : ∀ x ∈ S, x ∈ l) :
    l.countP (fun x => decide (x ∈ S)) = S.card := by
  rw [List.countP_eq_length_filter, ← List.toFinset_card_of_nodup (hl.filter _)]
  congr 1
  ext x
  simp only [List.mem_toFinset, List.mem_filter, decide_eq_true_eq]
  exact ⟨fun h => h.2, fun h => ⟨hS x h, h⟩⟩

theorem countP_not_mem {l : List α} (hl : l.Nodup) {S : Finset α} (hS : ∀ x ∈ S, x ∈ l) :
    l.countP (fun x => decide (x ∉ S)) = l.length - S.card := by
  have h := List.length_eq_countP_add_countP (l := l) (fun x => decide (x ∈ S))
  rw [countP_mem hl hS] at h
  have h2 : l.countP (fun x => decide (x ∉ S)) = l.countP (fun a => decide ¬ decide (a ∈ S) = true) := by
    refine List.countP_congr (fun x _ => by simp)
  omega

/-- For a list of which `i + 1` elements are shuffled, the number of draws that bring the set `S` to the front. -/
theorem shuffle_count : ∀ (i : Nat) (l : List α), l.Nodup → i < l.length → ∀ (S : Finset α),
    (∀ x ∈ S, x ∈ l.take (i + 1)) →
    (draws (shufBounds i)).countP (fun ds => decide (((shuffle i l ds).take S.card).toFinset = S)) =
      S.card.factorial * (i + 1 - S.card).factorial := by
  intro i
  induction i with
  | zero =>
    intro l hl hi S hS
    cases l with
    | nil => simp at hi
    | cons y l =>
      have hsub : ∀ x ∈ S, x = y := by intro x hx; simpa using hS x hx
      rcases Finset.eq_empty_or_nonempty S with rfl | ⟨x, hx⟩
      · simp [draws, shufBounds]
      · have hSy : S = {y} := by
          ext z
          rw [Finset.mem_singleton]
          exact ⟨hsub z, fun h => by rw [h, ← hsub x hx]; exact hx⟩
        subst hSy
        simp [draws, shufBounds, shuffle]
  | succ i ih =>
    intro l hl hi S hS
    have hcard : S.card ≤ i + 2 := by
      have h1 := countP_mem (hl.sublist (List.take_sublist (i + 2) l)) hS
      have h2 := List.countP_le_length (p := fun x => decide (x ∈ S)) (l := l.take (i + 2))
      rw [List.length_take] at h2
      omega
    by_cases hk : S.card = i + 2
    · -- all of them
      have hall : ∀ ds ∈ draws (shufBounds (i + 1)), decide (((shuffle (i + 1) l ds).take S.card).toFinset = S) = true := by
        intro ds hds
        rw [decide_eq_true_eq, hk, List.toFinset_eq_of_perm _ _ (shuffle_take (by omega) (mem_draws.mp hds))]
        symm
        refine Finset.eq_of_subset_of_card_le (fun x hx => List.mem_toFinset.mpr (hS x hx)) ?_
        rw [List.toFinset_card_of_nodup (hl.sublist (List.take_sublist _ _)), List.length_take]
        omega
      rw [List.countP_eq_length.mpr hall, length_draws, prod_shuf, hk]
      simp
    · have hk' : S.card ≤ i + 1 := by omega
      rw [shufBounds, countP_draws]
      have hstep : ∀ j, j < i + 2 → (draws (shufBounds i)).countP
          (fun ds => decide (((shuffle (i + 1) l (j :: ds)).take S.card).toFinset = S)) =
          if (l[j]?).any (fun x => decide (x ∉ S)) then S.card.factorial * (i + 1 - S.card).factorial else 0 := by
        intro j hj
        have hjl : j < l.length := by omega
        have hget : l[j]? = some l[j] := List.getElem?_eq_getElem hjl
        change (draws (shufBounds i)).countP
          (fun ds => decide (((shuffle i (swap l (i + 1) j) ds).take S.card).toFinset = S)) = _
        generalize hl' : swap l (i + 1) j = l'
        have hperm : l'.Perm l := hl' ▸ swap_perm l _ _
        have hnd : l'.Nodup := hperm.symm.nodup hl
        have hlen : l'.length = l.length := hperm.length_eq
        have htk : (l'.take (i + 2)).Perm (l.take (i + 2)) := hl' ▸ swap_take l (by omega) (by omega)
        have hlast : l'[i + 1]? = l[j]? := by
          rw [← hl', swap_get l (by omega) hjl, if_pos rfl]
        have hsplit : l'.take (i + 2) = l'.take (i + 1) ++ [l[j]] := by
          rw [List.take_add_one, hlast, hget]
          rfl
        have hnd2 : (l'.take (i + 1) ++ [l[j]]).Nodup := hsplit ▸ hnd.sublist (List.take_sublist _ _)
        by_cases hm : l[j] ∈ S
        · -- a member of `S` goes to the end: never
          rw [hget]
          simp only [Option.any_some, hm, not_true_eq_false, decide_false, Bool.false_eq_true, if_false]
          rw [List.countP_eq_zero]
          intro ds hds hdec
          rw [decide_eq_true_eq] at hdec
          have h1 : l[j] ∈ (shuffle i l' ds).take S.card := List.mem_toFinset.mp (by rw [hdec]; exact hm)
          have h2 : l[j] ∈ (shuffle i l' ds).take (i + 1) := by
            have : (shuffle i l' ds).take S.card = ((shuffle i l' ds).take (i + 1)).take S.card := by
              rw [List.take_take, Nat.min_eq_left hk']
            rw [this] at h1
            exact List.mem_of_mem_take h1
          have h3 := (shuffle_take (by omega) (mem_draws.mp hds)).mem_iff.mp h2
          exact (List.nodup_append.mp hnd2).2.2 _ h3 _ (List.mem_singleton.mpr rfl) rfl
        · rw [hget]
          simp only [Option.any_some, hm, not_false_eq_true, decide_true, if_true]
          refine ih l' hnd (by omega) S ?_
          intro x hx
          have h1 := htk.mem_iff.mpr (hS x hx)
          rw [hsplit] at h1
          rcases List.mem_append.mp h1 with h1 | h1
          · exact h1
          · rw [List.mem_singleton] at h1
            exact absurd (h1 ▸ hx) hm
      rw [sum_range_ite _ _ _ _ hstep, countP_take_idx _ l _,
        countP_not_mem (hl.sublist (List.take_sublist _ _)) hS, List.length_take]
      have e1 : min (i + 2) l.length = i + 2 := by omega
      have e2 : i + 1 + 1 - S.card = (i + 1 - S.card) + 1 := by omega
      rw [e1, e2, Nat.factorial_succ]
      ring

end

/-! ### The reservoir -/

section
variable {α : Type}

theorem reservoir_length : ∀ (xs res : List α) (ds : List Nat), (reservoir res xs ds).1.length = res.length
  | [], _, _ => rfl
  | x :: xs, res, ds => by
    rw [reservoir, reservoir_length xs]
    simp

theorem set_subperm (res xs : List α) (k : Nat) (x : α) : (res.set k x ++ xs).Subperm (res ++ x :: xs) := by
  by_cases hk : k < res.length
  · have h1 : (res.set k x).Perm (x :: res.eraseIdx k) := by
      rw [List.set_eq_take_append_cons_drop, if_pos hk, List.eraseIdx_eq_take_drop_succ]
      exact List.perm_middle
    have h2 : (res.set k x ++ xs).Perm (res.eraseIdx k ++ x :: xs) :=
      (h1.append_right xs).trans List.perm_middle.symm
    refine h2.subperm.trans ?_
    exact ((List.eraseIdx_sublist res k).append_right _).subperm
  · rw [List.set_eq_of_length_le (by omega)]
    exact ((List.sublist_cons_self x xs).append_left res).subperm

theorem reservoir_subperm : ∀ (xs res : List α) (ds : List Nat), ((reservoir res xs ds).1).Subperm (res ++ xs)
  | [], res, _ => by rw [List.append_nil]; exact List.Subperm.refl _
  | x :: xs, res, ds => (reservoir_subperm xs _ _).trans (set_subperm res xs _ x)

theorem choose_subperm (n : Nat) (xs : List α) (ds : List Nat) : ((chooseMultiple n xs ds).1).Subperm xs := by
  unfold chooseMultiple
  split
  · exact List.Subperm.refl _
  · have := reservoir_subperm (xs.drop n) (xs.take n) ds
    rwa [List.take_append_drop] at this

theorem choose_length (n : Nat) (xs : List α) (ds : List Nat) : (chooseMultiple n xs ds).1.length = min n xs.length := by
  unfold chooseMultiple
  split
  · dsimp only; omega
  · rw [reservoir_length, List.length_take]

variable [DecidableEq α]

/-- The number of draws after which the reservoir holds exactly `S`, of which `rest` has `e` members to come. `bs` are
the bounds of later draws. -/
theorem reservoir_count (S : Finset α) (bs : List Nat) : ∀ (rest res : List α) (t : Nat), (res ++ rest).Nodup →
    res.length ≤ t → S.card = res.length → (∀ x ∈ S, x ∈ res ++ rest) →
    (draws (resBounds t rest.length ++ bs)).countP (fun ds => decide ((reservoir res rest ds).1.toFinset = S)) =
      (rest.countP (fun x => decide (x ∈ S))).factorial *
        (t + rest.length - res.length).descFactorial (rest.length - rest.countP (fun x => decide (x ∈ S))) * bs.prod := by
  intro rest
  induction rest with
  | nil =>
    intro res t hnd ht hc hS
    rw [List.append_nil] at hnd hS
    have hall : ∀ ds ∈ draws (resBounds t 0 ++ bs), decide ((reservoir res [] ds).1.toFinset = S) = true := by
      intro ds _
      rw [decide_eq_true_eq]
      symm
      refine Finset.eq_of_subset_of_card_le (fun x hx => List.mem_toFinset.mpr (hS x hx)) ?_
      rw [reservoir, List.toFinset_card_of_nodup hnd]
      omega
    rw [List.length_nil, List.countP_eq_length.mpr hall, resBounds, List.nil_append, length_draws]
    simp
  | cons x rest ih =>
    intro res t hnd ht hc hS
    rw [List.length_cons, resBounds, List.cons_append, countP_draws]
    have hres : res.Nodup := (List.nodup_append.mp hnd).1
    have hxr : (x :: rest).Nodup := (List.nodup_append.mp hnd).2.1
    have hdisj : ∀ y ∈ res, ∀ z ∈ x :: rest, y ≠ z := (List.nodup_append.mp hnd).2.2
    -- how many of `S` are where
    have htot : (res ++ x :: rest).countP (fun y => decide (y ∈ S)) = S.card := countP_mem hnd hS
    rw [List.countP_append, List.countP_cons] at htot
    -- one step
    have hstep : ∀ k, k < t + 1 → (draws (resBounds (t + 1) rest.length ++ bs)).countP
        (fun ds => decide ((reservoir res (x :: rest) (k :: ds)).1.toFinset = S)) =
        if (if x ∈ S then (res[k]?).any (fun y => decide (y ∉ S)) else !(res[k]?).any (fun y => decide (y ∈ S))) then
          (rest.countP (fun x => decide (x ∈ S))).factorial *
            (t + 1 + rest.length - res.length).descFactorial
              (rest.length - rest.countP (fun x => decide (x ∈ S))) * bs.prod
        else 0 := by
      intro k hk
      change (draws (resBounds (t + 1) rest.length ++ bs)).countP
        (fun ds => decide ((reservoir (res.set k x) rest ds).1.toFinset = S)) = _
      have hsp : (res.set k x ++ rest).Subperm (res ++ x :: rest) := set_subperm res rest k x
      have hnd' : (res.set k x ++ rest).Nodup := by
        obtain ⟨l, h1, h2⟩ := hsp
        exact h1.nodup (hnd.sublist h2)
      -- if some member of `S` is gone, never
      have hnever : ∀ y ∈ S, y ∉ res.set k x ++ rest → (draws (resBounds (t + 1) rest.length ++ bs)).countP
          (fun ds => decide ((reservoir (res.set k x) rest ds).1.toFinset = S)) = 0 := by
        intro y hy hn
        rw [List.countP_eq_zero]
        intro ds _ hdec
        rw [decide_eq_true_eq] at hdec
        have h1 : y ∈ (reservoir (res.set k x) rest ds).1 := List.mem_toFinset.mp (by rw [hdec]; exact hy)
        exact hn ((reservoir_subperm rest _ ds).subset h1)
      have hgo : (∀ y ∈ S, y ∈ res.set k x ++ rest) → (draws (resBounds (t + 1) rest.length ++ bs)).countP
          (fun ds => decide ((reservoir (res.set k x) rest ds).1.toFinset = S)) =
          (rest.countP (fun x => decide (x ∈ S))).factorial *
            (t + 1 + rest.length - res.length).descFactorial
              (rest.length - rest.countP (fun x => decide (x ∈ S))) * bs.prod := by
        intro h
        have := ih (res.set k x) (t + 1) hnd' (by simp; omega) (by simpa using hc) h
        rw [List.length_set] at this
        exact this
      by_cases hkl : k < res.length
      · have hget : res[k]? = some res[k] := List.getElem?_eq_getElem hkl
        -- `res[k]` is gone
        have hgone : res[k] ∉ res.set k x ++ rest := by
          intro hm
          have hmem : res[k] ∈ res := List.getElem_mem hkl
          rcases List.mem_append.mp hm with hm | hm
          · obtain ⟨i, hi, he⟩ := List.getElem_of_mem hm
            rw [List.getElem_set] at he
            split at he
            · exact hdisj _ hmem x (List.mem_cons_self) he.symm
            · rename_i hne
              rw [List.length_set] at hi
              exact hne ((hres.getElem_inj_iff.mp he).symm)
          · exact hdisj _ hmem _ (List.mem_cons_of_mem _ hm) rfl
        have hkept : ∀ y ∈ res ++ x :: rest, y ≠ res[k] → y ∈ res.set k x ++ rest := by
          intro y hy hne
          rcases List.mem_append.mp hy with hy | hy
          · obtain ⟨i, hi, rfl⟩ := List.getElem_of_mem hy
            have hik : k ≠ i := by rintro rfl; exact hne rfl
            refine List.mem_append_left _ ?_
            exact List.mem_of_getElem? (i := i) (by rw [List.getElem?_set_ne hik]; exact List.getElem?_eq_getElem hi)
          · rcases List.mem_cons.mp hy with rfl | hy
            · exact List.mem_append_left _ (List.mem_set hkl _)
            · exact List.mem_append_right _ hy
        rw [hget]
        by_cases hm : res[k] ∈ S
        · rw [hnever _ hm hgone]
          split <;> simp_all
        · rw [hgo (fun y hy => hkept y (hS y hy) (by rintro rfl; exact hm hy))]
          split <;> simp_all
      · have hset : res.set k x = res := List.set_eq_of_length_le (by omega)
        have hget : res[k]? = none := List.getElem?_eq_none (by omega)
        rw [hget]
        by_cases hx : x ∈ S
        · rw [hnever x hx]
          · simp [hx]
          · rw [hset]
            intro hm
            rcases List.mem_append.mp hm with hm | hm
            · exact hdisj _ hm _ List.mem_cons_self rfl
            · exact (List.nodup_cons.mp hxr).1 hm
        · rw [hgo]
          · simp [hx]
          · intro y hy
            rw [hset]
            rcases List.mem_append.mp (hS y hy) with h | h
            · exact List.mem_append_left _ h
            · rcases List.mem_cons.mp h with rfl | h
              · exact absurd hy hx
              · exact List.mem_append_right _ h
    rw [sum_range_ite _ _ _ _ hstep, List.countP_cons]
    have hle := List.countP_le_length (p := fun x => decide (x ∈ S)) (l := rest)
    have hresS := countP_idx (fun y => decide (y ∈ S)) res (t + 1) (by omega)
    have hsum := List.length_eq_countP_add_countP (l := res) (fun y => decide (y ∈ S))
    generalize he : rest.countP (fun x => decide (x ∈ S)) = e at *
    by_cases hx : x ∈ S
    · simp only [hx, if_true, decide_true] at htot ⊢
      have h1 : (List.range (t + 1)).countP (fun k => (res[k]?).any (fun y => decide (y ∉ S))) = e + 1 := by
        rw [countP_idx _ res (t + 1) (by omega)]
        have : res.countP (fun y => decide (y ∉ S)) = res.countP (fun a => decide ¬ decide (a ∈ S) = true) :=
          List.countP_congr (fun y _ => by simp)
        omega
      rw [h1, Nat.factorial_succ, show rest.length + 1 - (e + 1) = rest.length - e by omega,
        show t + (rest.length + 1) - res.length = t + 1 + rest.length - res.length by omega]
      ring
    · simp only [hx, if_false, decide_false, Bool.false_eq_true, Nat.add_zero] at htot ⊢
      have h1 : (List.range (t + 1)).countP (fun k => !(res[k]?).any (fun y => decide (y ∈ S))) =
          t + 1 - (res.length - e) := by
        have h2 := List.length_eq_countP_add_countP (l := List.range (t + 1)) (fun k => (res[k]?).any (fun y => decide (y ∈ S)))
        have h3 : (List.range (t + 1)).countP (fun k => !(res[k]?).any (fun y => decide (y ∈ S))) =
            (List.range (t + 1)).countP (fun k => decide ¬ (res[k]?).any (fun y => decide (y ∈ S)) = true) :=
          List.countP_congr (fun k _ => by simp)
        rw [List.length_range] at h2
        omega
      rw [h1, show rest.length + 1 - e = (rest.length - e) + 1 by omega, Nat.descFactorial_succ,
        show t + (rest.length + 1) - res.length = t + 1 + rest.length - res.length by omega,
        show t + 1 + rest.length - res.length - (rest.length - e) = t + 1 - (res.length - e) by omega]
      ring

/-- Every set of `n` elements is chosen by the same number of draws. -/
theorem choose_count {n : Nat} {xs : List α} (hnd : xs.Nodup) (hn : n ≤ xs.length) {S : Finset α} (hc : S.card = n)
    (hS : ∀ x ∈ S, x ∈ xs) (bs : List Nat) :
    (draws (resBounds n (xs.length - n) ++ bs)).countP (fun ds => decide ((chooseMultiple n xs ds).1.toFinset = S)) =
      (xs.length - n).factorial * bs.prod := by
  have h := reservoir_count S bs (xs.drop n) (xs.take n) n (by rw [List.take_append_drop]; exact hnd)
    (by simp) (by rw [List.length_take]; omega) (by rw [List.take_append_drop]; exact hS)
  rw [List.length_drop, List.length_take, Nat.min_eq_left hn] at h
  have hle := List.countP_le_length (p := fun x => decide (x ∈ S)) (l := xs.drop n)
  rw [List.length_drop] at hle
  generalize hcnt : (xs.drop n).countP (fun x => decide (x ∈ S)) = e at *
  have hch : ∀ ds, chooseMultiple n xs ds = reservoir (xs.take n) (xs.drop n) ds := by
    intro ds
    unfold chooseMultiple
    rw [if_neg (by omega)]
  simp only [hch]
  rw [h, show n + (xs.length - n) - n = xs.length - n by omega]
  congr 1
  have := Nat.factorial_mul_descFactorial (n := xs.length - n) (k := xs.length - n - e) (by omega)
  rw [show xs.length - n - (xs.length - n - e) = e by omega] at this
  exact this

end

end Shuffle
end Verif
