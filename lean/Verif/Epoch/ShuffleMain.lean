import Mathlib.Data.Finset.Image
import Verif.Epoch.ShuffleProps
/-
C55, main theorems.
-/
namespace Verif
namespace Shuffle

/-- Those that do not leave. -/
def staying (pool : List Val) : List Val := pool.filter (fun v => decide (v.status ≠ .pendingExit))

/-- Specification. The sets that may be the next committee: `size` eligible validators; nobody who leaves, if enough
stay; all who stay, otherwise. -/
structure Possible (size : Nat) (pool : List Val) (S : Finset Val) : Prop where
  card : S.card = size
  eligible : ∀ v ∈ S, v ∈ pool
  noExit : size ≤ (staying pool).length → ∀ v ∈ S, v.status ≠ .pendingExit
  allStay : (staying pool).length < size → ∀ v ∈ pool, v.status ≠ .pendingExit → v ∈ S

/-- The members of a result. -/
def members : Except Err (List Nat) → Option (Finset Nat)
  | .ok c => some c.toFinset
  | .error _ => none

theorem act_eq (pool : List Val) : pool.filter (fun v => !v.exiting) = staying pool := by
  unfold staying
  refine List.filter_congr (fun v _ => ?_)
  by_cases h : v.status = .pendingExit <;> simp [Val.exiting, h]

def leaving (pool : List Val) : List Val := pool.filter (fun v => v.exiting)

theorem mem_leaving {pool : List Val} {v : Val} : v ∈ leaving pool ↔ v ∈ pool ∧ v.status = .pendingExit := by
  unfold leaving Val.exiting
  simp

theorem mem_staying {pool : List Val} {v : Val} : v ∈ staying pool ↔ v ∈ pool ∧ v.status ≠ .pendingExit := by
  unfold staying
  simp

theorem length_split (pool : List Val) : (staying pool).length + (leaving pool).length = pool.length := by
  rw [← act_eq]
  have h := List.length_eq_countP_add_countP (l := pool) (fun v => v.exiting)
  rw [List.countP_eq_length_filter, List.countP_eq_length_filter] at h
  unfold leaving
  have : pool.filter (fun v => !v.exiting) = pool.filter (fun a => decide ¬ a.exiting = true) :=
    List.filter_congr (fun v _ => by cases v.exiting <;> rfl)
  rw [this]
  omega

theorem candidates_enough {size : Nat} {pool : List Val} (h : size ≤ (staying pool).length) (ds : List Nat) :
    candidates size pool ds = (staying pool, ds) := by
  unfold candidates
  rw [act_eq]
  dsimp only
  rw [if_pos h]

theorem candidates_short {size : Nat} {pool : List Val} (h : (staying pool).length < size) (ds : List Nat) :
    candidates size pool ds = (staying pool ++ (chooseMultiple (size - (staying pool).length) (leaving pool) ds).1,
      (chooseMultiple (size - (staying pool).length) (leaving pool) ds).2) := by
  unfold candidates
  rw [act_eq]
  dsimp only
  rw [if_neg (by omega)]
  rfl

theorem candidates_length (size : Nat) (pool : List Val) (ds : List Nat) :
    min size (candidates size pool ds).1.length = min size pool.length := by
  have hs := length_split pool
  by_cases h : size ≤ (staying pool).length
  · rw [candidates_enough h]
    dsimp only
    omega
  · rw [candidates_short (by omega), List.length_append, choose_length]
    omega

/-- A committee is found exactly if the size is positive and there are enough eligible validators. -/
theorem assemble_total (size : Nat) (pool : List Val) (ds : List Nat) :
    (size = 0 → assemble size pool ds = .error .zeroSize) ∧
    (0 < size → pool.length < size → assemble size pool ds = .error (.undersized size pool.length)) ∧
    (0 < size → size ≤ pool.length → ∃ c, assemble size pool ds = .ok c ∧ c.length = size) := by
  have hl : ∀ c, c = ((shuffle ((candidates size pool ds).1.length - 1) (candidates size pool ds).1
      (candidates size pool ds).2).map (·.addr)).take size → c.length = min size pool.length := by
    rintro c rfl
    rw [List.length_take, List.length_map, (shuffle_perm _ _ _).length_eq, candidates_length]
  refine ⟨fun h => by unfold assemble; rw [if_pos h], fun h0 h => ?_, fun h0 h => ?_⟩
  · unfold assemble
    rw [if_neg (by omega)]
    dsimp only
    rw [hl _ rfl, if_neg (by omega), show min size pool.length = pool.length by omega]
  · unfold assemble
    rw [if_neg (by omega)]
    dsimp only
    rw [hl _ rfl, if_pos (by omega)]
    exact ⟨_, rfl, by rw [hl _ rfl]; omega⟩

theorem candidates_subperm (size : Nat) (pool : List Val) (ds : List Nat) : (candidates size pool ds).1.Subperm pool := by
  by_cases h : size ≤ (staying pool).length
  · rw [candidates_enough h]
    exact List.filter_sublist.subperm
  · rw [candidates_short (by omega)]
    have h1 := choose_subperm (size - (staying pool).length) (leaving pool) ds
    have h2 : (staying pool ++ leaving pool).Perm pool := by
      rw [← act_eq]
      exact List.perm_append_comm.trans (List.filter_append_perm _ pool)
    exact ((List.subperm_append_left _).mpr h1).trans h2.subperm

/-- What is chosen, as validators. -/
theorem assemble_ok {size : Nat} {pool : List Val} {ds : List Nat} {c : List Nat} (h : assemble size pool ds = .ok c) :
    0 < size ∧ c.length = size ∧ c = ((shuffle ((candidates size pool ds).1.length - 1) (candidates size pool ds).1
      (candidates size pool ds).2).take size).map (·.addr) := by
  unfold assemble at h
  split at h
  · cases h
  · rename_i h0
    dsimp only at h
    split at h
    · rename_i hl
      cases h
      exact ⟨by omega, hl, by rw [List.map_take]⟩
    · cases h

theorem nodup_of_subperm {l l' : List Val} (h : l.Subperm l') (hn : l'.Nodup) : l.Nodup := by
  obtain ⟨m, h1, h2⟩ := h
  exact h1.nodup (hn.sublist h2)

theorem addr_inj {pool : List Val} (hn : (pool.map (·.addr)).Nodup) {u v : Val} (hu : u ∈ pool) (hv : v ∈ pool)
    (h : u.addr = v.addr) : u = v := List.inj_on_of_nodup_map hn hu hv h

theorem toFinset_map (l : List Val) : (l.map (·.addr)).toFinset = l.toFinset.image (·.addr) := by
  ext a
  simp only [List.mem_toFinset, List.mem_map, Finset.mem_image]

/-- The committee: `size` different addresses, of a set of validators that may be the next committee. -/
theorem assemble_possible {size : Nat} {pool : List Val} (hn : (pool.map (·.addr)).Nodup) {ds : List Nat} {c : List Nat}
    (h : assemble size pool ds = .ok c) :
    c.length = size ∧ c.Nodup ∧ ∃ S : Finset Val, Possible size pool S ∧ c.toFinset = S.image (·.addr) := by
  obtain ⟨h0, hl, hc⟩ := assemble_ok h
  generalize hL : (shuffle ((candidates size pool ds).1.length - 1) (candidates size pool ds).1
      (candidates size pool ds).2) = L at hc
  have hperm : L.Perm (candidates size pool ds).1 := hL ▸ shuffle_perm _ _ _
  have hsub : L.Subperm pool := hperm.subperm.trans (candidates_subperm size pool ds)
  have hpn : pool.Nodup := List.Nodup.of_map _ hn
  have hLn : L.Nodup := nodup_of_subperm hsub hpn
  have hTn : (L.take size).Nodup := hLn.sublist (List.take_sublist _ _)
  have hTm : ∀ v ∈ L.take size, v ∈ pool := fun v hv => hsub.subset (List.mem_of_mem_take hv)
  have hlen : (L.take size).length = size := by rw [hc] at hl; simpa using hl
  refine ⟨hl, ?_, (L.take size).toFinset, ⟨?_, ?_, ?_, ?_⟩, ?_⟩
  · rw [hc]
    exact List.Nodup.map_on (fun u hu v hv he => addr_inj hn (hTm u hu) (hTm v hv) he) hTn
  · rw [List.toFinset_card_of_nodup hTn, hlen]
  · intro v hv
    exact hTm v (List.mem_toFinset.mp hv)
  · intro he v hv
    have := hperm.mem_iff.mp (List.mem_of_mem_take (List.mem_toFinset.mp hv))
    rw [candidates_enough he] at this
    exact (mem_staying.mp this).2
  · intro he v hv hs
    have h1 : L.length = size := by
      rw [hperm.length_eq]
      have h2 := candidates_length size pool ds
      rw [candidates_short he, List.length_append, choose_length] at h2 ⊢
      have h3 : size ≤ L.length := by rw [List.length_take] at hlen; omega
      rw [hperm.length_eq, candidates_short he, List.length_append, choose_length] at h3
      omega
    rw [List.mem_toFinset, List.take_of_length_le (by omega), hperm.mem_iff, candidates_short he]
    exact List.mem_append_left _ (mem_staying.mpr ⟨hv, hs⟩)
  · rw [hc]
    exact toFinset_map _

theorem shuffle_congr {α : Type} : ∀ (i : Nat) (l : List α) (ds xs : List Nat), ds.length = i →
    shuffle i l (ds ++ xs) = shuffle i l ds
  | 0, _, _, _, _ => rfl
  | i + 1, l, [], xs, h => by simp at h
  | i + 1, l, d :: ds, xs, h => by
    simp only [shuffle, List.cons_append, List.headD_cons, List.tail_cons]
    exact shuffle_congr i _ ds xs (by simpa using h)

theorem reservoir_congr {α : Type} : ∀ (rest res : List α) (ds xs : List Nat), rest.length ≤ ds.length →
    (reservoir res rest (ds ++ xs)).1 = (reservoir res rest ds).1 ∧
    (reservoir res rest (ds ++ xs)).2 = (reservoir res rest ds).2 ++ xs ∧
    (reservoir res rest ds).2.length = ds.length - rest.length
  | [], res, ds, xs, _ => ⟨rfl, rfl, rfl⟩
  | x :: rest, res, [], xs, h => by simp at h
  | x :: rest, res, d :: ds, xs, h => by
    simp only [reservoir, List.cons_append, List.headD_cons, List.tail_cons, List.length_cons]
    obtain ⟨h1, h2, h3⟩ := reservoir_congr rest (res.set d x) ds xs (by simpa using h)
    exact ⟨h1, h2, by omega⟩

theorem shuf_length : ∀ i : Nat, (shufBounds i).length = i
  | 0 => rfl
  | i + 1 => by rw [shufBounds, List.length_cons, shuf_length i]

theorem res_length : ∀ (m t : Nat), (resBounds t m).length = m
  | 0, _ => rfl
  | m + 1, t => by rw [resBounds, List.length_cons, res_length m]

theorem drawBounds_eq (size : Nat) (pool : List Val) :
    drawBounds size pool = if size ≤ (staying pool).length then shufBounds ((staying pool).length - 1)
      else resBounds (size - (staying pool).length) ((leaving pool).length - (size - (staying pool).length)) ++
        shufBounds ((staying pool).length + min (leaving pool).length (size - (staying pool).length) - 1) := by
  unfold drawBounds
  rw [act_eq]
  rfl

/-- Only the draws counted in `drawBounds` are looked at. -/
theorem draws_suffice {size : Nat} {pool : List Val} {ds : List Nat} (hv : Valid (drawBounds size pool) ds) (xs : List Nat) :
    assemble size pool (ds ++ xs) = assemble size pool ds := by
  have hl := List.Forall₂.length_eq hv
  rw [drawBounds_eq] at hl
  have key : (shuffle ((candidates size pool (ds ++ xs)).1.length - 1) (candidates size pool (ds ++ xs)).1
        (candidates size pool (ds ++ xs)).2) =
      (shuffle ((candidates size pool ds).1.length - 1) (candidates size pool ds).1 (candidates size pool ds).2) := by
    by_cases h : size ≤ (staying pool).length
    · rw [if_pos h, shuf_length] at hl
      rw [candidates_enough h, candidates_enough h]
      exact shuffle_congr _ _ ds xs hl
    · rw [if_neg h, List.length_append, shuf_length, res_length] at hl
      rw [candidates_short (by omega), candidates_short (by omega)]
      have hc : (chooseMultiple (size - (staying pool).length) (leaving pool) (ds ++ xs)).1 =
            (chooseMultiple (size - (staying pool).length) (leaving pool) ds).1 ∧
          (chooseMultiple (size - (staying pool).length) (leaving pool) (ds ++ xs)).2 =
            (chooseMultiple (size - (staying pool).length) (leaving pool) ds).2 ++ xs ∧
          (chooseMultiple (size - (staying pool).length) (leaving pool) ds).2.length =
            ds.length - ((leaving pool).length - (size - (staying pool).length)) := by
        unfold chooseMultiple
        split
        · exact ⟨rfl, rfl, by dsimp only; omega⟩
        · have := reservoir_congr ((leaving pool).drop (size - (staying pool).length))
            ((leaving pool).take (size - (staying pool).length)) ds xs (by rw [List.length_drop]; omega)
          rw [List.length_drop] at this
          exact this
      obtain ⟨c1, c2, c3⟩ := hc
      have c4 := choose_length (size - (staying pool).length) (leaving pool) ds
      dsimp only
      rw [c1, c2]
      refine shuffle_congr _ _ _ xs ?_
      rw [c3, List.length_append, c4]
      omega
  unfold assemble
  dsimp only
  rw [key]

theorem members_eq {size : Nat} {pool : List Val} (hn : (pool.map (·.addr)).Nodup) (h0 : 0 < size)
    (hs : size ≤ pool.length) (ds : List Nat) {S : Finset Val} (hS : ∀ v ∈ S, v ∈ pool) :
    members (assemble size pool ds) = some (S.image (·.addr)) ↔
      ((shuffle ((candidates size pool ds).1.length - 1) (candidates size pool ds).1
        (candidates size pool ds).2).take size).toFinset = S := by
  obtain ⟨c, h, -⟩ := (assemble_total size pool ds).2.2 h0 hs
  obtain ⟨-, -, hc⟩ := assemble_ok h
  rw [h]
  simp only [members, Option.some.injEq]
  rw [hc]
  generalize hL : (shuffle ((candidates size pool ds).1.length - 1) (candidates size pool ds).1
      (candidates size pool ds).2) = L
  have hsub : L.Subperm pool := hL ▸ (shuffle_perm _ _ _).subperm.trans (candidates_subperm size pool ds)
  have hTm : ∀ v ∈ L.take size, v ∈ pool := fun v hv => hsub.subset (List.mem_of_mem_take hv)
  constructor
  · intro he
    ext v
    rw [List.mem_toFinset]
    constructor
    · intro hv
      have h1 : v.addr ∈ ((L.take size).map (·.addr)).toFinset := List.mem_toFinset.mpr (List.mem_map.mpr ⟨v, hv, rfl⟩)
      rw [he] at h1
      obtain ⟨u, hu, hua⟩ := Finset.mem_image.mp h1
      rw [← addr_inj hn (hS u hu) (hTm v hv) hua]
      exact hu
    · intro hv
      have h1 : v.addr ∈ S.image (·.addr) := Finset.mem_image.mpr ⟨v, hv, rfl⟩
      rw [← he] at h1
      obtain ⟨u, hu, hua⟩ := List.mem_map.mp (List.mem_toFinset.mp h1)
      rw [← addr_inj hn (hTm u hu) (hS v hv) hua]
      exact hu
  · intro he
    rw [← he]
    exact toFinset_map _

/-- Every possible committee comes out of the same number of sequences of draws, and of at least one: with uniform and
independent draws every possible committee is equally likely. -/
theorem committee_uniform {size : Nat} {pool : List Val} (hn : (pool.map (·.addr)).Nodup) (h0 : 0 < size)
    (hs : size ≤ pool.length) : ∃ N, 0 < N ∧ ∀ S : Finset Val, Possible size pool S →
      (draws (drawBounds size pool)).countP
        (fun ds => decide (members (assemble size pool ds) = some (S.image (·.addr)))) = N := by
  have hpn : pool.Nodup := List.Nodup.of_map _ hn
  have hsn : (staying pool).Nodup := hpn.sublist List.filter_sublist
  have hln : (leaving pool).Nodup := hpn.sublist List.filter_sublist
  have hlen := length_split pool
  rw [drawBounds_eq]
  by_cases h : size ≤ (staying pool).length
  · rw [if_pos h]
    refine ⟨size.factorial * ((staying pool).length - size).factorial, Nat.mul_pos (Nat.factorial_pos _) (Nat.factorial_pos _), ?_⟩
    intro S hS
    have hmem : ∀ v ∈ S, v ∈ (staying pool).take ((staying pool).length - 1 + 1) := by
      intro v hv
      rw [List.take_of_length_le (by omega)]
      exact mem_staying.mpr ⟨hS.eligible v hv, hS.noExit h v hv⟩
    have key := shuffle_count ((staying pool).length - 1) (staying pool) hsn (by omega) S hmem
    rw [hS.card, show (staying pool).length - 1 + 1 - size = (staying pool).length - size by omega] at key
    rw [← key]
    refine List.countP_congr (fun ds _ => ?_)
    rw [decide_eq_true_eq, decide_eq_true_eq, members_eq hn h0 hs ds hS.eligible, candidates_enough h]
  · rw [if_neg h]
    have h' : (staying pool).length < size := by omega
    refine ⟨((leaving pool).length - (size - (staying pool).length)).factorial * size.factorial,
      Nat.mul_pos (Nat.factorial_pos _) (Nat.factorial_pos _), ?_⟩
    intro S hS
    -- the part of `S` that leaves
    have hST : ∀ v, v ∈ S.filter (fun v => v.status = .pendingExit) → v ∈ leaving pool := by
      intro v hv
      rw [Finset.mem_filter] at hv
      exact mem_leaving.mpr ⟨hS.eligible v hv.1, hv.2⟩
    have hstay : S.filter (fun v => ¬ v.status = .pendingExit) = (staying pool).toFinset := by
      ext v
      rw [Finset.mem_filter, List.mem_toFinset, mem_staying]
      exact ⟨fun hv => ⟨hS.eligible v hv.1, hv.2⟩, fun hv => ⟨hS.allStay h' v hv.1 hv.2, hv.2⟩⟩
    have hcard : (S.filter (fun v => v.status = .pendingExit)).card = size - (staying pool).length := by
      have h1 := Finset.card_filter_add_card_filter_not (s := S) (fun v => v.status = .pendingExit)
      rw [hstay, List.toFinset_card_of_nodup hsn, hS.card] at h1
      omega
    have key := choose_count hln (by omega) hcard hST
      (shufBounds ((staying pool).length + min (leaving pool).length (size - (staying pool).length) - 1))
    rw [prod_shuf, show (staying pool).length + min (leaving pool).length (size - (staying pool).length) - 1 + 1 = size
      by omega] at key
    rw [← key]
    refine List.countP_congr (fun ds _ => ?_)
    rw [decide_eq_true_eq, decide_eq_true_eq, members_eq hn h0 hs ds hS.eligible, candidates_short h']
    have hcl := choose_length (size - (staying pool).length) (leaving pool) ds
    have hcm : ∀ v ∈ (chooseMultiple (size - (staying pool).length) (leaving pool) ds).1, v ∈ leaving pool :=
      fun v hv => (choose_subperm _ _ _).subset hv
    generalize chooseMultiple (size - (staying pool).length) (leaving pool) ds = r at *
    obtain ⟨ch, ds'⟩ := r
    dsimp only at *
    rw [List.take_of_length_le (by
      rw [(shuffle_perm _ _ _).length_eq, List.length_append, hcl]; omega),
      List.toFinset_eq_of_perm _ _ (shuffle_perm _ _ _), List.toFinset_append]
    constructor
    · intro he
      ext v
      rw [Finset.mem_filter, ← he, Finset.mem_union, List.mem_toFinset, List.mem_toFinset]
      constructor
      · intro hv
        exact ⟨Or.inr hv, (mem_leaving.mp (hcm v hv)).2⟩
      · rintro ⟨hv | hv, h2⟩
        · exact absurd h2 (mem_staying.mp hv).2
        · exact hv
    · intro he
      rw [he, ← hstay, Finset.union_comm]
      exact Finset.filter_union_filter_not_eq _ _

/-! ### Closing an epoch -/

variable {σ : Type}

/-- If an epoch is closed, the contract was given a committee assembled from the validators that were eligible after
the slashes: as many as the contract then asked for, in ascending order, without repeats; and no call failed. -/
theorem close_spec (R : Registry σ) {s s' : σ} {ds : List Nat} (h : R.close s ds = some s')
    (hn : ∀ t p, R.pool t = some p → (p.map (·.addr)).Nodup) :
    ∃ s1 s2 s3, R.incentives s = some s1 ∧ R.slashes s1 = some s2 ∧ ∃ (c : List Nat) (n : Nat) (p : List Val) (S : Finset Val),
      R.size s2 = some n ∧ R.pool s2 = some p ∧ Possible n p S ∧ c.toFinset = S.image (·.addr) ∧ c.length = n ∧
      c.Pairwise (· < ·) ∧ R.conclude c s2 = some s3 ∧ R.fees s3 = some s' := by
  unfold Registry.close at h
  rw [Option.bind_eq_some_iff] at h
  obtain ⟨s1, h1, h⟩ := h
  rw [Option.bind_eq_some_iff] at h
  obtain ⟨s2, h2, h⟩ := h
  rw [Option.bind_eq_some_iff] at h
  obtain ⟨c, hc, h⟩ := h
  rw [Option.bind_eq_some_iff] at h
  obtain ⟨s3, h3, h4⟩ := h
  refine ⟨s1, s2, s3, h1, h2, c, ?_⟩
  unfold Registry.committee at hc
  cases hz : R.size s2 with
  | none => rw [hz] at hc; cases hc
  | some n =>
    cases hp : R.pool s2 with
    | none => rw [hz, hp] at hc; cases hc
    | some p =>
      rw [hz, hp] at hc
      dsimp only at hc
      cases ha : assemble n p ds with
      | error e => rw [ha] at hc; cases hc
      | ok d =>
        rw [ha] at hc
        dsimp only at hc
        obtain ⟨a1, a2, S, a3, a4⟩ := assemble_possible (hn s2 p hp) ha
        cases hc
        have hperm := List.perm_insertionSort (· ≤ ·) d
        refine ⟨n, p, S, rfl, rfl, a3, ?_, ?_, ?_, h3, h4⟩
        · rw [List.toFinset_eq_of_perm _ _ hperm, a4]
        · rw [hperm.length_eq, a1]
        · have hs : (d.insertionSort (· ≤ ·)).Pairwise (· ≤ ·) :=
            List.pairwise_insertionSort _ d
          have hnd : (d.insertionSort (· ≤ ·)).Nodup := hperm.symm.nodup a2
          refine (hs.and hnd).imp ?_
          rintro a b ⟨h1, h2⟩
          omega

/-- And it is closed if no call fails and enough validators are eligible. -/
theorem close_progress (R : Registry σ) {s s1 s2 : σ} (h1 : R.incentives s = some s1) (h2 : R.slashes s1 = some s2)
    {n : Nat} {p : List Val} (hz : R.size s2 = some n) (hp : R.pool s2 = some p) (h0 : 0 < n) (hle : n ≤ p.length)
    (hc : ∀ c : List Nat, c.length = n → c.Pairwise (· ≤ ·) → ∃ s3, R.conclude c s2 = some s3 ∧ ∃ s4, R.fees s3 = some s4)
    (ds : List Nat) : ∃ s4, R.close s ds = some s4 := by
  obtain ⟨c, ha, hl⟩ := (assemble_total n p ds).2.2 h0 hle
  have hs : (c.insertionSort (· ≤ ·)).Pairwise (· ≤ ·) :=
    List.pairwise_insertionSort _ c
  obtain ⟨s3, h3, s4, h4⟩ := hc (c.insertionSort (· ≤ ·))
    (by rw [(List.perm_insertionSort _ _).length_eq, hl]) hs
  refine ⟨s4, ?_⟩
  have hcm : R.committee s2 ds = some (c.insertionSort (· ≤ ·)) := by
    unfold Registry.committee
    rw [hz, hp]
    dsimp only
    rw [ha]
  unfold Registry.close
  rw [h1, Option.bind_some, h2, Option.bind_some, hcm, Option.bind_some, h3, Option.bind_some, h4]

/-! ### Examples -/

namespace Ex

def pool : List Val := [⟨7, .active⟩, ⟨3, .pendingExit⟩, ⟨9, .pendingActivation⟩, ⟨4, .pendingExit⟩, ⟨1, .pendingExit⟩]

theorem nodup : (pool.map (·.addr)).Nodup := by decide

/-- Three of five, two stay: one of the three that leave is drawn. Two of five: nobody who leaves. -/
theorem some_draws :
    assemble 3 pool [2, 2, 2, 1] = .ok [7, 9, 3] ∧ assemble 3 pool [0, 3, 1, 0] = .ok [4, 7, 9] ∧
    assemble 2 pool [0] = .ok [9, 7] ∧ assemble 6 pool [] = .error (.undersized 6 5) ∧
    drawBounds 3 pool = [2, 3, 3, 2] ∧ drawBounds 2 pool = [2] := by decide +kernel

theorem possible : Possible 3 pool {⟨7, .active⟩, ⟨9, .pendingActivation⟩, ⟨4, .pendingExit⟩} where
  card := by decide
  eligible := by decide
  noExit := by decide
  allStay := by decide

/-- In this case 12 of the 36 sequences of draws give that committee. -/
theorem twelve : (draws (drawBounds 3 pool)).length = 36 ∧ (draws (drawBounds 3 pool)).countP
    (fun ds => decide (members (assemble 3 pool ds) = some {7, 9, 4})) = 12 := by decide +kernel

/-- A registry as a list of validators and a committee. -/
def R : Registry (List Val × List Nat) where
  incentives s := some s
  slashes s := some (s.1.filter (fun v => decide (v.addr ≠ 7)), s.2)
  size _ := some 3
  info s st := some (s.1.filter (fun v => decide (v.status = st)))
  conclude c s := if c.length = 3 then some (s.1, c) else none
  fees s := some s

/-- The slashed validator is not in the committee. -/
theorem closed : R.close (pool, []) [0, 1, 1] = some (pool.drop 1, [1, 4, 9]) := by decide +kernel

end Ex
end Shuffle
end Verif
