import Verif.Genesis.Ceremony
import Mathlib.Data.List.Nodup
import Mathlib.Tactic.Common

/-!
# The genesis ceremony: the theorems (C111)
-/

namespace Verif.Gen
open Verif

/-! ## The validators -/

theorem validators_sorted (l : List Info) : SMap.Sorted (validators l) := SMap.sorted_ofList _

theorem validators_mem {l : List Info} {k : Nat} {x : Info} (h : (k, x) ∈ validators l) :
    x ∈ l ∧ x.key = k := by
  have := SMap.mem_of_mem_ofList h
  obtain ⟨y, hy, e⟩ := List.mem_map.mp this
  cases e
  exact ⟨hy, rfl⟩

theorem key_inj {l : List Info} (hn : (l.map (·.key)).Nodup) {x y : Info} (hx : x ∈ l) (hy : y ∈ l)
    (e : x.key = y.key) : x = y := by
  exact List.inj_on_of_nodup_map hn hx hy e

/-- With distinct keys the map holds exactly the files. -/
theorem validators_iff {l : List Info} (hn : (l.map (·.key)).Nodup) (k : Nat) (x : Info) :
    (k, x) ∈ validators l ↔ x ∈ l ∧ x.key = k := by
  refine ⟨validators_mem, ?_⟩
  rintro ⟨hx, rfl⟩
  have : x.key ∈ (validators l).map (·.1) := by
    unfold validators
    rw [SMap.mem_keys_ofList, List.map_map]
    exact List.mem_map.mpr ⟨x, hx, rfl⟩
  obtain ⟨⟨k, y⟩, hy, e⟩ := List.mem_map.mp this
  have e : k = x.key := e
  obtain ⟨h1, h2⟩ := validators_mem hy
  have := key_inj hn h1 hx (by rw [h2, e])
  subst this
  rw [e] at hy
  exact hy

theorem sorted_mem_ext {β : Type} {m m' : List (Nat × β)} (hs : SMap.Sorted m) (hs' : SMap.Sorted m')
    (h : ∀ x, x ∈ m ↔ x ∈ m') : m = m' := by
  refine SMap.sorted_ext hs hs' (fun k => ?_)
  cases h1 : SMap.get? k m with
  | some v => exact (SMap.get?_of_mem hs' ((h _).mp (SMap.mem_of_get? h1))).symm
  | none =>
      cases h2 : SMap.get? k m' with
      | none => rfl
      | some v =>
          have := SMap.get?_of_mem hs ((h _).mpr (SMap.mem_of_get? h2))
          rw [h1] at this
          cases this

theorem validators_perm {l l' : List Info} (hn : (l.map (·.key)).Nodup) (hp : l.Perm l') :
    validators l = validators l' := by
  have hn' : (l'.map (·.key)).Nodup := (hp.map _).nodup_iff.mp hn
  refine sorted_mem_ext (validators_sorted l) (validators_sorted l') ?_
  rintro ⟨k, x⟩
  rw [validators_iff hn, validators_iff hn', hp.mem_iff]

theorem validators_length {l : List Info} (hn : (l.map (·.key)).Nodup) :
    (validators l).length = l.length := by
  have h1 : ((validators l).map (·.2)).Perm l := by
    rw [List.perm_ext_iff_of_nodup]
    · intro x
      rw [List.mem_map]
      constructor
      · rintro ⟨⟨k, y⟩, h, rfl⟩
        exact (validators_mem h).1
      · intro h
        exact ⟨(x.key, x), (validators_iff hn _ _).mpr ⟨h, rfl⟩, rfl⟩
    · refine List.Nodup.map_on ?_ (List.Nodup.of_map _ (SMap.nodup_keys (validators_sorted l)))
      rintro ⟨k, x⟩ h ⟨k', y⟩ h' e
      have e : x = y := e
      subst e
      have a := (validators_mem h).2
      have b := (validators_mem h').2
      rw [← a, ← b]
    · exact List.Nodup.of_map _ hn
  have := h1.length_eq
  rw [List.length_map] at this
  exact this

theorem readAll_some (l : List Info) : readAll (l.map some) = some l := by
  induction l with
  | nil => rfl
  | cons x l ih =>
      rw [List.map_cons]
      show (readAll (l.map some)).map _ = _
      rw [ih]; rfl

theorem readAll_eq {fs : List (Option Info)} {l : List Info} (h : readAll fs = some l) :
    fs = l.map some := by
  induction fs generalizing l with
  | nil => cases h; rfl
  | cons f fs ih =>
      cases f with
      | none => cases h
      | some x =>
          have h : (readAll fs).map (x :: ·) = some l := h
          obtain ⟨l', h1, rfl⟩ := Option.map_eq_some_iff.mp h
          rw [List.map_cons, ih h1]

/-- The result does not depend on the order in which the directory lists the files, if their keys
differ. -/
theorem order_free (w : World) (a : Args) {l l' : List Info} (hn : (l.map (·.key)).Nodup)
    (hp : l.Perm l') : w.ceremony a (l.map some) = w.ceremony a (l'.map some) := by
  unfold World.ceremony
  rw [readAll_some, readAll_some]
  dsimp only
  rw [validators_perm hn hp]

/-! ## The fees -/

theorem parseAll_eq {fs : List (Option (Nat × Nat × Nat))} {l : List (Nat × Nat × Nat)}
    (h : parseAll fs = some l) : fs = l.map some ∧ ∀ x ∈ l, x.2.1 ≤ 1 := by
  induction fs generalizing l with
  | nil => cases h; exact ⟨rfl, fun x hx => nomatch hx⟩
  | cons f fs ih =>
      cases f with
      | none => cases h
      | some x =>
          obtain ⟨i, s, v⟩ := x
          have h : (if 1 < s then none else (parseAll fs).map ((i, s, v) :: ·)) = some l := h
          split at h
          · cases h
          · rename_i hs
            obtain ⟨l', h1, rfl⟩ := Option.map_eq_some_iff.mp h
            obtain ⟨e, hl⟩ := ih h1
            refine ⟨by rw [List.map_cons, e], fun x hx => ?_⟩
            rcases List.mem_cons.mp hx with rfl | hx
            · show s ≤ 1; omega
            · exact hl x hx

theorem parseAll_some {l : List (Nat × Nat × Nat)} (h : ∀ x ∈ l, x.2.1 ≤ 1) :
    parseAll (l.map some) = some l := by
  induction l with
  | nil => rfl
  | cons x l ih =>
      obtain ⟨i, s, v⟩ := x
      have hs : s ≤ 1 := h _ List.mem_cons_self
      show (if 1 < s then none else (parseAll (l.map some)).map ((i, s, v) :: ·)) = _
      rw [if_neg (by omega), ih (fun x hx => h x (List.mem_cons_of_mem _ hx))]
      rfl

theorem contiguous_iff (l : List (Nat × Nat × Nat)) (i : Nat) :
    contiguous i l = true ↔ l.map (·.1) = List.range' i l.length := by
  induction l generalizing i with
  | nil => exact ⟨fun _ => rfl, fun _ => rfl⟩
  | cons x l ih =>
      obtain ⟨w, r⟩ := x
      show (decide (w = i) && contiguous (i + 1) l) = true ↔ _
      rw [Bool.and_eq_true, decide_eq_true_eq, ih, List.map_cons, List.length_cons, List.range'_succ]
      constructor
      · rintro ⟨rfl, h⟩; rw [h]
      · intro h
        exact ⟨(List.cons.inj h).1, (List.cons.inj h).2⟩

/-- The sort of `parseFees`. -/
def byId (l : List (Nat × Nat × Nat)) : List (Nat × Nat × Nat) :=
  stableSort (fun a b => decide (a.1 ≤ b.1)) l

/-- An accepted list of fees: the i-th is what was given for worker i, and the strategies are the two there
are. -/
theorem fees_right {fees : List (Option (Nat × Nat × Nat))} {r : List (Nat × Nat)}
    (h : parseFees fees = some r) :
    r.length = fees.length ∧ r ≠ [] ∧ (∀ i s v, r[i]? = some (s, v) ↔ some (i, s, v) ∈ fees) ∧
    ∀ x ∈ r, x.1 ≤ 1 := by
  unfold parseFees at h
  split at h
  · cases h
  · rename_i hne
    obtain ⟨l, hl, h⟩ := Option.bind_eq_some_iff.mp h
    dsimp only at h
    split at h
    · rename_i hc
      cases h
      obtain ⟨e, hs⟩ := parseAll_eq hl
      have hp : (byId l).Perm l := stableSort_perm l
      have hc : (byId l).map (·.1) = List.range' 0 (byId l).length := (contiguous_iff _ 0).mp hc
      have hlen : (byId l).length = fees.length := by rw [hp.length_eq, e, List.length_map]
      change _ = _ ∧ (byId l).map (·.2) ≠ [] ∧ (∀ i s v, ((byId l).map (·.2))[i]? = some (s, v) ↔ _) ∧ _
      have hid : ∀ (i w s v : Nat), (byId l)[i]? = some (w, s, v) → w = i := by
        intro i w s v hi
        have h1 : ((byId l).map (·.1))[i]? = some w := by rw [List.getElem?_map, hi]; rfl
        rw [hc] at h1
        have := List.getElem?_eq_some_iff.mp h1
        obtain ⟨hlt, h2⟩ := this
        rw [List.getElem_range'] at h2
        omega
      refine ⟨?_, ?_, ?_, ?_⟩
      · show ((byId l).map (·.2)).length = _
        rw [List.length_map, hlen]
      · intro h0
        have := congrArg List.length h0
        rw [List.length_map, hlen] at this
        exact hne (List.length_eq_zero_iff.mp this)
      · intro i s v
        rw [List.getElem?_map, Option.map_eq_some_iff]
        constructor
        · rintro ⟨⟨w, s', v'⟩, h1, h2⟩
          have h2 : (s', v') = (s, v) := h2
          cases h2
          have hw := hid i w s v h1
          subst hw
          rw [e]
          exact List.mem_map_of_mem (hp.mem_iff.mp (List.mem_of_getElem? h1))
        · intro hm
          rw [e] at hm
          obtain ⟨x, hx, hx'⟩ := List.mem_map.mp hm
          cases hx'
          obtain ⟨j, hj⟩ := List.mem_iff_getElem?.mp (hp.mem_iff.mpr hx)
          have := hid j _ _ _ hj
          subst this
          exact ⟨_, hj, rfl⟩
      · intro x hx
        obtain ⟨y, hy, rfl⟩ := List.mem_map.mp hx
        exact hs y (hp.mem_iff.mp hy)
    · cases h

/-- A list of fees is accepted when each parses, the strategies are known and the worker ids are 0, 1, …,
in any order, each once. -/
theorem fees_accepted {l : List (Nat × Nat × Nat)} (h0 : l ≠ []) (hs : ∀ x ∈ l, x.2.1 ≤ 1)
    (hp : (l.map (·.1)).Perm (List.range l.length)) : ∃ r, parseFees (l.map some) = some r := by
  unfold parseFees
  rw [if_neg (by intro h; exact h0 (List.map_eq_nil_iff.mp h)), parseAll_some hs, Option.bind_some]
  dsimp only
  have hq : (byId l).Perm l := stableSort_perm l
  have hc : contiguous 0 (byId l) = true := by
    rw [contiguous_iff]
    have h1 : ((byId l).map (·.1)).Perm (List.range' 0 (byId l).length) := by
      have := (hq.map (·.1)).trans hp
      rw [hq.length_eq, ← List.range_eq_range']
      exact this
    have h2 : ((byId l).map (·.1)).Pairwise (· ≤ ·) := by
      rw [List.pairwise_map]
      refine List.Pairwise.imp ?_ (stableSort_pairwise ?_ ?_ l)
      · intro a b h; exact of_decide_eq_true h
      · intro a b c h1 h2
        have h1 := of_decide_eq_true h1
        have h2 := of_decide_eq_true h2
        exact decide_eq_true (Nat.le_trans h1 h2)
      · intro a b
        rcases Nat.le_total a.1 b.1 with h | h
        · exact Or.inl (decide_eq_true h)
        · exact Or.inr (decide_eq_true h)
    have h3 : (List.range' 0 (byId l).length).Pairwise (· ≤ ·) :=
      List.Pairwise.imp (fun h => Nat.le_of_lt h) (List.pairwise_lt_range' ..)
    exact List.Perm.eq_of_pairwise' h2 h3 h1
  rw [if_pos (show contiguous 0 (stableSort _ l) = true from hc)]
  exact ⟨_, rfl⟩

/-- The order of the arguments does not matter. -/
theorem fees_order {f f' : List (Option (Nat × Nat × Nat))} (hp : f.Perm f') {r : List (Nat × Nat)}
    (h : parseFees f = some r) : parseFees f' = some r := by
  have hr := fees_right h
  -- the parsed lists
  have h1 : ∃ l, parseAll f = some l := by
    unfold parseFees at h
    split at h
    · cases h
    · obtain ⟨l, hl, _⟩ := Option.bind_eq_some_iff.mp h
      exact ⟨l, hl⟩
  obtain ⟨l, hl⟩ := h1
  obtain ⟨e, hs⟩ := parseAll_eq hl
  have hall : ∀ x ∈ f', ∃ y ∈ l, x = some y := by
    intro x hx
    have := hp.mem_iff.mpr hx
    rw [e] at this
    obtain ⟨y, hy, rfl⟩ := List.mem_map.mp this
    exact ⟨y, hy, rfl⟩
  obtain ⟨l', rfl⟩ : ∃ l' : List (Nat × Nat × Nat), f' = l'.map some := by
    clear hp
    induction f' with
    | nil => exact ⟨[], rfl⟩
    | cons x f' ih =>
        obtain ⟨y, _, rfl⟩ := hall x List.mem_cons_self
        obtain ⟨l', rfl⟩ := ih (fun x hx => hall x (List.mem_cons_of_mem _ hx))
        exact ⟨y :: l', rfl⟩
  have hmem : ∀ x, x ∈ l' ↔ x ∈ l := by
    intro x
    have := hp.mem_iff (a := some x)
    rw [e] at this
    simp only [List.mem_map, Option.some.injEq, exists_eq_right] at this
    exact this.symm
  have hids : (l'.map (·.1)).Perm (List.range l'.length) := by
    have hlen : l'.length = r.length := by
      rw [hr.1, hp.length_eq, List.length_map]
    -- the ids of `l` are those of the range
    have hsub : List.range r.length ⊆ l'.map (·.1) := by
      intro i hi
      have hi := List.mem_range.mp hi
      have hri : r[i]? = some (r[i].1, r[i].2) := List.getElem?_eq_getElem hi
      have := (hr.2.2.1 i _ _).mp hri
      rw [e] at this
      obtain ⟨y, hy, hy'⟩ := List.mem_map.mp this
      cases hy'
      exact List.mem_map.mpr ⟨_, (hmem _).mpr hy, rfl⟩
    rw [hlen]
    have hsp := List.subperm_of_subset List.nodup_range hsub
    exact (hsp.perm_of_length_le (by rw [List.length_map, List.length_range, hlen])).symm
  have h0 : l' ≠ [] := by
    rintro rfl
    have := hr.1
    rw [hp.length_eq] at this
    exact hr.2.1 (List.length_eq_zero_iff.mp this)
  obtain ⟨r', h'⟩ := fees_accepted h0 (fun x hx => hs x ((hmem x).mp hx)) hids
  have hr' := fees_right h'
  rw [h']
  congr 1
  refine List.ext_getElem? (fun i => ?_)
  cases hi : r[i]? with
  | some x =>
      obtain ⟨s, v⟩ := x
      exact (hr'.2.2.1 i s v).mpr (hp.mem_iff.mp ((hr.2.2.1 i s v).mp hi))
  | none =>
      rw [List.getElem?_eq_none_iff] at hi ⊢
      rw [hr'.1, ← hp.length_eq, ← hr.1]
      exact hi

/-! ## The accounts -/

theorem extend_sorted {g l : List (Nat × Account)} (h : SMap.Sorted g) : SMap.Sorted (extend g l) :=
  SMap.sorted_ofList_aux l g h

theorem extend_other {g l : List (Nat × Account)} {k : Nat} (h : k ∉ l.map (·.1)) :
    SMap.get? k (extend g l) = SMap.get? k g := by
  unfold extend
  induction l generalizing g with
  | nil => rfl
  | cons x l ih =>
      rw [List.map_cons, List.mem_cons, not_or] at h
      rw [List.foldl_cons, ih h.2, SMap.get?_insert, if_neg h.1]

theorem extend_own {g l : List (Nat × Account)} (hn : (l.map (·.1)).Nodup) {k : Nat} {x : Account}
    (h : (k, x) ∈ l) : SMap.get? k (extend g l) = some x := by
  induction l generalizing g with
  | nil => cases h
  | cons y l ih =>
      rw [List.map_cons, List.nodup_cons] at hn
      show SMap.get? k (extend (SMap.insert y.1 y.2 g) l) = some x
      rcases List.mem_cons.mp h with rfl | h
      · rw [extend_other hn.1, SMap.get?_insert, if_pos rfl]
      · exact ih hn.2 h

/-- The accounts the ceremony makes are in the genesis block, unless an argument or a predefined account
names the same address. -/
theorem accounts_in (w : World) (a : Args) {b s f : Nat}
    (h4 : [w.blsAddr, w.registryAddr, w.issuanceAddr, w.feesAddr].Nodup) {k : Nat} {x : Account}
    (hx : (k, x) ∈ w.four b s f) (hp : k ∉ w.precompiles.map (·.1)) (hd : a.dev ≠ some k)
    (ha : k ∉ a.accounts.map (·.1)) : SMap.get? k (w.alloc a b s f) = some x := by
  unfold World.alloc
  dsimp only
  rw [extend_other ha]
  have h1 : SMap.get? k (extend (extend w.base (w.four b s f)) w.precompiles) = some x := by
    rw [extend_other hp]
    exact extend_own (l := w.four b s f) h4 hx
  cases hdv : a.dev with
  | none => exact h1
  | some d =>
      dsimp only
      rw [SMap.get?_insert, if_neg (by rintro rfl; exact hd hdv)]
      exact h1

/-- An account given by the operator's file is in the genesis block as given, whatever else has that
address. -/
theorem accounts_win (w : World) (a : Args) {b s f : Nat} (hn : (a.accounts.map (·.1)).Nodup) {k : Nat}
    {x : Account} (hx : (k, x) ∈ a.accounts) : SMap.get? k (w.alloc a b s f) = some x := by
  unfold World.alloc
  exact extend_own hn hx

/-! ## The ceremony -/

/-- What a ceremony that ends well has done. -/
theorem done_inv {w : World} {a : Args} {files : List (Option Info)} {alloc : List (Nat × Account)}
    {com : List (Nat × Nat × Nat × Nat)} (h : w.ceremony a files = .done alloc com) :
    ∃ infos fees st fs, files = infos.map some ∧
      (∀ x ∈ validators infos, w.pop x.2.proof x.1 x.2.addr = true) ∧ parseFees a.fees = some fees ∧
      a.stake * (validators infos).length < 2 ^ 256 ∧
      w.registryCtor (registryList (validators infos)) a.stake a.owner = some st ∧
      w.feesCtor fees a.owner = some fs ∧ 1 < (validators infos).length ∧
      alloc = w.alloc a (a.stake * (validators infos).length) st fs ∧
      com = committeeList (validators infos) := by
  unfold World.ceremony at h
  cases hr : readAll files with
  | none => rw [hr] at h; cases h
  | some infos =>
      rw [hr] at h
      dsimp only at h
      split at h
      · rename_i hv
        cases hf : parseFees a.fees with
        | none => rw [hf] at h; cases h
        | some fees =>
            rw [hf] at h
            dsimp only at h
            split at h
            · rename_i hb
              cases hc : w.registryCtor (registryList (validators infos)) a.stake a.owner with
              | none => rw [hc] at h; cases h
              | some st =>
                  cases hg : w.feesCtor fees a.owner with
                  | none => rw [hc, hg] at h; cases h
                  | some fs =>
                      rw [hc, hg] at h
                      dsimp only at h
                      split at h
                      · rename_i hl
                        cases h
                        exact ⟨infos, fees, st, fs, readAll_eq hr, List.all_eq_true.mp hv, rfl, hb, hc,
                          hg, hl, rfl, rfl⟩
                      · cases h
            · cases h
      · cases h

/-- Every member of the committee has proved possession of its key for its address, by the file of that
key. -/
theorem all_proved {w : World} {a : Args} {files : List (Option Info)} {alloc : List (Nat × Account)}
    {com : List (Nat × Nat × Nat × Nat)} (h : w.ceremony a files = .done alloc com)
    {k ad p q : Nat} (hm : (k, ad, p, q) ∈ com) :
    ∃ x : Info, some x ∈ files ∧ x.key = k ∧ x.addr = ad ∧ x.primary = p ∧ x.worker = q ∧
      w.pop x.proof k ad = true := by
  obtain ⟨infos, fees, st, fs, rfl, hv, _, _, _, _, _, _, rfl⟩ := done_inv h
  obtain ⟨⟨k', x⟩, hx, e⟩ := List.mem_map.mp hm
  cases e
  have := hv _ hx
  have hk := validators_mem hx
  exact ⟨x, List.mem_map_of_mem hk.1, hk.2, rfl, rfl, rfl, this⟩

/-- With distinct keys every file's validator is in the committee, with its own address and nodes, and
nobody else; the committee is in the order of the keys. -/
theorem everyone_in {w : World} {a : Args} {infos : List Info} (hn : (infos.map (·.key)).Nodup)
    {alloc : List (Nat × Account)} {com : List (Nat × Nat × Nat × Nat)}
    (h : w.ceremony a (infos.map some) = .done alloc com) :
    (∀ k ad p q, (k, ad, p, q) ∈ com ↔ ∃ x ∈ infos, x.key = k ∧ x.addr = ad ∧ x.primary = p ∧ x.worker = q) ∧
    com.length = infos.length ∧ (com.map (·.1)).Pairwise (· < ·) ∧ 2 ≤ com.length := by
  obtain ⟨infos', fees, st, fs, e, hv, _, _, _, _, hl, _, rfl⟩ := done_inv h
  have e : infos = infos' := (List.map_injective_iff.mpr (Option.some_injective _)) e
  subst e
  unfold committeeList
  refine ⟨fun k ad p q => ?_, ?_, ?_, ?_⟩
  · rw [List.mem_map]
    constructor
    · rintro ⟨⟨k', x⟩, hx, e⟩
      cases e
      have := validators_mem hx
      exact ⟨x, this.1, this.2, rfl, rfl, rfl⟩
    · rintro ⟨x, hx, rfl, rfl, rfl, rfl⟩
      exact ⟨(x.key, x), (validators_iff hn _ _).mpr ⟨hx, rfl⟩, rfl⟩
  · rw [List.length_map, validators_length hn]
  · rw [List.map_map]
    exact validators_sorted infos
  · rw [List.length_map]; exact hl

/-- The registry in the genesis block was constructed with the committee of the committee file: the same
members with the same addresses in the same order; it holds their stakes. -/
theorem registry_agrees {w : World} {a : Args} {files : List (Option Info)} {alloc : List (Nat × Account)}
    {com : List (Nat × Nat × Nat × Nat)} (h : w.ceremony a files = .done alloc com)
    (h4 : [w.blsAddr, w.registryAddr, w.issuanceAddr, w.feesAddr].Nodup)
    (hp : w.registryAddr ∉ w.precompiles.map (·.1)) (hd : a.dev ≠ some w.registryAddr)
    (ha : w.registryAddr ∉ a.accounts.map (·.1)) :
    ∃ vs st, w.registryCtor vs a.stake a.owner = some st ∧
      vs.map (fun v => (v.2.1, v.1)) = com.map (fun m => (m.1, m.2.1)) ∧
      SMap.get? w.registryAddr alloc = some ⟨a.stake * com.length, w.registryCode, st⟩ := by
  obtain ⟨infos, fees, st, fs, rfl, hv, _, _, hc, _, _, rfl, rfl⟩ := done_inv h
  refine ⟨_, st, hc, ?_, ?_⟩
  · unfold registryList committeeList
    rw [List.map_map, List.map_map]
    refine List.map_congr_left ?_
    rintro ⟨k, x⟩ hx
    have := (validators_mem hx).2
    show (x.key, x.addr) = (k, x.addr)
    rw [this]
  · have := accounts_in w a (b := a.stake * (validators infos).length) (s := st) (f := fs) h4
      (k := w.registryAddr) (x := ⟨a.stake * (validators infos).length, w.registryCode, st⟩)
      (by unfold World.four; exact List.mem_cons_of_mem _ List.mem_cons_self) hp hd ha
    rw [this]
    unfold committeeList
    rw [List.length_map]

/-- The fee contract was constructed with the fees given, by worker. -/
theorem fees_in {w : World} {a : Args} {files : List (Option Info)} {alloc : List (Nat × Account)}
    {com : List (Nat × Nat × Nat × Nat)} (h : w.ceremony a files = .done alloc com)
    (h4 : [w.blsAddr, w.registryAddr, w.issuanceAddr, w.feesAddr].Nodup)
    (hp : w.feesAddr ∉ w.precompiles.map (·.1)) (hd : a.dev ≠ some w.feesAddr)
    (ha : w.feesAddr ∉ a.accounts.map (·.1)) :
    ∃ fees st, w.feesCtor fees a.owner = some st ∧
      (∀ i s v, fees[i]? = some (s, v) ↔ some (i, s, v) ∈ a.fees) ∧
      SMap.get? w.feesAddr alloc = some ⟨0, w.feesCode, st⟩ := by
  obtain ⟨infos, fees, st, fs, rfl, hv, hf, _, _, hg, _, rfl, rfl⟩ := done_inv h
  refine ⟨fees, fs, hg, (fees_right hf).2.2.1, ?_⟩
  exact accounts_in w a h4 (by
    unfold World.four
    exact List.mem_cons_of_mem _ (List.mem_cons_of_mem _ (List.mem_cons_of_mem _ List.mem_cons_self))) hp hd ha

/-- One bad proof, unreadable file, or constructor that fails: nothing is written. -/
theorem bad_proof_fails (w : World) (a : Args) {infos : List Info} (hn : (infos.map (·.key)).Nodup)
    {x : Info} (hx : x ∈ infos) (hb : w.pop x.proof x.key x.addr = false) :
    w.ceremony a (infos.map some) = .failed := by
  unfold World.ceremony
  rw [readAll_some]
  dsimp only
  rw [if_neg]
  intro h
  have := List.all_eq_true.mp h _ ((validators_iff hn _ _).mpr ⟨hx, rfl⟩)
  have this : w.pop x.proof x.key x.addr = true := this
  rw [hb] at this
  cases this

theorem unreadable_fails (w : World) (a : Args) {files : List (Option Info)} (h : none ∈ files) :
    w.ceremony a files = .failed := by
  have : readAll files = none := by
    cases hr : readAll files with
    | none => rfl
    | some l =>
        have := readAll_eq hr
        rw [this] at h
        obtain ⟨x, _, hx⟩ := List.mem_map.mp h
        cases hx
  unfold World.ceremony
  rw [this]

/-! ## Examples, and what does not hold -/

def exWorld : World :=
  { pop := fun p k a => decide (p = 1000 * k + a), registryCtor := fun vs _ _ => some (500 + vs.length),
    feesCtor := fun fs _ => some (600 + fs.length), blsAddr := 1, registryAddr := 2, issuanceAddr := 3,
    feesAddr := 4, blsCode := 11, registryCode := 12, issuanceCode := 13, feesCode := 14, base := [],
    precompiles := [(20, ⟨0, 15, 0⟩)] }

def exArgs : Args :=
  { stake := 100, owner := 9, fees := [some (1, 1, 7), some (0, 0, 8)], dev := none, accounts := [] }

def v1 : Info := ⟨7, 70, 7070, 1, 2⟩
def v2 : Info := ⟨5, 50, 5050, 3, 4⟩

theorem example_done : exWorld.ceremony exArgs [some v1, some v2] =
    .done [(1, ⟨0, 11, 0⟩), (2, ⟨200, 12, 502⟩), (3, ⟨0, 13, 0⟩), (4, ⟨0, 14, 602⟩), (20, ⟨0, 15, 0⟩)]
      [(5, 50, 3, 4), (7, 70, 1, 2)] ∧ parseFees exArgs.fees = some [(0, 8), (1, 7)] := by
  decide

/-- Two files of one key: one of the two is dropped without a word, and which one depends on the order in
which the directory lists them. Both are properly proved. -/
theorem duplicates_depend_on_order :
    let v1' : Info := ⟨7, 71, 7071, 8, 9⟩
    exWorld.ceremony exArgs [some v1, some v2, some v1'] ≠ exWorld.ceremony exArgs [some v1', some v2, some v1] ∧
    (∃ g, exWorld.ceremony exArgs [some v1, some v2, some v1'] = .done g [(5, 50, 3, 4), (7, 71, 8, 9)]) := by
  refine ⟨by decide, _, rfl⟩

/-- The proof does not cover the network nodes: a file changed to lead elsewhere passes. -/
theorem nodes_unsigned :
    ∃ g, exWorld.ceremony exArgs [some { v1 with primary := 99, worker := 98 }, some v2] =
      .done g [(5, 50, 3, 4), (7, 70, 99, 98)] :=
  ⟨_, rfl⟩

/-- Two validators with one address are not noticed by the ceremony (the registry's constructor may). -/
theorem same_address_passes :
    ∃ g, exWorld.ceremony exArgs [some ⟨7, 50, 7050, 1, 2⟩, some v2] =
      .done g [(5, 50, 3, 4), (7, 50, 1, 2)] :=
  ⟨_, rfl⟩

/-- The operator's accounts file replaces the registry without a word. -/
theorem registry_replaced :
    ∃ c, (exWorld.ceremony { exArgs with accounts := [(2, ⟨5, 0, 0⟩)] } [some v1, some v2]) =
      .done [(1, ⟨0, 11, 0⟩), (2, ⟨5, 0, 0⟩), (3, ⟨0, 13, 0⟩), (4, ⟨0, 14, 602⟩), (20, ⟨0, 15, 0⟩)] c :=
  ⟨_, rfl⟩

/-- One validator only: the genesis file is written before the panic. -/
theorem single_torn : ∃ g, exWorld.ceremony exArgs [some v1] = .torn g := ⟨_, rfl⟩

end Verif.Gen
