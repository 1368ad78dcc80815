import Verif.Net.Map
import Mathlib.Data.List.Nodup

/-!
# Provider records

Models the provider table of `KadStore` (`crates/network-libp2p/src/kad.rs:293-375, 522-660`) and
the handling of an inbound provider record (`consensus.rs:2048-2080`).

Simplifications: as in `Verif.Kad.Store`; addresses are left out.
-/

namespace Verif.Kad.Prov

open Verif.Net (get put del keys)

/-- `KadProviderRecord` (`kad.rs:86-103`) -/
structure Rec where
  provider : Nat
  expires : Option Nat
deriving DecidableEq, Repr

/-- `is_expired` (`kad.rs:64-69`) -/
def Rec.expired (now : Nat) (r : Rec) : Bool :=
  match r.expires with
  | some t => decide (t ≤ now)
  | none => false

/-- the providers of a key; `none`: bytes that do not decode -/
abbrev Cell := Option (List Rec)

structure Cfg where
  maxPerKey : Nat
  maxKeys : Nat

/-- the table and `num_providers` -/
structure Store where
  rows : List (Nat × Cell)
  num : Nat
deriving DecidableEq, Repr

/-- is the row dropped when room is needed? (`kad.rs:304-311`) -/
def droppable (now : Nat) : Cell → Bool
  | none => true
  | some rs => !rs.isEmpty && rs.all (Rec.expired now)

/-- `evict_expired_providers` (`kad.rs:295-341`) -/
def Store.evict (now : Nat) (s : Store) : Store :=
  ⟨s.rows.filter (fun e => !droppable now e.2), s.num - s.rows.countP (fun e => droppable now e.2)⟩

/-- `scrub_corrupt_providers` (`kad.rs:350-374`) -/
def Store.scrub (s : Store) : Store :=
  ⟨s.rows.filter (fun e => e.2.isSome), s.num - s.rows.countP (fun e => e.2.isNone)⟩

/-- `merge_provider` (`kad.rs:381-402`); `none`: the key has too many providers -/
def merge (c : Cfg) (now : Nat) (existing : List Rec) (r : Rec) : Option (List Rec) :=
  if existing.any (fun x => decide (x.provider = r.provider)) then
    some (existing.map fun x => if x.provider = r.provider then r else x)
  else
    let pruned := existing.filter fun x => !x.expired now
    if pruned.length < c.maxPerKey then some (pruned ++ [r]) else none

/-- `add_provider` (`kad.rs:530-588`): the store after it and whether the record was taken -/
def Store.add (c : Cfg) (now k : Nat) (r : Rec) (s : Store) : Store × Bool :=
  match get k s.rows with
  | some (some existing) =>
    match merge c now existing r with
    | some rs => (⟨put k (some rs) s.rows, s.num⟩, true)
    | none => (s, false)
  | some none => (⟨put k (some [r]) s.rows, s.num⟩, true)
  | none =>
    let s1 := if c.maxKeys ≤ s.num then s.evict now else s
    if s1.num < c.maxKeys then (⟨put k (some [r]) s1.rows, s1.num + 1⟩, true) else (s1, false)

/-- `providers` (`kad.rs:590-607`) -/
def Store.providers (now k : Nat) (s : Store) : List Rec :=
  match get k s.rows with
  | some (some rs) => rs.filter fun r => !r.expired now
  | _ => []

/-- `provided` (`kad.rs:609-629`): `own` is the key and `me` the identity of the node -/
def Store.provided (now own me : Nat) (s : Store) : List Rec :=
  (s.providers now own).filter fun r => decide (r.provider = me)

/-- `remove_provider` (`kad.rs:631-668`) -/
def Store.removeProvider (k p : Nat) (s : Store) : Store :=
  match get k s.rows with
  | none => s
  | some cell =>
    let remaining := (cell.getD []).filter fun r => !decide (r.provider = p)
    if remaining.isEmpty then ⟨del k s.rows, s.num - 1⟩ else ⟨put k (some remaining) s.rows, s.num⟩

/-- a start: rows are counted, then the undecodable ones dropped (`kad.rs:216-243`,
`consensus.rs:478-486`) -/
def Store.restart (s : Store) : Store := Store.scrub ⟨s.rows, s.rows.length⟩

inductive Op where
  /-- an inbound record (`process_kad_add_provider`, `consensus.rs:2061-2080`) -/
  | inbound (banned : Nat → Bool) (k : Nat) (r : Rec)
  /-- `start_providing` for the node's own key -/
  | own (k : Nat) (r : Rec)
  /-- libp2p drops an expired provider -/
  | remove (k p : Nat)
  | restart

def Op.run (c : Cfg) (now : Nat) (s : Store) : Op → Store
  | .inbound banned k r => if banned r.provider then s else (s.add c now k r).1
  | .own k r => (s.add c now k r).1
  | .remove k p => s.removeProvider k p
  | .restart => s.restart

def runs (c : Cfg) : List (Nat × Op) → Store → Store
  | [], s => s
  | (t, o) :: l, s => runs c l (o.run c t s)

/-! ## Specification and proofs -/

/-- keys are different, the counter is the size of the table, no key has more providers than
allowed, none twice, and no stored list is empty -/
structure Good (c : Cfg) (s : Store) : Prop where
  nodup : (keys s.rows).Nodup
  count : s.num = s.rows.length
  rows : ∀ k rs, (k, some rs) ∈ s.rows → rs ≠ [] ∧ rs.length ≤ c.maxPerKey ∧ (rs.map Rec.provider).Nodup

theorem length_filter_not (p : Nat × Cell → Bool) (l : List (Nat × Cell)) :
    (l.filter (fun e => !p e)).length + l.countP p = l.length := by
  induction l with
  | nil => rfl
  | cons e l ih =>
    by_cases h : p e = true
    · simp [h]; omega
    · rw [Bool.not_eq_true] at h
      simp [h]; omega

theorem length_put_new {k : Nat} {x : Cell} {l : List (Nat × Cell)} (h : get k l = none) : (put k x l).length = l.length + 1 := by
  show (del k l).length + 1 = _
  rw [Verif.Net.del_eq_self h]

theorem length_del_some {k : Nat} {x : Cell} {l : List (Nat × Cell)} (hn : (keys l).Nodup) (h : get k l = some x) :
    (del k l).length + 1 = l.length := by
  have := Verif.Net.cnt_del_some (fun _ => true) hn h
  simp only [Verif.Net.cnt, List.countP_true, Verif.Net.b2n, if_true] at this
  exact this.symm

theorem put_rows {P : List Rec → Prop} {l : List (Nat × Cell)} {k : Nat} {rs : List Rec}
    (h : ∀ k rs, (k, some rs) ∈ l → P rs) (hr : P rs) : ∀ k' rs', (k', some rs') ∈ put k (some rs) l → P rs' := by
  intro k' rs' hm
  rcases List.mem_cons.mp hm with e | hm
  · cases e; exact hr
  · exact h k' rs' (List.mem_filter.mp hm).1

theorem evict_good {c : Cfg} {s : Store} (h : Good c s) (now : Nat) : Good c (s.evict now) := by
  have := length_filter_not (fun e => droppable now e.2) s.rows
  refine ⟨h.nodup.sublist (List.filter_sublist.map _), ?_, fun k rs hm => h.rows k rs (List.mem_filter.mp hm).1⟩
  show s.num - _ = _
  rw [h.count]
  unfold Store.evict
  dsimp only
  omega

theorem scrub_good {c : Cfg} {s : Store} (h : Good c s) : Good c s.scrub := by
  have := length_filter_not (fun e => e.2.isNone) s.rows
  refine ⟨h.nodup.sublist (List.filter_sublist.map _), ?_, fun k rs hm => h.rows k rs (List.mem_filter.mp hm).1⟩
  show s.num - _ = _
  rw [h.count]
  unfold Store.scrub
  dsimp only
  have e : s.rows.filter (fun e => e.2.isSome) = s.rows.filter (fun e => !e.2.isNone) := by
    apply List.filter_congr
    intro x _
    cases x.2 <;> rfl
  rw [e]
  omega

theorem replace_providers (existing : List Rec) (r : Rec) :
    (existing.map fun x => if x.provider = r.provider then r else x).map Rec.provider = existing.map Rec.provider := by
  rw [List.map_map]
  apply List.map_congr_left
  intro x _
  dsimp only [Function.comp]
  split
  · rename_i h; exact h.symm
  · rfl

theorem merge_good {c : Cfg} {now : Nat} {existing rs : List Rec} {r : Rec} (h1 : existing ≠ [])
    (h2 : existing.length ≤ c.maxPerKey) (h3 : (existing.map Rec.provider).Nodup) (hm : merge c now existing r = some rs) :
    rs ≠ [] ∧ rs.length ≤ c.maxPerKey ∧ (rs.map Rec.provider).Nodup := by
  unfold merge at hm
  split at hm
  · cases hm
    refine ⟨by simpa using h1, by simpa using h2, ?_⟩
    rw [replace_providers]
    exact h3
  · rename_i hno
    dsimp only at hm
    split at hm
    · rename_i hlt
      cases hm
      refine ⟨by simp, by simp only [List.length_append, List.length_singleton]; omega, ?_⟩
      rw [List.map_append, List.map_singleton]
      refine List.Nodup.append (h3.sublist (List.filter_sublist.map _)) (List.nodup_singleton _) ?_
      intro p hp hq
      simp only [List.mem_singleton] at hq
      subst hq
      obtain ⟨x, hx, e⟩ := List.mem_map.mp hp
      apply hno
      rw [List.any_eq_true]
      exact ⟨x, (List.mem_filter.mp hx).1, decide_eq_true e⟩
    · cases hm

theorem get_filter_none {k : Nat} {l : List (Nat × Cell)} (p : Nat × Cell → Bool) (h : get k l = none) : get k (l.filter p) = none := by
  rw [Verif.Net.get_eq_none] at h ⊢
  intro hm
  exact h ((List.filter_sublist.map _).subset hm)

theorem add_good {c : Cfg} (hc : 0 < c.maxPerKey) {s : Store} (h : Good c s) (now k : Nat) (r : Rec) : Good c (s.add c now k r).1 := by
  have single : [r] ≠ [] ∧ [r].length ≤ c.maxPerKey ∧ ([r].map Rec.provider).Nodup := ⟨by simp, hc, by simp⟩
  unfold Store.add
  split
  · rename_i existing hg
    obtain ⟨h1, h2, h3⟩ := h.rows k existing (Verif.Net.mem_of_get hg)
    split
    · rename_i rs hm
      refine ⟨Verif.Net.nodup_put _ _ h.nodup, ?_, put_rows h.rows (merge_good h1 h2 h3 hm)⟩
      have := length_del_some h.nodup hg
      show s.num = (del k s.rows).length + 1
      rw [h.count]; omega
    · exact h
  · rename_i hg
    refine ⟨Verif.Net.nodup_put _ _ h.nodup, ?_, put_rows h.rows single⟩
    have := length_del_some h.nodup hg
    show s.num = (del k s.rows).length + 1
    rw [h.count]; omega
  · rename_i hg
    have h1 : Good c (if c.maxKeys ≤ s.num then s.evict now else s) := by
      split
      · exact evict_good h now
      · exact h
    have hg1 : get k (if c.maxKeys ≤ s.num then s.evict now else s).rows = none := by
      split
      · exact get_filter_none _ hg
      · exact hg
    dsimp only
    generalize (if c.maxKeys ≤ s.num then s.evict now else s) = s1 at h1 hg1 ⊢
    split
    · refine ⟨Verif.Net.nodup_put _ _ h1.nodup, ?_, put_rows h1.rows single⟩
      show s1.num + 1 = (put k _ s1.rows).length
      rw [length_put_new hg1, h1.count]
    · exact h1

theorem remove_good {c : Cfg} {s : Store} (h : Good c s) (k p : Nat) : Good c (s.removeProvider k p) := by
  unfold Store.removeProvider
  split
  · exact h
  · rename_i cell hg
    have hl := length_del_some h.nodup hg
    dsimp only
    split
    · refine ⟨Verif.Net.nodup_del k h.nodup, ?_, fun k' rs hm => h.rows k' rs (List.mem_filter.mp hm).1⟩
      show s.num - 1 = (del k s.rows).length
      rw [h.count]; omega
    · rename_i hne
      refine ⟨Verif.Net.nodup_put _ _ h.nodup, ?_, put_rows h.rows ?_⟩
      · show s.num = (del k s.rows).length + 1
        rw [h.count]; omega
      · cases cell with
        | none => simp at hne
        | some rs =>
          obtain ⟨-, h2, h3⟩ := h.rows k rs (Verif.Net.mem_of_get hg)
          refine ⟨by simpa using hne, Nat.le_trans (List.length_filter_le _ _) h2, h3.sublist (List.filter_sublist.map _)⟩

theorem run_good {c : Cfg} (hc : 0 < c.maxPerKey) {s : Store} (h : Good c s) (now : Nat) (o : Op) : Good c (o.run c now s) := by
  cases o with
  | inbound banned k r =>
    simp only [Op.run]
    split
    · exact h
    · exact add_good hc h now k r
  | own k r => exact add_good hc h now k r
  | remove k p => exact remove_good h k p
  | restart => exact scrub_good (s := ⟨s.rows, s.rows.length⟩) ⟨h.nodup, rfl, h.rows⟩

/-- **The provider table is exact.**  Through every history of records, removals and restarts,
from any table with undecodable rows in it, the counter is the number of keys, no key has more
providers than allowed or one provider twice, and no key is held without a provider. -/
theorem providers_good {c : Cfg} (hc : 0 < c.maxPerKey) (l : List (Nat × Op)) : ∀ {s : Store}, Good c s → Good c (runs c l s) := by
  induction l with
  | nil => intro s h; exact h
  | cons e l ih => intro s h; exact ih (run_good hc h e.1 e.2)

theorem evict_len (s : Store) (now : Nat) : (s.evict now).rows.length ≤ s.rows.length := List.length_filter_le _ _

theorem run_bounded {c : Cfg} {s : Store} (h : Good c s) (hb : s.rows.length ≤ c.maxKeys) (now : Nat) (o : Op) :
    (o.run c now s).rows.length ≤ c.maxKeys := by
  have add : ∀ k r, (s.add c now k r).1.rows.length ≤ c.maxKeys := by
    intro k r
    unfold Store.add
    split
    · rename_i hg
      split
      · have := length_del_some h.nodup hg
        show (del k s.rows).length + 1 ≤ _
        omega
      · exact hb
    · rename_i hg
      have := length_del_some h.nodup hg
      show (del k s.rows).length + 1 ≤ _
      omega
    · rename_i hg
      have h1 : Good c (if c.maxKeys ≤ s.num then s.evict now else s) := by
        split
        · exact evict_good h now
        · exact h
      have hg1 : get k (if c.maxKeys ≤ s.num then s.evict now else s).rows = none := by
        split
        · exact get_filter_none _ hg
        · exact hg
      have hb1 : (if c.maxKeys ≤ s.num then s.evict now else s).rows.length ≤ c.maxKeys := by
        split
        · exact Nat.le_trans (evict_len s now) hb
        · exact hb
      dsimp only
      generalize (if c.maxKeys ≤ s.num then s.evict now else s) = s1 at h1 hg1 hb1 ⊢
      split
      · rename_i hlt
        rw [h1.count] at hlt
        show (put k _ s1.rows).length ≤ _
        rw [length_put_new hg1]
        exact hlt
      · exact hb1
  cases o with
  | inbound banned k r =>
    simp only [Op.run]
    split
    · exact hb
    · exact add k r
  | own k r => exact add k r
  | remove k p =>
    simp only [Op.run, Store.removeProvider]
    split
    · exact hb
    · rename_i cell hg
      have := length_del_some h.nodup hg
      split
      · show (del k s.rows).length ≤ _; omega
      · show (del k s.rows).length + 1 ≤ _; omega
  | restart => exact Nat.le_trans (List.length_filter_le _ _) hb

/-- **Bounded.**  Whatever peers send, the table holds at most the allowed number of keys. -/
theorem providers_bounded {c : Cfg} (hc : 0 < c.maxPerKey) (l : List (Nat × Op)) : ∀ {s : Store}, Good c s →
    s.rows.length ≤ c.maxKeys → (runs c l s).rows.length ≤ c.maxKeys := by
  induction l with
  | nil => intro s _ h; exact h
  | cons e l ih => intro s h hb; exact ih (run_good hc h e.1 e.2) (run_bounded h hb e.1 e.2)

/-! ## The node's own announcement -/

/-- the node's announcement is in the table: under its key, by itself, without expiry -/
def Announced (own me : Nat) (s : Store) : Prop := ∃ rs, get own s.rows = some (some rs) ∧ (⟨me, none⟩ : Rec) ∈ rs

theorem get_filter {k : Nat} {x : Cell} {l : List (Nat × Cell)} (hn : (keys l).Nodup) (p : Nat × Cell → Bool)
    (h : get k l = some x) (hp : p (k, x) = true) : get k (l.filter p) = some x :=
  Verif.Net.get_of_mem (hn.sublist (List.filter_sublist.map _)) (List.mem_filter.mpr ⟨Verif.Net.mem_of_get h, hp⟩)

theorem merge_keeps {c : Cfg} {now me : Nat} {existing rs : List Rec} {r : Rec} (hm : merge c now existing r = some rs)
    (h : (⟨me, none⟩ : Rec) ∈ existing) (hr : r.provider = me → r.expires = none) : (⟨me, none⟩ : Rec) ∈ rs := by
  unfold merge at hm
  split at hm
  · cases hm
    refine List.mem_map.mpr ⟨_, h, ?_⟩
    dsimp only
    split
    · rename_i e
      obtain ⟨p, x⟩ := r
      have e : me = p := e
      subst e
      have := hr rfl
      dsimp only at this
      rw [this]
    · rfl
  · dsimp only at hm
    split at hm
    · cases hm
      exact List.mem_append_left _ (List.mem_filter.mpr ⟨h, by simp [Rec.expired]⟩)
    · cases hm

theorem add_keeps {c : Cfg} {s : Store} (h : Good c s) {own me now k : Nat} {r : Rec} (ha : Announced own me s)
    (hr : r.provider = me → r.expires = none) : Announced own me (s.add c now k r).1 := by
  obtain ⟨rs, hg, hmem⟩ := ha
  have here : ∀ l : List (Nat × Cell), get own l = some (some rs) → ∀ x, get k s.rows = none → get own (put k x l) = some (some rs) := by
    intro l hl x hk
    rw [Verif.Net.get_put_ne, hl]
    rintro rfl
    rw [hg] at hk; cases hk
  unfold Store.add
  split
  · rename_i existing hk
    split
    · rename_i rs' hm
      by_cases e : own = k
      · subst e
        rw [hg] at hk
        cases hk
        exact ⟨rs', Verif.Net.get_put_self _ _ _, merge_keeps hm hmem hr⟩
      · exact ⟨rs, by rw [Verif.Net.get_put_ne e]; exact hg, hmem⟩
    · exact ⟨rs, hg, hmem⟩
  · rename_i hk
    have e : own ≠ k := by rintro rfl; rw [hg] at hk; cases hk
    exact ⟨rs, by rw [Verif.Net.get_put_ne e]; exact hg, hmem⟩
  · rename_i hk
    have h1 : get own (if c.maxKeys ≤ s.num then s.evict now else s).rows = some (some rs) := by
      split
      · refine get_filter h.nodup _ hg ?_
        have : rs.all (Rec.expired now) = false := by
          rw [List.all_eq_false]
          exact ⟨_, hmem, by simp [Rec.expired]⟩
        simp [droppable, this]
      · exact hg
    dsimp only
    generalize (if c.maxKeys ≤ s.num then s.evict now else s) = s1 at h1 ⊢
    split
    · exact ⟨rs, here _ h1 _ hk, hmem⟩
    · exact ⟨rs, h1, hmem⟩

/-- records a peer can send: libp2p lets a peer announce only itself, so never this node -/
def Op.Fair (own me : Nat) : Op → Prop
  | .inbound _ _ r => r.provider ≠ me
  | .own k r => k = own ∧ r = ⟨me, none⟩
  | .remove k p => k = own → p ≠ me
  | .restart => True

/-- **The node's announcement cannot be displaced**: not by providers that fill its key, not by a
full table, not by expiry of others, not by a restart. -/
theorem own_announcement_kept {c : Cfg} (hc : 0 < c.maxPerKey) {own me : Nat} (l : List (Nat × Op)) (hl : ∀ e ∈ l, e.2.Fair own me) :
    ∀ {s : Store}, Good c s → Announced own me s → Announced own me (runs c l s) := by
  induction l with
  | nil => intro s _ h; exact h
  | cons e l ih =>
    intro s h ha
    obtain ⟨t, o⟩ := e
    have ho := hl (t, o) (by simp)
    refine ih (fun e he => hl e (by simp [he])) (run_good hc h t o) ?_
    cases o with
    | inbound banned k r =>
      simp only [Op.run]
      split
      · exact ha
      · exact add_keeps h ha (fun e => absurd e ho)
    | own k r =>
      obtain ⟨rfl, rfl⟩ := ho
      exact add_keeps h ha (fun _ => rfl)
    | remove k p =>
      simp only [Op.run, Store.removeProvider]
      obtain ⟨rs, hg, hmem⟩ := ha
      split
      · exact ⟨rs, hg, hmem⟩
      · rename_i cell hk
        by_cases e : own = k
        · subst e
          rw [hg] at hk
          cases hk
          have hin : (⟨me, none⟩ : Rec) ∈ (Option.getD (some rs) []).filter (fun r => !decide (r.provider = p)) := by
            refine List.mem_filter.mpr ⟨hmem, ?_⟩
            have : me ≠ p := fun e => ho rfl e.symm
            simp [this]
          split
          · rename_i hemp
            rw [List.isEmpty_iff] at hemp
            rw [hemp] at hin; cases hin
          · exact ⟨_, Verif.Net.get_put_self _ _ _, hin⟩
        · split
          · exact ⟨rs, by rw [Verif.Net.get_del_ne e]; exact hg, hmem⟩
          · exact ⟨rs, by rw [Verif.Net.get_put_ne e]; exact hg, hmem⟩
    | restart =>
      obtain ⟨rs, hg, hmem⟩ := ha
      exact ⟨rs, get_filter (l := s.rows) h.nodup _ hg rfl, hmem⟩

/-- **Announcing on an empty key works unless the table is full**; announcing again always works. -/
theorem announce {c : Cfg} {s : Store} (h : Good c s) {own me now : Nat} :
    (Announced own me s → (s.add c now own ⟨me, none⟩).2 = true) ∧
    (get own s.rows = none → s.rows.length < c.maxKeys → (s.add c now own ⟨me, none⟩).2 = true ∧
      Announced own me (s.add c now own ⟨me, none⟩).1) := by
  constructor
  · rintro ⟨rs, hg, hmem⟩
    unfold Store.add
    rw [hg]
    have : rs.any (fun x => decide (x.provider = me)) = true := List.any_eq_true.mpr ⟨_, hmem, by simp⟩
    simp only [merge]
    rw [if_pos this]
  · intro hg hlt
    unfold Store.add
    rw [hg]
    dsimp only
    have hn : ¬ c.maxKeys ≤ s.num := by rw [h.count]; omega
    rw [if_neg hn, if_pos (show s.num < c.maxKeys by omega)]
    exact ⟨rfl, [⟨me, none⟩], Verif.Net.get_put_self _ _ _, by simp⟩

/-- **What is taken is there**, a renewal with its new expiry. -/
theorem taken {c : Cfg} {s : Store} {now k : Nat} {r : Rec} (h : (s.add c now k r).2 = true) :
    ∃ rs, get k (s.add c now k r).1.rows = some (some rs) ∧ r ∈ rs := by
  unfold Store.add at h ⊢
  split
  · rename_i existing hg
    rw [hg] at h
    dsimp only at h ⊢
    split
    · rename_i rs hm
      refine ⟨rs, Verif.Net.get_put_self _ _ _, ?_⟩
      unfold merge at hm
      split at hm
      · rename_i hany
        cases hm
        obtain ⟨x, hx, hp⟩ := List.any_eq_true.mp hany
        exact List.mem_map.mpr ⟨x, hx, by rw [if_pos (of_decide_eq_true hp)]⟩
      · dsimp only at hm
        split at hm
        · cases hm; simp
        · cases hm
    · rename_i hm
      rw [hm] at h
      cases h
  · exact ⟨[r], Verif.Net.get_put_self _ _ _, by simp⟩
  · rename_i hg
    rw [hg] at h
    generalize (if c.maxKeys ≤ s.num then s.evict now else s) = s1 at h ⊢
    dsimp only at h ⊢
    by_cases hn : s1.num < c.maxKeys
    · rw [if_pos hn]
      exact ⟨[r], Verif.Net.get_put_self _ _ _, by simp⟩
    · rw [if_neg hn] at h
      cases h

/-- **A key can be taken** (finding).  Anybody may provide any key.  While the node's announcement
is not in the table, as many other identities as a key allows can take its key; the node's own
announcement is then refused. -/
theorem key_taken {c : Cfg} {s : Store} {own me now : Nat} {rs : List Rec} (hg : get own s.rows = some (some rs))
    (hno : ∀ r ∈ rs, r.provider ≠ me) (hlive : ∀ r ∈ rs, r.expired now = false) (hfull : c.maxPerKey ≤ rs.length) :
    s.add c now own ⟨me, none⟩ = (s, false) := by
  unfold Store.add
  rw [hg]
  have h1 : ¬ rs.any (fun x => decide (x.provider = me)) = true := by
    rw [List.any_eq_true]
    rintro ⟨r, hr, h⟩
    exact hno r hr (of_decide_eq_true h)
  have h2 : rs.filter (fun x => !x.expired now) = rs := by
    rw [List.filter_eq_self]
    intro r hr
    simp [hlive r hr]
  simp only [merge]
  rw [if_neg h1, h2, if_neg (Nat.not_lt.mpr hfull)]

/-- **Only own records are announced again**, and only unexpired ones are shown. -/
theorem provided_own (s : Store) (now own me : Nat) :
    (∀ r ∈ s.provided now own me, r.provider = me ∧ r.expired now = false) ∧
    (Announced own me s → (⟨me, none⟩ : Rec) ∈ s.provided now own me) ∧
    ∀ k, ∀ r ∈ s.providers now k, r.expired now = false := by
  have live : ∀ k, ∀ r ∈ s.providers now k, r.expired now = false := by
    intro k r hr
    unfold Store.providers at hr
    split at hr
    · simpa using (List.mem_filter.mp hr).2
    · cases hr
  refine ⟨?_, ?_, live⟩
  · intro r hr
    obtain ⟨h1, h2⟩ := List.mem_filter.mp hr
    exact ⟨of_decide_eq_true h2, live own r h1⟩
  · rintro ⟨rs, hg, hmem⟩
    refine List.mem_filter.mpr ⟨?_, by simp⟩
    unfold Store.providers
    rw [hg]
    exact List.mem_filter.mpr ⟨hmem, by simp [Rec.expired]⟩

/-- Banned identities are not recorded as providers. -/
theorem banned_not_provider (c : Cfg) (now : Nat) (s : Store) {banned : Nat → Bool} (k : Nat) {r : Rec} (h : banned r.provider = true) :
    (Op.inbound banned k r).run c now s = s := by
  simp only [Op.run]
  rw [if_pos h]

/-- An undecodable row is gone after a start. -/
theorem restart_clean (s : Store) (k : Nat) : (k, none) ∉ s.restart.rows := by
  intro h
  have := (List.mem_filter.mp h).2
  simp at this

/-! ## Example: a limit of two providers per key and two keys -/

namespace Ex

def cfg : Cfg := ⟨2, 2⟩

def story : List (Nat × Op) :=
  [(0, .own 1 ⟨10, none⟩), (1, .inbound (fun _ => false) 1 ⟨11, some 30⟩), (2, .inbound (fun _ => false) 1 ⟨12, some 90⟩),
   (3, .inbound (fun p => p = 13) 2 ⟨13, some 90⟩), (4, .inbound (fun _ => false) 2 ⟨12, some 20⟩),
   (5, .inbound (fun _ => false) 3 ⟨12, some 90⟩), (6, .restart), (30, .inbound (fun _ => false) 3 ⟨12, some 90⟩),
   (31, .inbound (fun _ => false) 1 ⟨14, some 90⟩), (32, .remove 3 12)]

example : runs cfg story ⟨[(7, none)], 1⟩ =
    ⟨[(1, some [⟨10, none⟩, ⟨14, some 90⟩])], 1⟩ := by decide

example : Good cfg ⟨[(7, none)], 1⟩ :=
  ⟨by simp [keys], rfl, fun k rs h => by simp at h⟩

example : ∀ e ∈ story, e.2.Fair 1 10 := by
  intro e he
  simp only [story, List.mem_cons, List.not_mem_nil, or_false] at he
  rcases he with rfl | rfl | rfl | rfl | rfl | rfl | rfl | rfl | rfl | rfl <;> simp [Op.Fair]

end Ex

end Verif.Kad.Prov
