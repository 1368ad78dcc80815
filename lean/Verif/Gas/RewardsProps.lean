import Verif.Gas.RewardsModel
import Mathlib.Data.List.Perm.Basic
import Mathlib.Algebra.BigOperators.Group.List.Basic
import Verif.Committee.Props
/-
C25 (leader rewards) and C30 (a restart rebuilds the same accounting).
-/
namespace Verif.Gas

open SMap

/-! ## Leader counts -/

theorem sorted_incLeader {m : LeaderCounts} (h : Sorted m) (l : Nat) : Sorted (incLeader m l) := by
  unfold incLeader; split <;> exact sorted_insert h

theorem sorted_foldl_inc {m : LeaderCounts} (h : Sorted m) (hist : List Nat) :
    Sorted (hist.foldl incLeader m) := by
  induction hist generalizing m with
  | nil => exact h
  | cons x xs ih => exact ih (sorted_incLeader h x)

theorem get?_incLeader (m : LeaderCounts) (l x : Nat) (hlt : (get? l m).getD 0 + 1 < u32) :
    get? x (incLeader m l) = if x = l then some ((get? l m).getD 0 + 1) else get? x m := by
  unfold incLeader
  split
  · rename_i v hv
    rw [get?_insert, hv]
    rw [hv] at hlt
    simp only [Option.getD_some] at hlt ⊢
    rw [Nat.mod_eq_of_lt hlt]
  · rename_i hv
    rw [get?_insert, hv]; simp

/-- The counts after a history are the numbers of occurrences. -/
theorem counts_spec_aux (hist : List Nat) (m : LeaderCounts) (n : Nat)
    (hm : ∀ x, (get? x m).getD 0 ≤ n) (hlen : n + hist.length < u32) (x : Nat) :
    get? x (hist.foldl incLeader m) =
      if hist.count x = 0 then get? x m else some ((get? x m).getD 0 + hist.count x) := by
  induction hist generalizing m n with
  | nil => simp
  | cons y ys ih =>
    simp only [List.length_cons] at hlen
    have h1 := hm y
    have hg : ∀ z, get? z (incLeader m y) =
        if z = y then some ((get? y m).getD 0 + 1) else get? z m := fun z =>
      get?_incLeader m y z (by omega)
    rw [List.foldl_cons, ih (incLeader m y) (n + 1) _ (by omega)]
    · rw [hg, List.count_cons]
      by_cases hxy : x = y
      · subst hxy
        simp only [if_true, beq_self_eq_true, Option.getD_some]
        by_cases h0 : ys.count x = 0
        · simp [h0]
        · rw [if_neg h0, if_neg (by omega)]
          congr 1; omega
      · have : ¬ y = x := fun h => hxy h.symm
        simp [hxy, this]
    · intro z; rw [hg]; split
      · simp; omega
      · have := hm z; omega

/-- After any history the stored count of every authority is its number of led outputs. -/
theorem counts_spec (hist : List Nat) (hlen : hist.length < u32) (x : Nat) :
    get? x (hist.foldl incLeader []) = if hist.count x = 0 then none else some (hist.count x) := by
  rw [counts_spec_aux hist [] 0 (by simp [get?]) (by omega)]; simp [get?]

/-- The counts depend only on how often each leader occurs, not on the order. -/
theorem counts_perm {h1 h2 : List Nat} (hp : h1.Perm h2) (hlen : h1.length < u32) :
    h1.foldl incLeader [] = h2.foldl incLeader [] := by
  apply sorted_ext (sorted_foldl_inc sorted_nil _) (sorted_foldl_inc sorted_nil _)
  intro x
  rw [counts_spec _ hlen, counts_spec _ (by rw [← hp.length_eq]; exact hlen), hp.count_eq]

/-! ## Address counts (C25) -/

/-- Specification: how many of the history's leaders are committee members paid at `addr`. -/
def paidAt (c : Committee) (hist : List Nat) (addr : Nat) : Nat :=
  hist.countP (fun l => (c.authority l).any (fun a => a.addr == addr))

/-- Sum of the entries of an iteration paid at `addr`. -/
def entriesAt (c : Committee) (iter : LeaderCounts) (addr : Nat) : Nat :=
  (iter.map (fun kv => if (c.authority kv.1).any (fun a => a.addr == addr) then kv.2 else 0)).sum

theorem sorted_addAddress {c : Committee} {r : List (Nat × Nat)} (h : Sorted r) (kv : Nat × Nat) :
    Sorted (addAddress c r kv) := by
  unfold addAddress; split
  · exact h
  · split <;> exact sorted_insert h

theorem foldl_address (c : Committee) (iter : LeaderCounts) (r : List (Nat × Nat))
    (hlen : ∀ a, (get? a r).getD 0 + entriesAt c iter a < u32) (a : Nat) :
    (get? a (iter.foldl (addAddress c) r)).getD 0 = (get? a r).getD 0 + entriesAt c iter a := by
  induction iter generalizing r with
  | nil => simp [entriesAt]
  | cons kv xs ih =>
    have hstep : ∀ b, (get? b (addAddress c r kv)).getD 0 = (get? b r).getD 0 +
        if (c.authority kv.1).any (fun a => a.addr == b) then kv.2 else 0 := by
      intro b
      unfold addAddress
      cases hau : c.authority kv.1 with
      | none => simp
      | some au =>
        have hb := hlen au.addr
        simp only [entriesAt, List.map_cons, List.sum_cons, hau, Option.any_some,
          beq_self_eq_true, if_true] at hb
        simp only [Option.any_some, beq_iff_eq]
        cases hg : get? au.addr r with
        | none =>
          simp only [get?_insert]
          by_cases hba : b = au.addr
          · subst hba; simp [hg]
          · have : ¬ au.addr = b := fun h => hba h.symm
            simp [hba, this]
        | some v =>
          rw [hg] at hb
          simp only [Option.getD_some] at hb
          simp only [get?_insert]
          by_cases hba : b = au.addr
          · subst hba
            simp only [if_true, Option.getD_some, hg]
            rw [Nat.mod_eq_of_lt (by omega)]
          · have : ¬ au.addr = b := fun h => hba h.symm
            simp [hba, this]
    rw [List.foldl_cons, ih]
    · rw [hstep]
      simp only [entriesAt, List.map_cons, List.sum_cons]; omega
    · intro b
      have := hlen b
      rw [hstep]
      simp only [entriesAt, List.map_cons, List.sum_cons] at this ⊢
      omega

theorem entriesAt_perm {c : Committee} {i1 i2 : LeaderCounts} (h : i1.Perm i2) (a : Nat) :
    entriesAt c i1 a = entriesAt c i2 a := (h.map _).sum_eq

theorem sum_bump (f : Nat → Bool) (ys ks : List Nat) (y : Nat) (hnd : ks.Nodup) (hy : y ∈ ks) :
    (ks.map (fun k => if f k then (y :: ys).count k else 0)).sum =
      (ks.map (fun k => if f k then ys.count k else 0)).sum + if f y then 1 else 0 := by
  induction ks with
  | nil => simp at hy
  | cons k ks ihk =>
    simp only [List.nodup_cons] at hnd
    simp only [List.map_cons, List.sum_cons, List.count_cons]
    by_cases hky : k = y
    · subst hky
      have hno : ks.map (fun k' => if f k' then ys.count k' + (if k == k' then 1 else 0) else 0)
          = ks.map (fun k' => if f k' then ys.count k' else 0) := by
        apply List.map_congr_left
        intro k' hk'
        have : ¬ k = k' := fun h => hnd.1 (h ▸ hk')
        simp [this]
      rw [hno]
      simp only [beq_self_eq_true, if_true]
      split <;> omega
    · have hyk : ¬ y = k := fun h => hky h.symm
      have hin : y ∈ ks := by simpa [hyk] using hy
      have := ihk hnd.2 hin
      simp only [List.count_cons] at this
      rw [this]
      have hb : (y == k) = false := by simp [hyk]
      simp only [hb]; simp; omega

/-- Counting through the sorted counts map is counting the history. -/
theorem sum_counts (hist : List Nat) (hlen : hist.length < u32) (f : Nat → Bool) :
    ((hist.foldl incLeader []).map (fun kv => if f kv.1 then kv.2 else 0)).sum = hist.countP f := by
  have hs : Sorted (hist.foldl incLeader []) := sorted_foldl_inc sorted_nil hist
  have hspec : ∀ kv ∈ hist.foldl incLeader [], kv.2 = hist.count kv.1 := by
    intro kv hkv
    have := get?_of_mem hs (x := kv.1) (v := kv.2) hkv
    rw [counts_spec hist hlen] at this
    split at this
    · cases this
    · simpa using this.symm
  have hkeys : ∀ x ∈ hist, x ∈ (hist.foldl incLeader []).map (·.1) := by
    intro x hx
    rw [← get?_isSome, counts_spec hist hlen]
    have : hist.count x ≠ 0 := by
      have := List.count_pos_iff.mpr hx; omega
    simp [this]
  have hnd : ((hist.foldl incLeader []).map (·.1)).Nodup :=
    List.Pairwise.imp (fun h => Nat.ne_of_lt h) hs
  have e1 : ((hist.foldl incLeader []).map (fun kv => if f kv.1 then kv.2 else 0)) =
      ((hist.foldl incLeader []).map (·.1)).map (fun k => if f k then hist.count k else 0) := by
    rw [List.map_map]; apply List.map_congr_left
    intro kv hkv; simp [hspec kv hkv]
  rw [e1]
  generalize (hist.foldl incLeader []).map (·.1) = ks at hkeys hnd ⊢
  clear e1 hspec hs hlen
  induction hist with
  | nil => simp
  | cons y ys ih =>
    rw [sum_bump f ys ks y hnd (hkeys y (by simp)), List.countP_cons,
      ih (fun x hx => hkeys x (List.mem_cons_of_mem _ hx))]

/-- C25 (a): after any history of leaders, for every iteration order of the hash map, each address is
credited exactly the number of outputs led by committee members paid at that address (so shared
addresses accumulate and non-members earn nothing). -/
theorem address_counts_spec (c : Committee) (hist : List Nat) (hlen : hist.length < u32)
    (iter : LeaderCounts) (hiter : iter.Perm (hist.foldl incLeader [])) (addr : Nat) :
    (get? addr (addressCounts (some c) iter)).getD 0 = paidAt c hist addr := by
  have he : ∀ a, entriesAt c iter a = paidAt c hist a := by
    intro a; rw [entriesAt_perm hiter]; exact sum_counts hist hlen (fun l => (c.authority l).any (fun x => x.addr == a))
  unfold addressCounts
  simp only
  rw [foldl_address]
  · rw [he]; simp [get?]
  · intro a
    rw [he]
    have : paidAt c hist a ≤ hist.length := List.countP_le_length
    simp [get?]; omega

theorem sorted_foldl_address (c : Committee) (iter : LeaderCounts) (r : List (Nat × Nat))
    (h : Sorted r) : Sorted (iter.foldl (addAddress c) r) := by
  induction iter generalizing r with
  | nil => exact h
  | cons x xs ih => exact ih _ (sorted_addAddress h x)

/-- No entry is ever zero. -/
theorem foldl_address_pos (c : Committee) (iter : LeaderCounts) (r : List (Nat × Nat))
    (hit : ∀ kv ∈ iter, 0 < kv.2) (hr : ∀ a v, get? a r = some v → 0 < v)
    (hlen : ∀ a, (get? a r).getD 0 + entriesAt c iter a < u32) :
    ∀ a v, get? a (iter.foldl (addAddress c) r) = some v → 0 < v := by
  induction iter generalizing r with
  | nil => exact hr
  | cons kv xs ih =>
    have hlen' : ∀ b, (get? b (addAddress c r kv)).getD 0 + entriesAt c xs b < u32 := by
      intro b
      have h1 := hlen b
      have h2 := foldl_address c [kv] r (fun a => by
        have := hlen a; simp only [entriesAt, List.map_cons, List.sum_cons] at this ⊢; simp; omega) b
      simp only [List.foldl_cons, List.foldl_nil] at h2
      rw [h2]
      simp only [entriesAt, List.map_cons, List.sum_cons] at h1 ⊢
      simp; omega
    rw [List.foldl_cons]
    apply ih _ (fun k hk => hit k (List.mem_cons_of_mem _ hk)) _ hlen'
    intro a v hv
    have hkv := hit kv (by simp)
    unfold addAddress at hv
    split at hv
    · exact hr a v hv
    · rename_i au hau
      have hb := hlen au.addr
      simp only [entriesAt, List.map_cons, List.sum_cons, hau, Option.any_some,
          beq_self_eq_true, if_true] at hb
      split at hv
      · rename_i w hw
        rw [get?_insert] at hv
        split at hv
        · rw [hw] at hb; simp only [Option.getD_some] at hb
          rw [Nat.mod_eq_of_lt (by omega)] at hv
          simp at hv; omega
        · exact hr a v hv
      · rw [get?_insert] at hv
        split at hv
        · simp at hv; omega
        · exact hr a v hv

/-- C25 (b): an address appears in the reward list exactly if it earned something. -/
theorem address_counts_keys (c : Committee) (hist : List Nat) (hlen : hist.length < u32)
    (iter : LeaderCounts) (hiter : iter.Perm (hist.foldl incLeader [])) (addr : Nat) :
    addr ∈ (addressCounts (some c) iter).map (·.1) ↔ 0 < paidAt c hist addr := by
  rw [← get?_isSome, ← address_counts_spec c hist hlen iter hiter]
  have he : ∀ a, entriesAt c iter a = paidAt c hist a := by
    intro a; rw [entriesAt_perm hiter]; exact sum_counts hist hlen (fun l => (c.authority l).any (fun x => x.addr == a))
  have hpos := foldl_address_pos c iter [] (by
    intro kv hkv
    have hkv' := hiter.mem_iff.mp hkv
    have := get?_of_mem (sorted_foldl_inc sorted_nil hist) (x := kv.1) (v := kv.2) hkv'
    rw [counts_spec hist hlen] at this
    split at this
    · cases this
    · simp at this; omega) (by simp [get?]) (by
      intro a; rw [he]
      have : paidAt c hist a ≤ hist.length := List.countP_le_length
      simp [get?]; omega) addr
  cases hg : get? addr (addressCounts (some c) iter) with
  | none => simp
  | some v => have := hpos v hg; simp [this]

theorem sum_insert_get (m : List (Nat × Nat)) (hs : Sorted m) (k v : Nat) :
    ((SMap.insert k v m).map (·.2)).sum + (get? k m).getD 0 = (m.map (·.2)).sum + v := by
  induction m with
  | nil => simp [SMap.insert, get?]
  | cons kv m ih =>
    obtain ⟨k', v'⟩ := kv
    simp only [Sorted, List.map_cons, List.pairwise_cons] at hs
    simp only [SMap.insert, get?]
    by_cases h1 : k < k'
    · rw [if_pos h1, if_neg (by omega)]
      have : get? k m = none := get?_eq_none.mpr (fun h => by have := hs.1 k h; omega)
      simp [this]; omega
    · rw [if_neg h1]
      by_cases h2 : k = k'
      · subst h2; simp; omega
      · rw [if_neg h2, if_neg h2]
        have := ih hs.2
        simp only [List.map_cons, List.sum_cons]; omega

theorem sum_foldl_address (c : Committee) (iter : LeaderCounts) (r : List (Nat × Nat))
    (hs : Sorted r) (hlen : ∀ a, (get? a r).getD 0 + entriesAt c iter a < u32) :
    ((iter.foldl (addAddress c) r).map (·.2)).sum =
      (r.map (·.2)).sum + (iter.map (fun kv => if (c.authority kv.1).isSome then kv.2 else 0)).sum := by
  induction iter generalizing r with
  | nil => simp
  | cons kv xs ih =>
    have hlen' : ∀ b, (get? b (addAddress c r kv)).getD 0 + entriesAt c xs b < u32 := by
      intro b
      have h1 := hlen b
      have h2 := foldl_address c [kv] r (fun a => by
        have := hlen a; simp only [entriesAt, List.map_cons, List.sum_cons] at this ⊢; simp; omega) b
      simp only [List.foldl_cons, List.foldl_nil] at h2
      rw [h2]
      simp only [entriesAt, List.map_cons, List.sum_cons] at h1 ⊢
      simp; omega
    rw [List.foldl_cons, ih _ (sorted_addAddress hs kv) hlen', List.map_cons, List.sum_cons]
    have hstep : ((addAddress c r kv).map (·.2)).sum = (r.map (·.2)).sum +
        if (c.authority kv.1).isSome then kv.2 else 0 := by
      unfold addAddress
      cases hau : c.authority kv.1 with
      | none => simp
      | some au =>
        have hb := hlen au.addr
        simp only [entriesAt, List.map_cons, List.sum_cons, hau, Option.any_some,
          beq_self_eq_true, if_true] at hb
        simp only [Option.isSome_some, if_true]
        cases hg : get? au.addr r with
        | none =>
          have := sum_insert_get r hs au.addr kv.2
          rw [hg] at this; simpa using this
        | some v =>
          rw [hg] at hb; simp only [Option.getD_some] at hb
          have := sum_insert_get r hs au.addr ((v + kv.2) % u32)
          rw [hg, Nat.mod_eq_of_lt (by omega)] at this
          simp only [Option.getD_some] at this
          simp only
          rw [Nat.mod_eq_of_lt (by omega)]
          omega
    rw [hstep]; omega

/-- C25 (c): the rewards handed out sum to the number of outputs whose leader is a member of the
current committee: every committed leader counts exactly once. -/
theorem address_counts_sum (c : Committee) (hist : List Nat) (hlen : hist.length < u32)
    (iter : LeaderCounts) (hiter : iter.Perm (hist.foldl incLeader [])) :
    ((addressCounts (some c) iter).map (·.2)).sum = hist.countP (fun l => c.isAuthority l) := by
  have he : ∀ a, entriesAt c iter a = paidAt c hist a := by
    intro a; rw [entriesAt_perm hiter]; exact sum_counts hist hlen (fun l => (c.authority l).any (fun x => x.addr == a))
  unfold addressCounts
  simp only
  rw [sum_foldl_address c iter [] sorted_nil]
  · rw [(hiter.map _).sum_eq]
    simp only [List.map_nil, List.sum_nil, Nat.zero_add]
    exact sum_counts hist hlen (fun l => (c.authority l).isSome)
  · intro a
    rw [he]
    have : paidAt c hist a ≤ hist.length := List.countP_le_length
    simp [get?]; omega

/-- C25 (d): the reward list is the same for every iteration order of the hash map. -/
theorem address_counts_order (c : Committee) (hist : List Nat) (hlen : hist.length < u32)
    (i1 i2 : LeaderCounts) (h1 : i1.Perm (hist.foldl incLeader []))
    (h2 : i2.Perm (hist.foldl incLeader [])) :
    addressCounts (some c) i1 = addressCounts (some c) i2 := by
  apply sorted_ext
  · exact sorted_foldl_address c i1 [] sorted_nil
  · exact sorted_foldl_address c i2 [] sorted_nil
  intro a
  have e1 := address_counts_spec c hist hlen i1 h1 a
  have e2 := address_counts_spec c hist hlen i2 h2 a
  have k1 := address_counts_keys c hist hlen i1 h1 a
  have k2 := address_counts_keys c hist hlen i2 h2 a
  rw [← get?_isSome] at k1 k2
  cases g1 : get? a (addressCounts (some c) i1) <;> cases g2 : get? a (addressCounts (some c) i2) <;>
    simp_all

/-- C25 (e): clearing resets every reward. -/
theorem clear_resets (c : Committee) (m : LeaderCounts) :
    addressCounts (some c) (clearLeaders m) = [] := rfl

-- non-vacuity: two validators share address 5, a stranger (77) led twice
example : addressCounts (some { epoch := 0, authorities := [⟨10, 1, 5⟩, ⟨20, 2, 6⟩, ⟨30, 3, 5⟩] })
    ([10, 77, 30, 20, 10, 77].foldl incLeader []) = [(5, 3), (6, 1)] := by decide

end Verif.Gas
