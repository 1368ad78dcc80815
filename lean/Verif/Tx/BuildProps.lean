import Verif.Tx.Build
import Mathlib.Data.List.Basic
import Mathlib.Algebra.BigOperators.Group.List.Basic
/-
C61: what the batch builder selects.
-/
namespace Verif
namespace Tx
open Exec (Batch)
open Worker (maxBatchGas maxBatchSize Validator BatchErr)

/-! ### Specification -/

/-- The transactions of one sender. -/
def of (s : Nat) (l : List PTx) : List PTx := l.filter fun t => t.sender == s

def gasOf (l : List PTx) : Nat := (l.map (·.gas)).sum
def sizeOf' (l : List PTx) : Nat := (l.map (·.size)).sum
def costOf (l : List PTx) : Nat := (l.map (·.cost)).sum

/-- A legacy, EIP-2930 or EIP-1559 transaction. -/
def Allowed (t : PTx) : Prop := t.ty = 0 ∨ t.ty = 1 ∨ t.ty = 2

/-- Why a transaction is not selected, given those selected before. -/
def Reason (before : List PTx) (t : PTx) : Prop :=
  ¬ Allowed t ∨ maxBatchGas < gasOf before + t.gas ∨ maxBatchSize < sizeOf' before + t.size

/-- The pool's admission rule that no transaction asks for more gas than a block has. -/
def Admitted (best : List PTx) : Prop := ∀ t ∈ best, t.gas ≤ maxBatchGas

theorem allowedTy_iff (t : PTx) : allowedTy t.ty = true ↔ Allowed t := by
  unfold allowedTy Allowed
  simp [or_assoc]

/-! ### Entries -/

theorem entry_upd (s s' : Nat) (f : Nat → Nat) (v : Nat) (l : List (Nat × Nat)) :
    entry s' (upd s f v l) = if s' = s then some (match entry s l with | some x => f x | none => v)
      else entry s' l := by
  induction l with
  | nil =>
    unfold upd entry
    by_cases h : s' = s
    · subst h; simp [entry]
    · rw [if_neg (fun h' => h h'.symm), if_neg h]; rfl
  | cons x l ih =>
    unfold upd
    by_cases hx : x.1 = s
    · rw [if_pos hx]
      by_cases h : s' = s
      · subst h; simp [entry, hx]
      · rw [if_neg h]
        unfold entry
        dsimp only
        rw [if_neg (fun h' => h (by rw [← h', hx])), if_neg (fun h' => h (by rw [← h', hx]))]
    · rw [if_neg hx]
      unfold entry
      by_cases h : x.1 = s'
      · rw [if_pos h, if_pos h, if_neg (fun h' => hx (by rw [h, h']))]
      · rw [if_neg h, if_neg h, ih, if_neg hx]

theorem keys_upd (s : Nat) (f : Nat → Nat) (v : Nat) (l : List (Nat × Nat)) (s' : Nat) :
    s' ∈ (upd s f v l).map Prod.fst ↔ s' = s ∨ s' ∈ l.map Prod.fst := by
  induction l with
  | nil => simp [upd]
  | cons x l ih =>
    unfold upd
    by_cases hx : x.1 = s
    · rw [if_pos hx]
      simp only [List.map_cons, List.mem_cons]
      constructor
      · intro h; exact .inr h
      · rintro (h | h)
        · exact .inl (by rw [h, hx])
        · exact h
    · rw [if_neg hx]
      simp only [List.map_cons, List.mem_cons, ih]
      tauto

theorem nodup_upd (s : Nat) (f : Nat → Nat) (v : Nat) (l : List (Nat × Nat))
    (h : (l.map Prod.fst).Nodup) : ((upd s f v l).map Prod.fst).Nodup := by
  induction l with
  | nil => simp [upd]
  | cons x l ih =>
    rw [List.map_cons, List.nodup_cons] at h
    unfold upd
    by_cases hx : x.1 = s
    · rw [if_pos hx, List.map_cons, List.nodup_cons]; exact h
    · rw [if_neg hx, List.map_cons, List.nodup_cons]
      refine ⟨fun h' => ?_, ih h.2⟩
      rcases (keys_upd ..).mp h' with h' | h'
      · exact hx h'
      · exact h.1 h'

theorem entry_none {s : Nat} {l : List (Nat × Nat)} : entry s l = none ↔ s ∉ l.map Prod.fst := by
  induction l with
  | nil => simp [entry]
  | cons x l ih =>
    unfold entry
    by_cases hx : x.1 = s
    · simp [hx]
    · rw [if_neg hx, ih, List.map_cons, List.mem_cons]
      constructor
      · rintro h (h' | h')
        · exact hx h'.symm
        · exact h h'
      · exact fun h h' => h (.inr h')

theorem entry_of_mem {s v : Nat} {l : List (Nat × Nat)} (hn : (l.map Prod.fst).Nodup)
    (h : (s, v) ∈ l) : entry s l = some v := by
  induction l with
  | nil => cases h
  | cons x l ih =>
    rw [List.map_cons, List.nodup_cons] at hn
    unfold entry
    rcases List.mem_cons.mp h with h | h
    · subst h; simp
    · rw [if_neg, ih hn.2 h]
      intro hx
      exact hn.1 (hx ▸ List.mem_map_of_mem h)

/-! ### The invariant of the loop -/

/-- The highest nonce of the sender's selected transactions. -/
def IsTop (m : Nat) (l : List PTx) : Prop := (∃ t ∈ l, t.nonce = m) ∧ ∀ t ∈ l, t.nonce ≤ m

/-- after the transactions `pre`, `ch` are selected -/
structure Inv (a : Acc) (pre ch : List PTx) : Prop where
  sub : ch.Sublist pre
  txs : a.txs = ch.map (·.bytes)
  mined : a.mined = ch.map (·.hash)
  gas : a.gas = gasOf ch
  gasLe : a.gas ≤ maxBatchGas
  size : a.size = sizeOf' ch
  sizeLe : a.size ≤ maxBatchSize
  allowed : ∀ t ∈ ch, Allowed t
  open_ : ∀ s, s ∉ a.bad → of s ch = of s pre
  closed : ∀ s, s ∈ a.bad → ∃ (t : PTx) (rest : List PTx) (k : Nat),
    of s pre = of s ch ++ t :: rest ∧ Reason (ch.take k) t ∧
      (gasOf (ch.take k) + t.gas ≤ maxBatchGas → ¬ Allowed t → t.hash ∈ a.blobs ++ a.unsupported)
  nonceNone : ∀ s, entry s a.nonces = none ↔ of s ch = []
  nonceTop : ∀ s m, entry s a.nonces = some m → IsTop m (of s ch)
  nonceNodup : (a.nonces.map Prod.fst).Nodup
  costs : ∀ s, (entry s a.costs).getD 0 = costOf (of s ch)
  refused : ∀ x ∈ a.blobs ++ a.unsupported, ∃ t ∈ pre, t.hash = x ∧ ¬ Allowed t
  badIn : ∀ s ∈ a.bad, of s pre ≠ []

theorem of_append (s : Nat) (a b : List PTx) : of s (a ++ b) = of s a ++ of s b := List.filter_append ..

theorem of_single (s : Nat) (t : PTx) : of s [t] = if t.sender = s then [t] else [] := by
  unfold of
  by_cases h : t.sender = s <;> simp [h]

theorem inv_init : Inv {} [] [] where
  sub := List.nil_sublist _
  txs := rfl
  mined := rfl
  gas := rfl
  gasLe := Nat.zero_le _
  size := rfl
  sizeLe := Nat.zero_le _
  allowed := by simp
  open_ := fun _ _ => rfl
  closed := by simp
  nonceNone := fun s => ⟨fun _ => rfl, fun _ => rfl⟩
  nonceTop := by intro s m h; cases h
  nonceNodup := List.nodup_nil
  costs := fun _ => rfl
  refused := by simp
  badIn := by simp

/-- a transaction that is passed over -/
theorem Inv.skip {a : Acc} {pre ch : List PTx} (h : Inv a pre ch) {t : PTx} (ht : t.sender ∈ a.bad) :
    Inv a (pre ++ [t]) ch where
  sub := h.sub.trans (List.sublist_append_left _ _)
  txs := h.txs
  mined := h.mined
  gas := h.gas
  gasLe := h.gasLe
  size := h.size
  sizeLe := h.sizeLe
  allowed := h.allowed
  open_ := by
    intro s hs
    have hne : t.sender ≠ s := fun he => hs (he ▸ ht)
    rw [of_append, of_single, if_neg hne, List.append_nil]
    exact h.open_ s hs
  closed := by
    intro s hs
    obtain ⟨t', rest, k, h1, h2⟩ := h.closed s hs
    refine ⟨t', rest ++ of s [t], k, ?_, h2⟩
    rw [of_append, h1, List.append_assoc]; rfl
  nonceNone := h.nonceNone
  nonceTop := h.nonceTop
  nonceNodup := h.nonceNodup
  costs := h.costs
  refused := by
    intro x hx
    obtain ⟨t', h1, h2⟩ := h.refused x hx
    exact ⟨t', List.mem_append_left _ h1, h2⟩
  badIn := by
    intro s hs
    rw [of_append]
    exact fun he => h.badIn s hs (List.append_eq_nil_iff.mp he).1

/-- a transaction that is marked -/
theorem Inv.marked {a : Acc} {pre ch : List PTx} (h : Inv a pre ch) {t : PTx} (ht : t.sender ∉ a.bad)
    (hr : Reason ch t) {b : Acc}
    (hin : gasOf ch + t.gas ≤ maxBatchGas → ¬ Allowed t → t.hash ∈ b.blobs ++ b.unsupported)
    (hkeep : ∀ x ∈ a.blobs ++ a.unsupported, x ∈ b.blobs ++ b.unsupported)
    (hb : b = { a.mark t with blobs := b.blobs, unsupported := b.unsupported })
    (hrem : ∀ x ∈ b.blobs ++ b.unsupported, x ∈ a.blobs ++ a.unsupported ∨ (x = t.hash ∧ ¬ Allowed t)) :
    Inv b (pre ++ [t]) ch := by
  have hbad : b.bad = t.sender :: a.bad := by rw [hb]; rfl
  have e1 : b.txs = a.txs := by rw [hb]; rfl
  have e2 : b.mined = a.mined := by rw [hb]; rfl
  have e3 : b.gas = a.gas := by rw [hb]; rfl
  have e4 : b.size = a.size := by rw [hb]; rfl
  have e5 : b.nonces = a.nonces := by rw [hb]; rfl
  have e6 : b.costs = a.costs := by rw [hb]; rfl
  refine ⟨h.sub.trans (List.sublist_append_left _ _), by rw [e1]; exact h.txs, by rw [e2]; exact h.mined,
    by rw [e3]; exact h.gas, by rw [e3]; exact h.gasLe, by rw [e4]; exact h.size,
    by rw [e4]; exact h.sizeLe, h.allowed, ?_, ?_, by rw [e5]; exact h.nonceNone,
    by rw [e5]; exact h.nonceTop, by rw [e5]; exact h.nonceNodup, by rw [e6]; exact h.costs, ?_, ?_⟩
  · intro s hs
    rw [hbad, List.mem_cons, not_or] at hs
    rw [of_append, of_single, if_neg (fun he => hs.1 he.symm), List.append_nil]
    exact h.open_ s hs.2
  · intro s hs
    rw [hbad, List.mem_cons] at hs
    by_cases hsb : s ∈ a.bad
    · obtain ⟨t', rest, k, h1, h2⟩ := h.closed s hsb
      refine ⟨t', rest ++ of s [t], k, ?_, h2.1, fun hg hn => hkeep _ (h2.2 hg hn)⟩
      rw [of_append, h1, List.append_assoc]; rfl
    · have hst : s = t.sender := hs.resolve_right hsb
      refine ⟨t, [], ch.length, ?_, by rw [List.take_length]; exact hr, by rw [List.take_length]; exact hin⟩
      rw [of_append, of_single, if_pos hst.symm, h.open_ s hsb]
  · intro x hx
    rcases hrem x hx with hx | ⟨hx, hna⟩
    · obtain ⟨t', h1, h2⟩ := h.refused x hx
      exact ⟨t', List.mem_append_left _ h1, h2⟩
    · exact ⟨t, List.mem_append_right _ (List.mem_singleton_self t), hx.symm, hna⟩
  · intro s hs
    rw [of_append]
    intro he
    obtain ⟨he1, he2⟩ := List.append_eq_nil_iff.mp he
    rw [hbad, List.mem_cons] at hs
    rcases hs with hs | hs
    · rw [of_single, if_pos hs.symm] at he2; cases he2
    · exact h.badIn s hs he1

theorem costOf_append (a b : List PTx) : costOf (a ++ b) = costOf a + costOf b := by
  simp [costOf]

/-- a transaction that is selected -/
theorem Inv.taken {a : Acc} {pre ch : List PTx} (h : Inv a pre ch) {t : PTx} (ht : t.sender ∉ a.bad)
    (hg : a.gas + t.gas ≤ maxBatchGas) (hw : wadd a.gas t.gas = a.gas + t.gas) (hal : Allowed t)
    (hs : a.size + t.size ≤ maxBatchSize) : Inv (a.take t) (pre ++ [t]) (ch ++ [t]) where
  sub := h.sub.append (List.Sublist.refl _)
  txs := by simp [Acc.take, h.txs]
  mined := by simp [Acc.take, h.mined]
  gas := by
    change wadd a.gas t.gas = _
    rw [hw, h.gas]; simp [gasOf]
  gasLe := by change wadd a.gas t.gas ≤ _; rw [hw]; exact hg
  size := by
    change a.size + t.size = _
    rw [h.size]; simp [sizeOf']
  sizeLe := hs
  allowed := by
    intro x hx
    rcases List.mem_append.mp hx with hx | hx
    · exact h.allowed x hx
    · rw [List.mem_singleton.mp hx]; exact hal
  open_ := by
    intro s hs
    rw [of_append, of_append, h.open_ s hs]
  closed := by
    intro s hs
    have hs : s ∈ a.bad := hs
    obtain ⟨t', rest, k, h1, h2⟩ := h.closed s hs
    have hne : t.sender ≠ s := fun he => ht (he ▸ hs)
    refine ⟨t', rest, min k ch.length, ?_, ?_⟩
    · rw [of_append, of_append, of_single, if_neg hne, List.append_nil, List.append_nil, h1]
    · rw [List.take_append_of_le_length (Nat.min_le_right _ _)]
      have : ch.take (min k ch.length) = ch.take k := by
        rw [← List.take_take, List.take_length]
      rw [this]; exact h2
  nonceNone := by
    intro s
    change entry s (upd t.sender _ t.nonce a.nonces) = none ↔ _
    rw [entry_upd, of_append, of_single]
    by_cases he : s = t.sender
    · rw [if_pos he, if_pos he.symm]; simp
    · rw [if_neg he, if_neg (fun h' => he h'.symm), List.append_nil]; exact h.nonceNone s
  nonceTop := by
    intro s m
    change entry s (upd t.sender _ t.nonce a.nonces) = some m → _
    rw [entry_upd, of_append, of_single]
    by_cases he : s = t.sender
    · rw [if_pos he, if_pos he.symm]
      intro hm
      cases hn : entry t.sender a.nonces with
      | none =>
        rw [hn] at hm
        have hm : t.nonce = m := Option.some.inj hm
        have := (h.nonceNone t.sender).mp hn
        rw [he, this]
        refine ⟨⟨t, by simp, hm⟩, ?_⟩
        intro x hx
        have hx : x = t := by simpa using hx
        rw [hx, hm]
      | some v =>
        rw [hn] at hm
        have hm : max v t.nonce = m := Option.some.inj hm
        obtain ⟨⟨x, hx1, hx2⟩, hx3⟩ := h.nonceTop t.sender v hn
        rw [he]
        constructor
        · by_cases hv : v ≤ t.nonce
          · exact ⟨t, by simp, by omega⟩
          · exact ⟨x, List.mem_append_left _ hx1, by omega⟩
        · intro y hy
          rcases List.mem_append.mp hy with hy | hy
          · have := hx3 y hy; omega
          · rw [List.mem_singleton.mp hy]; omega
    · rw [if_neg he, if_neg (fun h' => he h'.symm), List.append_nil]; exact h.nonceTop s m
  nonceNodup := nodup_upd _ _ _ _ h.nonceNodup
  costs := by
    intro s
    change (entry s (upd t.sender _ t.cost a.costs)).getD 0 = _
    rw [entry_upd, of_append, of_single, costOf_append]
    by_cases he : s = t.sender
    · rw [if_pos he, if_pos he.symm, ← h.costs s, he]
      cases entry t.sender a.costs <;> simp [costOf]
    · rw [if_neg he, if_neg (fun h' => he h'.symm), h.costs s]; simp [costOf]
  refused := by
    intro x hx
    obtain ⟨t', h1, h2⟩ := h.refused x hx
    exact ⟨t', List.mem_append_left _ h1, h2⟩
  badIn := by
    intro s hs
    rw [of_append]
    exact fun he => h.badIn s hs (List.append_eq_nil_iff.mp he).1

theorem wadd_eq {a b : Nat} (ha : a ≤ maxBatchGas) (hb : b ≤ maxBatchGas) : wadd a b = a + b := by
  unfold wadd maxBatchGas at *
  omega

theorem Inv.step {a : Acc} {pre ch : List PTx} (h : Inv a pre ch) {t : PTx} (hg : t.gas ≤ maxBatchGas) :
    Inv (step a t) (pre ++ [t]) ch ∨
      (t.sender ∉ a.bad ∧ Inv (step a t) (pre ++ [t]) (ch ++ [t])) := by
  unfold Tx.step
  have hw := wadd_eq h.gasLe hg
  by_cases h1 : t.sender ∈ a.bad
  · rw [if_pos h1]; exact .inl (h.skip h1)
  rw [if_neg h1]
  by_cases h2 : maxBatchGas < wadd a.gas t.gas
  · rw [if_pos h2]
    have hgt : maxBatchGas < gasOf ch + t.gas := by rw [← h.gas, ← hw]; exact h2
    exact .inl (h.marked h1 (.inr (.inl hgt)) (fun hg _ => absurd hgt (Nat.not_lt.mpr hg))
      (fun x hx => hx) rfl (fun x hx => .inl hx))
  rw [if_neg h2]
  by_cases h3 : allowedTy t.ty = true
  · have h3' : ¬ (!allowedTy t.ty) = true := by simp [h3]
    rw [if_neg h3']
    by_cases h4 : maxBatchSize < a.size + t.size
    · rw [if_pos h4]
      refine .inl (h.marked h1 (.inr (.inr ?_)) (fun _ hn => absurd ((allowedTy_iff t).mp h3) hn)
        (fun x hx => hx) rfl (fun x hx => .inl hx))
      rw [← h.size]; exact h4
    · rw [if_neg h4]
      exact .inr ⟨h1, h.taken h1 (by omega) hw ((allowedTy_iff t).mp h3) (by omega)⟩
  · have h3' : (!allowedTy t.ty) = true := by simpa using h3
    rw [if_pos h3']
    have hna : ¬ Allowed t := fun hh => h3 ((allowedTy_iff t).mpr hh)
    refine .inl (h.marked h1 (.inl hna) (fun _ _ => ?_) (fun x hx => ?_) ?_ ?_)
    · unfold Acc.refuse; split <;> simp
    · unfold Acc.refuse; split <;> simp [Acc.mark] <;> (have := List.mem_append.mp hx; tauto)
    · unfold Acc.refuse; split <;> rfl
    · intro x hx
      unfold Acc.refuse at hx
      split at hx
      · have hx : x ∈ (a.blobs ++ [t.hash]) ++ a.unsupported := hx
        simp only [List.mem_append, List.mem_singleton] at hx ⊢
        tauto
      · have hx : x ∈ a.blobs ++ (a.unsupported ++ [t.hash]) := hx
        simp only [List.mem_append, List.mem_singleton] at hx ⊢
        tauto

theorem inv_fold : ∀ (rest : List PTx) {a : Acc} {pre ch : List PTx}, Inv a pre ch → Admitted rest →
    ∃ ch', Inv (rest.foldl step a) (pre ++ rest) (ch ++ ch') := by
  intro rest
  induction rest with
  | nil => intro a pre ch h _; exact ⟨[], by simpa using h⟩
  | cons t rest ih =>
    intro a pre ch h ha
    have h1 := h.step (ha t (List.mem_cons_self ..))
    have ha' : Admitted rest := fun x hx => ha x (List.mem_cons_of_mem _ hx)
    rcases h1 with h1 | ⟨_, h1⟩
    · obtain ⟨c, hc⟩ := ih h1 ha'
      exact ⟨c, by simpa using hc⟩
    · obtain ⟨c, hc⟩ := ih h1 ha'
      exact ⟨t :: c, by simpa using hc⟩

theorem inv_all {best : List PTx} (ha : Admitted best) : ∃ ch, Inv (best.foldl step {}) best ch := by
  obtain ⟨ch, h⟩ := inv_fold best inv_init ha
  exact ⟨ch, by simpa using h⟩

end Tx
end Verif
