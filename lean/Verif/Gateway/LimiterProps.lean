import Verif.Gateway.Limiter
import Mathlib.Tactic.Common
import Mathlib.Data.List.Induction
import Mathlib.Tactic.Ring
import Mathlib.Tactic.Linarith

/-!
# What the gateway's rate limiters guarantee
-/

namespace Verif.Gate

open Verif.Net (get put del keys)

/-! ## Specification -/

/-- How far a sequence of clock readings climbs in total.  For readings in order this is the last
minus the first (`rise_sorted`). -/
def rise : List Nat → Nat
  | a :: b :: l => (b - a) + rise (b :: l)
  | _ => 0

/-- How many requests of a history of the gateway-wide bucket were let through. -/
def admitted (w : List (Nat × Bool)) : Nat := (w.filter fun e => e.2).length

/-- The clock readings of such a history. -/
def times (w : List (Nat × Bool)) : List Nat := w.map Prod.fst

/-- How many requests with key `k` a history of the table counted and let through. -/
def admittedOf (k : Ip) (w : List TEv) : Nat :=
  (w.filter fun e => match e with
    | .took k' _ .counted => decide (k' = k)
    | _ => false).length

/-- How many requests with key `k` a history of the table let through, counted or not. -/
def passedOf (k : Ip) (w : List TEv) : Nat :=
  (w.filter fun e => match e with
    | .took k' _ p => decide (k' = k) && p.ok
    | _ => false).length

/-- The clock readings of the requests with key `k`. -/
def ownTimes (k : Ip) (w : List TEv) : List Nat :=
  w.filterMap fun e => match e with
    | .took k' n _ => if k' = k then some n else none
    | .swept _ => none

/-- The clock readings of the requests with key `k` and of the sweeps. -/
def timesOf (k : Ip) (w : List TEv) : List Nat :=
  w.filterMap fun e => match e with
    | .took k' n _ => if k' = k then some n else none
    | .swept n => some n

/-- In the history no request with key `k` was let through without being counted. -/
def tracked (k : Ip) (w : List TEv) : Prop := ∀ n, TEv.took k n .untracked ∉ w

/-- `w` is a stretch of consecutive entries of `l`. -/
def Window {α : Type} (w l : List α) : Prop := ∃ a b, l = a ++ w ++ b

/-! ## Clock readings -/

theorem rise_cons_cons (a b : Nat) (l : List Nat) : rise (a :: b :: l) = (b - a) + rise (b :: l) := rfl

theorem rise_append_one (l : List Nat) (a t : Nat) :
    rise (l ++ [a, t]) = rise (l ++ [a]) + (t - a) := by
  induction l with
  | nil => simp [rise]
  | cons x l ih =>
    cases l with
    | nil => simp [rise]
    | cons y l =>
      show (y - x) + rise (y :: l ++ [a, t]) = (y - x) + rise (y :: l ++ [a]) + (t - a)
      rw [ih]; omega

theorem rise_snoc (x : List Nat) (q t : Nat) (h : x.getLast? = some q) :
    rise (x ++ [t]) = rise x + (t - q) := by
  obtain ⟨ys, rfl⟩ := List.getLast?_eq_some_iff.1 h
  have := rise_append_one ys q t
  simpa using this

/-- A climb is at least the difference of its ends. -/
theorem rise_ge (l : List Nat) (a t : Nat) (h : l.getLast? = some t) : t - a ≤ rise (a :: l) := by
  induction l generalizing a with
  | nil => simp at h
  | cons x l ih =>
    cases l with
    | nil => simp at h; subst h; simp [rise]
    | cons y l =>
      have := ih x (by simpa using h)
      rw [rise_cons_cons]; omega

/-- For clock readings in order, the climb is the time between the first and the last. -/
theorem rise_sorted (l : List Nat) (a t : Nat) (hs : (a :: l).Pairwise (· ≤ ·))
    (h : (a :: l).getLast? = some t) : rise (a :: l) = t - a := by
  induction l generalizing a with
  | nil => simp at h; subst h; simp [rise]
  | cons x l ih =>
    have h' : (x :: l).getLast? = some t := by simpa using h
    have hs' := List.pairwise_cons.1 hs
    have := ih x hs'.2 h'
    have hax : a ≤ x := hs'.1 x (by simp)
    have hxt : x ≤ t := by
      rcases List.mem_cons.1 (List.mem_of_getLast? h') with e | e
      · omega
      · exact (List.pairwise_cons.1 hs'.2).1 t e
    rw [rise_cons_cons, this]; omega

/-! ## One bucket -/

theorem unit_pos : 0 < unit := by unfold unit; decide

theorem unit_le_capacity (l : Limit) : unit ≤ l.capacity := by
  have := l.burst_pos
  unfold Limit.capacity
  exact Nat.le_mul_of_pos_left _ this

theorem replenished_le (b : Bucket) (n : Nat) (l : Limit) : b.replenished n l ≤ l.capacity :=
  Nat.min_le_right _ _

/-- Later is more, by at most the refill. -/
theorem replenished_step (b : Bucket) (l : Limit) (t n : Nat) :
    b.replenished n l ≤ b.replenished t l + (n - t) * l.rate := by
  unfold Bucket.replenished
  have h : n - b.last ≤ (t - b.last) + (n - t) := by omega
  have h2 : (n - b.last) * l.rate ≤ ((t - b.last) + (n - t)) * l.rate := Nat.mul_le_mul_right _ h
  rw [Nat.add_mul] at h2
  generalize (n - t) * l.rate = x at *
  omega

theorem tryAdmit_last (b : Bucket) (n : Nat) (l : Limit) : (b.tryAdmit n l).2.last = n := by
  unfold Bucket.tryAdmit; dsimp only; split <;> rfl

theorem tryAdmit_tokens (b : Bucket) (n : Nat) (l : Limit) :
    (b.tryAdmit n l).2.tokens + (if (b.tryAdmit n l).1 then unit else 0) = b.replenished n l := by
  unfold Bucket.tryAdmit; dsimp only
  split
  · dsimp only; simp only [if_true]; omega
  · rfl

theorem tryAdmit_iff (b : Bucket) (n : Nat) (l : Limit) :
    (b.tryAdmit n l).1 = true ↔ unit ≤ b.replenished n l := by
  unfold Bucket.tryAdmit; dsimp only
  split <;> simp_all

theorem replenished_self (b : Bucket) (l : Limit) (n : Nat) (h : b.last = n)
    (hc : b.tokens ≤ l.capacity) : b.replenished n l = b.tokens := by
  unfold Bucket.replenished; rw [h]; simp; exact hc

theorem full_replenished (t n : Nat) (l : Limit) : (Bucket.full t l).replenished n l = l.capacity := by
  unfold Bucket.replenished Bucket.full; simp

/-! ## The gateway-wide bucket -/

/-- The history `w` takes bucket `b` to bucket `b'`. -/
def Hist (l : Limit) (b : Bucket) : List (Nat × Bool) → Bucket → Prop
  | [], b' => b' = b
  | (n, ok) :: r, b' => (b.tryAdmit n l).1 = ok ∧ Hist l (b.tryAdmit n l).2 r b'

theorem hist_append (l : Limit) (b b' : Bucket) (u v : List (Nat × Bool)) :
    Hist l b (u ++ v) b' ↔ ∃ m, Hist l b u m ∧ Hist l m v b' := by
  induction u generalizing b with
  | nil => simp [Hist]
  | cons e u ih =>
    obtain ⟨n, ok⟩ := e
    show ((b.tryAdmit n l).1 = ok ∧ Hist l (b.tryAdmit n l).2 (u ++ v) b') ↔ _
    rw [ih]
    constructor
    · rintro ⟨h, m, h1, h2⟩; exact ⟨m, ⟨h, h1⟩, h2⟩
    · rintro ⟨m, ⟨h, h1⟩, h2⟩; exact ⟨h, m, h1, h2⟩

theorem hist_snoc {l : Limit} {b m : Bucket} {u : List (Nat × Bool)} (h : Hist l b u m) (n : Nat) :
    Hist l b (u ++ [(n, (m.tryAdmit n l).1)]) (m.tryAdmit n l).2 :=
  (hist_append ..).2 ⟨m, h, rfl, rfl⟩

/-- Refills bound what a stretch lets through, counted from a moment `t`. -/
theorem hist_bound_from (l : Limit) (b b' : Bucket) (w : List (Nat × Bool)) (t : Nat)
    (h : Hist l b w b') :
    admitted w * unit ≤ b.replenished t l + l.rate * rise (t :: times w) := by
  induction w generalizing b t with
  | nil => simp [admitted]
  | cons e w ih =>
    obtain ⟨n, ok⟩ := e
    obtain ⟨h1, h2⟩ := h
    have i := ih _ n h2
    have e1 := tryAdmit_tokens b n l
    have e2 : ((b.tryAdmit n l).2).replenished n l = (b.tryAdmit n l).2.tokens :=
      replenished_self _ _ _ (tryAdmit_last ..) (by have := replenished_le b n l; omega)
    have e3 := replenished_step b l t n
    have e4 : rise (t :: times ((n, ok) :: w)) = (n - t) + rise (n :: times w) := rfl
    rw [e4, Nat.mul_add, Nat.mul_comm l.rate (n - t)]
    rw [e2] at i
    rw [h1] at e1
    cases ok with
    | true =>
      have : admitted ((n, true) :: w) = admitted w + 1 := by simp [admitted]
      rw [this, Nat.add_mul, Nat.one_mul]
      simp only [if_true] at e1
      omega
    | false =>
      have : admitted ((n, false) :: w) = admitted w := by simp [admitted]
      rw [this]
      simp only [Bool.false_eq_true, if_false] at e1
      omega

theorem hist_bound (l : Limit) (b b' : Bucket) (w : List (Nat × Bool)) (h : Hist l b w b') :
    admitted w * unit ≤ l.burst * unit + l.rate * rise (times w) := by
  cases w with
  | nil => simp [admitted]
  | cons e w =>
    obtain ⟨n, ok⟩ := e
    have := hist_bound_from l b b' _ n h
    have e4 : rise (n :: times ((n, ok) :: w)) = (n - n) + rise (n :: times w) := rfl
    rw [e4, Nat.sub_self, Nat.zero_add] at this
    have hc := replenished_le b n l
    unfold Limit.capacity at hc
    have e5 : times ((n, ok) :: w) = n :: times w := rfl
    rw [e5]
    omega

/-- A bucket that began full has spent what it lacks: since some entry of the history at which it was
full. -/
theorem hist_spent (l : Limit) (t0 : Nat) (a : List (Nat × Bool)) (m : Bucket)
    (h : Hist l (Bucket.full t0 l) a m) :
    (a = [] ∧ m = Bucket.full t0 l) ∨ ∃ a1 n ok r, a = a1 ++ (n, ok) :: r ∧
      l.capacity + l.rate * rise (n :: times r) ≤ m.tokens + admitted ((n, ok) :: r) * unit ∧
      (n :: times r).getLast? = some m.last := by
  induction a using List.reverseRecOn generalizing m with
  | nil => exact Or.inl ⟨rfl, h⟩
  | append_singleton a e ih =>
    obtain ⟨t, ok⟩ := e
    obtain ⟨q, hq, h1, h2⟩ := (hist_append ..).1 h
    change m = _ at h2
    right
    have e1 := tryAdmit_tokens q t l
    have e2 := tryAdmit_last q t l
    rw [← h2] at e1 e2
    rw [h1] at e1
    by_cases hcl : l.capacity ≤ q.tokens + (t - q.last) * l.rate
    · refine ⟨a, t, ok, [], rfl, ?_, by simp [times, e2]⟩
      have : q.replenished t l = l.capacity := Nat.min_eq_right hcl
      rw [this] at e1
      have z : rise (t :: times []) = 0 := rfl
      rw [z]
      cases ok <;> simp [admitted] at e1 ⊢ <;> omega
    · have hr : q.replenished t l = q.tokens + (t - q.last) * l.rate := by
        unfold Bucket.replenished; omega
      rcases ih q hq with ⟨rfl, rfl⟩ | ⟨a1, n, ok', r, rfl, hb, hl⟩
      · exact absurd (Nat.le_add_right _ _) hcl
      · refine ⟨a1, n, ok', r ++ [(t, ok)], by simp, ?_, ?_⟩
        rotate_left
        · have : n :: times (r ++ [(t, ok)]) = (n :: times r) ++ [t] := by simp [times]
          rw [this, List.getLast?_concat, e2]
        have hrise : rise (n :: times (r ++ [(t, ok)])) = rise (n :: times r) + (t - q.last) := by
          rw [← rise_snoc _ _ _ hl]
          simp [times]
        rw [hrise, Nat.mul_add, Nat.mul_comm l.rate (t - q.last)]
        have hadm : admitted ((n, ok') :: (r ++ [(t, ok)]))
            = admitted ((n, ok') :: r) + (if ok then 1 else 0) := by
          unfold admitted
          have : (n, ok') :: (r ++ [(t, ok)]) = ((n, ok') :: r) ++ [(t, ok)] := by simp
          rw [this, List.filter_append, List.length_append]
          cases ok <;> simp
        rw [hadm, Nat.add_mul]
        rw [hr] at e1
        cases ok <;> simp at e1 ⊢ <;> omega

/-! ## The table of per-client buckets -/

/-- The history `w` takes table `t` to table `t'`. -/
def THist (l : Limit) (max : Nat) (t : Table) : List TEv → Table → Prop
  | [], t' => t' = t
  | .took k n p :: r, t' =>
    (admitKey l max n k t).1 = p ∧ THist l max (admitKey l max n k t).2 r t'
  | .swept n :: r, t' => THist l max (sweep l n t) r t'

theorem thist_append (l : Limit) (max : Nat) (t t' : Table) (u v : List TEv) :
    THist l max t (u ++ v) t' ↔ ∃ m, THist l max t u m ∧ THist l max m v t' := by
  induction u generalizing t with
  | nil => simp [THist]
  | cons e u ih =>
    cases e with
    | took k n p =>
      show ((admitKey l max n k t).1 = p ∧ THist l max (admitKey l max n k t).2 (u ++ v) t') ↔ _
      rw [ih]
      constructor
      · rintro ⟨h, m, h1, h2⟩; exact ⟨m, ⟨h, h1⟩, h2⟩
      · rintro ⟨m, ⟨h, h1⟩, h2⟩; exact ⟨h, m, h1, h2⟩
    | swept n =>
      show THist l max (sweep l n t) (u ++ v) t' ↔ _
      rw [ih]; rfl

theorem admitKey_nodup {l : Limit} {max n : Nat} {k : Ip} {t : Table} (h : (keys t).Nodup) :
    (keys (admitKey l max n k t).2).Nodup := by
  unfold admitKey admitNew
  split
  · exact Net.nodup_put _ _ h
  · split
    · exact Net.nodup_put _ _ h
    · exact h

theorem sweep_nodup {l : Limit} {n : Nat} {t : Table} (h : (keys t).Nodup) :
    (keys (sweep l n t)).Nodup :=
  h.sublist (List.Sublist.map _ List.filter_sublist)

theorem length_put_of_some {k : Ip} {b : Bucket} (v : Bucket) {t : Table}
    (h : get k t = some b) : (put k v t).length ≤ t.length := by
  have hm := Net.mem_of_get h
  have : (del k t).length < t.length := by
    unfold del
    exact List.length_filter_lt_length_iff_exists.2 ⟨(k, b), hm, by simp⟩
  unfold put
  simp only [List.length_cons]
  omega

theorem admitKey_length {l : Limit} {max n : Nat} {k : Ip} {t : Table}
    (h : t.length ≤ max) : (admitKey l max n k t).2.length ≤ max := by
  unfold admitKey admitNew
  split
  · rename_i b hb
    exact Nat.le_trans (length_put_of_some _ hb) h
  · rename_i hb
    split
    · dsimp only
      unfold put
      rw [Net.del_eq_self hb]
      simp only [List.length_cons]
      have := ‹List.length t < max›
      omega
    · exact h

theorem get_sweep {l : Limit} {n : Nat} {t : Table} (hn : (keys t).Nodup) (k : Ip) :
    get k (sweep l n t) = (get k t).filter fun b => !b.isIdle n l := by
  cases hg : get k t with
  | none =>
    rw [Net.get_eq_none] at hg
    show get k (sweep l n t) = none
    rw [Net.get_eq_none]
    intro hk
    exact hg (List.Sublist.subset (List.Sublist.map _ List.filter_sublist) hk)
  | some b =>
    have hm := Net.mem_of_get hg
    by_cases hi : b.isIdle n l = true
    · have : Option.filter (fun b => !b.isIdle n l) (some b) = none := by simp [Option.filter, hi]
      rw [this, Net.get_eq_none]
      intro hk
      obtain ⟨e, he, rfl⟩ := List.mem_map.1 hk
      have he' := List.mem_filter.1 he
      have : get e.1 t = some e.2 := Net.get_of_mem hn he'.1
      rw [this] at hg
      cases hg
      simp [hi] at he'
    · have : Option.filter (fun b => !b.isIdle n l) (some b) = some b := by
        simp [Option.filter, hi]
      rw [this]
      refine Net.get_of_mem (sweep_nodup hn) (List.mem_filter.2 ⟨hm, ?_⟩)
      simp [hi]

theorem admitKey_other {l : Limit} {max n : Nat} {k k' : Ip} {t : Table} (h : k' ≠ k) :
    get k' (admitKey l max n k t).2 = get k' t := by
  unfold admitKey admitNew
  split
  · exact Net.get_put_ne h _ _
  · split
    · exact Net.get_put_ne h _ _
    · rfl

/-- What a key could spend at time `n`: the level of its bucket, a full bucket when it has none. -/
def lvl (l : Limit) (n : Nat) : Option Bucket → Nat
  | none => l.capacity
  | some b => b.replenished n l

theorem lvl_le (l : Limit) (n : Nat) (x : Option Bucket) : lvl l n x ≤ l.capacity := by
  cases x with
  | none => exact Nat.le_refl _
  | some b => exact replenished_le b n l

theorem lvl_step (l : Limit) (t n : Nat) (x : Option Bucket) :
    lvl l n x ≤ lvl l t x + (n - t) * l.rate := by
  cases x with
  | none => exact Nat.le_add_right _ _
  | some b => exact replenished_step b l t n

/-- Cost of an answer. -/
def Pass.cost : Pass → Nat
  | .counted => unit
  | _ => 0

theorem cost_ofBool (b : Bool) : (Pass.ofBool b).cost = if b then unit else 0 := by cases b <;> rfl

theorem ofBool_ne (b : Bool) : Pass.ofBool b ≠ .untracked := by cases b <;> decide

/-- A counted or refused request leaves a bucket with what the key had, less its cost. -/
theorem admitKey_lvl {l : Limit} {max n : Nat} {k : Ip} {t : Table}
    (h : (admitKey l max n k t).1 ≠ .untracked) :
    ∃ b, get k (admitKey l max n k t).2 = some b ∧ b.last = n ∧
      b.tokens + (admitKey l max n k t).1.cost = lvl l n (get k t) := by
  unfold admitKey admitNew at h ⊢
  split
  · rename_i b hb
    refine ⟨_, Net.get_put_self _ _ _, tryAdmit_last .., ?_⟩
    rw [cost_ofBool, hb]
    exact tryAdmit_tokens b n l
  · rename_i hb
    split
    · refine ⟨_, Net.get_put_self _ _ _, tryAdmit_last .., ?_⟩
      rw [cost_ofBool, tryAdmit_tokens, full_replenished, hb]; rfl
    · rename_i hf
      rw [hb] at h
      simp only [hf, if_false] at h
      exact absurd rfl h

/-- A request is let through uncounted only when it has no bucket and the table is full. -/
theorem admitKey_untracked {l : Limit} {max n : Nat} {k : Ip} {t : Table}
    (h : (admitKey l max n k t).1 = .untracked) :
    get k t = none ∧ max ≤ t.length ∧ (admitKey l max n k t).2 = t := by
  unfold admitKey admitNew at h ⊢
  split at h
  · exact absurd h (ofBool_ne _)
  · rename_i hb
    split at h
    · exact absurd h (ofBool_ne _)
    · rename_i hf
      exact ⟨hb, by omega, by simp only [hf, if_false]⟩

theorem sweep_lvl {l : Limit} {n : Nat} {t : Table} (hn : (keys t).Nodup) (k : Ip) :
    lvl l n (get k (sweep l n t)) = lvl l n (get k t) := by
  rw [get_sweep hn]
  cases hg : get k t with
  | none => rfl
  | some b =>
    by_cases hi : b.isIdle n l = true
    · have : Option.filter (fun b => !b.isIdle n l) (some b) = none := by simp [Option.filter, hi]
      rw [this]
      have h1 := of_decide_eq_true hi
      exact (Nat.le_antisymm (replenished_le b n l) h1).symm
    · have : Option.filter (fun b => !b.isIdle n l) (some b) = some b := by
        simp [Option.filter, hi]
      rw [this]

theorem admittedOf_cons_other {k k' : Ip} {n : Nat} {p : Pass} {w : List TEv} (h : k' ≠ k) :
    admittedOf k (.took k' n p :: w) = admittedOf k w := by
  cases p <;> simp [admittedOf, h]

theorem admittedOf_cons_self {k : Ip} {n : Nat} {p : Pass} {w : List TEv} :
    admittedOf k (.took k n p :: w) * unit = admittedOf k w * unit + p.cost := by
  cases p <;> simp [admittedOf, Pass.cost, Nat.add_mul]

theorem thist_bound_from (l : Limit) (max : Nat) (k : Ip) (t t' : Table) (w : List TEv) (s : Nat)
    (hn : (keys t).Nodup) (htr : tracked k w) (h : THist l max t w t') :
    admittedOf k w * unit ≤ lvl l s (get k t) + l.rate * rise (s :: timesOf k w) := by
  induction w generalizing t s with
  | nil => simp [admittedOf]
  | cons e w ih =>
    have htr' : tracked k w := fun n hm => htr n (List.mem_cons_of_mem _ hm)
    cases e with
    | took k' n p =>
      obtain ⟨h1, h2⟩ := h
      by_cases hk : k' = k
      · subst hk
        have hp : p ≠ .untracked := fun hp => htr n (by rw [hp]; simp)
        obtain ⟨b, hb, hl, ht⟩ := admitKey_lvl (l := l) (max := max) (n := n) (k := k') (t := t)
          (by rw [h1]; exact hp)
        rw [h1] at ht
        have i := ih _ n (admitKey_nodup hn) htr' h2
        rw [hb] at i
        have e2 : lvl l n (some b) = b.tokens :=
          replenished_self _ _ _ hl (by have := lvl_le l n (get k' t); omega)
        rw [e2] at i
        have e3 := lvl_step l s n (get k' t)
        have e4 : timesOf k' (.took k' n p :: w) = n :: timesOf k' w := by simp [timesOf]
        rw [e4, rise_cons_cons, Nat.mul_add, Nat.mul_comm l.rate (n - s), admittedOf_cons_self]
        omega
      · have e4 : timesOf k (.took k' n p :: w) = timesOf k w := by simp [timesOf, hk]
        have i := ih _ s (admitKey_nodup hn) htr' h2
        rw [admitKey_other (fun e => hk e.symm)] at i
        rw [e4, admittedOf_cons_other hk]
        exact i
    | swept n =>
      have i := ih _ n (sweep_nodup hn) htr' h
      rw [sweep_lvl hn] at i
      have e3 := lvl_step l s n (get k t)
      have e4 : timesOf k (.swept n :: w) = n :: timesOf k w := by simp [timesOf]
      have e5 : admittedOf k (.swept n :: w) = admittedOf k w := by simp [admittedOf]
      rw [e4, e5, rise_cons_cons, Nat.mul_add, Nat.mul_comm l.rate (n - s)]
      omega

theorem thist_bound (l : Limit) (max : Nat) (k : Ip) (t t' : Table) (w : List TEv)
    (hn : (keys t).Nodup) (htr : tracked k w) (h : THist l max t w t') :
    admittedOf k w * unit ≤ l.burst * unit + l.rate * rise (timesOf k w) := by
  have hc : ∀ s, lvl l s (get k t) ≤ l.burst * unit := fun s => lvl_le l s _
  cases ht : timesOf k w with
  | nil =>
    have := thist_bound_from l max k t t' w 0 hn htr h
    rw [ht] at this
    have h0 := hc 0
    simp only [rise] at this ⊢
    omega
  | cons s r =>
    have := thist_bound_from l max k t t' w s hn htr h
    rw [ht, rise_cons_cons, Nat.sub_self, Nat.zero_add] at this
    have h0 := hc s
    omega

theorem thist_nodup {l : Limit} {max : Nat} {t t' : Table} {w : List TEv} (hn : (keys t).Nodup)
    (h : THist l max t w t') : (keys t').Nodup := by
  induction w generalizing t with
  | nil => cases h; exact hn
  | cons e w ih =>
    cases e with
    | took k n p => exact ih (admitKey_nodup hn) h.2
    | swept n => exact ih (sweep_nodup hn) h

theorem thist_length {l : Limit} {max : Nat} {t t' : Table} {w : List TEv} (hn : (keys t).Nodup)
    (hl : t.length ≤ max) (h : THist l max t w t') : t'.length ≤ max := by
  induction w generalizing t with
  | nil => cases h; exact hl
  | cons e w ih =>
    cases e with
    | took k n p => exact ih (admitKey_nodup hn) (admitKey_length hl) h.2
    | swept n =>
      exact ih (sweep_nodup hn) (Nat.le_trans (List.length_filter_le _ _) hl) h

theorem admittedOf_append (k : Ip) (u v : List TEv) :
    admittedOf k (u ++ v) = admittedOf k u + admittedOf k v := by
  unfold admittedOf; rw [List.filter_append, List.length_append]

theorem ownTimes_append (k : Ip) (u v : List TEv) :
    ownTimes k (u ++ v) = ownTimes k u ++ ownTimes k v := by
  unfold ownTimes; rw [List.filterMap_append]

theorem spent_extend {l : Limit} {k : Ip} {a1 r : List TEv} {n : Nat} {p : Pass} {b : Bucket}
    (e : TEv) (h0 : admittedOf k [e] = 0) (h1 : ownTimes k [e] = [])
    (hb : l.capacity + l.rate * rise (n :: ownTimes k r)
      ≤ b.tokens + admittedOf k (.took k n p :: r) * unit)
    (hl : (n :: ownTimes k r).getLast? = some b.last) :
    ∃ a2 n' p' r', (a1 ++ .took k n p :: r) ++ [e] = a2 ++ .took k n' p' :: r' ∧
      l.capacity + l.rate * rise (n' :: ownTimes k r')
        ≤ b.tokens + admittedOf k (.took k n' p' :: r') * unit ∧
      (n' :: ownTimes k r').getLast? = some b.last := by
  refine ⟨a1, n, p, r ++ [e], by simp, ?_, ?_⟩
  · have e1 : ownTimes k (r ++ [e]) = ownTimes k r := by rw [ownTimes_append, h1]; simp
    have e2 : admittedOf k (.took k n p :: (r ++ [e])) = admittedOf k (.took k n p :: r) := by
      have : (TEv.took k n p :: (r ++ [e])) = (.took k n p :: r) ++ [e] := by simp
      rw [this, admittedOf_append, h0]; rfl
    rw [e1, e2]; exact hb
  · have e1 : ownTimes k (r ++ [e]) = ownTimes k r := by rw [ownTimes_append, h1]; simp
    rw [e1]; exact hl

/-- A key's bucket lacks only what requests of this key were let through since some request of this
key at which it was full. -/
theorem thist_spent (l : Limit) (max : Nat) (k : Ip) (a : List TEv) (m : Table)
    (h : THist l max [] a m) (b : Bucket) (hb : get k m = some b) :
    ∃ a1 n p r, a = a1 ++ .took k n p :: r ∧
      l.capacity + l.rate * rise (n :: ownTimes k r)
        ≤ b.tokens + admittedOf k (.took k n p :: r) * unit ∧
      (n :: ownTimes k r).getLast? = some b.last := by
  induction a using List.reverseRecOn generalizing m b with
  | nil => cases h; cases hb
  | append_singleton a e ih =>
    obtain ⟨q, hq, h1⟩ := (thist_append ..).1 h
    have hnq : (keys q).Nodup := thist_nodup (by simp [keys]) hq
    cases e with
    | took k' t p =>
      obtain ⟨hp, h2⟩ := h1
      change m = _ at h2
      by_cases hk : k' = k
      · subst hk
        by_cases hu : p = .untracked
        · obtain ⟨hn, _, hs⟩ := admitKey_untracked (hp.trans hu)
          rw [h2, hs, hn] at hb; cases hb
        · obtain ⟨b', hb', hl', ht'⟩ := admitKey_lvl (l := l) (max := max) (n := t) (k := k') (t := q)
            (by rw [hp]; exact hu)
          rw [← h2, hb] at hb'
          cases hb'
          rw [hp] at ht'
          by_cases hcl : lvl l t (get k' q) = l.capacity
          · refine ⟨a, t, p, [], rfl, ?_, by simp [ownTimes, hl']⟩
            rw [hcl] at ht'
            have z : rise (t :: ownTimes k' []) = 0 := rfl
            rw [z, admittedOf_cons_self, Nat.mul_zero, Nat.add_zero]
            have : admittedOf k' [] = 0 := rfl
            rw [this]; omega
          · cases hg : get k' q with
            | none => rw [hg] at hcl; exact absurd rfl hcl
            | some c =>
              obtain ⟨a1, n, p', r, rfl, hc, hlc⟩ := ih q hq c hg
              rw [hg] at ht' hcl
              have hr : lvl l t (some c) = c.tokens + (t - c.last) * l.rate := by
                have : ¬ c.replenished t l = l.capacity := hcl
                show c.replenished t l = _
                unfold Bucket.replenished at this ⊢; omega
              refine ⟨a1, n, p', r ++ [.took k' t p], by simp, ?_, ?_⟩
              · have e1 : n :: ownTimes k' (r ++ [.took k' t p]) = (n :: ownTimes k' r) ++ [t] := by
                  rw [ownTimes_append]; simp [ownTimes]
                have e2 : admittedOf k' (.took k' n p' :: (r ++ [.took k' t p])) * unit
                    = admittedOf k' (.took k' n p' :: r) * unit + p.cost := by
                  have : (TEv.took k' n p' :: (r ++ [.took k' t p]))
                      = (.took k' n p' :: r) ++ [.took k' t p] := by simp
                  have z : admittedOf k' [.took k' t p] * unit = p.cost := by
                    rw [admittedOf_cons_self]; simp [admittedOf]
                  rw [this, admittedOf_append, Nat.add_mul, z]
                rw [e1, e2, rise_snoc _ _ _ hlc, Nat.mul_add, Nat.mul_comm l.rate (t - c.last)]
                rw [hr] at ht'
                omega
              · have e1 : n :: ownTimes k' (r ++ [.took k' t p]) = (n :: ownTimes k' r) ++ [t] := by
                  rw [ownTimes_append]; simp [ownTimes]
                rw [e1, List.getLast?_concat, hl']
      · rw [h2, admitKey_other (fun e => hk e.symm)] at hb
        obtain ⟨a1, n, p', r, rfl, hc, hlc⟩ := ih q hq b hb
        exact spent_extend _ (by rw [admittedOf_cons_other hk]; rfl) (by simp [ownTimes, hk]) hc hlc
    | swept t =>
      change m = _ at h1
      rw [h1, get_sweep hnq] at hb
      have hb' : get k q = some b := by
        cases hg : get k q with
        | none => rw [hg] at hb; cases hb
        | some c =>
          rw [hg] at hb
          by_cases hi : c.isIdle t l = true
          · simp [Option.filter, hi] at hb
          · simp [Option.filter, hi] at hb; rw [hb]
      obtain ⟨a1, n, p', r, rfl, hc, hlc⟩ := ih q hq b hb'
      exact spent_extend _ rfl rfl hc hlc

end Verif.Gate
