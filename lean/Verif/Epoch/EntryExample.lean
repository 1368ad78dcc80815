import Verif.Epoch.EntryProps

/-!
# Epoch entry: the committee map, and a concrete history with a burn
-/
namespace Verif.Entry
open Verif

/-- The fold of `members`. -/
def put (l : List (Nat × Nat)) (m : Members) : Members :=
  l.foldl (fun m p => fun k => if k = p.1 then some p.2 else m k) m

theorem put_notMem : ∀ (l : List (Nat × Nat)) (m : Members) (k : Nat), k ∉ l.map Prod.fst →
    put l m k = m k := by
  intro l
  induction l with
  | nil => intro m k _; rfl
  | cons p l ih =>
    intro m k hk
    rw [List.map_cons, List.mem_cons, not_or] at hk
    show put l _ k = _
    rw [ih _ k hk.2]
    exact if_neg hk.1

theorem put_mem : ∀ (l : List (Nat × Nat)) (m : Members) (k a : Nat), (l.map Prod.fst).Nodup →
    (put l m k = some a ↔ (k, a) ∈ l ∨ (k ∉ l.map Prod.fst ∧ m k = some a)) := by
  intro l
  induction l with
  | nil => intro m k a _; simp [put]
  | cons p l ih =>
    intro m k a hn
    rw [List.map_cons, List.nodup_cons] at hn
    show put l _ k = _ ↔ _
    rw [ih _ k a hn.2]
    simp only [List.mem_cons, List.map_cons, not_or]
    by_cases hk : k = p.1
    · subst hk
      constructor
      · rintro (h | ⟨h, h2⟩)
        · exact .inl (.inr h)
        · rw [if_pos rfl] at h2
          cases h2
          exact .inl (.inl rfl)
      · rintro ((h | h) | ⟨⟨h, _⟩, _⟩)
        · refine .inr ⟨hn.1, ?_⟩
          rw [if_pos rfl, ← h]
        · exact .inl h
        · exact absurd rfl h
    · rw [if_neg hk]
      constructor
      · rintro (h | ⟨h, h2⟩)
        · exact .inl (.inr h)
        · exact .inr ⟨⟨hk, h⟩, h2⟩
      · rintro ((h | h) | ⟨⟨_, h⟩, h2⟩)
        · rw [← h] at hk; exact absurd rfl hk
        · exact .inl h
        · exact .inr ⟨h, h2⟩

theorem mapM_getElem? {α β : Type} (f : α → Option β) : ∀ (l : List α) (r : List β),
    l.mapM f = some r → l.length = r.length ∧
      ∀ (i : Nat) (a : α), l[i]? = some a → ∃ b, f a = some b ∧ r[i]? = some b := by
  intro l
  induction l with
  | nil =>
    intro r h
    have : r = [] := by simpa using h.symm
    subst this
    exact ⟨rfl, fun i a h => by simp at h⟩
  | cons x l ih =>
    intro r h
    rw [List.mapM_cons] at h
    obtain ⟨b, hb, h⟩ := Option.bind_eq_some_iff.mp h
    obtain ⟨r', hr', h⟩ := Option.bind_eq_some_iff.mp h
    have : r = b :: r' := by simpa using h.symm
    subst this
    obtain ⟨h1, h2⟩ := ih r' hr'
    refine ⟨by simp [h1], ?_⟩
    intro i a ha
    cases i with
    | zero =>
      simp only [List.getElem?_cons_zero, Option.some.injEq] at ha
      subst ha
      exact ⟨b, hb, by simp⟩
    | succ i =>
      simp only [List.getElem?_cons_succ] at ha ⊢
      exact h2 i a ha

/-- **C92.** With equally long arrays and distinct decoded keys, the committee is exactly the
registry's pairing of addresses and keys. -/
theorem members_spec {decode : Nat → Option Nat} {vals keys : List Nat} {m : Members}
    (hlen : vals.length = keys.length) (h : members decode vals keys = some m)
    (hinj : ∀ (i j : Nat) (a b : Nat) (k : Nat), keys[i]? = some a → keys[j]? = some b →
      decode a = some k → decode b = some k → i = j) (k v : Nat) :
    m k = some v ↔ ∃ (i : Nat) (raw : Nat),
      keys[i]? = some raw ∧ decode raw = some k ∧ vals[i]? = some v := by
  unfold members at h
  obtain ⟨l, hl, rfl⟩ := Option.map_eq_some_iff.mp h
  obtain ⟨hll, hget⟩ := mapM_getElem? _ _ _ hl
  have hz : (vals.zip keys).length = vals.length := by rw [List.length_zip]; omega
  have hchar : ∀ (i : Nat) (q : Nat × Nat), l[i]? = some q →
      ∃ raw, keys[i]? = some raw ∧ decode raw = some q.1 ∧ vals[i]? = some q.2 := by
    intro i q hq
    have hi : i < (vals.zip keys).length := by
      rw [hll]; exact (List.getElem?_eq_some_iff.mp hq).1
    obtain ⟨b, hb, hb2⟩ := hget i _ (List.getElem?_eq_getElem hi)
    rw [hq] at hb2
    cases hb2
    rw [List.getElem_zip] at hb
    obtain ⟨k', hk', hkk⟩ := Option.map_eq_some_iff.mp hb
    refine ⟨keys[i]'(by omega), List.getElem?_eq_getElem _, ?_, ?_⟩
    · rw [← hkk]; exact hk'
    · rw [← hkk]; exact List.getElem?_eq_getElem (by omega)
  have hnd : (l.map Prod.fst).Nodup := by
    rw [List.nodup_iff_injective_get]
    intro i j hij
    have hi : i.1 < l.length := Nat.lt_of_lt_of_eq i.2 (List.length_map _)
    have hj : j.1 < l.length := Nat.lt_of_lt_of_eq j.2 (List.length_map _)
    simp only [List.get_eq_getElem, List.getElem_map] at hij
    obtain ⟨a, ha1, ha2, _⟩ := hchar i.1 _ (List.getElem?_eq_getElem hi)
    obtain ⟨b, hb1, hb2, _⟩ := hchar j.1 _ (List.getElem?_eq_getElem hj)
    rw [hij] at ha2
    exact Fin.ext (hinj _ _ a b _ ha1 hb1 ha2 hb2)
  have hp := put_mem l (fun _ => none) k v hnd
  show put l (fun _ => none) k = some v ↔ _
  rw [hp]
  constructor
  · rintro (hm | ⟨_, hc⟩)
    · obtain ⟨i, hi⟩ := List.mem_iff_getElem?.mp hm
      obtain ⟨raw, h1, h2, h3⟩ := hchar i _ hi
      exact ⟨i, raw, h1, h2, h3⟩
    · cases hc
  · rintro ⟨i, raw, h1, h2, h3⟩
    left
    have hi : i < vals.length := (List.getElem?_eq_some_iff.mp h3).1
    have hik : i < keys.length := by omega
    obtain ⟨b, hb, hb2⟩ := hget i _ (List.getElem?_eq_getElem (by omega))
    rw [List.getElem_zip] at hb
    have e1 : vals[i] = v := by
      rw [List.getElem?_eq_getElem hi] at h3; exact Option.some.inj h3
    have e2 : keys[i] = raw := by
      rw [List.getElem?_eq_getElem hik] at h1; exact Option.some.inj h1
    rw [e1, e2, h2] at hb
    have hbb : (k, v) = b := by simpa using hb
    subst hbb
    exact List.mem_iff_getElem?.mpr ⟨i, hb2⟩

/-- **Finding.** Arrays of unequal length are not rejected: the committee silently loses the members
whose key (or address) is missing. -/
theorem members_truncates :
    ∃ m, members some [10, 11, 12] [1, 2] = some m ∧ m 1 = some 10 ∧ m 2 = some 11 ∧
      ∀ k, m k ≠ some 12 := by
  refine ⟨_, rfl, rfl, rfl, ?_⟩
  intro k h
  simp at h
  split at h
  · cases h
  · split at h <;> cases h

/-- **Finding.** Two validators with one key become one member. -/
theorem members_merges :
    ∃ m, members some [10, 11] [7, 7] = some m ∧ m 7 = some 11 ∧ ∀ k, m k ≠ some 10 := by
  refine ⟨_, rfl, rfl, ?_⟩
  intro k h
  simp at h
  split at h <;> cases h

/-! ## A history with a burn in the middle of epoch 1 -/

/-- Committees before the burn. -/
def reg0 : Reg :=
  { epoch := 0, info := fun _ => ⟨0, 100⟩, vals := fun _ => [10, 11, 12, 13],
    keys := fun _ => [1, 2, 3, 4], rows := [⟨.eip1559 30000000, 0⟩] }

/-- After the closing block of epoch 0 (block 2). -/
def reg1 : Reg :=
  { reg0 with epoch := 1, info := fun e => if e = 1 then ⟨3, 200⟩ else ⟨0, 100⟩
              rows := [⟨.eip1559 30000000, 9⟩] }

/-- After the burn of validator 13 (block 3). -/
def reg2 : Reg :=
  { reg1 with vals := fun e => if e = 0 then [10, 11, 12, 13] else [10, 11, 12]
              keys := fun e => if e = 0 then [1, 2, 3, 4] else [1, 2, 3] }

/-- Genesis, one block, the closing block, the burn, one more block. -/
def history : List Blk :=
  [{ number := 0, time := 1000, reg := reg0 }, { number := 1, time := 1050, reg := reg0 },
   { number := 2, time := 1101, reg := reg1 }, { number := 3, time := 1150, reg := reg2 },
   { number := 4, time := 1160, reg := reg2 }]

theorem history_valid : Valid history := by
  refine ⟨?_, ?_⟩
  · intro g hg; cases hg; exact ⟨rfl, rfl, rfl⟩
  · intro i p b hp hb
    match i, hp, hb with
    | 0, hp, hb =>
      cases hp; cases hb
      exact .inl ⟨rfl, rfl, fun e _ => rfl⟩
    | 1, hp, hb =>
      cases hp; cases hb
      refine .inr ⟨rfl, rfl, rfl, fun e he => ?_⟩
      obtain rfl : e = 0 := by simpa [reg0] using he
      rfl
    | 2, hp, hb =>
      cases hp; cases hb
      exact .inl ⟨rfl, rfl, fun e _ => rfl⟩
    | 3, hp, hb =>
      cases hp; cases hb
      exact .inl ⟨rfl, rfl, fun e _ => rfl⟩
    | n + 4, _, hb => simp [history] at hb

/-- A schedule with one fault on every retried read. -/
def flaky : Sched :=
  { state := fun i => { tip := decide (i = 0) }, guard := fun i => decide (i = 0)
    fees := fun i => decide (i = 1), count := false, neigh := fun i => decide (i < 2) }

theorem flaky_ok : Tolerable flaky :=
  ⟨⟨1, by decide, rfl, rfl, rfl⟩, ⟨1, by decide, rfl⟩, ⟨0, by decide, rfl⟩, rfl,
    ⟨2, by decide, rfl⟩⟩

/-- Entering at the closing block and re-entering after the burn give the same committee of four,
boundary and fees, although the registry at the later tip lists three members. -/
theorem burn_does_not_move_the_epoch :
    ∃ r r', enter some (fun _ => none) true history history[2] flaky [] = .ok r ∧
      enter some (fun _ => none) true history history[4] flaky [] = .ok r' ∧
      r.epoch = 1 ∧ r.boundary = 1301 ∧ r.pin = 2 ∧ r'.boundary = 1301 ∧ r'.pin = 2 ∧
      r.committee 4 = some 13 ∧ r'.committee 4 = some 13 ∧
      (history[4].reg.keys 1 = [1, 2, 3]) ∧ r'.slots.map (·.fee) = [9] :=
  ⟨_, _, rfl, rfl, rfl, rfl, rfl, rfl, rfl, rfl, rfl, rfl, rfl⟩

/-- Reading the state at the tip instead would lose the burnt validator. -/
theorem tip_read_differs :
    ∃ st st', epochStateAt history false false history[2] = .ok st ∧
      epochStateAt history false false history[4] = .ok st' ∧ st.epoch = st'.epoch ∧
      st.start = st'.start ∧ st.keys ≠ st'.keys :=
  ⟨_, _, rfl, rfl, rfl, rfl, by decide⟩

/-- The hypotheses of `enter_ok` and `range_spec` are met by the history. -/
theorem history_start : IsStart history 1 history[2] := by
  refine ⟨rfl, rfl, ?_⟩
  intro j p hp hj
  have hj' : j < 2 := hj
  match j, hp, hj' with
  | 0, hp, _ => cases hp; decide
  | 1, hp, _ => cases hp; decide

end Verif.Entry
