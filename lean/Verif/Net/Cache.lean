import Mathlib.Data.List.Basic
import Mathlib.Data.List.Nodup
import Mathlib.Data.List.Perm.Basic

/-!
# The reconnection time-out: `BannedPeerCache`

Models `crates/network-libp2p/src/peers/cache.rs`.  Keys are numbers, `Instant` is a number and
each call receives the reading of the clock.  The two `expect`s are kept: a call that would
panic returns `none`.
-/

namespace Verif.Net.TempBan

abbrev Key := Nat

/-- `BannedPeerCache` (`cache.rs:76-88`); `map` is a set -/
structure Cache where
  map : List Key
  list : List (Key × Nat)
  dur : Nat
  maxLen : Nat
  deriving DecidableEq, Repr

/-- `BannedPeerCache::new` (`cache.rs:99-107`) -/
def Cache.new (dur maxLen : Nat) : Cache := ⟨[], [], dur, max maxLen 1⟩

namespace Cache

/-- `contains` (`cache.rs:211-213`) -/
def contains (k : Key) (c : Cache) : Bool := decide (k ∈ c.map)

/-- the removal of the entry at the position of the key, `none` without such a position
(`cache.rs:158-159, 177-178`) -/
def takeOut (k : Key) (l : List (Key × Nat)) : Option (List (Key × Nat)) :=
  (l.findIdx? fun e => e.1 == k).map l.eraseIdx

/-- the overflow of a fresh insertion (`cache.rs:149-155`) -/
def overflow (c : Cache) : Cache × Option Key :=
  if c.maxLen < c.list.length then
    match c.list with
    | [] => (c, none)
    | e :: r => ({ c with map := c.map.erase e.1, list := r }, some e.1)
  else (c, none)

/-- `insert` (`cache.rs:137-169`): the new cache, whether the key is new, the evicted key -/
def insert (k : Key) (now : Nat) (c : Cache) : Option (Cache × Bool × Option Key) :=
  if k ∈ c.map then
    (takeOut k c.list).map fun l => ({ c with list := l ++ [(k, now)] }, false, none)
  else
    let r := overflow { c with map := k :: c.map, list := c.list ++ [(k, now)] }
    some (r.1, true, r.2)

/-- `remove` (`cache.rs:174-182`) -/
def remove (k : Key) (c : Cache) : Option (Cache × Bool) :=
  if k ∈ c.map then
    (takeOut k c.list).map fun l => ({ c with map := c.map.erase k, list := l }, true)
  else some (c, false)

/-- the loop of `heartbeat` (`cache.rs:196-203`): the map, the list and the removed keys -/
def expire (dur now : Nat) : List Key → List (Key × Nat) → List Key × List (Key × Nat) × List Key
  | m, [] => (m, [], [])
  | m, e :: l =>
    if now < e.2 + dur then (m, e :: l, [])
    else
      let r := expire dur now (m.erase e.1) l
      (r.1, r.2.1, e.1 :: r.2.2)

/-- `heartbeat` (`cache.rs:188-209`) -/
def heartbeat (now : Nat) (c : Cache) : Cache × List Key :=
  let r := expire c.dur now c.map c.list
  ({ c with map := r.1, list := r.2.1 }, r.2.2)

end Cache

/-- the calls of the peer manager -/
inductive Op where
  | insert (k : Key)
  | remove (k : Key)
  | heartbeat
  deriving DecidableEq, Repr

/-- one call: the cache after it and the keys it reports as released -/
def Op.run (now : Nat) (c : Cache) : Op → Option (Cache × List Key)
  | .insert k => (c.insert k now).map fun r => (r.1, r.2.2.toList)
  | .remove k => (c.remove k).map fun r => (r.1, [])
  | .heartbeat => some (c.heartbeat now)

/-- a history of calls with their times; `none` if one panics -/
def run : List (Nat × Op) → Cache → Option Cache
  | [], c => some c
  | (t, o) :: l, c => (o.run t c).bind fun r => run l r.1

/-! ## Specification, from the history alone -/

/-- the time of the last insertion of the key -/
def lastInsert (k : Key) : List (Nat × Op) → Option Nat
  | [] => none
  | (t, o) :: l => (lastInsert k l).or (if o = .insert k then some t else none)

/-- a clock that does not run backwards -/
def Monotone (l : List (Nat × Op)) : Prop := (l.map Prod.fst).Pairwise (· ≤ ·)

/-! ## Invariant -/

/-- set and list have the same keys, each once; the list is in order of time and within the cap -/
structure Inv (c : Cache) : Prop where
  nodupMap : c.map.Nodup
  nodup : (c.list.map Prod.fst).Nodup
  same : ∀ k, k ∈ c.map ↔ k ∈ c.list.map Prod.fst
  sorted : (c.list.map Prod.snd).Pairwise (· ≤ ·)
  size : c.list.length ≤ c.maxLen
  pos : 1 ≤ c.maxLen

/-- every entry carries a time of the past -/
def Past (c : Cache) (now : Nat) : Prop := ∀ e ∈ c.list, e.2 ≤ now

theorem inv_new (dur n : Nat) : Inv (Cache.new dur n) :=
  ⟨List.nodup_nil, List.nodup_nil, fun _ => by simp [Cache.new], List.Pairwise.nil,
    by simp [Cache.new], Nat.le_max_right _ _⟩

theorem takeOut_some {k : Key} : ∀ {l : List (Key × Nat)}, (l.map Prod.fst).Nodup →
    k ∈ l.map Prod.fst → Cache.takeOut k l = some (l.filter fun e => !(e.1 == k)) := by
  intro l
  induction l with
  | nil => intro _ h; cases h
  | cons e l ih =>
    intro hn hm
    unfold Cache.takeOut at ih ⊢
    rw [List.map_cons, List.nodup_cons] at hn
    rw [List.findIdx?_cons]
    by_cases he : e.1 = k
    · have h1 : (e.1 == k) = true := beq_iff_eq.mpr he
      rw [if_pos h1, List.filter_cons, h1]
      have : l.filter (fun e => !(e.1 == k)) = l := by
        rw [List.filter_eq_self]
        intro x hx
        have : x.1 ≠ k := by
          intro hxk
          exact hn.1 (he ▸ hxk ▸ List.mem_map_of_mem hx)
        simp [this]
      simp [this]
    · have h1 : ¬ (e.1 == k) = true := fun h => he (beq_iff_eq.mp h)
      rw [if_neg h1]
      have hm' : k ∈ l.map Prod.fst := by
        rw [List.map_cons, List.mem_cons] at hm
        exact hm.resolve_left fun h => he h.symm
      have := ih hn.2 hm'
      rw [Option.map_eq_some_iff] at this
      obtain ⟨i, hi, hr⟩ := this
      rw [hi]
      simp [List.filter_cons, he, hr]

theorem mem_filter_keys {k k' : Key} {l : List (Key × Nat)} :
    k' ∈ (l.filter fun e => !(e.1 == k)).map Prod.fst ↔ k' ≠ k ∧ k' ∈ l.map Prod.fst := by
  constructor
  · intro h
    obtain ⟨e, he, rfl⟩ := List.mem_map.mp h
    rw [List.mem_filter] at he
    refine ⟨?_, List.mem_map_of_mem he.1⟩
    intro h; simp [h] at he
  · rintro ⟨h1, h2⟩
    obtain ⟨e, he, rfl⟩ := List.mem_map.mp h2
    refine List.mem_map_of_mem (List.mem_filter.mpr ⟨he, ?_⟩)
    simpa using h1

theorem expire_spec (dur now : Nat) : ∀ (m : List Key) (l : List (Key × Nat)),
    m.Nodup → (l.map Prod.fst).Nodup → (∀ k, k ∈ m ↔ k ∈ l.map Prod.fst) →
    (l.map Prod.snd).Pairwise (· ≤ ·) →
      (Cache.expire dur now m l).2.1 = l.filter (fun e => decide (now < e.2 + dur)) ∧
      (Cache.expire dur now m l).2.2 =
        (l.filter (fun e => !decide (now < e.2 + dur))).map Prod.fst ∧
      (Cache.expire dur now m l).1.Nodup ∧
      (∀ k, k ∈ (Cache.expire dur now m l).1 ↔
        k ∈ (l.filter (fun e => decide (now < e.2 + dur))).map Prod.fst) := by
  intro m l
  induction l generalizing m with
  | nil => intro h1 _ h3 _; exact ⟨rfl, rfl, h1, h3⟩
  | cons e l ih =>
    intro h1 h2 h3 h4
    rw [Cache.expire]
    rw [List.map_cons, List.pairwise_cons] at h4
    split
    · next hlt =>
      have hall : ∀ x ∈ e :: l, now < x.2 + dur := by
        intro x hx
        rcases List.mem_cons.mp hx with rfl | hx
        · exact hlt
        · have := h4.1 x.2 (List.mem_map_of_mem hx)
          omega
      have hf : (e :: l).filter (fun e => decide (now < e.2 + dur)) = e :: l := by
        rw [List.filter_eq_self]; intro x hx; exact decide_eq_true (hall x hx)
      have hf2 : (e :: l).filter (fun e => !decide (now < e.2 + dur)) = [] := by
        rw [List.filter_eq_nil_iff]; intro x hx
        rw [decide_eq_true (hall x hx)]; exact Bool.false_ne_true
      rw [hf, hf2]
      exact ⟨rfl, rfl, h1, h3⟩
    · next hlt =>
      rw [List.map_cons, List.nodup_cons] at h2
      have hr := ih (m.erase e.1) (h1.erase _) h2.2 ?_ h4.2
      · dsimp only
        have hd : decide (now < e.2 + dur) = false := decide_eq_false hlt
        simp only [List.filter_cons, hd]
        refine ⟨hr.1, ?_, hr.2.2.1, hr.2.2.2⟩
        rw [hr.2.1]; rfl
      · intro k
        rw [h1.mem_erase_iff, h3, List.map_cons, List.mem_cons]
        constructor
        · rintro ⟨hne, h | h⟩
          · exact absurd h hne
          · exact h
        · intro h
          exact ⟨fun he => h2.1 (he ▸ h), .inr h⟩

theorem past_mono {c : Cache} {a b : Nat} (h : Past c a) (hab : a ≤ b) : Past c b :=
  fun e he => Nat.le_trans (h e he) hab

theorem sorted_snoc {l : List (Key × Nat)} {k : Key} {now : Nat}
    (h : (l.map Prod.snd).Pairwise (· ≤ ·)) (hp : ∀ e ∈ l, e.2 ≤ now) :
    ((l ++ [(k, now)]).map Prod.snd).Pairwise (· ≤ ·) := by
  rw [List.map_append, List.pairwise_append]
  refine ⟨h, by simp, ?_⟩
  intro a ha b hb
  obtain ⟨e, he, rfl⟩ := List.mem_map.mp ha
  simp only [List.map_cons, List.map_nil, List.mem_singleton] at hb
  subst hb
  exact hp e he

/-- one insertion -/
theorem insert_spec {c : Cache} (h : Inv c) {now : Nat} (hp : Past c now) (k : Key) :
    ∃ c' n ev, c.insert k now = some (c', n, ev) ∧ Inv c' ∧ Past c' now ∧ c'.dur = c.dur ∧
      c'.maxLen = c.maxLen ∧ (k, now) ∈ c'.list ∧
      (∀ e, e ∈ c'.list ↔ e = (k, now) ∨ (e ∈ c.list ∧ e.1 ≠ k ∧ ev ≠ some e.1)) ∧
      (∀ v, ev = some v → v ≠ k ∧ k ∉ c.map ∧ c.list.length = c.maxLen ∧ ∃ t, (v, t) ∈ c.list ∧
        ∀ e ∈ c'.list, t ≤ e.2) := by
  unfold Cache.insert
  split
  · next hm =>
    rw [takeOut_some h.nodup ((h.same k).mp hm)]
    refine ⟨_, _, _, rfl, ⟨h.nodupMap, ?_, ?_, ?_, ?_, h.pos⟩, ?_, rfl, rfl, ?_, ?_, ?_⟩
    · dsimp only
      rw [List.map_append, List.nodup_append]
      refine ⟨h.nodup.sublist ((List.filter_sublist).map _), by simp, ?_⟩
      intro a ha b hb
      rw [mem_filter_keys] at ha
      simp only [List.map_cons, List.map_nil, List.mem_singleton] at hb
      rw [hb]; exact ha.1
    · intro k'
      dsimp only
      rw [List.map_append, List.mem_append, mem_filter_keys, h.same]
      simp only [List.map_cons, List.map_nil, List.mem_singleton]
      constructor
      · intro h'
        by_cases hk : k' = k
        · exact .inr hk
        · exact .inl ⟨hk, h'⟩
      · rintro (⟨_, h'⟩ | rfl)
        · exact h'
        · exact (h.same _).mp hm
    · dsimp only
      refine sorted_snoc ?_ fun e he => hp e (List.mem_of_mem_filter he)
      exact h.sorted.sublist ((List.filter_sublist).map _)
    · dsimp only
      obtain ⟨e, he, hek⟩ := List.mem_map.mp ((h.same k).mp hm)
      have : (c.list.filter fun e => !(e.1 == k)).length < c.list.length := by
        rw [List.length_filter_lt_length_iff_exists]
        exact ⟨e, he, by simp [hek]⟩
      have := h.size
      rw [List.length_append, List.length_singleton]
      omega
    · intro e he
      dsimp only at he
      rcases List.mem_append.mp he with he | he
      · exact hp e (List.mem_of_mem_filter he)
      · rw [List.mem_singleton.mp he]; exact Nat.le_refl _
    · dsimp only; simp
    · intro e
      dsimp only
      rw [List.mem_append, List.mem_filter, List.mem_singleton]
      constructor
      · rintro (⟨h1, h2⟩ | h1)
        · refine .inr ⟨h1, ?_, by simp⟩
          intro he; simp [he] at h2
        · exact .inl h1
      · rintro (h1 | ⟨h1, h2, _⟩)
        · exact .inr h1
        · exact .inl ⟨h1, by simpa using h2⟩
    · intro v hv; cases hv
  · next hm =>
    have hkl : k ∉ c.list.map Prod.fst := fun h' => hm ((h.same k).mpr h')
    have hn2 : ((c.list ++ [(k, now)]).map Prod.fst).Nodup := by
      rw [List.map_append, List.nodup_append]
      refine ⟨h.nodup, by simp, ?_⟩
      intro a ha b hb
      simp only [List.map_cons, List.map_nil, List.mem_singleton] at hb
      rw [hb]; rintro rfl; exact hkl ha
    have hs2 : ∀ k', k' ∈ k :: c.map ↔ k' ∈ (c.list ++ [(k, now)]).map Prod.fst := by
      intro k'
      rw [List.map_append, List.mem_append, List.mem_cons, h.same]
      simp [or_comm]
    have hso := sorted_snoc (k := k) h.sorted hp
    dsimp only
    unfold Cache.overflow
    dsimp only
    split
    · next hov =>
      cases hl : c.list with
      | nil =>
        rw [hl] at hov
        simp at hov
        have := h.pos
        omega
      | cons e r =>
        rw [hl] at hn2 hs2 hso hkl
        have hpos := h.pos
        have hsz := h.size
        rw [hl] at hov hsz
        rw [List.length_append, List.length_singleton, List.length_cons] at hov
        rw [List.length_cons] at hsz
        have hnm : (k :: c.map).Nodup := List.nodup_cons.mpr ⟨hm, h.nodupMap⟩
        rw [List.cons_append, List.map_cons, List.nodup_cons] at hn2
        rw [List.cons_append, List.map_cons, List.pairwise_cons] at hso
        rw [List.cons_append]
        dsimp only
        refine ⟨_, _, _, rfl, ⟨hnm.erase _, hn2.2, ?_, hso.2, ?_, hpos⟩, ?_, rfl, rfl, ?_, ?_, ?_⟩
        · intro k'
          rw [hnm.mem_erase_iff, hs2, List.cons_append, List.map_cons, List.mem_cons]
          constructor
          · rintro ⟨hne, h' | h'⟩
            · exact absurd h' hne
            · exact h'
          · intro h'
            exact ⟨fun he => hn2.1 (he ▸ h'), .inr h'⟩
        · rw [List.length_append, List.length_singleton]
          omega
        · intro x hx
          rcases List.mem_append.mp hx with hx | hx
          · exact hp x (by rw [hl]; exact List.mem_cons_of_mem _ hx)
          · rw [List.mem_singleton.mp hx]; exact Nat.le_refl _
        · simp
        · intro x
          rw [List.mem_append, List.mem_singleton]
          have hk1 : k ≠ e.1 := by
            intro h'; exact hkl (by rw [h', List.map_cons]; exact List.mem_cons_self)
          constructor
          · rintro (h' | h')
            · refine .inr ⟨List.mem_cons_of_mem _ h', ?_, ?_⟩
              · intro hx
                exact hkl (by rw [← hx]; exact List.mem_map_of_mem (List.mem_cons_of_mem _ h'))
              · intro hx
                injection hx with hx
                apply hn2.1
                rw [hx, List.map_append]
                exact List.mem_append_left _ (List.mem_map_of_mem h')
            · exact .inl h'
          · rintro (h' | ⟨h1, _, h3⟩)
            · exact .inr h'
            · rcases List.mem_cons.mp h1 with rfl | h1
              · exact absurd rfl h3
              · exact .inl h1
        · intro v hv
          injection hv with hv
          subst hv
          refine ⟨?_, hm, by rw [List.length_cons]; omega, e.2, List.mem_cons_self, ?_⟩
          · intro h'
            exact hkl (by rw [← h', List.map_cons]; exact List.mem_cons_self)
          · intro x hx
            exact hso.1 x.2 (List.mem_map_of_mem hx)
    · next hov =>
      refine ⟨_, _, _, rfl, ⟨List.nodup_cons.mpr ⟨hm, h.nodupMap⟩, hn2, hs2, hso, ?_, h.pos⟩, ?_,
        rfl, rfl, ?_, ?_, ?_⟩
      · exact Nat.not_lt.mp hov
      · intro e he
        dsimp only at he
        rcases List.mem_append.mp he with he | he
        · exact hp e he
        · rw [List.mem_singleton.mp he]; exact Nat.le_refl _
      · dsimp only; simp
      · intro e
        dsimp only
        rw [List.mem_append, List.mem_singleton]
        constructor
        · rintro (h1 | h1)
          · refine .inr ⟨h1, ?_, by simp⟩
            intro he; exact hkl (by rw [← he]; exact List.mem_map_of_mem h1)
          · exact .inl h1
        · rintro (h1 | ⟨h1, _⟩)
          · exact .inr h1
          · exact .inl h1
      · intro v hv; cases hv

/-- one removal -/
theorem remove_spec {c : Cache} (h : Inv c) {now : Nat} (hp : Past c now) (k : Key) :
    ∃ c' n, c.remove k = some (c', n) ∧ Inv c' ∧ Past c' now ∧ c'.dur = c.dur ∧
      c'.maxLen = c.maxLen ∧ (∀ e, e ∈ c'.list ↔ e ∈ c.list ∧ e.1 ≠ k) := by
  unfold Cache.remove
  split
  · next hm =>
    rw [takeOut_some h.nodup ((h.same k).mp hm)]
    refine ⟨_, _, rfl, ⟨h.nodupMap.erase _, ?_, ?_, ?_, ?_, h.pos⟩, ?_, rfl, rfl, ?_⟩
    · exact h.nodup.sublist ((List.filter_sublist).map _)
    · intro k'
      dsimp only
      rw [h.nodupMap.mem_erase_iff, mem_filter_keys, h.same]
    · exact h.sorted.sublist ((List.filter_sublist).map _)
    · exact Nat.le_trans (List.length_filter_le _ _) h.size
    · intro e he; exact hp e (List.mem_of_mem_filter he)
    · intro e
      dsimp only
      rw [List.mem_filter]
      simp
  · next hm =>
    refine ⟨c, _, rfl, h, hp, rfl, rfl, ?_⟩
    intro e
    constructor
    · intro he
      refine ⟨he, ?_⟩
      rintro rfl
      exact hm ((h.same _).mpr (List.mem_map_of_mem he))
    · exact fun he => he.1

/-- one heartbeat -/
theorem heartbeat_spec {c : Cache} (h : Inv c) {now : Nat} (hp : Past c now) :
    Inv (c.heartbeat now).1 ∧ Past (c.heartbeat now).1 now ∧ (c.heartbeat now).1.dur = c.dur ∧
      (c.heartbeat now).1.maxLen = c.maxLen ∧
      (∀ e, e ∈ (c.heartbeat now).1.list ↔ e ∈ c.list ∧ now < e.2 + c.dur) ∧
      (∀ k, k ∈ (c.heartbeat now).2 ↔ ∃ t, (k, t) ∈ c.list ∧ t + c.dur ≤ now) := by
  obtain ⟨h1, h2, h3, h4⟩ := expire_spec c.dur now c.map c.list h.nodupMap h.nodup h.same h.sorted
  unfold Cache.heartbeat
  dsimp only
  rw [h1, h2]
  refine ⟨⟨h3, ?_, h4, ?_, ?_, h.pos⟩, ?_, rfl, rfl, ?_, ?_⟩
  · exact h.nodup.sublist ((List.filter_sublist).map _)
  · exact h.sorted.sublist ((List.filter_sublist).map _)
  · exact Nat.le_trans (List.length_filter_le _ _) h.size
  · intro e he; exact hp e (List.mem_of_mem_filter he)
  · intro e
    rw [List.mem_filter, decide_eq_true_iff]
  · intro k
    constructor
    · intro hk
      obtain ⟨e, he, rfl⟩ := List.mem_map.mp hk
      rw [List.mem_filter] at he
      refine ⟨e.2, he.1, ?_⟩
      have := he.2
      simp only [Bool.not_eq_true', decide_eq_false_iff_not] at this
      omega
    · rintro ⟨t, ht, hle⟩
      refine List.mem_map.mpr ⟨(k, t), List.mem_filter.mpr ⟨ht, ?_⟩, rfl⟩
      simp only [Bool.not_eq_true', decide_eq_false_iff_not]
      omega

end Verif.Net.TempBan
