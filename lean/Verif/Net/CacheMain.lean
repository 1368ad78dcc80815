import Verif.Net.Cache
import Mathlib.Data.List.Dedup
import Mathlib.Data.List.Induction

/-!
# C59: the reconnection time-out holds, ends on time, and is bounded
-/

namespace Verif.Net.TempBan

theorem run_append (l₁ l₂ : List (Nat × Op)) (c : Cache) :
    run (l₁ ++ l₂) c = (run l₁ c).bind (run l₂) := by
  induction l₁ generalizing c with
  | nil => rfl
  | cons e l ih =>
    obtain ⟨t, o⟩ := e
    rw [List.cons_append, run, run]
    cases o.run t c with
    | none => rfl
    | some r => exact ih r.1

theorem lastInsert_snoc (k : Key) (l : List (Nat × Op)) (t : Nat) (o : Op) :
    lastInsert k (l ++ [(t, o)]) = if o = .insert k then some t else lastInsert k l := by
  induction l with
  | nil => simp [lastInsert]
  | cons e l ih =>
    obtain ⟨u, q⟩ := e
    rw [List.cons_append, lastInsert, ih, lastInsert]
    split
    · rfl
    · rfl

/-- what a cache reached by the history knows -/
structure Reached (l : List (Nat × Op)) (d n : Nat) (c : Cache) : Prop where
  inv : Inv c
  dur : c.dur = d
  max : c.maxLen = Max.max n 1
  time : ∀ e ∈ c.list, lastInsert e.1 l = some e.2
  past : ∀ e ∈ c.list, ∃ u ∈ l.map Prod.fst, e.2 ≤ u

theorem op_step {l : List (Nat × Op)} {d n : Nat} {c : Cache} (h : Reached l d n c) {now : Nat}
    (hm : ∀ u ∈ l.map Prod.fst, u ≤ now) (o : Op) :
    ∃ r, o.run now c = some r ∧ Reached (l ++ [(now, o)]) d n r.1 := by
  have hp : Past c now := by
    intro e he
    obtain ⟨u, hu, hle⟩ := h.past e he
    exact Nat.le_trans hle (hm u hu)
  have hnow : now ∈ (l ++ [(now, o)]).map Prod.fst := by simp
  cases o with
  | insert k =>
    obtain ⟨c', nw, ev, he, h1, h2, h3, h4, _, h6, _⟩ := insert_spec h.inv hp k
    refine ⟨(c', ev.toList), by dsimp only [Op.run]; rw [he]; rfl, ⟨h1, h3.trans h.dur,
      h4.trans h.max, ?_, fun e he => ⟨now, hnow, h2 e he⟩⟩⟩
    intro e he
    rw [lastInsert_snoc]
    rcases (h6 e).mp he with rfl | ⟨h7, h8, _⟩
    · rw [if_pos rfl]
    · rw [if_neg (by intro hh; injection hh with hh; exact h8 hh.symm)]
      exact h.time e h7
  | remove k =>
    obtain ⟨c', nw, he, h1, h2, h3, h4, h5⟩ := remove_spec h.inv hp k
    refine ⟨(c', []), by dsimp only [Op.run]; rw [he]; rfl, ⟨h1, h3.trans h.dur,
      h4.trans h.max, ?_, fun e he => ⟨now, hnow, h2 e he⟩⟩⟩
    intro e he
    rw [lastInsert_snoc, if_neg (by intro hh; cases hh)]
    exact h.time e ((h5 e).mp he).1
  | heartbeat =>
    obtain ⟨h1, h2, h3, h4, h5, _⟩ := heartbeat_spec h.inv hp
    refine ⟨c.heartbeat now, rfl, ⟨h1, h3.trans h.dur, h4.trans h.max, ?_,
      fun e he => ⟨now, hnow, h2 e he⟩⟩⟩
    intro e he
    rw [lastInsert_snoc, if_neg (by intro hh; cases hh)]
    exact h.time e ((h5 e).mp he).1

theorem monotone_snoc {l : List (Nat × Op)} {t : Nat} {o : Op} (h : Monotone (l ++ [(t, o)])) :
    Monotone l ∧ ∀ u ∈ l.map Prod.fst, u ≤ t := by
  unfold Monotone at h
  rw [List.map_append, List.pairwise_append] at h
  exact ⟨h.1, fun u hu => h.2.2 u hu t (by simp)⟩

/-- the cache of a history -/
theorem reached (d n : Nat) (l : List (Nat × Op)) (hm : Monotone l) :
    ∃ c, run l (Cache.new d n) = some c ∧ Reached l d n c := by
  induction l using List.reverseRecOn with
  | nil =>
    refine ⟨_, rfl, ⟨inv_new d n, rfl, rfl, ?_, ?_⟩⟩
    · intro e he; cases he
    · intro e he; cases he
  | append_singleton l e ih =>
    obtain ⟨t, o⟩ := e
    obtain ⟨h1, h2⟩ := monotone_snoc hm
    obtain ⟨c, hc, hr⟩ := ih h1
    obtain ⟨r, hrun, hr'⟩ := op_step hr h2 o
    refine ⟨r.1, ?_, hr'⟩
    rw [run_append, hc]
    dsimp only [Option.bind, run]
    rw [hrun]

/-- **C59 (no panic, bounded).**  Whatever is inserted, removed and expired, with a clock that
does not run backwards: no call panics, the set and the time-ordered list hold the same keys,
each once, and there are never more than the configured number (at least one). -/
theorem timeout_bounded (d n : Nat) (l : List (Nat × Op)) (hm : Monotone l) :
    ∃ c, run l (Cache.new d n) = some c ∧ c.map.Nodup ∧ c.map.Perm (c.list.map Prod.fst) ∧
      c.map.length ≤ max n 1 := by
  obtain ⟨c, hc, hr⟩ := reached d n l hm
  have hp : c.map.Perm (c.list.map Prod.fst) :=
    (List.perm_ext_iff_of_nodup hr.inv.nodupMap hr.inv.nodup).mpr hr.inv.same
  refine ⟨c, hc, hr.inv.nodupMap, hp, ?_⟩
  rw [hp.length_eq, List.length_map, ← hr.max]
  exact hr.inv.size

theorem contains_iff {c : Cache} (h : Inv c) (k : Key) :
    c.contains k = true ↔ ∃ t, (k, t) ∈ c.list := by
  unfold Cache.contains
  rw [decide_eq_true_iff, h.same, List.mem_map]
  constructor
  · rintro ⟨e, he, rfl⟩; exact ⟨e.2, he⟩
  · rintro ⟨t, ht⟩; exact ⟨(k, t), ht, rfl⟩

/-- **C59 (ends on time).**  A heartbeat releases exactly the keys whose last insertion is the
configured duration or longer ago, and reports exactly those; all others stay. -/
theorem timeout_ends {d n : Nat} {l : List (Nat × Op)} {now : Nat}
    (hm : Monotone (l ++ [(now, .heartbeat)])) {c : Cache}
    (hc : run l (Cache.new d n) = some c) (k : Key) (hk : c.contains k = true) :
    ∃ t, lastInsert k l = some t ∧
      ((c.heartbeat now).1.contains k = true ↔ now < t + d) ∧
      (k ∈ (c.heartbeat now).2 ↔ t + d ≤ now) := by
  obtain ⟨h1, h2⟩ := monotone_snoc hm
  obtain ⟨c', hc', hr⟩ := reached d n l h1
  rw [hc] at hc'
  injection hc' with hc'
  subst hc'
  obtain ⟨t, ht⟩ := (contains_iff hr.inv k).mp hk
  have hp : Past c now := by
    intro e he
    obtain ⟨u, hu, hle⟩ := hr.past e he
    exact Nat.le_trans hle (h2 u hu)
  obtain ⟨g1, _, _, _, g5, g6⟩ := heartbeat_spec hr.inv hp
  have huniq : ∀ t', (k, t') ∈ c.list → t' = t := by
    intro t' ht'
    have e1 := hr.time _ ht
    have e2 := hr.time _ ht'
    exact Option.some.inj (e2.symm.trans e1)
  refine ⟨t, hr.time _ ht, ?_, ?_⟩
  · rw [contains_iff g1]
    constructor
    · rintro ⟨t', ht'⟩
      obtain ⟨m1, m2⟩ := (g5 _).mp ht'
      rw [huniq t' m1] at m2
      rw [← hr.dur]; exact m2
    · intro hlt
      exact ⟨t, (g5 _).mpr ⟨ht, by rw [hr.dur]; exact hlt⟩⟩
  · rw [g6]
    constructor
    · rintro ⟨t', m1, m2⟩
      rw [huniq t' m1, hr.dur] at m2
      exact m2
    · intro hle
      exact ⟨t, ht, by rw [hr.dur]; exact hle⟩

/-- **C59 (overflow releases the oldest).**  When an insertion finds the cache full, the one
key it releases is another key, was inserted no later than any key that stays, and the released
key is reported; no other key is lost. -/
theorem overflow_releases_oldest {d n : Nat} {l : List (Nat × Op)} {now : Nat} {k : Key}
    (hm : Monotone (l ++ [(now, .insert k)])) {c : Cache}
    (hc : run l (Cache.new d n) = some c) :
    ∃ c' isNew ev, c.insert k now = some (c', isNew, ev) ∧ c'.contains k = true ∧
      (∀ k', k' ≠ k → (c'.contains k' = true ↔ c.contains k' = true ∧ ev ≠ some k')) ∧
      (∀ v, ev = some v → v ≠ k ∧ c.contains v = true ∧ c.map.length = max n 1 ∧
        ∃ t, lastInsert v l = some t ∧ ∀ k' t', c'.contains k' = true →
          lastInsert k' (l ++ [(now, .insert k)]) = some t' → t ≤ t') := by
  obtain ⟨h1, h2⟩ := monotone_snoc hm
  obtain ⟨c', hc', hr⟩ := reached d n l h1
  rw [hc] at hc'
  injection hc' with hc'
  subst hc'
  have hp : Past c now := by
    intro e he
    obtain ⟨u, hu, hle⟩ := hr.past e he
    exact Nat.le_trans hle (h2 u hu)
  obtain ⟨c', nw, ev, he, g1, g2, g3, g4, g5, g6, g7⟩ := insert_spec hr.inv hp k
  refine ⟨c', nw, ev, he, (contains_iff g1 k).mpr ⟨now, g5⟩, ?_, ?_⟩
  · intro k' hk'
    rw [contains_iff g1, contains_iff hr.inv]
    constructor
    · rintro ⟨t, ht⟩
      rcases (g6 _).mp ht with heq | ⟨m1, _, m3⟩
      · injection heq with heq _; exact absurd heq hk'
      · exact ⟨⟨t, m1⟩, m3⟩
    · rintro ⟨⟨t, ht⟩, hev⟩
      exact ⟨t, (g6 _).mpr (.inr ⟨ht, hk', hev⟩)⟩
  · intro v hv
    obtain ⟨e1, e2, e3, t, e4, e5⟩ := g7 v hv
    have hperm : c.map.Perm (c.list.map Prod.fst) :=
      (List.perm_ext_iff_of_nodup hr.inv.nodupMap hr.inv.nodup).mpr hr.inv.same
    refine ⟨e1, (contains_iff hr.inv v).mpr ⟨t, e4⟩, ?_, t, hr.time _ e4, ?_⟩
    · rw [hperm.length_eq, List.length_map, e3, hr.max]
    · intro k' t' hk' ht'
      obtain ⟨u, hu⟩ := (contains_iff g1 k').mp hk'
      obtain ⟨r, hrun, hr'⟩ := op_step hr h2 (.insert k)
      have hrc : r.1 = c' := by
        dsimp only [Op.run] at hrun
        rw [he] at hrun
        injection hrun with hrun
        rw [← hrun]
      rw [hrc] at hr'
      have := hr'.time _ hu
      dsimp only at this
      rw [this] at ht'
      injection ht' with ht'
      rw [← ht']
      exact e5 _ hu

/-! ### How long a key stays -/

/-- the keys other than `k` inserted by the history, each once -/
def others (k : Key) (l : List (Nat × Op)) : List Key :=
  ((l.filterMap fun e => match e.2 with
    | .insert k' => if k' = k then none else some k'
    | _ => none)).dedup

/-- the entries behind that of the key -/
def Behind (k : Key) (t : Nat) (S : List Key) (c : Cache) : Prop :=
  ∃ A B t', t ≤ t' ∧ c.list = A ++ (k, t') :: B ∧ ∀ x ∈ B, x.1 ∈ S

theorem behind_remove {k k' : Key} {t : Nat} {S : List Key} {c c' : Cache} {nw : Bool}
    (hi : Inv c) (h : Behind k t S c) (hne : k' ≠ k) (hr : c.remove k' = some (c', nw)) :
    Behind k t S c' := by
  obtain ⟨A, B, t', ht', hl, hB⟩ := h
  unfold Cache.remove at hr
  split at hr
  · next hm =>
    rw [takeOut_some hi.nodup ((hi.same k').mp hm)] at hr
    injection hr with hr
    injection hr with hr _
    refine ⟨A.filter (fun e => !(e.1 == k')), B.filter (fun e => !(e.1 == k')), t', ht', ?_, ?_⟩
    · rw [← hr]
      dsimp only
      rw [hl, List.filter_append, List.filter_cons, if_pos]
      simpa using hne.symm
    · intro x hx; exact hB x (List.mem_of_mem_filter hx)
  · injection hr with hr
    injection hr with hr _
    subst hr
    exact ⟨A, B, t', ht', hl, hB⟩

theorem behind_insert_self {k : Key} {t now : Nat} {S : List Key} {c c' : Cache}
    {nw : Bool} {ev : Option Key} (hi : Inv c) (h : Behind k t S c) (ht : t ≤ now)
    (hr : c.insert k now = some (c', nw, ev)) : Behind k t S c' := by
  obtain ⟨A, B, t', ht', hl, hB⟩ := h
  have hm : k ∈ c.map := (hi.same k).mpr (by rw [hl]; simp)
  unfold Cache.insert at hr
  rw [if_pos hm, takeOut_some hi.nodup ((hi.same k).mp hm)] at hr
  injection hr with hr
  injection hr with hr _
  exact ⟨_, [], now, ht, by rw [← hr], fun x hx => by cases hx⟩

theorem behind_insert {k k' : Key} {t now : Nat} {S : List Key} {c c' : Cache} {nw : Bool}
    {ev : Option Key} (hi : Inv c) (h : Behind k t S c) (hne : k' ≠ k)
    (hS : (k' :: S).dedup.length < c.maxLen)
    (hr : c.insert k' now = some (c', nw, ev)) : Behind k t (k' :: S) c' := by
  obtain ⟨A, B, t', ht', hl, hB⟩ := h
  unfold Cache.insert at hr
  split at hr
  · next hm =>
    rw [takeOut_some hi.nodup ((hi.same k').mp hm)] at hr
    injection hr with hr
    injection hr with hr _
    refine ⟨A.filter (fun e => !(e.1 == k')), B.filter (fun e => !(e.1 == k')) ++ [(k', now)], t',
      ht', ?_, ?_⟩
    · rw [← hr]
      dsimp only
      rw [hl, List.filter_append, List.filter_cons, if_pos]
      · simp
      · simpa using hne.symm
    · intro x hx
      rcases List.mem_append.mp hx with hx | hx
      · exact List.mem_cons_of_mem _ (hB x (List.mem_of_mem_filter hx))
      · rw [List.mem_singleton.mp hx]; exact List.mem_cons_self
  · next hm =>
    injection hr with hr
    have hc' : (Cache.overflow { c with map := k' :: c.map, list := c.list ++ [(k', now)] }).1 = c' := by
      injection hr
    unfold Cache.overflow at hc'
    dsimp only at hc'
    have hB' : ∀ x ∈ B ++ [(k', now)], x.1 ∈ k' :: S := by
      intro x hx
      rcases List.mem_append.mp hx with hx | hx
      · exact List.mem_cons_of_mem _ (hB x hx)
      · rw [List.mem_singleton.mp hx]; exact List.mem_cons_self
    split at hc'
    · next hov =>
      rw [hl] at hc' hov
      cases A with
      | nil =>
        exfalso
        -- the entries behind the key, and the new one, are distinct keys of `k' :: S`
        have hnd : ((B ++ [(k', now)]).map Prod.fst).Nodup := by
          have h1 := hi.nodup
          rw [hl] at h1
          rw [List.nil_append, List.map_cons, List.nodup_cons] at h1
          rw [List.map_append, List.nodup_append]
          refine ⟨h1.2, by simp, ?_⟩
          intro a ha b hb
          simp only [List.map_cons, List.map_nil, List.mem_singleton] at hb
          rw [hb]
          rintro rfl
          refine hm ((hi.same _).mpr ?_)
          rw [hl, List.nil_append, List.map_cons]
          exact List.mem_cons_of_mem _ ha
        have hsub : ((B ++ [(k', now)]).map Prod.fst) ⊆ (k' :: S).dedup := by
          intro a ha
          obtain ⟨x, hx, rfl⟩ := List.mem_map.mp ha
          exact List.mem_dedup.mpr (hB' x hx)
        have hle := (List.subperm_of_subset hnd hsub).length_le
        rw [List.length_map, List.length_append, List.length_singleton] at hle
        rw [List.nil_append, List.length_append, List.length_cons, List.length_singleton] at hov
        omega
      | cons a A =>
        refine ⟨A, B ++ [(k', now)], t', ht', ?_, hB'⟩
        rw [← hc']
        simp
    · refine ⟨A, B ++ [(k', now)], t', ht', ?_, hB'⟩
      rw [← hc', hl]
      simp

theorem behind_heartbeat {k : Key} {t now : Nat} {S : List Key} {c : Cache}
    (hi : Inv c) (h : Behind k t S c) (hnow : now < t + c.dur) :
    Behind k t S (c.heartbeat now).1 := by
  obtain ⟨A, B, t', ht', hl, hB⟩ := h
  obtain ⟨h1, _⟩ := expire_spec c.dur now c.map c.list hi.nodupMap hi.nodup hi.same hi.sorted
  refine ⟨A.filter (fun e => decide (now < e.2 + c.dur)),
    B.filter (fun e => decide (now < e.2 + c.dur)), t', ht', ?_, ?_⟩
  · unfold Cache.heartbeat
    dsimp only
    rw [h1, hl, List.filter_append, List.filter_cons, if_pos]
    apply decide_eq_true
    dsimp only
    omega
  · intro x hx; exact hB x (List.mem_of_mem_filter hx)

theorem others_mono {k : Key} {e : Nat × Op} {l : List (Nat × Op)} :
    (others k l).length ≤ (others k (l ++ [e])).length := by
  unfold others
  apply (List.subperm_of_subset (List.nodup_dedup _) ?_).length_le
  intro x hx
  rw [List.mem_dedup] at hx ⊢
  rw [List.filterMap_append]
  exact List.mem_append_left _ hx

/-- **C59 (the time-out holds).**  A key that is inserted at `t` stays in the cache until `t`
plus the configured duration: as long as it is not removed and fewer other keys than the cap are
inserted after it, every later call before that time finds it there, whatever else the calls
insert, remove or expire. -/
theorem timeout_holds (d n : Nat) {l₁ l₂ : List (Nat × Op)} {t : Nat} {k : Key}
    (hm : Monotone (l₁ ++ (t, .insert k) :: l₂))
    (hrem : ∀ e ∈ l₂, e.2 ≠ .remove k)
    (hhb : ∀ e ∈ l₂, e.2 = .heartbeat → e.1 < t + d)
    (hoth : (others k l₂).length < max n 1) :
    ∃ c, run (l₁ ++ (t, .insert k) :: l₂) (Cache.new d n) = some c ∧ c.contains k = true := by
  have main : ∀ l₂ : List (Nat × Op), Monotone (l₁ ++ (t, .insert k) :: l₂) →
      (∀ e ∈ l₂, e.2 ≠ .remove k) → (∀ e ∈ l₂, e.2 = .heartbeat → e.1 < t + d) →
      (others k l₂).length < max n 1 →
      ∃ c, run (l₁ ++ (t, .insert k) :: l₂) (Cache.new d n) = some c ∧
        Reached (l₁ ++ (t, .insert k) :: l₂) d n c ∧ Behind k t (others k l₂) c := by
    intro l₂
    induction l₂ using List.reverseRecOn with
    | nil =>
      intro hm _ _ _
      obtain ⟨h1, h2⟩ := monotone_snoc hm
      obtain ⟨c, hc, hr⟩ := reached d n l₁ h1
      have hp : Past c t := by
        intro e he
        obtain ⟨u, hu, hle⟩ := hr.past e he
        exact Nat.le_trans hle (h2 u hu)
      obtain ⟨r, hrun, hr'⟩ := op_step hr h2 (.insert k)
      refine ⟨r.1, ?_, hr', ?_⟩
      · rw [run_append, hc]
        dsimp only [Option.bind, run]
        rw [hrun]
      · have hrun' := hrun
        dsimp only [Op.run] at hrun'
        cases hins : c.insert k t with
        | none => rw [hins] at hrun'; cases hrun'
        | some x =>
          rw [hins] at hrun'
          injection hrun' with hrun'
          have hx : x.1 = r.1 := by rw [← hrun']
          rw [← hx]
          unfold Cache.insert at hins
          split at hins
          · next hmem =>
            rw [takeOut_some hr.inv.nodup ((hr.inv.same k).mp hmem)] at hins
            injection hins with hins
            refine ⟨_, [], t, Nat.le_refl _, by rw [← hins], fun x hx => by cases hx⟩
          · injection hins with hins
            rw [← hins]
            dsimp only
            unfold Cache.overflow
            dsimp only
            split
            · next hov =>
              cases hl : c.list with
              | nil =>
                rw [hl] at hov
                have := hr.inv.pos
                simp at hov
                omega
              | cons a A =>
                refine ⟨A, [], t, Nat.le_refl _, rfl, fun x hx => by cases hx⟩
            · exact ⟨c.list, [], t, Nat.le_refl _, rfl, fun x hx => by cases hx⟩
    | append_singleton l₂ e ih =>
      intro hm hrem hhb hoth
      obtain ⟨now, o⟩ := e
      have hcat : l₁ ++ (t, Op.insert k) :: (l₂ ++ [(now, o)]) =
          (l₁ ++ (t, Op.insert k) :: l₂) ++ [(now, o)] := by simp
      rw [hcat] at hm ⊢
      obtain ⟨h1, h2⟩ := monotone_snoc hm
      obtain ⟨c, hc, hr, hb⟩ := ih h1 (fun e he => hrem e (List.mem_append_left _ he))
        (fun e he => hhb e (List.mem_append_left _ he))
        (Nat.lt_of_le_of_lt others_mono hoth)
      obtain ⟨r, hrun, hr'⟩ := op_step hr h2 o
      refine ⟨r.1, ?_, hr', ?_⟩
      · rw [run_append, hc]
        dsimp only [Option.bind, run]
        rw [hrun]
      · have htnow : t ≤ now := h2 t (by simp)
        cases o with
        | insert k' =>
          dsimp only [Op.run] at hrun
          cases hins : c.insert k' now with
          | none => rw [hins] at hrun; cases hrun
          | some x =>
            obtain ⟨c', nw, ev⟩ := x
            rw [hins] at hrun
            injection hrun with hrun
            have hx : c' = r.1 := by rw [← hrun]
            rw [← hx]
            by_cases hk : k' = k
            · subst hk
              have hsame : others k' (l₂ ++ [(now, Op.insert k')]) = others k' l₂ := by
                unfold others; rw [List.filterMap_append]; simp
              rw [hsame]
              exact behind_insert_self hr.inv hb htnow hins
            · have hmem : ∀ x, x ∈ others k (l₂ ++ [(now, Op.insert k')]) ↔
                  x ∈ k' :: others k l₂ := by
                intro x
                unfold others
                rw [List.mem_dedup, List.filterMap_append, List.mem_append, List.mem_cons,
                  List.mem_dedup]
                simp [hk, or_comm]
              have hlen : (k' :: others k l₂).dedup.length ≤
                  (others k (l₂ ++ [(now, Op.insert k')])).length := by
                apply (List.subperm_of_subset (List.nodup_dedup _) ?_).length_le
                intro x hx
                exact (hmem x).mpr (List.mem_dedup.mp hx)
              obtain ⟨A, B, t', g1, g2, g3⟩ := behind_insert hr.inv hb hk
                (by rw [hr.max]; omega) hins
              exact ⟨A, B, t', g1, g2, fun x hx => (hmem _).mpr (g3 x hx)⟩
        | remove k' =>
          have hk : k' ≠ k := by
            rintro rfl
            exact hrem (now, .remove k') (by simp) rfl
          have hsame : others k (l₂ ++ [(now, Op.remove k')]) = others k l₂ := by
            unfold others; rw [List.filterMap_append]; simp
          rw [hsame]
          dsimp only [Op.run] at hrun
          cases hre : c.remove k' with
          | none => rw [hre] at hrun; cases hrun
          | some x =>
            obtain ⟨c', nw⟩ := x
            rw [hre] at hrun
            injection hrun with hrun
            have hx : c' = r.1 := by rw [← hrun]
            rw [← hx]
            exact behind_remove hr.inv hb hk hre
        | heartbeat =>
          have hsame : others k (l₂ ++ [(now, Op.heartbeat)]) = others k l₂ := by
            unfold others; rw [List.filterMap_append]; simp
          rw [hsame]
          injection hrun with hrun
          rw [← hrun]
          refine behind_heartbeat hr.inv hb ?_
          rw [hr.dur]
          exact hhb (now, .heartbeat) (by simp) rfl
  obtain ⟨c, hc, hr, A, B, t', _, hl, _⟩ := main l₂ hm hrem hhb hoth
  exact ⟨c, hc, (contains_iff hr.inv k).mpr ⟨t', by rw [hl]; simp⟩⟩

/-! ### A concrete history -/

/-- three keys through a cache of two, with a refresh, a removal and an expiry -/
def demo : List (Nat × Op) :=
  [(1, .insert 7), (2, .insert 8), (3, .insert 7), (4, .insert 9), (5, .heartbeat),
   (6, .remove 9), (12, .insert 8), (13, .heartbeat)]

example : Monotone demo := by unfold Monotone; decide

example : (run demo (Cache.new 10 2)) = some ⟨[8], [(8, 12)], 10, 2⟩ := by decide +kernel

/-- the hypotheses of `timeout_holds` on it: key 7, refreshed at 3, survives the overflow by 9 -/
example : ∃ c, run ([(1, .insert 7), (2, .insert 8)] ++ (3, .insert 7) ::
    [(4, .insert 9), (5, .heartbeat), (6, .remove 9)]) (Cache.new 10 2) = some c ∧
      c.contains 7 = true := by
  refine timeout_holds 10 2 ?_ ?_ ?_ ?_
  · unfold Monotone; decide
  · decide
  · decide
  · decide +kernel

end Verif.Net.TempBan
