import Verif.Sync.PendingModel
/-
The invariant of the certificate manager.
-/
namespace Verif
namespace Sync

/-- Specification: the certificates of the epoch. Digests identify them, and a parent is of the round
before. (Derived for certificates in the joint system, `Joint.links`.) -/
structure Links (U : Header → Prop) : Prop where
  inj : ∀ {a b}, U a → U b → a.digest = b.digest → a = b
  parentRound : ∀ {x y}, U x → U y → y.digest ∈ x.parents → y.round + 1 = x.round

/-- Specification: certificates in an order in which each comes after its parents, or is so close
to the garbage collection round `g` that its parents do not matter. `acc` is what came before. -/
def Causal (g : Round) : List Digest → List Certificate → Prop
  | _, [] => True
  | acc, c :: cs => (∀ d ∈ c.header.parents, d ∈ acc ∨ c.header.round ≤ g + 1) ∧
      Causal g (acc ++ [c.header.digest]) cs

/-- `x` waits for the parent `d` of round `r`. -/
def Waits (m : Pending) (r : Round) (d x : Digest) : Prop :=
  ∃ e, SMap.get? x m.pending = some e ∧ e.cert.header.round = r + 1 ∧ d ∈ e.missing

/-- What holds of a waiting certificate. `acc`: accepted ever; `here`: in the store; `Q`: parents whose
acceptance is still to be worked off. -/
structure EntryOk (U : Header → Prop) (lo g : Round) (acc here : List Digest) (Q : Round × Digest → Prop)
    (x : Digest) (e : Entry) : Prop where
  key : e.cert.header.digest = x
  ok : U e.cert.header
  verified : e.cert.isVerified = true
  round : 2 ≤ e.cert.header.round
  low : lo + 1 < e.cert.header.round
  ne : e.missing ≠ []
  sub : ∀ d ∈ e.missing, d ∈ e.cert.header.parents
  parents : ∀ d ∈ e.cert.header.parents, d ∈ e.missing ∨ d ∈ acc ∨ e.cert.header.round ≤ g + 1
  queued : ∀ d ∈ e.missing, d ∈ here → Q (e.cert.header.round - 1, d)

/-- The invariant; during the inner loop `ex` is the key being worked off and `rest` the certificates still
to be visited. -/
structure J (U : Header → Prop) (lo g : Round) (acc here : List Digest) (Q : List (Round × Digest))
    (ex : Option (Round × Digest)) (rest : List Digest) (m : Pending) : Prop where
  sortedP : SMap.Sorted m.pending
  sortedB : PMap.Sorted m.blocked
  entries : ∀ x e, SMap.get? x m.pending = some e →
    EntryOk U lo g acc here (fun k => k ∈ Q ∨ ex = some k) x e
  some : ∀ r d s, PMap.get? (r, d) m.blocked = some s →
    (s.Nodup ∧ s ≠ []) ∧ (∀ x, x ∈ s ↔ Waits m r d x)
  none : ∀ r d, PMap.get? (r, d) m.blocked = none → ex ≠ .some (r, d) → ∀ x, ¬ Waits m r d x
  cur : ∀ k, ex = .some k → PMap.get? k m.blocked = .none ∧ ∀ x, x ∈ rest ↔ Waits m k.1 k.2 x
  queue : ∀ k ∈ Q, k.2 ∈ acc ∨ k.1 ≤ g

variable {U : Header → Prop} {lo g : Round}

/-- The keys of the released certificates. -/
def keyOf (c : Certificate) : Round × Digest := (c.header.round, c.header.digest)

/-- The digests of certificates. -/
def digests (cs : List Certificate) : List Digest := cs.map (·.header.digest)

/-- The digests of the waiting certificates. -/
def Pending.keys (m : Pending) : List Digest := m.pending.map (·.1)

theorem count_erase {m : List (Nat × Entry)} (hs : SMap.Sorted m) {x : Nat} {e : Entry}
    (h : SMap.get? x m = some e) (d : Nat) :
    ((SMap.erase x m).map (·.1)).count d + (if x = d then 1 else 0) = (m.map (·.1)).count d := by
  induction m with
  | nil => simp [SMap.get?] at h
  | cons kv m ih =>
    obtain ⟨k, v⟩ := kv
    have h0 := List.pairwise_cons.mp hs
    simp only [SMap.get?] at h
    simp only [SMap.erase]
    split at h
    · rename_i hk; subst hk
      rw [if_pos rfl, List.map_cons, List.count_cons]
      simp only [beq_iff_eq]
    · rename_i hk
      rw [if_neg hk, List.map_cons, List.map_cons, List.count_cons, List.count_cons]
      have := ih h0.2 h
      omega

theorem keys_insert {m : List (Nat × Entry)} (hs : SMap.Sorted m) {x : Nat} {e w : Entry}
    (h : SMap.get? x m = some e) : (SMap.insert x w m).map (·.1) = m.map (·.1) := by
  induction m with
  | nil => simp [SMap.get?] at h
  | cons kv m ih =>
    obtain ⟨k, v⟩ := kv
    have h0 := List.pairwise_cons.mp hs
    simp only [SMap.get?] at h
    simp only [SMap.insert]
    split at h
    · rename_i hk; subst hk; rw [if_neg (Nat.lt_irrefl _), if_pos rfl]; rfl
    · rename_i hk
      have := h0.1 x (List.mem_map.mpr ⟨_, SMap.mem_of_get? h, rfl⟩)
      rw [if_neg (show ¬ _ < _ from by dsimp only at this; omega), if_neg hk]
      simp [ih h0.2 h]

/-- What a stretch of the cascade does: it releases `new`, which were waiting, in causal order. -/
structure Released (U : Header → Prop) (lo g : Round) (acc : List Digest) (m m' : Pending)
    (new : List Certificate) : Prop where
  causal : Causal g acc new
  count : ∀ d, m'.keys.count d + (digests new).count d = m.keys.count d
  verified : ∀ c ∈ new, c.isVerified = true
  ok : ∀ c ∈ new, U c.header
  low : ∀ c ∈ new, lo + 1 < c.header.round
  length : m'.pending.length + new.length = m.pending.length

theorem Released.refl (acc : List Digest) (m : Pending) : Released U lo g acc m m [] :=
  ⟨trivial, fun _ => by simp [digests], by simp, by simp, by simp, rfl⟩

theorem Causal.append {acc : List Digest} {a b : List Certificate} (ha : Causal g acc a)
    (hb : Causal g (acc ++ digests a) b) : Causal g acc (a ++ b) := by
  induction a generalizing acc with
  | nil => simpa [digests] using hb
  | cons c cs ih =>
    refine ⟨ha.1, ih ha.2 ?_⟩
    simpa [digests, List.append_assoc] using hb

theorem Released.trans {acc : List Digest} {m m' m'' : Pending} {a b : List Certificate}
    (h : Released U lo g acc m m' a) (h' : Released U lo g (acc ++ digests a) m' m'' b) :
    Released U lo g acc m m'' (a ++ b) := by
  refine ⟨h.causal.append h'.causal, ?_, ?_, ?_, ?_, ?_⟩
  · intro d
    have h1 := h.count d
    have h2 := h'.count d
    simp only [digests, List.map_append, List.count_append] at *
    omega
  · intro c hc; rcases List.mem_append.mp hc with hc | hc
    · exact h.verified c hc
    · exact h'.verified c hc
  · intro c hc; rcases List.mem_append.mp hc with hc | hc
    · exact h.ok c hc
    · exact h'.ok c hc
  · intro c hc; rcases List.mem_append.mp hc with hc | hc
    · exact h.low c hc
    · exact h'.low c hc
  · have h1 := h.length
    have h2 := h'.length
    simp only [List.length_append]; omega

/-- The inner loop. -/
theorem visit_ok (hL : Links U) {r : Round} {d : Digest} {l : List Digest} {m : Pending}
    {q : List (Round × Digest)} {ready : List Certificate} {acc here : List Digest}
    (hn : l.Nodup) (hd : d ∈ acc ∨ r ≤ g)
    (hJ : J U lo g acc here q (some (r, d)) l m) :
    ∃ new m', visit d l m q ready = (m', .ok (q ++ new.map keyOf, ready ++ new)) ∧
      J U lo g (acc ++ digests new) (here ++ digests new) (q ++ new.map keyOf) none [] m' ∧
      Released U lo g acc m m' new ∧ m'.blocked = m.blocked := by
  induction l generalizing m q ready acc here with
  | nil =>
    refine ⟨[], m, by simp [visit], ?_, .refl _ _, rfl⟩
    simp only [digests, List.map_nil, List.append_nil]
    obtain ⟨hc1, hc2⟩ := hJ.cur _ rfl
    refine ⟨hJ.sortedP, hJ.sortedB, ?_, hJ.some, ?_, fun k hk => (by cases hk), hJ.queue⟩
    · intro x e he
      have h := hJ.entries x e he
      refine ⟨h.key, h.ok, h.verified, h.round, h.low, h.ne, h.sub, h.parents, ?_⟩
      intro d' hd' hh
      rcases h.queued d' hd' hh with h1 | h1
      · exact .inl h1
      · exfalso
        have h2 : (r, d) = (e.cert.header.round - 1, d') := Option.some.inj h1
        have hr : r = e.cert.header.round - 1 := congrArg Prod.fst h2
        have hdd : d = d' := congrArg Prod.snd h2
        have := (hc2 x).mpr ⟨e, he, by have := h.round; simp only; omega, by simp only; rw [hdd]; exact hd'⟩
        cases this
    · intro r' d' hg _ x hw
      by_cases hk : (r', d') = (r, d)
      · cases hk
        have := (hc2 x).mpr hw
        cases this
      · exact hJ.none r' d' hg (fun h => hk (Option.some.inj h).symm) x hw
  | cons x xs ih =>
    obtain ⟨hxn, hn'⟩ := List.nodup_cons.mp hn
    obtain ⟨hc1, hc2⟩ := hJ.cur _ rfl
    obtain ⟨e, he, her, hed⟩ := (hc2 x).mp (List.mem_cons_self ..)
    simp only at her hed
    have hE := hJ.entries x e he
    unfold visit
    rw [he]
    dsimp only
    by_cases hmt : e.missing.filter (fun y => decide (y ≠ d)) = []
    · -- the certificate is released
      rw [if_pos hmt]
      have honly : ∀ y ∈ e.missing, y = d := by
        intro y hy
        by_contra hne
        have : y ∈ e.missing.filter (fun y => decide (y ≠ d)) :=
          List.mem_filter.mpr ⟨hy, by simpa using hne⟩
        rw [hmt] at this; cases this
      have hget : ∀ y, SMap.get? y (SMap.erase x m.pending) = if y = x then none else SMap.get? y m.pending :=
        fun y => SMap.get?_erase hJ.sortedP
      have hw : ∀ r' d' y, Waits { m with pending := SMap.erase x m.pending } r' d' y ↔
          y ≠ x ∧ Waits m r' d' y := by
        intro r' d' y
        unfold Waits
        dsimp only
        rw [hget y]
        by_cases hy : y = x
        · simp [hy]
        · simp [hy]
      have hJ' : J U lo g (acc ++ [x]) (here ++ [x]) (q ++ [(e.cert.header.round, x)]) (some (r, d)) xs
          { m with pending := SMap.erase x m.pending } := by
        refine ⟨SMap.sorted_erase hJ.sortedP, hJ.sortedB, ?_, ?_, ?_, ?_, ?_⟩
        · intro y e' hy
          dsimp only at hy
          rw [hget y] at hy
          split at hy
          · cases hy
          · have h := hJ.entries y e' hy
            refine ⟨h.key, h.ok, h.verified, h.round, h.low, h.ne, h.sub, ?_, ?_⟩
            · intro d' hd'
              rcases h.parents d' hd' with h1 | h1 | h1
              · exact .inl h1
              · exact .inr (.inl (List.mem_append_left _ h1))
              · exact .inr (.inr h1)
            · intro d' hd' hh
              rcases List.mem_append.mp hh with hh | hh
              · rcases h.queued d' hd' hh with h1 | h1
                · exact .inl (List.mem_append_left _ h1)
                · exact .inr h1
              · left
                have hdx : d' = x := List.mem_singleton.mp hh
                have := hL.parentRound h.ok hE.ok (by rw [hE.key, ← hdx]; exact h.sub d' hd')
                apply List.mem_append_right
                rw [List.mem_singleton, hdx, show e'.cert.header.round - 1 = e.cert.header.round by omega]
        · intro r' d' s hs
          obtain ⟨h1, h2⟩ := hJ.some r' d' s hs
          refine ⟨h1, ?_⟩
          intro y
          rw [h2 y, hw]
          constructor
          · intro hwy
            refine ⟨?_, hwy⟩
            rintro rfl
            obtain ⟨e', he', hr', hd'⟩ := hwy
            rw [he] at he'
            cases he'
            have hk : d' = d := honly d' hd'
            have hr : r' = r := by omega
            rw [hk, hr] at hs
            rw [hs] at hc1
            cases hc1
          · exact fun h => h.2
        · intro r' d' hg hne y hwy
          exact hJ.none r' d' hg hne y ((hw r' d' y).mp hwy).2
        · intro k hk
          cases hk
          refine ⟨hc1, ?_⟩
          intro y
          rw [hw]
          constructor
          · intro hy
            exact ⟨fun h => hxn (h ▸ hy), (hc2 y).mp (List.mem_cons_of_mem _ hy)⟩
          · rintro ⟨hne, hwy⟩
            rcases List.mem_cons.mp ((hc2 y).mpr hwy) with h | h
            · exact absurd h hne
            · exact h
        · intro k hk
          rcases List.mem_append.mp hk with hk | hk
          · rcases hJ.queue k hk with h | h
            · exact .inl (List.mem_append_left _ h)
            · exact .inr h
          · rw [List.mem_singleton.mp hk]
            exact .inl (List.mem_append_right _ (List.mem_singleton.mpr rfl))
      obtain ⟨new, m', h1, h2, h3, h4⟩ := ih (ready := ready ++ [e.cert]) hn'
        (hd.imp (List.mem_append_left _) id) hJ'
      refine ⟨e.cert :: new, m', ?_, ?_, ?_, h4⟩
      · rw [h1]
        simp [keyOf, hE.key, List.append_assoc]
      · simpa [digests, keyOf, hE.key, List.append_assoc] using h2
      · have hrel : Released U lo g acc m { m with pending := SMap.erase x m.pending } [e.cert] := by
          refine ⟨⟨?_, trivial⟩, ?_, ?_, ?_, ?_, ?_⟩
          · intro d' hd'
            rcases hE.parents d' hd' with h | h | h
            · rw [honly d' h]
              rcases hd with hd | hd
              · exact .inl hd
              · exact .inr (by omega)
            · exact .inl h
            · exact .inr h
          · intro d'
            have := count_erase hJ.sortedP he d'
            simp only [Pending.keys, digests, List.map_cons, List.map_nil, List.count_cons, List.count_nil, hE.key,
              beq_iff_eq]
            omega
          · intro c hc; rw [List.mem_singleton.mp hc]; exact hE.verified
          · intro c hc; rw [List.mem_singleton.mp hc]; exact hE.ok
          · intro c hc; rw [List.mem_singleton.mp hc]; exact hE.low
          · exact SMap.length_erase he
        have : digests [e.cert] = [x] := by simp [digests, hE.key]
        exact hrel.trans (by rw [this]; exact h3)
    · -- it still waits for others
      rw [if_neg hmt]
      have hget : ∀ y, SMap.get? y (SMap.insert x ⟨e.cert, e.missing.filter (fun y => decide (y ≠ d))⟩ m.pending) =
          if y = x then some ⟨e.cert, e.missing.filter (fun y => decide (y ≠ d))⟩ else SMap.get? y m.pending :=
        fun y => SMap.get?_insert
      have hw : ∀ r' d' y, Waits { m with pending := (SMap.insert x (⟨e.cert, e.missing.filter (fun y => decide (y ≠ d))⟩ : Entry) m.pending) } r' d' y ↔
          Waits m r' d' y ∧ (y = x → d' ≠ d) := by
        intro r' d' y
        unfold Waits
        dsimp only
        rw [hget y]
        by_cases hy : y = x
        · subst hy
          rw [if_pos rfl, he]
          constructor
          · rintro ⟨e', h1, h2, h3⟩
            cases h1
            simp only [List.mem_filter, decide_eq_true_eq] at h3
            exact ⟨⟨e, rfl, h2, h3.1⟩, fun _ => h3.2⟩
          · rintro ⟨⟨e', h1, h2, h3⟩, h4⟩
            cases h1
            refine ⟨_, rfl, h2, ?_⟩
            simp only [List.mem_filter, decide_eq_true_eq]
            exact ⟨h3, h4 rfl⟩
        · rw [if_neg hy]
          simp [hy]
      have hJ' : J U lo g acc here q (some (r, d)) xs { m with pending := (SMap.insert x (⟨e.cert, e.missing.filter (fun y => decide (y ≠ d))⟩ : Entry) m.pending) } := by
        refine ⟨SMap.sorted_insert hJ.sortedP, hJ.sortedB, ?_, ?_, ?_, ?_, hJ.queue⟩
        · intro y e' hy
          dsimp only at hy
          rw [hget y] at hy
          split at hy
          · rename_i hyx
            cases hy
            rw [hyx]
            refine ⟨hE.key, hE.ok, hE.verified, hE.round, hE.low, hmt, ?_, ?_, ?_⟩
            · intro d' hd'
              exact hE.sub d' (List.mem_filter.mp hd').1
            · intro d' hd'
              by_cases hdd : d' = d
              · rw [hdd]
                rcases hd with h | h
                · exact .inr (.inl h)
                · exact .inr (.inr (by dsimp only; omega))
              · rcases hE.parents d' hd' with h | h | h
                · exact .inl (List.mem_filter.mpr ⟨h, by simpa using hdd⟩)
                · exact .inr (.inl h)
                · exact .inr (.inr h)
            · intro d' hd' hh
              exact hE.queued d' (List.mem_filter.mp hd').1 hh
          · exact hJ.entries y e' hy
        · intro r' d' s hs
          obtain ⟨h1, h2⟩ := hJ.some r' d' s hs
          refine ⟨h1, ?_⟩
          intro y
          rw [h2 y, hw]
          constructor
          · intro hwy
            refine ⟨hwy, ?_⟩
            rintro rfl rfl
            obtain ⟨e', he', hr', hd'⟩ := hwy
            rw [he] at he'
            cases he'
            have hr : r' = r := by omega
            rw [hr] at hs
            rw [hs] at hc1
            cases hc1
          · exact fun h => h.1
        · intro r' d' hg hne y hwy
          exact hJ.none r' d' hg hne y ((hw r' d' y).mp hwy).1
        · intro k hk
          cases hk
          refine ⟨hc1, ?_⟩
          intro y
          rw [hw]
          constructor
          · intro hy
            exact ⟨(hc2 y).mp (List.mem_cons_of_mem _ hy), fun h => absurd (h ▸ hy) hxn⟩
          · rintro ⟨hwy, hne⟩
            rcases List.mem_cons.mp ((hc2 y).mpr hwy) with h | h
            · exact absurd rfl (hne h)
            · exact h
      obtain ⟨new, m', h1, h2, h3, h4⟩ := ih (ready := ready) hn' hd hJ'
      refine ⟨new, m', h1, h2, ?_, h4⟩
      refine ⟨h3.causal, ?_, h3.verified, h3.ok, h3.low, ?_⟩
      · intro d'
        have := h3.count d'
        simp only [Pending.keys] at this ⊢
        rw [keys_insert hJ.sortedP he] at this
        exact this
      · have := h3.length
        rw [SMap.length_insert hJ.sortedP he] at this
        exact this

/-- The cascade drains its queue and restores the invariant. -/
theorem cascade_ok (hL : Links U) {ord : List Digest → List Digest} (hord : ∀ l, (ord l).Perm l) {n : Nat}
    {q : List (Round × Digest)} {ready : List Certificate} {m : Pending} {acc here : List Digest}
    (hJ : J U lo g acc here q none [] m) (hfuel : 2 * m.pending.length + q.length ≤ n) :
    ∃ new m', cascade ord n q ready m = (m', .ok (ready ++ new)) ∧
      J U lo g (acc ++ digests new) (here ++ digests new) [] none [] m' ∧
      Released U lo g acc m m' new ∧ m'.blocked.Sublist m.blocked ∧
      (∀ k ∈ q, PMap.get? k m'.blocked = none) := by
  induction n generalizing q ready m acc here with
  | zero =>
    cases q with
    | nil =>
      exact ⟨[], m, by simp [cascade], by simpa [digests] using hJ, .refl _ _, List.Sublist.refl _, by simp⟩
    | cons k q => simp at hfuel
  | succ n ih =>
    cases q with
    | nil =>
      exact ⟨[], m, by simp [cascade], by simpa [digests] using hJ, .refl _ _, List.Sublist.refl _, by simp⟩
    | cons k q =>
      unfold cascade
      obtain ⟨r, d⟩ := k
      cases hg : PMap.get? (r, d) m.blocked with
      | none =>
        have hJ' : J U lo g acc here q none [] m := by
          refine ⟨hJ.sortedP, hJ.sortedB, ?_, hJ.some, hJ.none, hJ.cur, fun k hk => hJ.queue k (List.mem_cons_of_mem _ hk)⟩
          intro x e he
          have h := hJ.entries x e he
          refine ⟨h.key, h.ok, h.verified, h.round, h.low, h.ne, h.sub, h.parents, ?_⟩
          intro d' hd' hh
          rcases h.queued d' hd' hh with h1 | h1
          · rcases List.mem_cons.mp h1 with h1 | h1
            · exfalso
              cases h1
              exact hJ.none _ _ hg (by simp) x ⟨e, he, by have := h.round; omega, hd'⟩
            · exact .inl h1
          · cases h1
        dsimp only
        obtain ⟨new, m', h1, h2, h3, h4, h5⟩ := ih (ready := ready) hJ' (by simp at hfuel; omega)
        refine ⟨new, m', h1, h2, h3, h4, ?_⟩
        intro k hk
        rcases List.mem_cons.mp hk with rfl | hk
        · rw [PMap.get?_eq_none] at hg ⊢
          exact fun hm => hg ((h4.map _).subset hm)
        · exact h5 k hk
      | some ds =>
        obtain ⟨hds1, hds2⟩ := hJ.some r d ds hg
        have hJ' : J U lo g acc here q (some (r, d)) (ord ds) { m with blocked := PMap.erase (r, d) m.blocked } := by
          refine ⟨hJ.sortedP, PMap.sorted_erase hJ.sortedB, ?_, ?_, ?_, ?_,
            fun k hk => hJ.queue k (List.mem_cons_of_mem _ hk)⟩
          · intro x e he
            have h := hJ.entries x e he
            refine ⟨h.key, h.ok, h.verified, h.round, h.low, h.ne, h.sub, h.parents, ?_⟩
            intro d' hd' hh
            rcases h.queued d' hd' hh with h1 | h1
            · rcases List.mem_cons.mp h1 with h1 | h1
              · exact .inr (congrArg some h1.symm)
              · exact .inl h1
            · cases h1
          · intro r' d' s hs
            dsimp only at hs
            rw [PMap.get?_erase hJ.sortedB] at hs
            split at hs
            · cases hs
            · exact hJ.some r' d' s hs
          · intro r' d' hs hne x hw
            dsimp only at hs
            rw [PMap.get?_erase hJ.sortedB] at hs
            split at hs
            · rename_i hk; exact hne (congrArg some hk.symm)
            · exact hJ.none r' d' hs (by simp) x hw
          · intro k hk
            cases hk
            refine ⟨by dsimp only; rw [PMap.get?_erase hJ.sortedB, if_pos rfl], ?_⟩
            intro x
            rw [(hord ds).mem_iff, hds2 x]
            exact Iff.rfl
        obtain ⟨new, m', h1, h2, h3, h4⟩ := visit_ok hL (ready := ready) ((hord ds).nodup_iff.mpr hds1.1)
          (hJ.queue (r, d) (List.mem_cons_self ..)) hJ'
        dsimp only
        rw [h1]
        dsimp only
        have hlen := h3.length
        obtain ⟨new2, m2, e1, e2, e3, e4, e5⟩ := ih (ready := ready ++ new) h2 (by
          simp only [List.length_append, List.length_map, List.length_cons] at hfuel ⊢
          dsimp only at hlen
          omega)
        have hsub : m2.blocked.Sublist (PMap.erase (r, d) m.blocked) := by rw [h4] at e4; exact e4
        refine ⟨new ++ new2, m2, by rw [e1, List.append_assoc], ?_, ?_, hsub.trans (PMap.erase_sublist _ _), ?_⟩
        · simpa [digests, List.append_assoc] using e2
        · exact Released.trans ⟨h3.causal, h3.count, h3.verified, h3.ok, h3.low, h3.length⟩ e3
        · intro k hk
          rcases List.mem_cons.mp hk with rfl | hk
          · rw [PMap.get?_eq_none]
            intro hm
            have := (hsub.map (·.1)).subset hm
            rw [← not_not (a := (r, d) ∈ _), ← PMap.get?_eq_none] at this
            exact this (by rw [PMap.get?_erase hJ.sortedB, if_pos rfl])
          · exact e5 k (List.mem_append_left _ hk)

end Sync
end Verif
