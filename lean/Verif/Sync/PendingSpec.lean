import Verif.Sync.PendingInv
/-
The operations of the certificate manager preserve the invariant.
-/
namespace Verif
namespace Sync

variable {U : Header → Prop} {lo g : Round}

theorem mem_setInsert {x y : Digest} {s : List Digest} : y ∈ setInsert x s ↔ y = x ∨ y ∈ s := by
  unfold setInsert
  split
  · constructor
    · exact .inr
    · rintro (rfl | h) <;> assumption
  · simp [or_comm]

theorem nodup_setInsert {x : Digest} {s : List Digest} (h : s.Nodup) : (setInsert x s).Nodup := by
  unfold setInsert
  split
  · exact h
  · rename_i hx
    rw [List.nodup_append]
    exact ⟨h, by simp, fun a ha b hb => by rw [List.mem_singleton.mp hb]; rintro rfl; exact hx ha⟩

theorem setInsert_idem {x : Digest} {s : List Digest} : setInsert x (setInsert x s) = setInsert x s := by
  have h : x ∈ setInsert x s := mem_setInsert.mpr (.inl rfl)
  generalize setInsert x s = t at h ⊢
  exact if_pos h

theorem setInsert_ne {x : Digest} {s : List Digest} : setInsert x s ≠ [] :=
  List.ne_nil_of_mem (mem_setInsert.mpr (.inl rfl))

theorem sorted_block {r : Round} {x : Digest} {ds : List Digest} {m : List ((Round × Digest) × List Digest)}
    (h : PMap.Sorted m) : PMap.Sorted (block r x ds m) := by
  induction ds generalizing m with
  | nil => exact h
  | cons d ds ih => exact ih (PMap.sorted_insert h)

theorem get?_block_other {r : Round} {x : Digest} {ds : List Digest} {m : List ((Round × Digest) × List Digest)}
    {r' : Round} {d' : Digest} (h : ¬ (r' = r ∧ d' ∈ ds)) :
    PMap.get? (r', d') (block r x ds m) = PMap.get? (r', d') m := by
  induction ds generalizing m with
  | nil => rfl
  | cons d ds ih =>
    unfold block
    rw [ih (fun h' => h ⟨h'.1, List.mem_cons_of_mem _ h'.2⟩), PMap.get?_insert, if_neg]
    intro h'
    cases h'
    exact h ⟨rfl, List.mem_cons_self ..⟩

theorem get?_block {r : Round} {x : Digest} {ds : List Digest} {m : List ((Round × Digest) × List Digest)}
    {d' : Digest} (h : d' ∈ ds) :
    PMap.get? (r, d') (block r x ds m) = some (setInsert x ((PMap.get? (r, d') m).getD [])) := by
  induction ds generalizing m with
  | nil => cases h
  | cons d ds ih =>
    unfold block
    by_cases hds : d' ∈ ds
    · rw [ih hds, PMap.get?_insert]
      split
      · rename_i hk; cases hk; simp [setInsert_idem]
      · rfl
    · rw [get?_block_other (fun h' => hds h'.2)]
      rcases List.mem_cons.mp h with rfl | h'
      · rw [PMap.get?_insert, if_pos rfl]
      · exact absurd h' hds

/-- A certificate starts to wait. -/
theorem insertPending_ok {m : Pending} {acc here : List Digest} {cert : Certificate} {missing : List Digest}
    (hJ : J U lo g acc here [] none [] m) (hnew : SMap.get? cert.header.digest m.pending = none)
    (hU : U cert.header) (hv : cert.isVerified = true) (hr : 2 ≤ cert.header.round)
    (hlow : lo + 1 < cert.header.round) (hne : missing ≠ []) (hsub : ∀ d ∈ missing, d ∈ cert.header.parents)
    (hpar : ∀ d ∈ cert.header.parents, d ∈ missing ∨ d ∈ acc) (hhere : ∀ d ∈ missing, d ∉ here) :
    ∃ m', insertPending m cert missing = (m', .ok ()) ∧ J U lo g acc here [] none [] m' ∧
      m'.pending = SMap.insert cert.header.digest ⟨cert, missing⟩ m.pending := by
  refine ⟨⟨SMap.insert cert.header.digest ⟨cert, missing⟩ m.pending,
    block (cert.header.round - 1) cert.header.digest missing m.blocked⟩, ?_, ?_, rfl⟩
  · simp only [insertPending]; rw [hnew]
  generalize hx : cert.header.digest = x at *
  have hget : ∀ y, SMap.get? y (SMap.insert x ⟨cert, missing⟩ m.pending) =
      if y = x then some ⟨cert, missing⟩ else SMap.get? y m.pending := fun y => SMap.get?_insert
  have hnw : ∀ r d, ¬ Waits m r d x := by
    rintro r d ⟨e, he, _⟩
    rw [hnew] at he; cases he
  have hw : ∀ r d y, Waits ⟨SMap.insert x ⟨cert, missing⟩ m.pending,
      block (cert.header.round - 1) x missing m.blocked⟩ r d y ↔
      (y = x ∧ cert.header.round = r + 1 ∧ d ∈ missing) ∨ Waits m r d y := by
    intro r d y
    by_cases hy : y = x
    · subst hy
      simp only [hnw, or_false, true_and]
      unfold Waits
      dsimp only
      rw [hget y, if_pos rfl]
      simp
    · unfold Waits
      dsimp only
      rw [hget y, if_neg hy]
      simp [hy]
  refine ⟨SMap.sorted_insert hJ.sortedP, sorted_block hJ.sortedB, ?_, ?_, ?_, fun k hk => (by cases hk), by simp⟩
  · intro y e he
    dsimp only at he
    rw [hget y] at he
    split at he
    · rename_i hy
      cases he
      rw [hy]
      exact ⟨hx, hU, hv, hr, hlow, hne, hsub, fun d hd => (hpar d hd).imp id .inl,
        fun d hd hh => absurd hh (hhere d hd)⟩
    · exact hJ.entries y e he
  · intro r d s hs
    dsimp only at hs
    by_cases hk : r = cert.header.round - 1 ∧ d ∈ missing
    · obtain ⟨rfl, hd⟩ := hk
      rw [get?_block hd] at hs
      cases hs
      cases hg : PMap.get? (cert.header.round - 1, d) m.blocked with
      | none =>
        refine ⟨⟨nodup_setInsert (by simp), setInsert_ne⟩, ?_⟩
        intro y
        rw [mem_setInsert, hw]
        constructor
        · rintro (h | h)
          · exact .inl ⟨h, by omega, hd⟩
          · simp at h
        · rintro (h | h)
          · exact .inl h.1
          · exact absurd h (hJ.none _ _ hg (by simp) y)
      | some s =>
        obtain ⟨h1, h2⟩ := hJ.some _ _ _ hg
        refine ⟨⟨nodup_setInsert h1.1, setInsert_ne⟩, ?_⟩
        intro y
        rw [mem_setInsert, hw, Option.getD_some, h2]
        constructor
        · rintro (h | h)
          · exact .inl ⟨h, by omega, hd⟩
          · exact .inr h
        · rintro (h | h)
          · exact .inl h.1
          · exact .inr h
    · rw [get?_block_other hk] at hs
      obtain ⟨h1, h2⟩ := hJ.some _ _ _ hs
      refine ⟨h1, ?_⟩
      intro y
      rw [hw, h2]
      constructor
      · exact .inr
      · rintro (h | h)
        · exact absurd ⟨by omega, h.2.2⟩ hk
        · exact h
  · intro r d hg _ y hwy
    dsimp only at hg
    by_cases hk : r = cert.header.round - 1 ∧ d ∈ missing
    · obtain ⟨rfl, hd⟩ := hk
      rw [get?_block hd] at hg
      cases hg
    · rw [get?_block_other hk] at hg
      rcases (hw r d y).mp hwy with h | h
      · exact hk ⟨by omega, h.2.2⟩
      · exact hJ.none r d hg (by simp) y h

theorem J.mono {acc here acc' here' : List Digest} {Q : List (Round × Digest)} {m : Pending} {g' : Round}
    (hJ : J U lo g acc here Q .none [] m) (ha : ∀ d ∈ acc, d ∈ acc') (hh : ∀ d ∈ here', d ∈ here) (hg : g ≤ g') :
    J U lo g' acc' here' Q .none [] m := by
  refine ⟨hJ.sortedP, hJ.sortedB, ?_, hJ.some, hJ.none, hJ.cur, ?_⟩
  · intro x e he
    have h := hJ.entries x e he
    refine ⟨h.key, h.ok, h.verified, h.round, h.low, h.ne, h.sub, ?_, fun d hd hd' => h.queued d hd (hh d hd')⟩
    intro d hd
    rcases h.parents d hd with h | h | h
    · exact .inl h
    · exact .inr (.inl (ha d h))
    · exact .inr (.inr (by omega))
  · intro k hk
    rcases hJ.queue k hk with h | h
    · exact .inl (ha _ h)
    · exact .inr (by omega)

/-- What the gc loop looks at: if the first key is `k` then `k.2` itself does not wait: the branch that clears its
missing parents never runs. -/
theorem nextForGc_ok (hL : Links U) {m : Pending} {acc here : List Digest} (hJ : J U lo g acc here [] none [] m)
    (gc : Round) :
    (nextForGc m gc = (m, none) ∧ ∀ r d x, Waits m r d x → gc < r) ∨
    (∃ k, nextForGc m gc = (m, some k) ∧ k.1 ≤ gc ∧ (PMap.get? k m.blocked).isSome) := by
  unfold nextForGc
  cases hb : m.blocked with
  | nil =>
    left
    refine ⟨rfl, ?_⟩
    intro r d x hw
    exact absurd hw (hJ.none r d (by rw [hb]; rfl) (by simp) x)
  | cons kv rest =>
    obtain ⟨k, s⟩ := kv
    have hsort := hJ.sortedB
    rw [hb] at hsort
    have hmin : ∀ r d x, Waits m r d x → k = (r, d) ∨ PMap.Lt k (r, d) := by
      intro r d x hw
      cases hg : PMap.get? (r, d) m.blocked with
      | none => exact absurd hw (hJ.none r d hg (by simp) x)
      | some s' =>
        have hmem := (PMap.mem_iff hJ.sortedB).mpr hg
        rw [hb] at hmem
        rcases List.mem_cons.mp hmem with h | h
        · left; exact (congrArg Prod.fst h).symm
        · right; exact hsort.head _ h
    dsimp only
    by_cases hk : gc < k.1
    · left
      rw [if_pos hk]
      refine ⟨rfl, ?_⟩
      intro r d x hw
      rcases hmin r d x hw with rfl | h
      · exact hk
      · unfold PMap.Lt at h; simp only at h; omega
    · right
      rw [if_neg hk]
      refine ⟨k, ?_, by omega, by simp [PMap.get?]⟩
      cases hp : SMap.get? k.2 m.pending with
      | none => rfl
      | some e =>
        exfalso
        have he := hJ.entries _ _ hp
        -- the waiting parent waits for something of a smaller round
        obtain ⟨d, hd⟩ := List.exists_mem_of_ne_nil _ he.ne
        have hw : Waits m (e.cert.header.round - 1) d k.2 := ⟨e, hp, by have := he.round; omega, hd⟩
        have h1 := hmin _ _ _ hw
        -- and somebody waits for it
        obtain ⟨hs1, hs2⟩ := hJ.some k.1 k.2 s (by rw [hb]; simp [PMap.get?])
        obtain ⟨y, hy⟩ := List.exists_mem_of_ne_nil _ hs1.2
        obtain ⟨e', he', hr', hd'⟩ := (hs2 y).mp hy
        have hE' := hJ.entries _ _ he'
        have := hL.parentRound hE'.ok he.ok (by rw [he.key]; exact hE'.sub _ hd')
        have := he.round
        rcases h1 with h1 | h1
        · have := congrArg Prod.fst h1; simp only at this; omega
        · unfold PMap.Lt at h1; simp only at h1; omega

end Sync
end Verif
