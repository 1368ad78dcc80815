import Verif.Fetch.Answer
/-
Property C73: the certificate fetcher, crates/consensus/primary/src/certificate_fetcher.rs. What it wants, when it asks,
and how one round of asking ends.
-/
namespace Verif
namespace Fetch

open CertStore (Db lastRoundNumber Stored Uniq Reach)

/-! ### Targets -/

/-- `CertificateFetcher`: the targets in the order of their authorities, and the request being carried out (bound and
rounds to skip). -/
structure Fetcher where
  targets : List (AuthorityId × Round)
  task : Option (Round × List (AuthorityId × List Round))

/-- `should_fetch_certificate` (certificate_fetcher.rs:222-240). -/
def shouldFetch (db : Db) (targets : List (AuthorityId × Round)) (o : AuthorityId) (r : Round) : Bool :=
  match SMap.get? o targets with
  | some t => if r ≤ t then false else
      (match lastRoundNumber db o with
       | some last => decide (last < r)
       | none => true)
  | none =>
      (match lastRoundNumber db o with
       | some last => decide (last < r)
       | none => true)

/-- The last written round of an authority, the bound by default (certificate_fetcher.rs:328-333). -/
def lastWritten (gc : Round) (w : List (AuthorityId × List Round)) (o : AuthorityId) : Round :=
  match SMap.get? o w with
  | none => gc
  | some s => s.getLast?.getD gc

/-- `update_targets` (certificate_fetcher.rs:321-346). -/
def updateTargets (gc : Round) (w : List (AuthorityId × List Round)) (targets : List (AuthorityId × Round)) :
    List (AuthorityId × Round) := targets.filter (fun e => decide (lastWritten gc w e.1 < e.2))

/-- `start_fetch_task` (certificate_fetcher.rs:259-318). Serialising the request into memory does not fail. -/
def startFetch (committee : List AuthorityId) (db : Db) (gc : Round) (f : Fetcher) : Fetcher :=
  let w := writtenRounds committee db gc
  let targets := updateTargets gc w f.targets
  if targets = [] then ⟨targets, f.task⟩ else ⟨targets, some (gc, w)⟩

/-- What happens, with the store and the garbage-collection round at that time. -/
inductive Ev where
  /-- `Ancestors` of a certificate -/
  | ancestors (db : Db) (gc : Round) (epoch : Epoch) (o : AuthorityId) (r : Round)
  | kick (db : Db) (gc : Round)
  /-- the running task reports, with success or failure -/
  | finished (db : Db) (gc : Round)

/-- `handle_command` and `handle_fetch_completion` (certificate_fetcher.rs:178-257). The result of a task arrives only if
there is one. -/
def step (committee : List AuthorityId) (epoch : Epoch) (f : Fetcher) : Ev → Fetcher
  | .kick db gc => if f.task = none ∧ f.targets ≠ [] then startFetch committee db gc f else f
  | .ancestors db gc e o r =>
    if e ≠ epoch then f
    else if shouldFetch db f.targets o r = false then f
    else
      let f' : Fetcher := ⟨SMap.insert o r f.targets, f.task⟩
      if f.task = none then startFetch committee db gc f' else f'
  | .finished db gc =>
    match f.task with
    | none => f
    | some _ => if f.targets = [] then ⟨f.targets, none⟩ else startFetch committee db gc ⟨f.targets, none⟩

/-- The fetcher after a history. -/
def run (committee : List AuthorityId) (epoch : Epoch) (evs : List Ev) : Fetcher :=
  evs.foldl (step committee epoch) ⟨[], none⟩

/-- The store and the round of an event. -/
def Ev.db : Ev → Db
  | .ancestors db _ _ _ _ => db
  | .kick db _ => db
  | .finished db _ => db

def Ev.gc : Ev → Round
  | .ancestors _ gc _ _ _ => gc
  | .kick _ gc => gc
  | .finished _ gc => gc

/-- Stores that occur: of the committee's certificates, with rounds that fit 32 bits. -/
def Ev.Ok (U : Header → Prop) (committee : List AuthorityId) (e : Ev) : Prop :=
  (∃ keep, Reach U keep e.db) ∧ ∀ c, Stored e.db c → c.header.author ∈ committee

variable {U : Header → Prop} {committee : List AuthorityId} {epoch : Epoch}

/-- Specification: nothing is left to fetch for target `(o, t)`: a certificate of `o` for that round or a later one is
stored, or the round has been garbage collected. -/
def Satisfied (db : Db) (gc : Round) (o : AuthorityId) (t : Round) : Prop :=
  t ≤ gc ∨ ∃ c, Stored db c ∧ c.header.author = o ∧ t ≤ c.header.round

theorem asc_last {s : List Round} {r : Round} (h : Asc s) (hl : s.getLast? = some r) : ∀ x ∈ s, x ≤ r := by
  intro x hx
  have hne : s ≠ [] := by rintro rfl; cases hx
  have he : s = s.dropLast ++ [r] := by
    rw [List.getLast?_eq_some_getLast hne] at hl
    cases hl
    exact (List.dropLast_concat_getLast hne).symm
  unfold Asc at h
  rw [he, List.pairwise_append] at h
  rw [he] at hx
  rcases List.mem_append.mp hx with hx | hx
  · have := h.2.2 x hx r (by simp); omega
  · rw [List.mem_singleton] at hx; omega

theorem lastWritten_lt (hU : Uniq U) {keep : Nat} {db : Db} (h : Reach U keep db)
    (hcom : ∀ c, Stored db c → c.header.author ∈ committee) (gc : Round) (o : AuthorityId) (t : Round) :
    lastWritten gc (writtenRounds committee db gc) o < t ↔ ¬ Satisfied db gc o t := by
  obtain ⟨_, h2, h3⟩ := writtenRounds_exact hU h hcom gc
  unfold lastWritten Satisfied
  cases hg : SMap.get? o (writtenRounds committee db gc) with
  | none =>
    dsimp only
    constructor
    · rintro hlt (h4 | ⟨c, hc, ho, _⟩)
      · omega
      · have : o ∈ committee := by rw [← ho]; exact hcom c hc
        exact (SMap.get?_eq_none.mp hg) ((h2 o).mpr this)
    · intro hn
      by_contra hlt
      exact hn (.inl (by omega))
  | some s =>
    obtain ⟨j1, j2⟩ := h3 o s hg
    dsimp only
    cases hl : s.getLast? with
    | none =>
      have hs : s = [] := List.getLast?_eq_none_iff.mp hl
      subst hs
      rw [Option.getD_none]
      constructor
      · rintro hlt (h4 | ⟨c, hc, ho, hr⟩)
        · omega
        · exact absurd ((j2 c.header.round).mpr ⟨by omega, c, hc, ho, rfl⟩) (by simp)
      · intro hn
        by_contra hlt
        exact hn (.inl (by omega))
    | some r =>
      rw [Option.getD_some]
      have hmem := (j2 r).mp (List.mem_of_getLast? hl)
      constructor
      · rintro hlt (h4 | ⟨c, hc, ho, hr⟩)
        · omega
        · have := asc_last j1 hl _ ((j2 c.header.round).mpr ⟨by omega, c, hc, ho, rfl⟩)
          omega
      · intro hn
        by_contra hlt
        obtain ⟨_, c, hc, ho, hr⟩ := hmem
        exact hn (.inr ⟨c, hc, ho, by omega⟩)

theorem get?_filter {p : AuthorityId × Round → Bool} {m : List (AuthorityId × Round)} (hs : SMap.Sorted m)
    (o : AuthorityId) (t : Round) :
    SMap.get? o (m.filter p) = some t ↔ SMap.get? o m = some t ∧ p (o, t) = true := by
  have hs' : SMap.Sorted (m.filter p) := hs.sublist (List.filter_sublist.map _)
  constructor
  · intro h
    have := List.mem_filter.mp (SMap.mem_of_get? h)
    exact ⟨SMap.get?_of_mem hs this.1, this.2⟩
  · rintro ⟨h1, h2⟩
    exact SMap.get?_of_mem hs' (List.mem_filter.mpr ⟨SMap.mem_of_get? h1, h2⟩)

/-- After starting a task the targets are those that are not satisfied. -/
theorem startFetch_targets (hU : Uniq U) {keep : Nat} {db : Db} (h : Reach U keep db)
    (hcom : ∀ c, Stored db c → c.header.author ∈ committee) (gc : Round) (f : Fetcher) (hs : SMap.Sorted f.targets) :
    SMap.Sorted (startFetch committee db gc f).targets ∧
    ∀ o t, SMap.get? o (startFetch committee db gc f).targets = some t ↔
      SMap.get? o f.targets = some t ∧ ¬ Satisfied db gc o t := by
  have e : (startFetch committee db gc f).targets = updateTargets gc (writtenRounds committee db gc) f.targets := by
    unfold startFetch; dsimp only; split <;> rfl
  rw [e]
  refine ⟨hs.sublist (List.filter_sublist.map _), ?_⟩
  intro o t
  unfold updateTargets
  rw [get?_filter hs]
  simp only [decide_eq_true_eq]
  rw [lastWritten_lt hU h hcom gc o t]

theorem startFetch_task (db : Db) (gc : Round) (f : Fetcher) :
    ((startFetch committee db gc f).targets = [] ∧ (startFetch committee db gc f).task = f.task) ∨
    ((startFetch committee db gc f).targets ≠ [] ∧
      (startFetch committee db gc f).task = some (gc, writtenRounds committee db gc)) := by
  unfold startFetch
  dsimp only
  split
  · rename_i he; exact .inl ⟨he, rfl⟩
  · rename_i he; exact .inr ⟨he, rfl⟩

theorem step_sorted (hU : Uniq U) {f : Fetcher} (hs : SMap.Sorted f.targets) {e : Ev} (he : e.Ok U committee) :
    SMap.Sorted (step committee epoch f e).targets := by
  obtain ⟨⟨keep, hr⟩, hc⟩ := he
  cases e with
  | kick db gc =>
    simp only [step]
    split
    · exact (startFetch_targets hU hr hc gc f hs).1
    · exact hs
  | ancestors db gc ep o r =>
    simp only [step]
    split
    · exact hs
    · split
      · exact hs
      · split
        · exact (startFetch_targets hU hr hc gc ⟨_, _⟩ (SMap.sorted_insert hs)).1
        · exact SMap.sorted_insert hs
  | finished db gc =>
    simp only [step]
    split
    · exact hs
    · split
      · exact hs
      · exact (startFetch_targets hU hr hc gc ⟨f.targets, none⟩ hs).1

theorem run_sorted (hU : Uniq U) {evs : List Ev} (h : ∀ e ∈ evs, e.Ok U committee) :
    SMap.Sorted (run committee epoch evs).targets := by
  unfold run
  have : ∀ (evs : List Ev) (f : Fetcher), SMap.Sorted f.targets → (∀ e ∈ evs, e.Ok U committee) →
      SMap.Sorted (evs.foldl (step committee epoch) f).targets := by
    intro evs
    induction evs with
    | nil => intro f hf _; exact hf
    | cons e evs ih =>
      intro f hf he
      exact ih _ (step_sorted hU hf (he e (by simp))) (fun x hx => he x (by simp [hx]))
  exact this evs _ SMap.sorted_nil h

/-- **While something is wanted, a fetch is under way.** After every history. -/
theorem wanted_is_fetched (evs : List Ev) (h : (run committee epoch evs).targets ≠ []) :
    (run committee epoch evs).task ≠ none := by
  have key : ∀ (evs : List Ev) (f : Fetcher), (f.targets ≠ [] → f.task ≠ none) →
      (evs.foldl (step committee epoch) f).targets ≠ [] → (evs.foldl (step committee epoch) f).task ≠ none := by
    intro evs
    induction evs with
    | nil => intro f hf; exact hf
    | cons e evs ih =>
      intro f hf
      refine ih _ ?_
      have hstart : ∀ (db : Db) (gc : Round) (f : Fetcher), (startFetch committee db gc f).targets ≠ [] →
          (startFetch committee db gc f).task ≠ none := by
        intro db gc f hne
        rcases startFetch_task (committee := committee) db gc f with ⟨h1, _⟩ | ⟨_, h2⟩
        · exact absurd h1 hne
        · rw [h2]; simp
      cases e with
      | kick db gc =>
        simp only [step]
        split
        · exact hstart _ _ _
        · exact hf
      | ancestors db gc ep o r =>
        simp only [step]
        split
        · exact hf
        · split
          · exact hf
          · split
            · exact hstart _ _ _
            · rename_i ht; intro _; exact ht
      | finished db gc =>
        simp only [step]
        split
        · exact hf
        · split
          · rename_i he; intro hne; exact absurd he hne
          · exact hstart _ _ _
  exact key evs _ (fun h => absurd rfl h) h

/-- **What is wanted stays wanted until it is satisfied.** A step never lowers a target, and removes one only if, at
that moment, a certificate of that authority for its round or a later one is stored or the round is garbage
collected. -/
theorem target_kept (hU : Uniq U) {evs : List Ev} (hevs : ∀ e ∈ evs, e.Ok U committee) {e : Ev} (he : e.Ok U committee)
    {o : AuthorityId} {t : Round} (h : SMap.get? o (run committee epoch evs).targets = some t) :
    (∃ t', SMap.get? o (run committee epoch (evs ++ [e])).targets = some t' ∧ t ≤ t') ∨ Satisfied e.db e.gc o t := by
  have hs := run_sorted (epoch := epoch) hU hevs
  have er : run committee epoch (evs ++ [e]) = step committee epoch (run committee epoch evs) e := by
    unfold run; rw [List.foldl_append]; rfl
  rw [er]
  generalize run committee epoch evs = f at h hs
  obtain ⟨⟨keep, hr⟩, hc⟩ := he
  have start : ∀ (db : Db) (gc : Round) (f : Fetcher) (t : Round), Reach U keep db →
      (∀ c, Stored db c → c.header.author ∈ committee) → SMap.Sorted f.targets → SMap.get? o f.targets = some t →
      (∃ t', SMap.get? o (startFetch committee db gc f).targets = some t' ∧ t ≤ t') ∨ Satisfied db gc o t := by
    intro db gc f t hr hc hs h
    by_cases hsat : Satisfied db gc o t
    · exact .inr hsat
    · exact .inl ⟨t, ((startFetch_targets hU hr hc gc f hs).2 o t).mpr ⟨h, hsat⟩, Nat.le_refl t⟩
  cases e with
  | kick db gc =>
    simp only [step]
    split
    · exact start db gc f t hr hc hs h
    · exact .inl ⟨t, h, Nat.le_refl t⟩
  | ancestors db gc ep o2 r =>
    simp only [step]
    split
    · exact .inl ⟨t, h, Nat.le_refl t⟩
    · split
      · exact .inl ⟨t, h, Nat.le_refl t⟩
      · rename_i hsf
        have hup : ∃ t1, SMap.get? o (SMap.insert o2 r f.targets) = some t1 ∧ t ≤ t1 := by
          rw [SMap.get?_insert]
          split
          · rename_i heq
            subst heq
            refine ⟨r, rfl, ?_⟩
            unfold shouldFetch at hsf
            rw [h] at hsf
            dsimp only at hsf
            by_contra hlt
            rw [if_pos (by omega)] at hsf
            exact hsf rfl
          · exact ⟨t, h, Nat.le_refl t⟩
        obtain ⟨t1, ht1, hle⟩ := hup
        split
        · rcases start db gc ⟨SMap.insert o2 r f.targets, f.task⟩ t1 hr hc (SMap.sorted_insert hs) ht1 with
            ⟨t2, h2, h3⟩ | h2
          · exact .inl ⟨t2, h2, by omega⟩
          · right
            show Satisfied db gc o t
            rcases h2 with h2 | ⟨c, h2, h3, h4⟩
            · exact .inl (by omega)
            · exact .inr ⟨c, h2, h3, by omega⟩
        · exact .inl ⟨t1, ht1, hle⟩
  | finished db gc =>
    simp only [step]
    split
    · exact .inl ⟨t, h, Nat.le_refl t⟩
    · split
      · exact .inl ⟨t, h, Nat.le_refl t⟩
      · exact start db gc ⟨f.targets, none⟩ t hr hc hs h

/-- **A report of missing ancestors is acted on**: unless it is from another epoch, afterwards a target of its author
at that round or later is set, or the request was moot. -/
theorem ancestors_recorded (hU : Uniq U) (hmax : ∀ x, U x → x.round < CertStore.roundMax) {evs : List Ev}
    (hevs : ∀ e ∈ evs, e.Ok U committee) {db : Db} {gc : Round} {o : AuthorityId} {r : Round}
    (he : (Ev.ancestors db gc epoch o r).Ok U committee) :
    (∃ t, SMap.get? o (run committee epoch (evs ++ [.ancestors db gc epoch o r])).targets = some t ∧ r ≤ t) ∨
      Satisfied db gc o r := by
  have hs := run_sorted (epoch := epoch) hU hevs
  have er : run committee epoch (evs ++ [.ancestors db gc epoch o r]) =
      step committee epoch (run committee epoch evs) (.ancestors db gc epoch o r) := by
    unfold run; rw [List.foldl_append]; rfl
  rw [er]
  generalize run committee epoch evs = f at hs
  obtain ⟨⟨keep, hr⟩, hc⟩ := he
  simp only [Ev.db] at hr hc
  have hlast := CertStore.lastRound_exact hU hr hmax o
  have stored : (match lastRoundNumber db o with | some last => decide (last < r) | none => true) = false →
      Satisfied db gc o r := by
    intro hf
    cases hl : CertStore.lastRound db o with
    | none =>
      rw [hl] at hlast
      rw [hlast.1] at hf
      cases hf
    | some c =>
      rw [hl] at hlast
      rw [hlast.1] at hf
      simp only [Option.map_some, decide_eq_false_iff_not] at hf
      exact .inr ⟨c, hlast.2.1, hlast.2.2.1, by omega⟩
  simp only [step]
  rw [if_neg (by simp)]
  split
  · rename_i hsf
    unfold shouldFetch at hsf
    cases hg : SMap.get? o f.targets with
    | none => rw [hg] at hsf; exact .inr (stored hsf)
    | some t =>
      rw [hg] at hsf
      dsimp only at hsf
      by_cases hle : r ≤ t
      · exact .inl ⟨t, rfl, hle⟩
      · rw [if_neg hle] at hsf; exact .inr (stored hsf)
  · have hg : SMap.get? o (SMap.insert o r f.targets) = some r := by rw [SMap.get?_insert, if_pos rfl]
    split
    · by_cases hsat : Satisfied db gc o r
      · exact .inr hsat
      · exact .inl ⟨r, ((startFetch_targets hU hr hc gc ⟨SMap.insert o r f.targets, f.task⟩
          (SMap.sorted_insert hs)).2 o r).mpr ⟨hg, hsat⟩, Nat.le_refl r⟩
    · exact .inl ⟨r, hg, Nat.le_refl r⟩

/-- **Other epochs are ignored.** -/
theorem other_epoch_ignored (f : Fetcher) (db : Db) (gc : Round) {e : Epoch} (he : e ≠ epoch) (o : AuthorityId) (r : Round) :
    step committee epoch f (.ancestors db gc e o r) = f := by
  simp only [step]; rw [if_pos he]

/-- **One fetch at a time**: a new request replaces one only when that one has reported. -/
theorem one_at_a_time (f : Fetcher) {x : Round × List (AuthorityId × List Round)} (hx : f.task = some x) (e : Ev)
    (hne : ∀ db gc, e ≠ .finished db gc) : (step committee epoch f e).task = some x := by
  cases e with
  | kick db gc => simp only [step]; rw [if_neg (by rw [hx]; simp)]; exact hx
  | ancestors db gc ep o r =>
    simp only [step]
    split
    · exact hx
    · split
      · exact hx
      · rw [if_neg (by rw [hx]; simp)]; exact hx
  | finished db gc => exact absurd rfl (hne db gc)

/-- **A request is made for the store and the bound of its time**; when a fetch reports and something is still wanted,
the next one starts at once. -/
theorem next_request (f : Fetcher) {x : Round × List (AuthorityId × List Round)} (hx : f.task = some x) (db : Db) (gc : Round) :
    (step committee epoch f (.finished db gc)).task = none ∨
      (step committee epoch f (.finished db gc)).task = some (gc, writtenRounds committee db gc) := by
  simp only [step, hx]
  split
  · exact .inl rfl
  · rcases startFetch_task (committee := committee) db gc ⟨f.targets, none⟩ with ⟨_, h⟩ | ⟨_, h⟩
    · exact .inl h
    · exact .inr h

end Fetch
end Verif
