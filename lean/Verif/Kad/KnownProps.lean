import Verif.Kad.Known
import Mathlib.Data.List.Nodup
import Mathlib.Data.List.Perm.Subperm

/-!
# Properties of the address book and of the lookups that fill it
-/

namespace Verif.Kad

open Verif.Net (get put del keys)

theorem member_iff (s : Book) (b : Nat) : s.member b = true ↔ b ∈ s.prev ∨ b ∈ s.cur ∨ b ∈ s.next := by
  unfold Book.member
  exact decide_eq_true_iff

/-! ## Bounds -/

/-- every entry is an operator's or a committee member's -/
def Bounded (s : Book) : Prop := ∀ k ∈ keys s.known, k ∈ s.pinned ∨ s.member k = true

theorem keys_put {b : Nat} {e : Entry} {l : List (Nat × Entry)} {k : Nat} (h : k ∈ keys (put b e l)) :
    k = b ∨ k ∈ keys l := by
  rcases List.mem_cons.mp h with h | h
  · exact .inl h
  · exact .inr ((List.filter_sublist.map _).subset h)

theorem committees_bounded (wf : Nat → Bool) (s : Book) (p c n : List Nat) :
    Bounded ((BookOp.committees p c n).run wf s) := by
  intro k hk
  obtain ⟨e, he, rfl⟩ := List.mem_map.mp hk
  obtain ⟨-, h⟩ := List.mem_filter.mp he
  rw [Bool.or_eq_true, decide_eq_true_iff] at h
  exact h

/-- not a record restored at start -/
def BookOp.live : BookOp → Bool
  | .restored _ _ => false
  | _ => true

theorem live_bounded (wf : Nat → Bool) {s : Book} (h : Bounded s) {o : BookOp} (ho : o.live = true) :
    Bounded (o.run wf s) := by
  cases o with
  | operator b e =>
    intro k hk
    rcases keys_put hk with rfl | hk
    · exact .inl (by simp [BookOp.run, Book.cache, Book.pin])
    · exact (h k hk).imp (fun h => List.mem_cons_of_mem _ h) id
  | trusted b e =>
    intro k hk
    rcases keys_put hk with rfl | hk
    · exact .inl (by simp [BookOp.run, Book.pin])
    · exact (h k hk).imp (fun h => List.mem_cons_of_mem _ h) id
  | bootstrap b e =>
    simp only [BookOp.run]
    split
    · intro k hk
      exact (h k hk).imp (fun h => List.mem_cons_of_mem _ h) id
    · intro k hk
      rcases keys_put hk with rfl | hk
      · exact .inl (by simp [Book.cache, Book.pin])
      · exact (h k hk).imp (fun h => List.mem_cons_of_mem _ h) id
  | restored b e => cases ho
  | record b e =>
    simp only [BookOp.run, Book.discovered]
    split
    · rename_i hm
      split
      · exact h
      · intro k hk
        rcases keys_put hk with rfl | hk
        · exact .inr hm
        · exact h k hk
    · exact h
  | committees p c n => exact committees_bounded wf s p c n

/-- **Bounded.**  From the first committee update on, whatever records peers push and however
many lookups end, the book holds only operators' peers and members of the previous, the current
and the next committee. -/
theorem book_bounded (wf : Nat → Bool) (s : Book) (before after : List BookOp) (p c n : List Nat)
    (ha : ∀ o ∈ after, o.live = true) : Bounded (bookRuns wf (before ++ .committees p c n :: after) s) := by
  have gen : ∀ (l : List BookOp) (s : Book), (∀ o ∈ l, o.live = true) → Bounded s → Bounded (bookRuns wf l s) := by
    intro l
    induction l with
    | nil => intro s _ h; exact h
    | cons o l ih =>
      intro s hl h
      exact ih _ (fun o ho => hl o (by simp [ho])) (live_bounded wf h (hl o (by simp)))
  unfold bookRuns
  rw [List.foldl_append, List.foldl_cons]
  exact gen after _ ha (committees_bounded wf _ p c n)

/-- the number of entries is at most that of pinned keys and committee seats -/
theorem bounded_length {s : Book} (h : Bounded s) (hn : (keys s.known).Nodup) :
    s.known.length ≤ s.pinned.length + s.prev.length + s.cur.length + s.next.length := by
  have hsub : keys s.known ⊆ s.pinned ++ s.prev ++ s.cur ++ s.next := by
    intro k hk
    rcases h k hk with h | h
    · simp [h]
    · rcases (member_iff s k).mp h with h | h | h <;> simp [h]
  have := (hn.subperm hsub).length_le
  simp only [keys, List.length_map, List.length_append] at this
  exact this

theorem nodup_step (wf : Nat → Bool) {s : Book} (h : (keys s.known).Nodup) (o : BookOp) : (keys (o.run wf s).known).Nodup := by
  cases o with
  | operator b e => exact Verif.Net.nodup_put _ _ h
  | trusted b e => exact Verif.Net.nodup_put _ _ h
  | bootstrap b e =>
    simp only [BookOp.run]
    split
    · exact h
    · exact Verif.Net.nodup_put _ _ h
  | restored b e => exact Verif.Net.nodup_put _ _ h
  | record b e =>
    simp only [BookOp.run, Book.discovered]
    split
    · split
      · exact h
      · exact Verif.Net.nodup_put _ _ h
    · exact h
  | committees p c n => exact h.sublist (List.filter_sublist.map _)

theorem nodup_runs (wf : Nat → Bool) (l : List BookOp) : ∀ {s : Book}, (keys s.known).Nodup →
    (keys (bookRuns wf l s).known).Nodup := by
  induction l with
  | nil => intro s h; exact h
  | cons o l ih => intro s h; exact ih (nodup_step wf h o)

/-! ## A member stays resolvable, by its newest record -/

theorem get_prune {s : Book} {b : Nat} {x : Entry} (hn : (keys s.known).Nodup) (hg : get b s.known = some x)
    (h : b ∈ s.pinned ∨ s.member b = true) : get b s.prune.known = some x := by
  refine Verif.Net.get_of_mem (hn.sublist (List.filter_sublist.map _)) (List.mem_filter.mpr ⟨Verif.Net.mem_of_get hg, ?_⟩)
  rw [Bool.or_eq_true, decide_eq_true_iff]
  exact h

theorem strip_ts (wf : Nat → Bool) (e : Entry) : (strip wf e).ts = e.ts ∧ (strip wf e).pid = e.pid := by
  unfold strip
  split
  · split <;> exact ⟨rfl, rfl⟩
  · exact ⟨rfl, rfl⟩

theorem discovered_get (wf : Nat → Bool) {s : Book} {b k : Nat} {e : Entry} :
    get k (s.discovered wf b e).known =
      if k = b ∧ s.member b = true ∧ s.stale b e = false then some (strip wf e) else get k s.known := by
  unfold Book.discovered
  by_cases hm : s.member b = true
  · rw [if_pos hm]
    by_cases hs : s.stale b e = true
    · rw [if_pos hs, if_neg (by rintro ⟨-, -, h⟩; rw [hs] at h; cases h)]
    · rw [if_neg hs]
      rw [Bool.not_eq_true] at hs
      unfold Book.cache
      rw [Verif.Net.get_put]
      by_cases hk : k = b
      · rw [if_pos hk, if_pos ⟨hk, hm, hs⟩]
      · rw [if_neg hk, if_neg (fun h => hk h.1)]
  · rw [if_neg hm, if_neg (fun h => hm h.2.1)]

/-- how far a history leaves the key `b` to discovery: it is never provisioned by the operator
or restored, and each committee update keeps it in one of the three committees -/
def Keeps (b : Nat) : BookOp → Prop
  | .operator k _ | .trusted k _ | .bootstrap k _ | .restored k _ => k ≠ b
  | .record _ _ => True
  | .committees p c n => b ∈ p ∨ b ∈ c ∨ b ∈ n

/-- **A known member stays resolvable and never by an older record.**  While a key is in the
committees, its entry does not expire and is not evicted, whatever peers push; and its time
stamp never goes back. -/
theorem member_stays (wf : Nat → Bool) {b : Nat} (l : List BookOp) (hl : ∀ o ∈ l, Keeps b o) :
    ∀ {s : Book} {x : Entry}, (keys s.known).Nodup → b ∉ s.pinned → get b s.known = some x →
      ∃ y, get b (bookRuns wf l s).known = some y ∧ x.ts ≤ y.ts ∧ (x.ts = y.ts → x = y) := by
  induction l with
  | nil => intro s x _ _ hg; exact ⟨x, hg, Nat.le_refl _, fun _ => rfl⟩
  | cons o l ih =>
    intro s x hn hp hg
    have ho := hl o (by simp)
    have step : ∃ y, get b (o.run wf s).known = some y ∧ x.ts ≤ y.ts ∧ (x.ts = y.ts → x = y) ∧ b ∉ (o.run wf s).pinned := by
      cases o with
      | operator k e =>
        have ho : k ≠ b := ho
        refine ⟨x, ?_, Nat.le_refl _, fun _ => rfl, ?_⟩
        · show get b (put k _ s.known) = _
          rw [Verif.Net.get_put_ne ho.symm]; exact hg
        · show b ∉ k :: s.pinned
          simp [hp, ho.symm]
      | trusted k e =>
        have ho : k ≠ b := ho
        refine ⟨x, ?_, Nat.le_refl _, fun _ => rfl, ?_⟩
        · show get b (put k _ s.known) = _
          rw [Verif.Net.get_put_ne ho.symm]; exact hg
        · show b ∉ k :: s.pinned
          simp [hp, ho.symm]
      | bootstrap k e =>
        have ho : k ≠ b := ho
        have hp' : b ∉ k :: s.pinned := by simp [hp, ho.symm]
        simp only [BookOp.run]
        split
        · exact ⟨x, hg, Nat.le_refl _, fun _ => rfl, hp'⟩
        · refine ⟨x, ?_, Nat.le_refl _, fun _ => rfl, hp'⟩
          show get b (put k _ s.known) = _
          rw [Verif.Net.get_put_ne ho.symm]; exact hg
      | restored k e =>
        have ho : k ≠ b := ho
        refine ⟨x, ?_, Nat.le_refl _, fun _ => rfl, hp⟩
        show get b (put k _ s.known) = _
        rw [Verif.Net.get_put_ne ho.symm]; exact hg
      | record k e =>
        have hpin : (s.discovered wf k e).pinned = s.pinned := by
          unfold Book.discovered Book.cache
          split
          · split <;> rfl
          · rfl
        simp only [BookOp.run]
        rw [discovered_get, hpin]
        split
        · rename_i h
          obtain ⟨rfl, hm, hs⟩ := h
          have hs : s.atLeast b e.ts = false := by
            unfold Book.stale at hs
            simpa [hp] using hs
          unfold Book.atLeast at hs
          rw [hg] at hs
          have hlt : ¬ e.ts ≤ x.ts := of_decide_eq_false hs
          have := (strip_ts wf e).1
          exact ⟨_, rfl, by omega, fun h => by omega, hp⟩
        · exact ⟨x, hg, Nat.le_refl _, fun _ => rfl, hp⟩
      | committees p c n =>
        refine ⟨x, ?_, Nat.le_refl _, fun _ => rfl, hp⟩
        exact get_prune (s := { s with prev := p, cur := c, next := n }) hn hg (.inr ((member_iff _ b).mpr ho))
    obtain ⟨y, h1, h2, h3, h4⟩ := step
    obtain ⟨z, h5, h6, h7⟩ := ih (fun o ho => hl o (by simp [ho])) (nodup_step wf hn o) h4 h1
    exact ⟨z, h5, by omega, fun h => (h3 (by omega)).trans (h7 (by omega))⟩

/-- **Operators' peers stay.**  A pinned key that is known remains known, through every history. -/
theorem pinned_stays (wf : Nat → Bool) {b : Nat} (l : List BookOp) : ∀ {s : Book} {x : Entry}, (keys s.known).Nodup →
    b ∈ s.pinned → get b s.known = some x → ∃ y, get b (bookRuns wf l s).known = some y := by
  induction l with
  | nil => intro s x _ _ hg; exact ⟨x, hg⟩
  | cons o l ih =>
    intro s x hn hp hg
    have put_some : ∀ (k : Nat) (e : Entry), ∃ y, get b (put k e s.known) = some y := by
      intro k e
      rw [Verif.Net.get_put]
      split
      · exact ⟨_, rfl⟩
      · exact ⟨x, hg⟩
    have step : (∃ y, get b (o.run wf s).known = some y) ∧ b ∈ (o.run wf s).pinned := by
      cases o with
      | operator k e => exact ⟨put_some k _, List.mem_cons_of_mem _ hp⟩
      | trusted k e => exact ⟨put_some k _, List.mem_cons_of_mem _ hp⟩
      | bootstrap k e =>
        simp only [BookOp.run]
        split
        · exact ⟨⟨x, hg⟩, List.mem_cons_of_mem _ hp⟩
        · exact ⟨put_some k _, List.mem_cons_of_mem _ hp⟩
      | restored k e => exact ⟨put_some k _, hp⟩
      | record k e =>
        simp only [BookOp.run]
        constructor
        · rw [discovered_get]
          split
          · exact ⟨_, rfl⟩
          · exact ⟨x, hg⟩
        · unfold Book.discovered Book.cache
          split
          · split <;> exact hp
          · exact hp
      | committees p c n =>
        exact ⟨⟨x, get_prune (s := { s with prev := p, cur := c, next := n }) hn hg (.inl hp)⟩, hp⟩
    obtain ⟨⟨y, hy⟩, hp'⟩ := step
    exact ih (nodup_step wf hn o) hp' hy

/-- **A member's newer record is taken**, without its endpoint if that is malformed. -/
theorem member_learned (wf : Nat → Bool) {s : Book} {b : Nat} {e : Entry} (hm : s.member b = true)
    (hnew : ∀ x, get b s.known = some x → x.ts < e.ts) :
    get b (s.discovered wf b e).known = some (strip wf e) := by
  have hst : s.stale b e = false := by
    unfold Book.stale Book.atLeast
    cases hg : get b s.known with
    | none => simp
    | some x =>
      have := hnew x hg
      have : ¬ e.ts ≤ x.ts := by omega
      simp [this]
  rw [discovered_get, if_pos ⟨rfl, hm, hst⟩]

/-- **Outsiders cannot write.**  A record whose key is in no committee leaves the book as it is,
and a record never changes the entry of another key. -/
theorem outsider_ignored (wf : Nat → Bool) {s : Book} {b : Nat} (e : Entry) :
    (s.member b = false → s.discovered wf b e = s) ∧ ∀ k, k ≠ b → get k (s.discovered wf b e).known = get k s.known := by
  constructor
  · intro h
    unfold Book.discovered
    rw [if_neg (by rw [h]; simp)]
  · intro k hk
    rw [discovered_get, if_neg (fun h => hk h.1)]

/-- **A pinned member can be set back** (finding).  For a key the operator provisioned (the
bootstrap peers, usually committee members) time stamps are not compared at all: any older
record its owner once signed, replayed by anybody and passing the store's own check, replaces
the newest entry, and the member is then looked for at its old identity. -/
theorem pinned_set_back (wf : Nat → Bool) {s : Book} {b : Nat} {old : Entry} (hm : s.member b = true) (hp : b ∈ s.pinned) :
    get b (s.discovered wf b old).known = some (strip wf old) := by
  rw [discovered_get, if_pos ⟨rfl, hm, by simp [Book.stale, hp]⟩]

/-! ## Endpoints -/

/-- every endpoint in the book is well formed -/
def Clean (wf : Nat → Bool) (s : Book) : Prop := ∀ k e, (k, e) ∈ s.known → ∀ u, e.rpc = some u → wf u = true

theorem strip_clean (wf : Nat → Bool) (e : Entry) : ∀ u, (strip wf e).rpc = some u → wf u = true := by
  intro u h
  unfold strip at h
  split at h
  · rename_i v hv
    split at h
    · rename_i hw
      rw [hv] at h; cases h; exact hw
    · cases h
  · rename_i hv; rw [hv] at h; cases h

theorem put_clean {wf : Nat → Bool} {l : List (Nat × Entry)} {b : Nat} {e : Entry}
    (h : ∀ k e, (k, e) ∈ l → ∀ u, e.rpc = some u → wf u = true) (he : ∀ u, e.rpc = some u → wf u = true) :
    ∀ k x, (k, x) ∈ put b e l → ∀ u, x.rpc = some u → wf u = true := by
  intro k x hm
  rcases List.mem_cons.mp hm with e1 | hm
  · cases e1; exact he
  · exact h k x (List.mem_filter.mp hm).1

/-- **Only well-formed endpoints.**  Whatever endpoints records advertise, the book gives out
well-formed ones only (trusted peers are provisioned without an endpoint). -/
theorem endpoints_clean (wf : Nat → Bool) (l : List BookOp) (hl : ∀ o ∈ l, ∀ b e, o = .trusted b e → e.rpc = none) :
    ∀ {s : Book}, Clean wf s → Clean wf (bookRuns wf l s) := by
  induction l with
  | nil => intro s h; exact h
  | cons o l ih =>
    intro s h
    refine ih (fun o ho => hl o (by simp [ho])) ?_
    cases o with
    | operator b e => exact put_clean h (strip_clean wf e)
    | trusted b e =>
      refine put_clean h ?_
      rw [hl (.trusted b e) (by simp) b e rfl]
      intro u hu; cases hu
    | bootstrap b e =>
      simp only [BookOp.run]
      split
      · exact h
      · exact put_clean h (strip_clean wf e)
    | restored b e => exact put_clean h (strip_clean wf e)
    | record b e =>
      simp only [BookOp.run, Book.discovered]
      split
      · split
        · exact h
        · exact put_clean h (strip_clean wf e)
      · exact h
    | committees p c n => exact fun k e hm => h k e (List.mem_filter.mp hm).1

/-! ## Lookups -/

/-- A committee update looks up exactly the current and next members that are not known. -/
theorem update_looks_up (s : Book) (p c n : List Nat) (k : Nat) :
    k ∈ (s.update p c n).2 ↔ (k ∈ c ∨ k ∈ n) ∧ get k s.known = none := by
  unfold Book.update Book.missing
  rw [List.mem_append, List.mem_filter, List.mem_filter, Option.isNone_iff_eq_none]
  tauto

/-- the running lookups are for different keys and their ids were issued -/
structure Distinct (s : Lookups) : Prop where
  ids : (keys s.queries).Nodup
  issued : ∀ q ∈ keys s.queries, q < s.fresh
  requests : (s.queries.map (fun q => q.2.request)).Nodup

theorem requests_del {l : List (Nat × Query)} {q : Nat} (h : (l.map (fun q => q.2.request)).Nodup) :
    ((del q l).map (fun q => q.2.request)).Nodup := h.sublist (List.filter_sublist.map _)

theorem ask_distinct {s : Lookups} (h : Distinct s) (k : Nat) : Distinct (s.ask k) := by
  unfold Lookups.ask
  split
  · rename_i hall
    have hall := List.all_eq_true.mp hall
    refine ⟨Verif.Net.nodup_put _ _ h.ids, ?_, ?_⟩
    · intro q hq
      rcases List.mem_cons.mp hq with e | hq
      · subst e; exact Nat.lt_succ_self _
      · exact Nat.lt_succ_of_lt (h.issued q ((List.filter_sublist.map _).subset hq))
    · show (k :: (del s.fresh s.queries).map (fun q => q.2.request)).Nodup
      rw [List.nodup_cons]
      refine ⟨?_, requests_del h.requests⟩
      intro hm
      obtain ⟨q, hq, e⟩ := List.mem_map.mp hm
      exact of_decide_eq_true (hall q (List.mem_filter.mp hq).1) e
  · exact h

theorem asks_distinct (ks : List Nat) : ∀ {s : Lookups}, Distinct s → Distinct (ks.foldl Lookups.ask s) := by
  induction ks with
  | nil => intro s h; exact h
  | cons k ks ih => intro s h; exact ih (ask_distinct h k)

theorem close_queries (wf : Nat → Bool) (q : Nat) (s : Lookups) :
    (s.close wf q).queries = del q s.queries ∧ (s.close wf q).fresh = s.fresh ∧ (s.close wf q).penalised = s.penalised := by
  unfold Lookups.close
  cases hg : get q s.queries with
  | none => exact ⟨(Verif.Net.del_eq_self hg).symm, rfl, rfl⟩
  | some x => exact ⟨rfl, rfl, rfl⟩

theorem close_distinct (wf : Nat → Bool) {s : Lookups} (h : Distinct s) (q : Nat) : Distinct (s.close wf q) := by
  obtain ⟨h1, h2, -⟩ := close_queries wf q s
  refine ⟨?_, ?_, ?_⟩
  · rw [h1]; exact Verif.Net.nodup_del q h.ids
  · rw [h1, h2]; intro k hk; exact h.issued k ((List.filter_sublist.map _).subset hk)
  · rw [h1]; exact requests_del h.requests

theorem answer_put_distinct {s : Lookups} (h : Distinct s) {q : Nat} {x : Query} (hg : get q s.queries = some x)
    (r : Option Entry) : Distinct { s with queries := put q { x with result := r } s.queries } := by
  have hmem := Verif.Net.mem_of_get hg
  refine ⟨Verif.Net.nodup_put _ _ h.ids, ?_, ?_⟩
  · intro k hk
    rcases List.mem_cons.mp hk with e | hk
    · subst e; exact h.issued _ (List.mem_map_of_mem hmem)
    · exact h.issued k ((List.filter_sublist.map _).subset hk)
  · show (x.request :: (del q s.queries).map (fun q => q.2.request)).Nodup
    rw [List.nodup_cons]
    refine ⟨?_, requests_del h.requests⟩
    intro hm
    obtain ⟨⟨q', y⟩, hq, e⟩ := List.mem_map.mp hm
    obtain ⟨hq1, hq2⟩ := List.mem_filter.mp hq
    have : (q', y) = (q, x) := List.inj_on_of_nodup_map h.requests hq1 hmem e
    cases this
    simp at hq2

theorem run_distinct (wf : Nat → Bool) {s : Lookups} (h : Distinct s) (ev : LookupEv) : Distinct (ev.run wf s) := by
  cases ev with
  | missing ks => exact asks_distinct ks h
  | answer q key e peer last =>
    show Distinct (s.answer wf q key e peer last)
    unfold Lookups.answer
    split
    · exact h
    · rename_i x hg
      dsimp only
      have h1 : Distinct (if x.request = key then { s with queries := put q { x with result := better x.result e } s.queries }
          else { s with penalised := peer.toList ++ s.penalised }) := by
        split
        · exact answer_put_distinct h hg _
        · exact ⟨h.ids, h.issued, h.requests⟩
      split
      · exact close_distinct wf h1 q
      · exact h1
  | bad q peer last =>
    have h1 : Distinct { s with penalised := peer.toList ++ s.penalised } := ⟨h.ids, h.issued, h.requests⟩
    simp only [LookupEv.run]
    split
    · exact close_distinct wf h1 q
    · exact h1
  | ended q => exact close_distinct wf h q
  | book o => exact ⟨h.ids, h.issued, h.requests⟩

/-- **One lookup per key.**  However often keys are reported missing, and in whatever order
answers arrive, at most one lookup per key is running. -/
theorem one_lookup_per_key (wf : Nat → Bool) (l : List LookupEv) : ∀ {s : Lookups}, Distinct s → Distinct (lookupRuns wf l s) := by
  induction l with
  | nil => intro s h; exact h
  | cons ev l ih => intro s h; exact ih (run_distinct wf h ev)

/-- a running lookup for the key -/
def Lookups.Running (s : Lookups) (k : Nat) : Prop := ∃ q x, (q, x) ∈ s.queries ∧ x.request = k

theorem ask_running (s : Lookups) (k : Nat) : (s.ask k).Running k := by
  unfold Lookups.ask
  split
  · exact ⟨s.fresh, ⟨k, none⟩, by simp [put], rfl⟩
  · rename_i h
    rw [List.all_eq_true] at h
    push Not at h
    obtain ⟨⟨q, x⟩, hq, hx⟩ := h
    refine ⟨q, x, hq, ?_⟩
    simpa using hx

theorem ask_mem {s : Lookups} (h : Distinct s) (k : Nat) {q : Nat} {x : Query} (hq : (q, x) ∈ s.queries) :
    (q, x) ∈ (s.ask k).queries := by
  unfold Lookups.ask
  split
  · refine List.mem_cons_of_mem _ (List.mem_filter.mpr ⟨hq, ?_⟩)
    have := h.issued q (List.mem_map_of_mem hq)
    simp only [Bool.not_eq_true', decide_eq_false_iff_not]
    omega
  · exact hq

theorem asks_mem (ks : List Nat) : ∀ {s : Lookups}, Distinct s → ∀ {q : Nat} {x : Query}, (q, x) ∈ s.queries →
    (q, x) ∈ (ks.foldl Lookups.ask s).queries := by
  induction ks with
  | nil => intro s _ q x h; exact h
  | cons k ks ih => intro s h q x hq; exact ih (ask_distinct h k) (ask_mem h k hq)

/-- **A missing key is looked up.**  After keys are reported missing each has a running lookup. -/
theorem missing_asked (ks : List Nat) : ∀ {s : Lookups}, Distinct s → ∀ k ∈ ks, (ks.foldl Lookups.ask s).Running k := by
  induction ks with
  | nil => intro s _ k hk; cases hk
  | cons k' ks ih =>
    intro s h k hk
    rcases List.mem_cons.mp hk with rfl | hk
    · obtain ⟨q, x, hq, hx⟩ := ask_running s k
      exact ⟨q, x, asks_mem ks (ask_distinct h k) hq, hx⟩
    · exact ih (ask_distinct h k') k hk

/-- the events that end lookup `q` -/
def LookupEv.ends (q : Nat) : LookupEv → Bool
  | .answer q' _ _ _ last => decide (q' = q) && last
  | .bad q' _ last => decide (q' = q) && last
  | .ended q' => decide (q' = q)
  | _ => false

/-- the records for the requested key that an event brings to lookup `q` -/
def LookupEv.heard (q req : Nat) : LookupEv → List Entry
  | .answer q' key e _ _ => if q' = q ∧ key = req then [e] else []
  | _ => []

/-- **Ended lookups re-arm.**  After the last event of a lookup no lookup for its key is running,
so the next report starts a new one. -/
theorem ended_rearms (wf : Nat → Bool) {s : Lookups} (h : Distinct s) {q : Nat} {x : Query} (hg : get q s.queries = some x)
    {ev : LookupEv} (he : ev.ends q = true) : ¬ (ev.run wf s).Running x.request := by
  have hmem := Verif.Net.mem_of_get hg
  have main : ∀ s1 : Lookups, Distinct s1 → (∃ r, get q s1.queries = some ⟨x.request, r⟩) →
      ¬ (s1.close wf q).Running x.request := by
    rintro s1 h1 ⟨r, hr⟩ ⟨q', y, hq, e⟩
    rw [(close_queries wf q s1).1] at hq
    obtain ⟨hq1, hq2⟩ := List.mem_filter.mp hq
    have : (q', y) = (q, (⟨x.request, r⟩ : Query)) := List.inj_on_of_nodup_map h1.requests hq1 (Verif.Net.mem_of_get hr) e
    cases this
    simp at hq2
  cases ev with
  | missing ks => cases he
  | answer q' key e peer last =>
    simp only [LookupEv.ends, Bool.and_eq_true, decide_eq_true_iff] at he
    obtain ⟨rfl, rfl⟩ := he
    simp only [LookupEv.run, Lookups.answer, hg, if_true]
    split
    · exact main _ (answer_put_distinct h hg _) ⟨_, Verif.Net.get_put_self _ _ _⟩
    · exact main _ ⟨h.ids, h.issued, h.requests⟩ ⟨x.result, hg⟩
  | bad q' peer last =>
    simp only [LookupEv.ends, Bool.and_eq_true, decide_eq_true_iff] at he
    obtain ⟨rfl, rfl⟩ := he
    exact main _ ⟨h.ids, h.issued, h.requests⟩ ⟨x.result, hg⟩
  | ended q' =>
    simp only [LookupEv.ends, decide_eq_true_iff] at he
    subst he
    exact main _ h ⟨x.result, hg⟩
  | book o => cases he

theorem close_get_ne (wf : Nat → Bool) {s : Lookups} {q q' : Nat} (h : q ≠ q') : get q (s.close wf q').queries = get q s.queries := by
  rw [(close_queries wf q' s).1, Verif.Net.get_del_ne h]

theorem ask_get {s : Lookups} (h : Distinct s) (k : Nat) {q : Nat} {x : Query} (hg : get q s.queries = some x) :
    get q (s.ask k).queries = some x :=
  Verif.Net.get_of_mem (ask_distinct h k).ids (ask_mem h k (Verif.Net.mem_of_get hg))

theorem step_get (wf : Nat → Bool) {s : Lookups} (h : Distinct s) {q : Nat} {x : Query} (hg : get q s.queries = some x)
    {ev : LookupEv} (he : ev.ends q = false) :
    get q (ev.run wf s).queries = some ⟨x.request, (ev.heard q x.request).foldl better x.result⟩ := by
  cases ev with
  | missing ks =>
    exact Verif.Net.get_of_mem (asks_distinct ks h).ids (asks_mem ks h (Verif.Net.mem_of_get hg))
  | answer q' key e peer last =>
    by_cases hq : q' = q
    · subst hq
      have hl : last = false := by simpa [LookupEv.ends] using he
      subst hl
      simp only [LookupEv.run, Lookups.answer, hg, Bool.false_eq_true, if_false, LookupEv.heard, true_and]
      by_cases hk : x.request = key
      · rw [if_pos hk, if_pos hk.symm]
        exact Verif.Net.get_put_self _ _ _
      · rw [if_neg hk, if_neg (fun e => hk e.symm)]
        exact hg
    · have hh : (LookupEv.answer q' key e peer last).heard q x.request = [] := by
        simp [LookupEv.heard, hq]
      rw [hh]
      simp only [LookupEv.run, Lookups.answer]
      cases hg' : get q' s.queries with
      | none => exact hg
      | some y =>
        dsimp only
        have h1 : get q (if y.request = key then { s with queries := put q' { y with result := better y.result e } s.queries }
            else { s with penalised := peer.toList ++ s.penalised }).queries = some x := by
          split
          · show get q (put q' _ s.queries) = _
            rw [Verif.Net.get_put_ne (fun e => hq e.symm)]; exact hg
          · exact hg
        split
        · rw [close_get_ne wf (fun e => hq e.symm)]; exact h1
        · exact h1
  | bad q' peer last =>
    have hh : (LookupEv.bad q' peer last).heard q x.request = [] := rfl
    rw [hh]
    simp only [LookupEv.run]
    split
    · rename_i hl
      subst hl
      have hq : q' ≠ q := by simpa [LookupEv.ends] using he
      rw [close_get_ne wf (fun e => hq e.symm)]; exact hg
    · exact hg
  | ended q' =>
    have hq : q' ≠ q := by simpa [LookupEv.ends] using he
    show get q (s.close wf q').queries = _
    rw [close_get_ne wf (fun e => hq e.symm)]; exact hg
  | book o => exact hg

/-- the tracked record of a running lookup is the first newest of what was heard -/
theorem running_tracks (wf : Nat → Bool) {q : Nat} (l : List LookupEv) (hl : ∀ ev ∈ l, ev.ends q = false) :
    ∀ {s : Lookups} {x : Query}, Distinct s → get q s.queries = some x →
      get q (lookupRuns wf l s).queries = some ⟨x.request, (l.flatMap (fun ev => ev.heard q x.request)).foldl better x.result⟩ := by
  induction l with
  | nil => intro s x _ hg; exact hg
  | cons ev l ih =>
    intro s x h hg
    have h1 := step_get wf h hg (hl ev (by simp))
    have h2 := ih (fun ev he => hl ev (by simp [he])) (run_distinct wf h ev) h1
    rw [List.flatMap_cons, List.foldl_append]
    exact h2

theorem better_fold (l : List Entry) : ∀ o : Option Entry,
    (l = [] ∧ l.foldl better o = o) ∨ ∃ e, l.foldl better o = some e ∧ (e ∈ l ∨ o = some e) ∧
      (∀ x ∈ l, x.ts ≤ e.ts) ∧ ∀ x, o = some x → x.ts ≤ e.ts := by
  induction l with
  | nil => intro o; exact .inl ⟨rfl, rfl⟩
  | cons a l ih =>
    intro o
    right
    have hb : ∃ b, better o a = some b ∧ (b = a ∨ o = some b) ∧ a.ts ≤ b.ts ∧ ∀ x, o = some x → x.ts ≤ b.ts := by
      cases o with
      | none => exact ⟨a, rfl, .inl rfl, Nat.le_refl _, fun x h => by cases h⟩
      | some t =>
        by_cases h : t.ts < a.ts
        · exact ⟨a, if_pos h, .inl rfl, Nat.le_refl _, fun x hx => by cases hx; omega⟩
        · exact ⟨t, if_neg h, .inr rfl, Nat.not_lt.mp h, fun x hx => by cases hx; exact Nat.le_refl _⟩
    obtain ⟨b, hb1, hb2, hb3, hb4⟩ := hb
    rw [List.foldl_cons, hb1]
    rcases ih (some b) with ⟨e, h⟩ | ⟨e, h1, h2, h3, h4⟩
    · subst e
      refine ⟨b, h, ?_, ?_, hb4⟩
      · rcases hb2 with rfl | h
        · exact .inl (by simp)
        · exact .inr h
      · intro x hx
        simp only [List.mem_singleton] at hx
        subst hx; exact hb3
    · have h5 := h4 b rfl
      refine ⟨e, h1, ?_, ?_, ?_⟩
      · rcases h2 with h2 | h2
        · exact .inl (by simp [h2])
        · cases h2
          rcases hb2 with rfl | h
          · exact .inl (by simp)
          · exact .inr h
      · intro x hx
        rcases List.mem_cons.mp hx with rfl | hx
        · omega
        · exact h3 x hx
      · intro x hx
        have := hb4 x hx
        omega

/-- **A lookup finds the newest record.**  Let a lookup start (no result yet) and go on through
any history, with other lookups, other peers' answers, penalties and changes of the book in
between, until it ends.  If any authentic record for its key was heard and the key is then a
committee member that the operator has not pinned, the member is resolvable afterwards, by a
record at least as new as every record heard; and what the book holds is a record that was
heard (without a malformed endpoint) or what it held before. -/
theorem lookup_newest (wf : Nat → Bool) {q : Nat} (l : List LookupEv) (hl : ∀ ev ∈ l, ev.ends q = false) {s : Lookups} {k : Nat}
    (h : Distinct s) (hg : get q s.queries = some ⟨k, none⟩) {t : Lookups} (ht : t = lookupRuns wf l s)
    (hm : t.book.member k = true) (hp : k ∉ t.book.pinned)
    (hne : l.flatMap (fun ev => ev.heard q k) ≠ []) :
    ∃ e, get k ((LookupEv.ended q).run wf t).book.known = some e ∧
      (∀ x ∈ l.flatMap (fun ev => ev.heard q k), x.ts ≤ e.ts) ∧
      ((∃ x ∈ l.flatMap (fun ev => ev.heard q k), e = strip wf x) ∨ get k t.book.known = some e) := by
  have hgq := running_tracks wf l hl h hg
  rw [← ht] at hgq
  rcases better_fold (l.flatMap (fun ev => ev.heard q k)) none with ⟨e, -⟩ | ⟨e, h1, h2, h3, -⟩
  · exact absurd e hne
  · have h2 : e ∈ l.flatMap (fun ev => ev.heard q k) := h2.resolve_right (by simp)
    dsimp only at hgq
    rw [h1] at hgq
    have hrun : ((LookupEv.ended q).run wf t).book = t.book.discovered wf k e := by
      show (t.close wf q).book = _
      unfold Lookups.close
      rw [hgq]
    rw [hrun, discovered_get]
    by_cases hst : t.book.stale k e = false
    · rw [if_pos ⟨rfl, hm, hst⟩]
      refine ⟨_, rfl, ?_, .inl ⟨e, h2, rfl⟩⟩
      intro x hx
      rw [(strip_ts wf e).1]
      exact h3 x hx
    · rw [if_neg (fun h => hst h.2.2)]
      rw [Bool.not_eq_false] at hst
      have hst : t.book.atLeast k e.ts = true := by
        unfold Book.stale at hst
        simpa [hp] using hst
      unfold Book.atLeast at hst
      cases hgk : get k t.book.known with
      | none => rw [hgk] at hst; cases hst
      | some y =>
        rw [hgk] at hst
        have hle : e.ts ≤ y.ts := of_decide_eq_true hst
        exact ⟨y, rfl, fun x hx => Nat.le_trans (h3 x hx) hle, .inr rfl⟩

/-- a last answer is an answer followed by the end, so `lookup_newest` speaks of it too -/
theorem last_answer (wf : Nat → Bool) (s : Lookups) (q key : Nat) (e : Entry) (peer : Option Nat) :
    (LookupEv.answer q key e peer true).run wf s = (LookupEv.ended q).run wf ((LookupEv.answer q key e peer false).run wf s) ∧
    (LookupEv.bad q peer true).run wf s = (LookupEv.ended q).run wf ((LookupEv.bad q peer false).run wf s) := by
  constructor
  · simp only [LookupEv.run, Lookups.answer]
    cases hg : get q s.queries with
    | none =>
      show s = s.close wf q
      unfold Lookups.close
      rw [hg]
    | some x => rfl
  · rfl

/-- Only the peer that gave a record for another key, or one that is not authentic, is penalised. -/
theorem penalised_only (wf : Nat → Bool) (s : Lookups) (ev : LookupEv) (p : Nat)
    (h : p ∈ (ev.run wf s).penalised) : p ∈ s.penalised ∨
      (∃ q key e last, ev = .answer q key e (some p) last ∧ ∃ x, get q s.queries = some x ∧ x.request ≠ key) ∨
      ∃ q last, ev = .bad q (some p) last := by
  cases ev with
  | missing ks =>
    have gen : ∀ (ks : List Nat) (s : Lookups), (ks.foldl Lookups.ask s).penalised = s.penalised := by
      intro ks
      induction ks with
      | nil => intro s; rfl
      | cons k ks ih =>
        intro s
        rw [List.foldl_cons, ih]
        unfold Lookups.ask
        split <;> rfl
    left
    rw [← gen ks s]
    exact h
  | answer q key e peer last =>
    simp only [LookupEv.run, Lookups.answer] at h
    cases hg : get q s.queries with
    | none => rw [hg] at h; exact .inl h
    | some x =>
      rw [hg] at h
      dsimp only at h
      by_cases hk : x.request = key
      · rw [if_pos hk] at h
        left
        split at h
        · rw [(close_queries wf q _).2.2] at h; exact h
        · exact h
      · rw [if_neg hk] at h
        have h : p ∈ peer.toList ++ s.penalised := by
          split at h
          · rw [(close_queries wf q _).2.2] at h; exact h
          · exact h
        rcases List.mem_append.mp h with h | h
        · right; left
          rw [Option.mem_toList] at h
          have h : peer = some p := h
          subst h
          exact ⟨q, key, e, last, rfl, x, hg ▸ rfl, hk⟩
        · exact .inl h
  | bad q peer last =>
    simp only [LookupEv.run] at h
    have h : p ∈ peer.toList ++ s.penalised := by
      split at h
      · rw [(close_queries wf q _).2.2] at h; exact h
      · exact h
    rcases List.mem_append.mp h with h | h
    · right; right
      rw [Option.mem_toList] at h
      have h : peer = some p := h
      subst h
      exact ⟨q, last, rfl⟩
    · exact .inl h
  | ended q =>
    left
    have h : p ∈ (s.close wf q).penalised := h
    rw [(close_queries wf q s).2.2] at h
    exact h
  | book o => exact .inl h

/-! ## Example -/

namespace Ex2

def wf (u : Nat) : Bool := decide (u < 100)

def book : Book := ⟨[], [9], [], [1, 2], [3]⟩

def start : Lookups := ⟨[], 0, book, []⟩

theorem start_distinct : Distinct start :=
  ⟨by simp [start, keys], fun q h => by simp [start, keys] at h, by simp [start]⟩

/-- keys 1, 2 and 3 are missing and reported twice; 1 is answered by an older, a newer and a
wrong record; 2 by a bad one -/
def story : List LookupEv :=
  [.missing [1, 2], .missing [2, 3, 1], .answer 0 1 ⟨50, 4, some 7⟩ (some 70) false, .answer 0 1 ⟨51, 6, some 900⟩ (some 71) false,
   .answer 0 2 ⟨52, 9, none⟩ (some 72) false, .bad 1 (some 73) true, .answer 0 1 ⟨53, 5, none⟩ (some 74) false]

example : lookupRuns wf story start =
    ⟨[(0, ⟨1, some ⟨51, 6, some 900⟩⟩), (2, ⟨3, none⟩)], 3, book, [73, 72]⟩ := by decide

example : (lookupRuns wf (story ++ [.ended 0]) start).book.known = [(1, ⟨51, 6, none⟩)] := by decide

/-- the hypotheses of `lookup_newest` are met by lookup 0 -/
example : ∀ ev ∈ story.tail, ev.ends 0 = false := by decide

example : get 0 ((LookupEv.missing [1, 2]).run wf start).queries = some ⟨1, none⟩ := by decide

/-- a pinned member is set back by a replayed record -/
example : get 9 (bookRuns wf [.committees [] [9] [], .record 9 ⟨60, 8, none⟩, .record 9 ⟨59, 2, none⟩] book).known =
    some ⟨59, 2, none⟩ := by decide

/-- one that is not pinned is not -/
example : get 1 (bookRuns wf [.committees [] [1] [], .record 1 ⟨60, 8, none⟩, .record 1 ⟨59, 2, none⟩, .committees [1] [] [],
    .record 5 ⟨61, 9, none⟩] book).known = some ⟨60, 8, none⟩ := by decide

end Ex2

end Verif.Kad
