import Verif.Tx.Life

/-!
# C64: an accepted transaction is not lost

The invariant: what the builder is about to prune is held elsewhere.
-/

namespace Verif
namespace Tx
namespace Life

variable {content : Nat → List Nat}

/-- the disjunction of `Kept` -/
theorem kept_mono {s s' : Node} {t : Nat} (h : Kept content s t)
    (hp : t ∈ s.pool → Kept content s' t)
    (ho : ∀ d ∈ s.own, t ∈ content d → Kept content s' t)
    (hf : ∀ f ∈ s.fwd, t ∈ f.todo → Kept content s' t)
    (hr : ∀ d ∈ s.orphan, t ∈ content d → Kept content s' t)
    (hc : ∀ d ∈ s.committed, d ∈ s'.committed)
    (hd : t ∈ s.delivered → t ∈ s'.delivered) (hj : t ∈ s.rejected → t ∈ s'.rejected)
    (hx : t ∈ s.dropped → t ∈ s'.dropped) : Kept content s' t := by
  rcases h.somewhere with h | ⟨d, h, ht⟩ | ⟨f, h, ht⟩ | ⟨d, h, ht⟩ | ⟨d, h, ht⟩ | h | h | h
  · exact hp h
  · exact ho d h ht
  · exact hf f h ht
  · exact hr d h ht
  · exact ⟨.inr (.inr (.inr (.inr (.inl ⟨d, hc d h, ht⟩))))⟩
  · exact ⟨.inr (.inr (.inr (.inr (.inr (.inl (hd h))))))⟩
  · exact ⟨.inr (.inr (.inr (.inr (.inr (.inr (.inl (hj h)))))))⟩
  · exact ⟨.inr (.inr (.inr (.inr (.inr (.inr (.inr (hx h)))))))⟩

theorem Kept.pool {s : Node} {t : Nat} (h : t ∈ s.pool) : Kept content s t := ⟨.inl h⟩
theorem Kept.own {s : Node} {t d : Nat} (h : d ∈ s.own) (ht : t ∈ content d) : Kept content s t :=
  ⟨.inr (.inl ⟨d, h, ht⟩)⟩
theorem Kept.fwd {s : Node} {t : Nat} {f : FTask} (h : f ∈ s.fwd) (ht : t ∈ f.todo) : Kept content s t :=
  ⟨.inr (.inr (.inl ⟨f, h, ht⟩))⟩
theorem Kept.orphan {s : Node} {t d : Nat} (h : d ∈ s.orphan) (ht : t ∈ content d) : Kept content s t :=
  ⟨.inr (.inr (.inr (.inl ⟨d, h, ht⟩)))⟩
theorem Kept.committed {s : Node} {t d : Nat} (h : d ∈ s.committed) (ht : t ∈ content d) : Kept content s t :=
  ⟨.inr (.inr (.inr (.inr (.inl ⟨d, h, ht⟩))))⟩
theorem Kept.delivered {s : Node} {t : Nat} (h : t ∈ s.delivered) : Kept content s t :=
  ⟨.inr (.inr (.inr (.inr (.inr (.inl h)))))⟩
theorem Kept.rejected {s : Node} {t : Nat} (h : t ∈ s.rejected) : Kept content s t :=
  ⟨.inr (.inr (.inr (.inr (.inr (.inr (.inl h))))))⟩
theorem Kept.dropped {s : Node} {t : Nat} (h : t ∈ s.dropped) : Kept content s t :=
  ⟨.inr (.inr (.inr (.inr (.inr (.inr (.inr h))))))⟩

/-- A transaction of the batch `d` is held outside the pool. -/
def Held (content : Nat → List Nat) (s : Node) (d t : Nat) : Prop :=
  d ∈ s.own ∨ d ∈ s.committed ∨ (∃ f ∈ s.fwd, f.dig = d ∧ t ∈ f.todo) ∨
    t ∈ s.delivered ∨ t ∈ s.rejected ∨ t ∈ s.dropped

/-- The invariant about the batch under way. -/
structure Inv (content : Nat → List Nat) (s : Node) : Prop where
  done : ∀ d, s.job = some ⟨d, .done⟩ → ∀ t ∈ content d, Held content s d t
  own : ∀ d, s.job = some ⟨d, .waiting⟩ ∨ s.job = some ⟨d, .quorum⟩ → d ∈ s.own ∨ d ∈ s.committed
  -- what is pruned or dropped on failure is still in the pool
  failing : ∀ d st, s.job = some ⟨d, st⟩ → st ≠ .done → ∀ t ∈ content d, t ∈ s.pool ∨ t ∈ s.dropped

theorem inv_init : Inv content {} := ⟨fun _ h => by simp at h, fun _ h => by simp at h, fun _ _ h => by simp at h⟩

/-- moving the batch -/
theorem move_some {s s' : Node} {a b : Stage} {f : Nat → Node → Node} (h : s.move a b f = some s') :
    ∃ d, s.job = some ⟨d, a⟩ ∧ s' = f d { s with job := some ⟨d, b⟩ } := by
  unfold Node.move at h
  split at h
  · next j hj =>
    split at h
    · next hs =>
      injection h with h
      rcases j with ⟨d, st⟩
      dsimp only at hs
      subst hs
      exact ⟨d, hj, h.symm⟩
    · cases h
  · cases h

theorem step_inv {s s' : Node} (hi : Inv content s) {e : Ev} (hc : e.calm s) (h : e.run content s = some s') :
    Inv content s' := by
  cases e with
  | accept t =>
    injection h with h; subst h
    exact ⟨hi.done, hi.own, fun d st hj hs t ht => (hi.failing d st hj hs t ht).imp (List.mem_cons_of_mem _) id⟩
  | evict t =>
    dsimp only [Ev.run] at h
    rw [Option.ite_none_right_eq_some] at h
    replace h := h.2
    injection h with h; subst h
    refine ⟨fun d hj u hu => ?_, hi.own, fun d st hj hs u hu => ?_⟩
    · exact (hi.done d hj u hu).imp id (.imp id (.imp id (.imp id (.imp id (List.mem_cons_of_mem _)))))
    · rcases hi.failing d st hj hs u hu with h | h
      · by_cases hut : u = t
        · exact .inr (by rw [hut]; exact List.mem_cons_self)
        · exact .inl (List.mem_filter.mpr ⟨h, by simpa using hut⟩)
      · exact .inr (List.mem_cons_of_mem _ h)
  | build d =>
    dsimp only [Ev.run] at h
    split at h
    · next hb =>
      injection h with h; subst h
      refine ⟨fun d' hj => ?_, fun d' hj => ?_, fun d' st hj hs t ht => ?_⟩
      · simp at hj
      · simp at hj
      · dsimp only at hj
        injection hj with hj
        injection hj with h1 _
        rw [← h1] at ht
        exact .inl (hb.2 t ht)
    · cases h
  | insertOwn =>
    dsimp only [Ev.run] at h
    obtain ⟨d, hj, rfl⟩ := move_some h
    refine ⟨fun d' hj' => ?_, fun d' hj' => ?_, fun d' st hj' hs t ht => ?_⟩
    · simp at hj'
    · have : d = d' := by simpa using hj'
      subst this
      exact .inl List.mem_cons_self
    · dsimp only at hj'
      injection hj' with hj'
      injection hj' with h1 _
      subst h1
      exact hi.failing _ _ hj (by decide) t ht
  | insertOwnFails =>
    dsimp only [Ev.run] at h
    obtain ⟨d, hj, rfl⟩ := move_some h
    refine ⟨fun d' hj' => by simp at hj', fun d' hj' => by simp at hj', fun d' st hj' hs t ht => ?_⟩
    dsimp only at hj'
    injection hj' with hj'
    injection hj' with h1 _
    subst h1
    exact hi.failing _ _ hj (by decide) t ht
  | quorumOk =>
    dsimp only [Ev.run] at h
    obtain ⟨d, hj, rfl⟩ := move_some h
    refine ⟨fun d' hj' => by simp at hj', fun d' hj' => ?_, fun d' st hj' hs t ht => ?_⟩
    · have : d = d' := by simpa using hj'
      subst this
      exact hi.own d (.inl hj)
    · dsimp only at hj'
      injection hj' with hj'
      injection hj' with h1 _
      subst h1
      exact hi.failing _ _ hj (by decide) t ht
  | quorumFails =>
    dsimp only [Ev.run] at h
    obtain ⟨d, hj, rfl⟩ := move_some h
    refine ⟨fun d' hj' => by simp at hj', fun d' hj' => by simp at hj', fun d' st hj' hs t ht => ?_⟩
    dsimp only at hj'
    injection hj' with hj'
    injection hj' with h1 _
    subst h1
    exact hi.failing _ _ hj (by decide) t ht
  | storeFails =>
    dsimp only [Ev.run] at h
    obtain ⟨d, hj, rfl⟩ := move_some h
    refine ⟨fun d' hj' => by simp at hj', fun d' hj' => by simp at hj', fun d' st hj' hs t ht => ?_⟩
    dsimp only at hj'
    injection hj' with hj'
    injection hj' with h1 _
    subst h1
    exact hi.failing _ _ hj (by decide) t ht
  | report =>
    dsimp only [Ev.run] at h
    obtain ⟨d, hj, rfl⟩ := move_some h
    refine ⟨fun d' hj' t ht => ?_, fun d' hj' => by simp at hj', fun d' st hj' hs t ht => ?_⟩
    · have : d = d' := by simpa using hj'
      subst this
      rcases hi.own d (.inr hj) with h | h
      · exact .inl h
      · exact .inr (.inl h)
    · dsimp only at hj'
      injection hj' with hj'
      injection hj' with _ h2
      exact absurd h2.symm hs
  | reportFails =>
    dsimp only [Ev.run] at h
    obtain ⟨d, hj, rfl⟩ := move_some h
    refine ⟨fun d' hj' => by simp at hj', fun d' hj' => by simp at hj', fun d' st hj' hs t ht => ?_⟩
    dsimp only at hj'
    injection hj' with hj'
    injection hj' with h1 _
    subst h1
    exact hi.failing _ _ hj (by decide) t ht
  | refuse =>
    dsimp only [Ev.run] at h
    obtain ⟨d, hj, rfl⟩ := move_some h
    refine ⟨fun d' hj' => by simp at hj', fun d' hj' => by simp at hj', fun d' st hj' hs t ht => ?_⟩
    dsimp only at hj'
    injection hj' with hj'
    injection hj' with h1 _
    subst h1
    exact hi.failing _ _ hj (by decide) t ht
  | admitted =>
    dsimp only [Ev.run] at h
    obtain ⟨d, hj, rfl⟩ := move_some h
    refine ⟨fun d' hj' t ht => ?_, fun d' hj' => by simp at hj', fun d' st hj' hs t ht => ?_⟩
    · have : d = d' := by simpa using hj'
      subst this
      exact .inr (.inr (.inl ⟨⟨d, content d⟩, List.mem_append_right _ List.mem_cons_self, rfl, ht⟩))
    · dsimp only at hj'
      injection hj' with hj'
      injection hj' with _ h2
      exact absurd h2.symm hs
  | settle =>
    dsimp only [Ev.run] at h
    split at h
    · injection h with h; subst h
      exact ⟨fun _ h => by simp at h, fun _ h => by simp at h, fun _ _ h => by simp at h⟩
    · injection h with h; subst h
      exact ⟨fun _ h => by simp at h, fun _ h => by simp at h, fun _ _ h => by simp at h⟩
    · cases h
  | commit d =>
    injection h with h; subst h
    refine ⟨fun d' hj t ht => ?_, fun d' hj => ?_, hi.failing⟩
    · rcases hi.done d' hj t ht with h | h | h
      · by_cases hd : d' = d
        · exact .inr (.inl (by rw [hd]; exact List.mem_cons_self))
        · exact .inl (List.mem_filter.mpr ⟨h, by simpa using hd⟩)
      · exact .inr (.inl (List.mem_cons_of_mem _ h))
      · exact .inr (.inr h)
    · rcases hi.own d' hj with h | h
      · by_cases hd : d' = d
        · exact .inr (by rw [hd]; exact List.mem_cons_self)
        · exact .inl (List.mem_filter.mpr ⟨h, by simpa using hd⟩)
      · exact .inr (List.mem_cons_of_mem _ h)
  | walk i f =>
    dsimp only [Ev.run] at h
    split at h
    · next d t r hg =>
      have key : ∀ d' u, s.job = some ⟨d', .done⟩ → u ∈ content d' →
          (u ≠ t ∨ d ≠ d') → Held content { s with fwd := s.fwd.set i ⟨d, r⟩ } d' u := by
        intro d' u hj hu hne
        rcases hi.done d' hj u hu with h | h | ⟨g, hg', hgd, hgu⟩ | h
        · exact .inl h
        · exact .inr (.inl h)
        · refine .inr (.inr (.inl ?_))
          obtain ⟨k, hk⟩ := List.mem_iff_getElem?.mp hg'
          by_cases hki : i = k
          · subst hki
            rw [hg] at hk
            injection hk with hk
            subst hk
            dsimp only at hgd hgu
            rcases List.mem_cons.mp hgu with rfl | hgu
            · rcases hne with hne | hne
              · exact absurd rfl hne
              · exact absurd hgd hne
            · refine ⟨⟨d, r⟩, ?_, hgd, hgu⟩
              have hlt : i < s.fwd.length := (List.getElem?_eq_some_iff.mp hg).1
              exact List.mem_iff_getElem?.mpr ⟨i, by rw [List.getElem?_set]; simp [hlt]⟩
          · exact ⟨g, List.mem_iff_getElem?.mpr ⟨k, by rw [List.getElem?_set_ne hki]; exact hk⟩, hgd, hgu⟩
        · exact .inr (.inr (.inr h))
      cases f with
      | delivered =>
        injection h with h; subst h
        refine ⟨fun d' hj u hu => ?_, hi.own, hi.failing⟩
        by_cases hut : u = t
        · exact .inr (.inr (.inr (.inl (by rw [hut]; exact List.mem_cons_self))))
        · exact (key d' u hj hu (.inl hut)).imp id (.imp id (.imp id (.imp (List.mem_cons_of_mem _) id)))
      | rejected =>
        injection h with h; subst h
        refine ⟨fun d' hj u hu => ?_, hi.own, hi.failing⟩
        by_cases hut : u = t
        · exact .inr (.inr (.inr (.inr (.inl (by rw [hut]; exact List.mem_cons_self)))))
        · exact (key d' u hj hu (.inl hut)).imp id (.imp id (.imp id (.imp id (.imp (List.mem_cons_of_mem _) id))))
      | requeued =>
        injection h with h; subst h
        refine ⟨fun d' hj u hu => ?_, hi.own,
          fun d' st hj hs u hu => (hi.failing d' st hj hs u hu).imp (List.mem_cons_of_mem _) id⟩
        refine key d' u hj hu (.inr ?_)
        rintro rfl
        exact hc _ hg hj
      | refused =>
        injection h with h; subst h
        refine ⟨fun d' hj u hu => ?_, hi.own, fun d' st hj hs u hu => (hi.failing d' st hj hs u hu).imp id (List.mem_cons_of_mem _)⟩
        by_cases hut : u = t
        · exact .inr (.inr (.inr (.inr (.inr (by rw [hut]; exact List.mem_cons_self)))))
        · exact (key d' u hj hu (.inl hut)).imp id (.imp id (.imp id (.imp id (.imp id (List.mem_cons_of_mem _)))))
    · cases h
  | epochEnd =>
    injection h with h; subst h
    exact ⟨fun _ h => by simp at h, fun _ h => by simp at h, fun _ _ h => by simp at h⟩
  | collect =>
    injection h with h; subst h
    have hb : ∀ d st, s.job = some ⟨d, st⟩ → st = .built := fun d st hj => hc _ hj
    refine ⟨fun d hj => ?_, fun d hj => ?_, hi.failing⟩
    · cases hb d _ hj
    · rcases hj with hj | hj
      · cases hb d _ hj
      · cases hb d _ hj
  | repool acc =>
    dsimp only [Ev.run] at h
    split at h
    · next d r ho =>
      injection h with h; subst h
      refine ⟨fun d' hj u hu => ?_, hi.own, fun d' st hj hs u hu => ?_⟩
      · exact (hi.done d' hj u hu).imp id (.imp id (.imp id (.imp id (.imp id (List.mem_append_right _)))))
      · exact (hi.failing d' st hj hs u hu).imp (List.mem_append_right _) (List.mem_append_right _)
    · cases h
  | reforward =>
    dsimp only [Ev.run] at h
    split at h
    · next d r ho =>
      injection h with h; subst h
      refine ⟨fun d' hj u hu => ?_, hi.own, hi.failing⟩
      exact (hi.done d' hj u hu).imp id (.imp id (.imp
        (fun ⟨f, hf, h⟩ => ⟨f, List.mem_append_left _ hf, h⟩) id))
    · cases h
  | crash keep => exact hc.elim

/-- one calm event loses nothing -/
theorem step_kept {s s' : Node} (hi : Inv content s) {e : Ev} (hc : e.calm s) (h : e.run content s = some s')
    {t : Nat} (hk : Kept content s t) : Kept content s' t := by
  have moved : ∀ {a b : Stage}, s.move a b (fun _ s => s) = some s' → Kept content s' t := by
    intro a b hm
    obtain ⟨d, hj, rfl⟩ := move_some hm
    exact kept_mono hk (fun h => .pool h) (fun _ h ht => .own h ht) (fun _ h ht => .fwd h ht) (fun _ h ht => .orphan h ht) (fun _ h => h) id id id
  cases e with
  | accept u =>
    injection h with h; subst h
    exact kept_mono hk (fun h => .pool (List.mem_cons_of_mem _ h)) (fun _ h ht => .own h ht) (fun _ h ht => .fwd h ht) (fun _ h ht => .orphan h ht)
      (fun _ h => h) id id id
  | evict u =>
    dsimp only [Ev.run] at h
    rw [Option.ite_none_right_eq_some] at h
    replace h := h.2
    injection h with h; subst h
    refine kept_mono hk (fun h => ?_) (fun _ h ht => .own h ht) (fun _ h ht => .fwd h ht) (fun _ h ht => .orphan h ht) (fun _ h => h) id id
      (List.mem_cons_of_mem _)
    by_cases htu : t = u
    · exact .dropped (by rw [htu]; exact List.mem_cons_self)
    · exact .pool (List.mem_filter.mpr ⟨h, by simpa using htu⟩)
  | build d =>
    dsimp only [Ev.run] at h
    split at h
    · injection h with h; subst h
      exact kept_mono hk (fun h => .pool h) (fun _ h ht => .own h ht) (fun _ h ht => .fwd h ht) (fun _ h ht => .orphan h ht) (fun _ h => h) id id id
    · cases h
  | insertOwn =>
    dsimp only [Ev.run] at h
    obtain ⟨d, hj, rfl⟩ := move_some h
    exact kept_mono hk (fun h => .pool h) (fun _ h => .own (List.mem_cons_of_mem _ h)) (fun _ h ht => .fwd h ht) (fun _ h ht => .orphan h ht)
      (fun _ h => h) id id id
  | insertOwnFails => exact moved h
  | quorumOk => exact moved h
  | quorumFails =>
    dsimp only [Ev.run] at h
    obtain ⟨d, hj, rfl⟩ := move_some h
    refine kept_mono hk (fun h => .pool h) (fun d' h ht => ?_) (fun _ h ht => .fwd h ht) (fun _ h ht => .orphan h ht) (fun _ h => h) id id id
    by_cases hd : d' = d
    · subst hd
      rcases hi.failing _ _ hj (by decide) t ht with hp | hp
      · exact .pool hp
      · exact .dropped hp
    · exact .own (List.mem_filter.mpr ⟨h, by simpa using hd⟩) ht
  | storeFails => exact moved h
  | report => exact moved h
  | reportFails => exact moved h
  | refuse => exact moved h
  | admitted =>
    dsimp only [Ev.run] at h
    obtain ⟨d, hj, rfl⟩ := move_some h
    exact kept_mono hk (fun h => .pool h) (fun _ h ht => .own h ht) (fun _ h => .fwd (List.mem_append_left _ h)) (fun _ h ht => .orphan h ht)
      (fun _ h => h) id id id
  | settle =>
    dsimp only [Ev.run] at h
    split at h
    · next d hj =>
      injection h with h; subst h
      refine kept_mono hk (fun h => ?_) (fun _ h ht => .own h ht) (fun _ h ht => .fwd h ht) (fun _ h ht => .orphan h ht) (fun _ h => h) id id id
      by_cases htd : t ∈ content d
      · rcases hi.done d hj t htd with h | h | ⟨f, hf, _, h⟩ | h | h | h
        · exact .own h htd
        · exact .committed h htd
        · exact .fwd hf h
        · exact .delivered h
        · exact .rejected h
        · exact .dropped h
      · exact .pool (List.mem_filter.mpr ⟨h, decide_eq_true htd⟩)
    · injection h with h; subst h
      exact kept_mono hk (fun h => .pool h) (fun _ h ht => .own h ht) (fun _ h ht => .fwd h ht) (fun _ h ht => .orphan h ht) (fun _ h => h) id id id
    · cases h
  | commit d =>
    injection h with h; subst h
    refine kept_mono hk (fun h => .pool h) (fun d' h ht => ?_) (fun _ h ht => .fwd h ht) (fun _ h ht => .orphan h ht)
      (fun _ h => List.mem_cons_of_mem _ h) id id id
    by_cases hd : d' = d
    · exact .committed (d := d') (by rw [hd]; exact List.mem_cons_self) ht
    · exact .own (List.mem_filter.mpr ⟨h, by simpa using hd⟩) ht
  | walk i f =>
    dsimp only [Ev.run] at h
    split at h
    · next d u r hg =>
      have hfwd : ∀ g ∈ s.fwd, t ∈ g.todo → t = u ∨ ∃ g' ∈ s.fwd.set i ⟨d, r⟩, t ∈ g'.todo := by
        intro g hg' ht
        obtain ⟨k, hk⟩ := List.mem_iff_getElem?.mp hg'
        by_cases hki : i = k
        · subst hki
          rw [hg] at hk
          injection hk with hk
          subst hk
          rcases List.mem_cons.mp ht with rfl | ht
          · exact .inl rfl
          · have hlt : i < s.fwd.length := (List.getElem?_eq_some_iff.mp hg).1
            exact .inr ⟨⟨d, r⟩, List.mem_iff_getElem?.mpr ⟨i, by rw [List.getElem?_set]; simp [hlt]⟩, ht⟩
        · exact .inr ⟨g, List.mem_iff_getElem?.mpr ⟨k, by rw [List.getElem?_set_ne hki]; exact hk⟩, ht⟩
      cases f with
      | delivered =>
        injection h with h; subst h
        refine kept_mono hk (fun h => .pool h) (fun _ h ht => .own h ht) (fun g hg' ht => ?_) (fun _ h ht => .orphan h ht) (fun _ h => h)
          (List.mem_cons_of_mem _) id id
        rcases hfwd g hg' ht with rfl | ⟨g', h1, h2⟩
        · exact .delivered List.mem_cons_self
        · exact .fwd h1 h2
      | rejected =>
        injection h with h; subst h
        refine kept_mono hk (fun h => .pool h) (fun _ h ht => .own h ht) (fun g hg' ht => ?_) (fun _ h ht => .orphan h ht) (fun _ h => h)
          id (List.mem_cons_of_mem _) id
        rcases hfwd g hg' ht with rfl | ⟨g', h1, h2⟩
        · exact .rejected List.mem_cons_self
        · exact .fwd h1 h2
      | requeued =>
        injection h with h; subst h
        refine kept_mono hk (fun h => .pool (List.mem_cons_of_mem _ h)) (fun _ h ht => .own h ht) (fun g hg' ht => ?_)
          (fun _ h ht => .orphan h ht) (fun _ h => h) id id id
        rcases hfwd g hg' ht with rfl | ⟨g', h1, h2⟩
        · exact .pool List.mem_cons_self
        · exact .fwd h1 h2
      | refused =>
        injection h with h; subst h
        refine kept_mono hk (fun h => .pool h) (fun _ h ht => .own h ht) (fun g hg' ht => ?_) (fun _ h ht => .orphan h ht) (fun _ h => h)
          id id (List.mem_cons_of_mem _)
        rcases hfwd g hg' ht with rfl | ⟨g', h1, h2⟩
        · exact .dropped List.mem_cons_self
        · exact .fwd h1 h2
    · cases h
  | epochEnd =>
    injection h with h; subst h
    refine kept_mono hk (fun h => .pool h) (fun _ h ht => .own h ht) (fun f hf ht => ?_) (fun d hd _ => ?_) (fun _ h => h) id id id
    · rw [hc.1 f hf] at ht; cases ht
    · rw [hc.2] at hd; cases hd
  | collect =>
    injection h with h; subst h
    exact kept_mono hk (fun h => .pool h) (fun _ h => .orphan (List.mem_append_right _ h)) (fun _ h ht => .fwd h ht)
      (fun _ h => .orphan (List.mem_append_left _ h)) (fun _ h => h) id id id
  | repool acc =>
    dsimp only [Ev.run] at h
    split at h
    · next d r ho =>
      injection h with h; subst h
      refine kept_mono hk (fun h => .pool (List.mem_append_right _ h)) (fun _ h ht => .own h ht) (fun _ h ht => .fwd h ht)
        (fun d' hd ht => ?_) (fun _ h => h) id id (List.mem_append_right _)
      rw [ho] at hd
      rcases List.mem_cons.mp hd with rfl | hd
      · cases ha : acc t with
        | true => exact .pool (List.mem_append_left _ (List.mem_filter.mpr ⟨ht, ha⟩))
        | false => exact .dropped (List.mem_append_left _ (List.mem_filter.mpr ⟨ht, by rw [ha]; rfl⟩))
      · exact .orphan hd ht
    · cases h
  | reforward =>
    dsimp only [Ev.run] at h
    split at h
    · next d r ho =>
      injection h with h; subst h
      refine kept_mono hk (fun h => .pool h) (fun _ h ht => .own h ht) (fun _ h => .fwd (List.mem_append_left _ h))
        (fun d' hd ht => ?_) (fun _ h => h) id id id
      rw [ho] at hd
      rcases List.mem_cons.mp hd with rfl | hd
      · exact .fwd (f := ⟨d', content d'⟩) (List.mem_append_right _ List.mem_cons_self) ht
      · exact .orphan hd ht
    · cases h
  | crash keep => exact hc.elim

theorem accepted_cons {e : Ev} {l : List Ev} {t : Nat} (h : t ∈ accepted (e :: l)) :
    e = .accept t ∨ t ∈ accepted l := by
  cases e with
  | accept u =>
    rw [accepted] at h
    rcases List.mem_cons.mp h with rfl | h
    · exact .inl rfl
    · exact .inr h
  | _ => exact .inr h

theorem run_kept : ∀ (l : List Ev) {s s' : Node}, Inv content s → Calm content l s → run content l s = some s' →
    ∀ t, (t ∈ accepted l ∨ Kept content s t) → Kept content s' t
  | [], s, s', _, _, h, t, ht => by
    injection h with h
    subst h
    rcases ht with ht | ht
    · cases ht
    · exact ht
  | e :: l, s, s', hi, hc, h, t, ht => by
    rw [run] at h
    split at h
    · next s1 h1 =>
      refine run_kept l (step_inv hi hc.1 h1) (hc.2 s1 h1) h t ?_
      rcases ht with ht | ht
      · rcases accepted_cons ht with rfl | ht
        · injection h1 with h1
          subst h1
          exact .inr (.pool List.mem_cons_self)
        · exact .inl ht
      · exact .inr (step_kept hi hc.1 h1 ht)
    · cases h

/-- **C64 (nothing is lost).**  After any calm run from a fresh start, every transaction that a
user handed in is in the pool, in a batch of this node, with a forward or the recovery task - or
it has been committed, delivered to a validator, rejected by validators, or dropped by the
pool. -/
theorem nothing_lost {l : List Ev} {s : Node} (hc : Calm content l {}) (h : run content l {} = some s) :
    ∀ t ∈ accepted l, Kept content s t :=
  fun t ht => run_kept l inv_init hc h t (.inl ht)

end Life
end Tx
end Verif
