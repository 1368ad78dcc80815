import Verif.Follow.DrainInv
/- Property C77: what a follower delivers, and that it always can go on. -/
namespace Verif
namespace Follow

variable {D S : Type} [DecidableEq D]

inductive Steps (w : World D S) : Node D S → Node D S → Prop
  | refl {s : Node D S} : Steps w s s
  | cons {s t u : Node D S} : Step w s t → Steps w t u → Steps w s u

theorem Steps.trans {w : World D S} {s t u : Node D S} (h1 : Steps w s t) (h2 : Steps w t u) : Steps w s u := by
  induction h1 with
  | refl => exact h2
  | cons h _ ih => exact .cons h (ih h2)

theorem Steps.reach {w : World D S} {b : Nat} {s t : Node D S} (h : Steps w s t) (hr : Reach w b s) : Reach w b t := by
  induction h with
  | refl => exact hr
  | cons h _ ih => exact ih (.step hr h)

/-! ### Safety -/

/-- **Whatever peers answer, in whatever order walks, drains, saves, imports, lost messages and restarts come, the
archive holds exactly the chain the committees signed, without a hole, up to the last number saved.** -/
theorem archive_true {w : World D S} (ok : w.Ok) {b : Nat} {s : Node D S} (h : Reach w b s) :
    ∀ k, k ≤ s.latest → s.pack k = some (w.chain k) := (inv_reach ok h).held

/-- **What is saved and handed on is the chain, in order, each output once**; and all of it, one after the other, unless the
channel to the subscriber dropped something. -/
theorem saved_in_order {w : World D S} (ok : w.Ok) {b : Nat} {s : Node D S} (h : Reach w b s) :
    (∀ x ∈ s.saved, x = w.chain x.num ∧ s.base < x.num ∧ x.num ≤ s.latest) ∧
    s.saved.Pairwise (fun x y => x.num < y.num) ∧
    (s.everLost = false → s.saved = (List.range' (s.base + 1) (s.latest - s.base)).map w.chain) :=
  ⟨(inv_reach ok h).sTrue, (inv_reach ok h).sOrd, (inv_reach ok h).sAll⟩

/-- **The follower stops with an error only if the channel dropped a message** (more than 1000 outputs behind). -/
theorem fails_only_by_loss {w : World D S} (ok : w.Ok) {b : Nat} {s : Node D S} (h : Reach w b s) (hf : s.failed = true) :
    s.lost = true := (inv_reach ok h).failed hf

/-- **Nothing false is ever cached**, whatever peers send. -/
theorem cache_true {w : World D S} (ok : w.Ok) {b : Nat} {s : Node D S} (h : Reach w b s) {n : Nat} {x : Hdr D S}
    (hc : s.cache n = some x) : x = w.chain n := (inv_reach ok h).cache n x hc

/-- **Nothing of a later epoch is handed to the subscriber of this one**, and nothing it already has. -/
theorem epoch_respected {w : World D S} (ok : w.Ok) {b : Nat} {s : Node D S} (h : Reach w b s) :
    ∀ x ∈ s.queue, w.ep x.sub ≤ s.epoch ∧ s.latest < x.num :=
  fun x hx => ⟨((inv_reach ok h).qTrue x hx).2.2.2, ((inv_reach ok h).qTrue x hx).2.1⟩

/-- **The drain checks the chain itself:** even with any cache and any packs, it moves only to a header whose parent is the
header it stands on and whose number is the next. -/
theorem drain_linked {w : World D S} (ok : w.Ok) (s : Node D S) :
    ((drainOne w s).last = s.last ∧ (drainOne w s).queue = s.queue) ∨
    ((drainOne w s).last.parent = w.dig s.last ∧ (drainOne w s).last.num = s.last.num + 1 ∧
      (drainOne w s).queue = s.queue ++ (if s.latest < s.last.num + 1 then [(drainOne w s).last] else [])) := by
  unfold drainOne
  cases e : resolve s.cache s.pack (s.last.num + 1) with
  | none => exact .inl ⟨rfl, rfl⟩
  | some h =>
    dsimp only
    split
    · exact .inl ⟨rfl, rfl⟩
    · split
      · exact .inl ⟨rfl, rfl⟩
      · rename_i hd
        obtain ⟨h1, h2, h3⟩ := ok.inj _ _ _ _ _ _ (Classical.not_not.mp hd)
        right
        split
        · dsimp only
          refine ⟨h1.symm, h3.symm, ?_⟩
          rw [if_neg (show ¬ s.latest < s.last.num + 1 by omega), List.append_nil]
        · dsimp only
          refine ⟨h1.symm, h3.symm, ?_⟩
          rw [if_pos (show s.latest < s.last.num + 1 by omega)]

/-! ### Walks -/

/-- **When a walk of this run ends, everything it had to fetch is there or already drained**, except what lies under a
height it found in a pack. -/
theorem walk_end_fills {w : World D S} (ok : w.Ok) {b : Nat} {s : Node D S} (h : Reach w b s) {p q : List (Walk D)}
    {x : Walk D} (hw : s.walks = p ++ x :: q) (hr : x.run = s.run) (r : Option (Hdr D S))
    (hend : (fetchOne w s.cache s.pack x r).1 = []) (k : Nat) (h1 : x.floor ≤ k) (h2 : k ≤ x.top) :
    (resolve (fetchOne w s.cache s.pack x r).2 s.pack k).isSome ∨ k ≤ s.last.num ∨
      (k < x.num ∧ (s.pack x.num).isSome) := by
  have i := inv_reach ok h
  obtain ⟨x1, x2, x3, x4⟩ := i.walks x (by rw [hw]; simp)
  obtain ⟨f1, f2, f3, f4⟩ := fetchOne_ok ok (pack := s.pack) i.cache x x1 x2 x3 r
  rcases Nat.lt_trichotomy k x.num with hk | hk | hk
  · rcases f4 hend with hp | ⟨_, hp⟩
    · exact .inr (.inr ⟨hk, hp⟩)
    · omega
  · subst hk
    left
    rw [resolve_some]
    rcases f4 hend with hp | ⟨hp, _⟩
    · exact .inr hp
    · exact .inl hp
  · rcases i.fill x (by rw [hw]; simp) hr k hk h2 with t | t
    · left
      rw [resolve_some] at t ⊢
      exact t.imp (f2 k) id
    · exact .inr (.inl t)

/-- **A drain that waits is waited for:** if the range it misses is refused because walks cover it, one of them still has to
pass the missing height, or is left from before the last restart of the drain. -/
theorem stalled_walk_ahead {w : World D S} (ok : w.Ok) {b : Nat} {s : Node D S} (h : Reach w b s)
    (ht : s.last.num < s.target) (hm : resolve s.cache s.pack (s.last.num + 1) = none)
    (hc : covered (ledgerOf s.walks) (s.last.num + 1) s.target = true) :
    ∃ x ∈ s.walks, x.floor ≤ s.last.num + 1 ∧ s.last.num + 1 ≤ x.top ∧ (x.run = s.run → s.last.num + 1 ≤ x.num) := by
  have i := inv_reach ok h
  obtain ⟨r, hr, h1, h2⟩ := (covered_iff _ (show s.last.num + 1 ≤ s.target by omega)).mp hc (s.last.num + 1) (Nat.le_refl _)
    (by omega)
  unfold ledgerOf at hr
  dsimp only at hr
  obtain ⟨x, hx, rfl⟩ := List.mem_map.mp hr
  refine ⟨x, hx, h1, h2, ?_⟩
  intro hrun
  by_cases hlt : s.last.num + 1 ≤ x.num
  · exact hlt
  · exfalso
    rcases i.fill x hx hrun (s.last.num + 1) (by omega) h2 with t | t
    · rw [hm] at t; cases t
    · omega

/-- **A request that is not refused is walked**, and with no walk under way none is refused. -/
theorem gap_when_idle {w : World D S} {s : Node D S} (ht : s.last.num < s.target) (hi : s.walks = []) :
    Step w s { s with walks := s.walks ++ [⟨s.target, w.dig (w.chain s.target), s.last.num + 1, s.target, s.run⟩] } := by
  refine .gap (by omega) ?_
  rw [hi]
  cases hc : covered (ledgerOf ([] : List (Walk D))) (s.last.num + 1) s.target with
  | false => rfl
  | true =>
    obtain ⟨r, hr, _⟩ := (covered_iff _ (show s.last.num + 1 ≤ s.target by omega)).mp hc (s.last.num + 1) (Nat.le_refl _)
      (by omega)
    cases hr

/-- **A walk that is served goes down**, or ends. -/
theorem walk_descends {w : World D S} (ok : w.Ok) {b : Nat} {s : Node D S} (h : Reach w b s) {x : Walk D} (hx : x ∈ s.walks) :
    (fetchOne w s.cache s.pack x (some (w.chain x.num))).1 = [] ∨
    ∃ y, (fetchOne w s.cache s.pack x (some (w.chain x.num))).1 = [y] ∧ y.num + 1 = x.num := by
  have i := inv_reach ok h
  obtain ⟨x1, x2, x3, x4⟩ := i.walks x hx
  have key : ∀ d, x.after x.num d = [] ∨ ∃ y, x.after x.num d = [y] ∧ y.num + 1 = x.num := by
    intro d
    unfold Walk.after
    split
    · unfold Walk.down
      split
      · exact .inl rfl
      · exact .inr ⟨_, rfl, by dsimp only; omega⟩
    · exact .inl rfl
  unfold fetchOne
  split
  · exact .inl rfl
  · cases e : s.cache x.num with
    | some g =>
      dsimp only
      have hg : g.num = x.num := by rw [i.cache _ _ e]; exact ok.num _
      rw [hg]
      exact key _
    | none =>
      dsimp only
      rw [if_pos x1.symm]
      exact key _

/-! ### It can always go on -/

theorem walks_finish {w : World D S} (ok : w.Ok) {b : Nat} (n : Nat) : ∀ {s : Node D S}, Reach w b s →
    (s.walks.map (fun x : Walk D => x.num + 1)).sum ≤ n →
    ∃ c, Steps w s { s with walks := [], cache := c } ∧ ∀ k, (s.cache k).isSome → (c k).isSome := by
  induction n with
  | zero =>
    intro s h hn
    cases e : s.walks with
    | nil =>
      refine ⟨s.cache, ?_, fun k h => h⟩
      have : ({ s with walks := [], cache := s.cache } : Node D S) = s := by cases s; dsimp only at e; rw [e]
      rw [this]; exact .refl
    | cons x l => rw [e] at hn; simp at hn
  | succ n ih =>
    intro s h hn
    cases e : s.walks with
    | nil =>
      refine ⟨s.cache, ?_, fun k h => h⟩
      have : ({ s with walks := [], cache := s.cache } : Node D S) = s := by cases s; dsimp only at e; rw [e]
      rw [this]; exact .refl
    | cons x l =>
      have hx : x ∈ s.walks := by rw [e]; simp
      have i := inv_reach ok h
      obtain ⟨x1, x2, x3, x4⟩ := i.walks x hx
      obtain ⟨f1, f2, f3, f4⟩ := fetchOne_ok ok (pack := s.pack) i.cache x x1 x2 x3 (some (w.chain x.num))
      have hs := Step.walk (w := w) (s := s) [] l x (some (w.chain x.num)) (by rw [e]; rfl)
      have hle : ((([] ++ (fetchOne w s.cache s.pack x (some (w.chain x.num))).1 ++ l)).map (fun x : Walk D => x.num + 1)).sum ≤ n := by
        rw [e] at hn
        simp only [List.map_cons, List.sum_cons] at hn
        rcases walk_descends ok h hx with hd | ⟨y, hd, hy⟩
        · rw [hd]; simp only [List.append_nil, List.nil_append]; omega
        · rw [hd]; simp only [List.nil_append, List.cons_append, List.map_cons, List.sum_cons]; omega
      obtain ⟨c, hc1, hc2⟩ := ih (.step h hs) hle
      exact ⟨c, .cons hs hc1, fun k hk => hc2 k (f2 k hk)⟩

theorem walk_alone {w : World D S} (ok : w.Ok) {b : Nat} (n : Nat) : ∀ {s : Node D S} {x : Walk D}, Reach w b s →
    s.walks = [x] → x.num = n →
    (∀ k, x.num < k → k ≤ x.top → (resolve s.cache s.pack k).isSome) →
    ∃ c, Steps w s { s with walks := [], cache := c } ∧
      ∀ k, x.floor ≤ k → k ≤ x.top → (resolve c s.pack k).isSome ∨ ∃ m, k ≤ m ∧ m ≤ x.top ∧ (s.pack m).isSome := by
  induction n using Nat.strongRecOn with
  | _ n ih =>
    intro s x h hw hxn hres
    have i := inv_reach ok h
    have hx : x ∈ s.walks := by rw [hw]; simp
    obtain ⟨x1, x2, x3, x4⟩ := i.walks x hx
    obtain ⟨f1, f2, f3, f4⟩ := fetchOne_ok ok (pack := s.pack) i.cache x x1 x2 x3 (some (w.chain x.num))
    have hs := Step.walk (w := w) (s := s) [] [] x (some (w.chain x.num)) (by rw [hw]; rfl)
    simp only [List.nil_append, List.append_nil] at hs
    have mono : ∀ k, (resolve s.cache s.pack k).isSome →
        (resolve (fetchOne w s.cache s.pack x (some (w.chain x.num))).2 s.pack k).isSome := by
      intro k hk
      rw [resolve_some] at hk ⊢
      exact hk.imp (f2 k) id
    rcases walk_descends ok h hx with hd | ⟨y, hd, hy⟩
    · refine ⟨(fetchOne w s.cache s.pack x (some (w.chain x.num))).2, ?_, ?_⟩
      · rw [hd] at hs
        exact .cons hs .refl
      · intro k hk1 hk2
        rcases f4 hd with hp | ⟨hp, hp2⟩
        · by_cases hk : k ≤ x.num
          · exact .inr ⟨x.num, hk, x2, hp⟩
          · exact .inl (mono k (hres k (by omega) hk2))
        · left
          by_cases hk : k = x.num
          · rw [resolve_some, hk]; exact .inl hp
          · exact mono k (hres k (by omega) hk2)
    · obtain ⟨y1, y2, y3, y4, y5, y6, y7, y8⟩ := f3 y (by rw [hd]; simp)
      obtain ⟨c, hc1, hc2⟩ := ih y.num (by omega) (.step h hs) hd rfl (by
        intro k hk1 hk2
        dsimp only
        by_cases hk : k ≤ x.num
        · rw [resolve_some]; exact .inl (y8 k hk1 hk)
        · exact mono k (hres k (by omega) (by omega)))
      refine ⟨c, .cons hs hc1, ?_⟩
      intro k hk1 hk2
      rcases hc2 k (by omega) (by omega) with t | ⟨m, m1, m2, m3⟩
      · exact .inl t
      · exact .inr ⟨m, m1, by omega, m3⟩

/-- One round of the drain when the next output is there. -/
theorem drainOne_next {w : World D S} (ok : w.Ok) {b : Nat} {s : Node D S} (h : Reach w b s)
    (hr : (resolve s.cache s.pack (s.last.num + 1)).isSome) (he : w.ep (w.chain (s.last.num + 1)).sub ≤ s.epoch) :
    (drainOne w s).last.num = s.last.num + 1 ∧ (drainOne w s).failed = s.failed ∧ (drainOne w s).lost = s.lost ∧
    (drainOne w s).ended = s.ended ∧ (drainOne w s).target = s.target ∧ (drainOne w s).epoch = s.epoch ∧
    ∀ k, k ≠ s.last.num + 1 →
      (resolve (drainOne w s).cache (drainOne w s).pack k).isSome = (resolve s.cache s.pack k).isSome := by
  have i := inv_reach ok h
  unfold drainOne
  cases e : resolve s.cache s.pack (s.last.num + 1) with
  | none => rw [e] at hr; cases hr
  | some g =>
    have hg : g = w.chain (s.last.num + 1) := resolve_true i e
    have hnum : g.num = s.last.num + 1 := by rw [hg]; exact ok.num _
    dsimp only
    have hk : ∀ k, k ≠ s.last.num + 1 → (resolve (put s.cache (s.last.num + 1) none) s.pack k).isSome =
        (resolve s.cache s.pack k).isSome := by
      intro k hk
      unfold resolve
      rw [put_ne _ _ hk]
    rw [if_neg (show ¬ w.ep g.sub > s.epoch by rw [hg]; omega)]
    have hl : w.H (w.dig s.last) g.sub (s.last.num + 1) = w.dig g := by
      show _ = w.H g.parent g.sub g.num
      rw [hnum, hg, ok.link s.last.num, ← i.last]
    rw [if_neg (show ¬ w.H (w.dig s.last) g.sub (s.last.num + 1) ≠ w.dig g from fun hne => hne hl)]
    split
    · exact ⟨hnum, rfl, rfl, rfl, rfl, rfl, hk⟩
    · exact ⟨hnum, rfl, rfl, rfl, rfl, rfl, hk⟩

theorem drains {w : World D S} (ok : w.Ok) {b : Nat} (d : Nat) : ∀ {s : Node D S}, Reach w b s → s.failed = false →
    s.ended = false → s.lost = false → s.last.num + d = s.target →
    (∀ k, s.last.num < k → k ≤ s.target → (resolve s.cache s.pack k).isSome ∧ w.ep (w.chain k).sub ≤ s.epoch) →
    ∃ t, Steps w s t ∧ t.last.num = s.target ∧ t.failed = false ∧ t.lost = false := by
  induction d with
  | zero => intro s h h1 h2 h3 h4 _; exact ⟨s, .refl, h4, h1, h3⟩
  | succ d ih =>
    intro s h h1 h2 h3 h4 h5
    obtain ⟨a1, a2⟩ := h5 (s.last.num + 1) (by omega) (by omega)
    obtain ⟨e1, e2, e3, e4, e5, e6, e7⟩ := drainOne_next ok h a1 a2
    have hs : Step w s (drainOne w s) := .drain h1 h2 (by omega)
    obtain ⟨t, t1, t2, t3, t4⟩ := ih (.step h hs) (e2.trans h1) (e4.trans h2) (e3.trans h3) (by omega) (by
      intro k k1 k2
      obtain ⟨b1, b2⟩ := h5 k (by omega) (by omega)
      exact ⟨(e7 k (by omega)).trans b1, by rw [e6]; exact b2⟩)
    exact ⟨t, .cons hs t1, by omega, t3, t4⟩

theorem saveOne_frame (w : World D S) (s : Node D S) : (saveOne w s).queue = s.queue.tail ∧ (saveOne w s).last = s.last ∧
    (saveOne w s).lost = s.lost := by
  unfold saveOne
  cases e : s.queue with
  | nil => exact ⟨e, rfl, rfl⟩
  | cons h q =>
    dsimp only
    split
    · exact ⟨rfl, rfl, rfl⟩
    · split
      · exact ⟨rfl, rfl, rfl⟩
      · split
        · exact ⟨rfl, rfl, rfl⟩
        · split
          · exact ⟨rfl, rfl, rfl⟩
          · split <;> exact ⟨rfl, rfl, rfl⟩

theorem saves {w : World D S} (ok : w.Ok) {b : Nat} (n : Nat) : ∀ {s : Node D S}, Reach w b s → s.failed = false →
    s.lost = false → s.queue.length = n →
    ∃ t, Steps w s t ∧ t.queue = [] ∧ t.last = s.last ∧ t.failed = false ∧ t.lost = false := by
  induction n with
  | zero => intro s h h1 h2 h3; exact ⟨s, .refl, List.length_eq_zero_iff.mp h3, rfl, h1, h2⟩
  | succ n ih =>
    intro s h h1 h2 h3
    obtain ⟨e1, e2, e3⟩ := saveOne_frame w s
    have hs : Step w s (saveOne w s) := .save h1
    have hr := Reach.step h hs
    have hf : (saveOne w s).failed = false := by
      cases hx : (saveOne w s).failed with
      | false => rfl
      | true => rw [fails_only_by_loss ok hr hx] at e3; rw [← e3] at h2; cases h2
    obtain ⟨t, t1, t2, t3, t4, t5⟩ := ih hr hf (e3.trans h2) (by rw [e1, List.length_tail]; omega)
    exact ⟨t, .cons hs t1, t2, t3.trans e2, t4, t5⟩

/-- **A follower can always catch up.** From every state it can get into, whatever walks are under way and whatever was lost
before, as long as peers serve it can reach, deliver and save everything up to the newest header it knows of, unless a
pack it holds lies above a hole, or the epoch ends before. -/
theorem recovers {w : World D S} (ok : w.Ok) {b : Nat} {s : Node D S} (h : Reach w b s) (hf : s.failed = false)
    (he : s.ended = false) (hl : s.lost = false) (ht : s.last.num ≤ s.target)
    (hole : ∀ m k, s.last.num < k → k ≤ m → m ≤ s.target → (s.pack m).isSome → (s.pack k).isSome)
    (hep : ∀ k, k ≤ s.target → w.ep (w.chain k).sub ≤ s.epoch) :
    ∃ t, Steps w s t ∧ t.failed = false ∧ t.last.num = s.target ∧ s.target ≤ t.latest ∧
      ∀ k, k ≤ s.target → t.pack k = some (w.chain k) := by
  have fin : ∀ {u : Node D S}, Steps w s u → u.failed = false → u.lost = false → u.last.num = s.target →
      ∃ t, Steps w s t ∧ t.failed = false ∧ t.last.num = s.target ∧ s.target ≤ t.latest ∧
        ∀ k, k ≤ s.target → t.pack k = some (w.chain k) := by
    intro u hu u1 u2 u3
    obtain ⟨t, t1, t2, t3, t4, t5⟩ := saves ok _ (hu.reach h) u1 u2 rfl
    have hst := hu.trans t1
    have i := inv_reach ok (hst.reach h)
    have hlat : s.target ≤ t.latest := by
      have := i.qAll t5
      rw [t2] at this
      by_cases hlt : t.latest < t.last.num
      · rw [seg_cons w hlt] at this; cases this
      · rw [t3, u3] at hlt; omega
    exact ⟨t, hst, t4, by rw [t3, u3], hlat, fun k hk => i.held k (by omega)⟩
  by_cases hlt : s.last.num < s.target
  · obtain ⟨c, c1, c2⟩ := walks_finish ok _ h (Nat.le_refl _)
    have r1 := c1.reach h
    have hg := gap_when_idle (w := w) (s := { s with walks := [], cache := c }) hlt rfl
    simp only [List.nil_append] at hg
    obtain ⟨c', d1, d2⟩ := walk_alone ok _ (.step r1 hg) rfl rfl (by intro k k1 k2; dsimp only at k1 k2; omega)
    dsimp only at d1 d2
    have hst := c1.trans (.cons hg d1)
    have r2 := hst.reach h
    obtain ⟨t, t1, t2, t3, t4⟩ := drains ok (s.target - s.last.num) r2 hf he hl (by dsimp only; omega) (by
      intro k k1 k2
      dsimp only at k1 k2 ⊢
      refine ⟨?_, hep k k2⟩
      rcases d2 k (by omega) k2 with t | ⟨m, m1, m2, m3⟩
      · exact t
      · rw [resolve_some]; exact .inr (hole m k k1 m1 m2 m3))
    exact fin (hst.trans t1) t3 t4 t2
  · exact fin .refl hf hl (by omega)

/-! ### The exception -/

/-- Height `k` is missing, the height above it is in a pack, and every walk is above it. -/
structure Hole (k : Nat) (s : Node D S) : Prop where
  cache : s.cache k = none
  pack : s.pack k = none
  above : (s.pack (k + 1)).isSome
  walks : ∀ x ∈ s.walks, k < x.num

/-- A step that does not bring height `k`: no pack with it, and no gossip for a header that old. -/
inductive Step' (w : World D S) (k : Nat) : Node D S → Node D S → Prop
  | mk {s t : Node D S} : Step w s t → (∀ n, t = { s with pack := put s.pack n (some (w.chain n)) } → n ≠ k) →
      (∀ n f r, t.walks = s.walks ++ [⟨n, w.dig (w.chain n), f, n, r⟩] → k < n) → Step' w k s t

theorem fetchOne_above {w : World D S} {k : Nat} (cache pack : Nat → Option (Hdr D S)) (hc : cache k = none)
    (ha : (pack (k + 1)).isSome) (x : Walk D) (hx : k < x.num) (r : Option (Hdr D S))
    (hnum : ∀ n h, cache n = some h → h.num = n) :
    (fetchOne w cache pack x r).2 k = none ∧ ∀ y ∈ (fetchOne w cache pack x r).1, k < y.num := by
  unfold fetchOne
  split
  · exact ⟨hc, fun y hy => by cases hy⟩
  · rename_i hp
    have hx2 : k + 1 < x.num := by
      rcases Nat.lt_or_ge (k + 1) x.num with h | h
      · exact h
      · exact absurd ((show x.num = k + 1 by omega) ▸ ha) hp
    have key : ∀ d, ∀ y ∈ x.after x.num d, k < y.num := by
      intro d y hy
      unfold Walk.after at hy
      split at hy
      · unfold Walk.down at hy
        split at hy
        · cases hy
        · rw [List.mem_singleton] at hy; subst hy; dsimp only; omega
      · cases hy
    cases e : cache x.num with
    | some g =>
      dsimp only
      refine ⟨hc, ?_⟩
      rw [hnum _ _ e]
      exact key _
    | none =>
      dsimp only
      cases r with
      | none => exact ⟨hc, fun y hy => by rw [List.mem_singleton] at hy; subst hy; exact hx⟩
      | some g =>
        dsimp only
        split
        · dsimp only
          refine ⟨?_, key _⟩
          rw [put_ne _ _ (show k ≠ x.num by omega)]; exact hc
        · exact ⟨hc, fun y hy => by rw [List.mem_singleton] at hy; subst hy; exact hx⟩

theorem hole_step {w : World D S} (ok : w.Ok) {b k : Nat} {s t : Node D S} (h : Reach w b s) (hh : Hole k s)
    (hl : s.last.num < k) (hs : Step' w k s t) : Hole k t ∧ t.last.num < k := by
  have i := inv_reach ok h
  have hlat : s.latest < k := by
    rcases Nat.lt_or_ge s.latest k with h | h
    · exact h
    · have := i.held k h
      rw [hh.pack] at this; cases this
  obtain ⟨hs, himp, hwalk⟩ := hs
  cases hs with
  | gossip n floor hf =>
    refine ⟨⟨hh.cache, hh.pack, hh.above, ?_⟩, hl⟩
    intro x hx
    rcases List.mem_append.mp hx with hx | hx
    · exact hh.walks x hx
    · rw [List.mem_singleton] at hx; subst hx
      exact hwalk n _ _ rfl
  | gap hf hc =>
    refine ⟨⟨hh.cache, hh.pack, hh.above, ?_⟩, hl⟩
    intro x hx
    rcases List.mem_append.mp hx with hx | hx
    · exact hh.walks x hx
    · rw [List.mem_singleton] at hx; subst hx
      exact hwalk s.target _ _ rfl
  | walk a c x r hw =>
    have hx := hh.walks x (by rw [hw]; simp)
    obtain ⟨f1, f2⟩ := fetchOne_above (w := w) s.cache s.pack hh.cache hh.above x hx r
      (fun n g e => by rw [i.cache n g e]; exact ok.num n)
    refine ⟨⟨f1, hh.pack, hh.above, ?_⟩, hl⟩
    intro y hy
    dsimp only at hy
    rcases List.mem_append.mp hy with hy | hy
    · rcases List.mem_append.mp hy with hy | hy
      · exact hh.walks y (by rw [hw]; simp [hy])
      · exact f2 y hy
    · exact hh.walks y (by rw [hw]; simp [hy])
  | dies a c x hw =>
    refine ⟨⟨hh.cache, hh.pack, hh.above, ?_⟩, hl⟩
    intro y hy
    refine hh.walks y ?_
    rw [hw]
    rcases List.mem_append.mp hy with hy | hy <;> simp [hy]
  | imported n =>
    have hn := himp n rfl
    refine ⟨⟨hh.cache, ?_, ?_, hh.walks⟩, hl⟩
    · dsimp only; rw [put_ne _ _ (Ne.symm hn)]; exact hh.pack
    · dsimp only
      by_cases e : k + 1 = n
      · rw [e, put_same]; rfl
      · rw [put_ne _ _ e]; exact hh.above
  | newer n hn => exact ⟨⟨hh.cache, hh.pack, hh.above, hh.walks⟩, hl⟩
  | drain _ he _ =>
    have hc : ∀ j, put s.cache j none k = none := by
      intro j
      by_cases e : k = j
      · rw [e, put_same]
      · rw [put_ne _ _ e]; exact hh.cache
    unfold drainOne
    cases e : resolve s.cache s.pack (s.last.num + 1) with
    | none => exact ⟨hh, hl⟩
    | some g =>
      have hg : g = w.chain (s.last.num + 1) := resolve_true i e
      have hnum : g.num = s.last.num + 1 := by rw [hg]; exact ok.num _
      have hne : s.last.num + 1 ≠ k := by
        intro hk
        rw [hk] at e
        unfold resolve at e
        rw [hh.cache, hh.pack] at e
        cases e
      dsimp only
      split
      · exact ⟨⟨hh.cache, hh.pack, hh.above, hh.walks⟩, hl⟩
      · split
        · exact ⟨⟨hc _, hh.pack, hh.above, hh.walks⟩, hl⟩
        · split
          · exact ⟨⟨hc _, hh.pack, hh.above, hh.walks⟩, by dsimp only; omega⟩
          · exact ⟨⟨hc _, hh.pack, hh.above, hh.walks⟩, by dsimp only; omega⟩
  | lag g q hq => exact ⟨⟨hh.cache, hh.pack, hh.above, hh.walks⟩, hl⟩
  | save _ =>
    unfold saveOne
    cases e : s.queue with
    | nil => exact ⟨hh, hl⟩
    | cons g q =>
      have hg := (i.qTrue g (by rw [e]; simp)).2.2.1
      dsimp only
      split
      · exact ⟨⟨hh.cache, hh.pack, hh.above, hh.walks⟩, hl⟩
      · split
        · exact ⟨⟨hh.cache, hh.pack, hh.above, hh.walks⟩, hl⟩
        · split
          · exact ⟨⟨hh.cache, hh.pack, hh.above, hh.walks⟩, hl⟩
          · split
            · exact ⟨⟨hh.cache, hh.pack, hh.above, hh.walks⟩, hl⟩
            · split
              · refine ⟨⟨hh.cache, ?_, ?_, hh.walks⟩, hl⟩
                · dsimp only; rw [put_ne _ _ (by omega)]; exact hh.pack
                · dsimp only; rw [put_ne _ _ (by omega)]; exact hh.above
              · exact ⟨⟨hh.cache, hh.pack, hh.above, hh.walks⟩, hl⟩
  | rerun p e nx o hf hp hn hr he =>
    exact ⟨⟨hh.cache, hh.pack, hh.above, hh.walks⟩, by show (w.chain p).num < k; rw [ok.num]; omega⟩
  | reboot p e nx o hp hn hr he =>
    exact ⟨⟨rfl, hh.pack, hh.above, fun x hx => by cases hx⟩, by show (w.chain p).num < k; rw [ok.num]; omega⟩

inductive Steps' (w : World D S) (k : Nat) : Node D S → Node D S → Prop
  | refl {s : Node D S} : Steps' w k s s
  | cons {s t u : Node D S} : Step' w k s t → Steps' w k t u → Steps' w k s u

/-- **A hole under a pack is not filled by walks.** A walk stops at the first height it finds in a pack, so while height
`k + 1` is in a pack and `k` is not, every gap request, and all gossip about newer headers, ends above `k`: the follower
does not get past `k` before a pack with `k` in it arrives (or somebody gossips a header that old). -/
theorem hole_needs_pack {w : World D S} (ok : w.Ok) {b k : Nat} {s t : Node D S} (h : Reach w b s) (hh : Hole k s)
    (hl : s.last.num < k) (hs : Steps' w k s t) : t.last.num < k ∧ t.latest < k := by
  have key : Reach w b t ∧ Hole k t ∧ t.last.num < k := by
    induction hs with
    | refl => exact ⟨h, hh, hl⟩
    | cons h1 _ ih =>
      obtain ⟨a1, a2⟩ := hole_step ok h hh hl h1
      obtain ⟨h1', _, _⟩ := h1
      exact ih (.step h h1') a1 a2
  refine ⟨key.2.2, ?_⟩
  rcases Nat.lt_or_ge t.latest k with h | h
  · exact h
  · have := archive_true ok key.1 k h
    rw [key.2.1.pack] at this; cases this

/-! ### A concrete run -/

/-- Digests are the whole history; the sub-dag is its number; epochs of ten outputs. -/
def toy : World (List (Nat × Nat)) Nat where
  H := fun p s n => (s, n) :: p
  ep := fun s => s / 10
  chain := fun n => ⟨(List.range n).reverse.map (fun k => (k, k)), n, n⟩

theorem toy_ok : toy.Ok where
  inj := by
    intro p s n p' s' n' h
    injection h with h1 h2
    injection h1 with h3 h4
    exact ⟨h2, h3, h4⟩
  num := fun _ => rfl
  link := by
    intro n
    show (List.range (n + 1)).reverse.map (fun k => (k, k)) = (n, n) :: (List.range n).reverse.map (fun k => (k, k))
    rw [List.range_succ, List.reverse_append]
    rfl

/-- A node at height 2 that restarted from height 1, knows of height 6, and has a walk under way: the hypotheses of
`recovers` hold in it. -/
example : ∃ s, Reach toy 2 s ∧ s.failed = false ∧ s.ended = false ∧ s.lost = false ∧ s.last.num < s.target ∧
    s.target = 6 ∧ s.walks.length = 1 ∧ (s.cache 6).isSome ∧
    (∀ m k, s.last.num < k → k ≤ m → m ≤ s.target → (s.pack m).isSome → (s.pack k).isSome) ∧
    (∀ k, k ≤ s.target → toy.ep (toy.chain k).sub ≤ s.epoch) := by
  have r0 : Reach toy 2 (boot toy 2) := .boot
  have r1 := Reach.step r0 (.rerun 1 0 3 true rfl (by decide) (by decide)
    (fun k h1 h2 => by unfold boot at h1; dsimp only at h1; omega)
    (fun k _ h2 => ⟨Nat.le_zero.mp h2, .inl rfl⟩))
  have r2 := Reach.step r1 (.newer 6 (by decide))
  have r3 := Reach.step r2 (.gossip 6 0 (by decide))
  have r4 := Reach.step r3 (.walk [] [] ⟨6, toy.dig (toy.chain 6), 0, 6, 1⟩ (some (toy.chain 6)) rfl)
  refine ⟨_, r4, rfl, rfl, rfl, by decide, rfl, by decide, by decide, ?_, ?_⟩
  · intro m k h1 h2 h3 h4
    dsimp only [boot] at h4 ⊢
    by_cases hm : m ≤ 2
    · rw [if_pos (by omega)]; rfl
    · rw [if_neg hm] at h4; cases h4
  · intro k hk
    show k / 10 ≤ 0
    have : k ≤ 6 := hk
    omega

/-- And a hole under a pack. -/
example : ∃ s, Reach toy 2 s ∧ Hole 3 s ∧ s.last.num < 3 ∧ s.target = 6 := by
  have r0 : Reach toy 2 (boot toy 2) := .boot
  have r1 := Reach.step r0 (.rerun 1 0 3 true rfl (by decide) (by decide)
    (fun k h1 h2 => by unfold boot at h1; dsimp only at h1; omega)
    (fun k _ h2 => ⟨Nat.le_zero.mp h2, .inl rfl⟩))
  have r2 := Reach.step r1 (.newer 6 (by decide))
  have r3 := Reach.step r2 (.imported 4)
  exact ⟨_, r3, ⟨rfl, by decide, by decide, fun x hx => by cases hx⟩, by decide, rfl⟩

end Follow
end Verif
