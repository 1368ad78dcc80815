import Verif.Net.StreamsMain
import Mathlib.Data.List.Induction

/-!
# Stream opens: deadlines and the inbound rate
-/

namespace Verif.Strm

open Verif.Net (get put del)

/-! ## Deadlines -/

/-- Every waiting open was called after `T - 15 s`. -/
def Fresh (T : Nat) (s : S) : Prop := T ≤ s.now ∧ ∀ o ∈ s.pending, T < Open.deadline o

theorem fresh_sub {T : Nat} {s s' : S} (h : Fresh T s) (hn : s.now ≤ s'.now)
    (hp : ∀ o ∈ s'.pending, ∃ q ∈ s.pending, Open.deadline q = Open.deadline o) : Fresh T s' := by
  refine ⟨Nat.le_trans h.1 hn, fun o ho => ?_⟩
  obtain ⟨q, hq, he⟩ := hp o ho
  rw [← he]; exact h.2 q hq

/-- What one step does to the clock and to the waiting opens: it removes some, changes their phase, or
adds the new call's with the full deadline. -/
theorem step_pending {s s' : S} {e : Ev} (hs : s.step e = some s') : s.now ≤ s'.now ∧
    ∀ o ∈ s'.pending, (∃ q ∈ s.pending, Open.deadline q = Open.deadline o) ∨
      Open.deadline o = s.now + openDeadline := by
  have same : ∀ {t : S}, t.now = s.now → t.pending = s.pending → s.now ≤ t.now ∧
      ∀ o ∈ t.pending, (∃ q ∈ s.pending, Open.deadline q = Open.deadline o) ∨
        Open.deadline o = s.now + openDeadline := by
    intro t h1 h2
    rw [h1, h2]
    exact ⟨Nat.le_refl _, fun o ho => Or.inl ⟨o, ho, rfl⟩⟩
  cases e with
  | tick d =>
    cases hs
    exact ⟨Nat.le_add_right _ _, fun o ho => Or.inl ⟨o, ho, rfl⟩⟩
  | call p a =>
    cases hs
    have hq : ∀ ph, s.now ≤ (S.queue { s with calls := s.calls ++ [(s.now, p)] } s.calls.length p a ph).now ∧
        ∀ o ∈ (S.queue { s with calls := s.calls ++ [(s.now, p)] } s.calls.length p a ph).pending,
          (∃ q ∈ s.pending, Open.deadline q = Open.deadline o) ∨ Open.deadline o = s.now + openDeadline := by
      intro ph
      refine ⟨Nat.le_refl _, fun o ho => ?_⟩
      rcases List.mem_append.1 ho with h1 | h1
      · exact Or.inl ⟨o, h1, rfl⟩
      · rw [List.mem_singleton] at h1; subst h1; exact Or.inr rfl
    unfold S.openStream
    dsimp only
    split
    · exact same rfl rfl
    · split
      · exact hq _
      · split
        · exact same rfl rfl
        · exact hq _
  | sweep =>
    cases hs
    obtain ⟨a1, -, a3, -⟩ := failAll_spec .timeout .timeout
      (s.pending.filter fun o => o.stale s.now)
      { s with pending := s.pending.filter fun o => !o.stale s.now }
    unfold S.expire
    rw [a1, a3]
    exact ⟨Nat.le_refl _, fun o ho => Or.inl ⟨o, List.mem_of_mem_filter ho, rfl⟩⟩
  | poll c =>
    dsimp only [S.step] at hs
    have hact : ∀ (t : S) (o : Out), t.act c o = some s' → s'.now = t.now ∧ s'.pending = t.pending := by
      intro t o h
      cases o with
      | event e => cases h; exact ⟨rfl, rfl⟩
      | dial p a => cases h; exact ⟨rfl, rfl⟩
      | notify o =>
        dsimp only [S.act] at h
        split at h
        · split at h
          · split at h
            · cases h
              unfold S.toHandler
              split
              · split
                · exact ⟨rfl, rfl⟩
                · exact ⟨rfl, rfl⟩
              · exact ⟨rfl, rfl⟩
            · cases h
          · cases h
        · cases h; exact ⟨rfl, rfl⟩
    cases hp : s.poll with
    | none => rw [hp] at hs; cases hs
    | some x =>
      obtain ⟨o, t⟩ := x
      rw [hp] at hs
      dsimp only at hs
      obtain ⟨h1, h2⟩ := hact t o hs
      rw [h1, h2]
      unfold S.poll at hp
      split at hp
      · cases hp; exact same rfl rfl
      · split at hp
        · cases hp
          exact ⟨Nat.le_refl _, fun o ho => Or.inl ⟨o, List.mem_of_mem_erase ho, rfl⟩⟩
        · split at hp
          · cases hp
            refine ⟨Nat.le_refl _, fun o ho => ?_⟩
            obtain ⟨q, hq, rfl⟩ := List.mem_map.1 ho
            exact Or.inl ⟨q, hq, (dialed_deadline _ _).symm⟩
          · cases hp
  | established p o =>
    dsimp only [S.step] at hs
    split at hs
    · cases hs
    · cases hs
      refine ⟨Nat.le_refl _, fun o ho => ?_⟩
      obtain ⟨q, hq, rfl⟩ := List.mem_map.1 ho
      exact Or.inl ⟨q, hq, (ready_deadline _ _).symm⟩
  | closed c =>
    dsimp only [S.step] at hs
    cases hk : s.conns[c]? with
    | none => rw [hk] at hs; cases hs
    | some k =>
      rw [hk] at hs
      dsimp only at hs
      obtain ⟨a1, a2, a3, a4, a5, a6, a7, a8, a9⟩ := dropAll_spec s k
      split at hs
      · have hs := Option.some.inj hs
        subst hs
        exact same a1 a3
      · have hs := Option.some.inj hs
        subst hs
        refine ⟨Nat.le_of_eq a1.symm, fun o ho => ?_⟩
        have ho : o ∈ (s.dropAll k).pending.map (Open.back k.peer) := ho
        rw [a3] at ho
        obtain ⟨q, hq, rfl⟩ := List.mem_map.1 ho
        exact Or.inl ⟨q, hq, (back_deadline _ _).symm⟩
  | dialFailed p o =>
    dsimp only [S.step] at hs
    split at hs
    · cases hs
    · have hs := Option.some.inj hs
      subst hs
      unfold S.onDialFailed
      dsimp only
      generalize (if o = true then s.dials.eraseP fun d => decide (d.1 = p) else s.dials) = dials
      obtain ⟨a1, -, a3, -⟩ := failAll_spec .notConnected .dial
        (s.pending.filter fun o => o.hit p)
        { s with dials := dials, pending := s.pending.filter fun o => !o.hit p }
      rw [a1, a3]
      exact ⟨Nat.le_refl _, fun o ho => Or.inl ⟨o, List.mem_of_mem_filter ho, rfl⟩⟩
  | request c =>
    dsimp only [S.step] at hs
    split at hs
    · split at hs
      · cases hs; exact same rfl rfl
      · cases hs
    · cases hs
  | negotiated c id =>
    dsimp only [S.step] at hs
    split at hs
    · split at hs
      · cases hs; exact same rfl rfl
      · cases hs
    · cases hs
  | upgradeError c id err =>
    dsimp only [S.step] at hs
    split at hs
    · split at hs
      · have hs := Option.some.inj hs
        subst hs
        split
        · exact same (push_spec _ _).1 (push_spec _ _).2.2.1
        · exact same rfl rfl
      · cases hs
    · cases hs
  | inbound c =>
    dsimp only [S.step] at hs
    split at hs
    · have hs := Option.some.inj hs
      subst hs
      unfold S.onInbound S.rateLimited
      dsimp only
      split
      · exact same (push_spec _ _).1 (push_spec _ _).2.2.1
      · exact same (push_spec _ _).1 (push_spec _ _).2.2.1
    · cases hs

theorem fresh_runs {T : Nat} {es : List Ev} {s s' : S} (h : Fresh T s) (hr : s.runs es = some s') :
    Fresh T s' := by
  induction es generalizing s with
  | nil => cases hr; exact h
  | cons e es ih =>
    obtain ⟨m, h1, h2⟩ := Option.bind_eq_some_iff.1 hr
    obtain ⟨hn, hp⟩ := step_pending h1
    refine ih ⟨Nat.le_trans h.1 hn, fun o ho => ?_⟩ h2
    rcases hp o ho with ⟨q, hq, he⟩ | he
    · rw [← he]; exact h.2 q hq
    · rw [he]
      have := h.1
      have e : openDeadline = 15000 := rfl
      omega

theorem runs_append (es fs : List Ev) (s : S) : s.runs (es ++ fs) = (s.runs es).bind fun m => m.runs fs := by
  induction es generalizing s with
  | nil => rfl
  | cons e es ih =>
    show (s.step e).bind (fun m => m.runs (es ++ fs)) = ((s.step e).bind fun m => m.runs es).bind _
    cases s.step e with
    | none => rfl
    | some m => exact ih m

theorem reach_runs {es : List Ev} {s s' : S} (h : Reach s) (hr : s.runs es = some s') : Reach s' := by
  obtain ⟨fs, hf⟩ := h
  exact ⟨fs ++ es, by rw [runs_append, hf]; exact hr⟩

/-- After a sweep, whatever follows, an open still waiting in the behaviour was called less than 15 s
before that sweep: swept every second, no open waits 16 s for a connection. -/
theorem waiting_bounded {s m s' : S} {es : List Ev} (h : Reach s) (hs : s.step .sweep = some m)
    (hr : m.runs es = some s') {o : Open} (ho : o ∈ s'.pending) :
    ∃ t, s'.calls[o.id]? = some (t, o.peer) ∧ s.now < t + 15000 := by
  have hf : Fresh s.now m := by
    cases hs
    obtain ⟨a1, -, a3, -⟩ := failAll_spec .timeout .timeout
      (s.pending.filter fun o => o.stale s.now)
      { s with pending := s.pending.filter fun o => !o.stale s.now }
    unfold S.expire Fresh
    rw [a1, a3]
    refine ⟨Nat.le_refl _, fun o ho => ?_⟩
    have := (List.mem_filter.1 ho).2
    simpa [Open.stale] using this
  have hm : Reach m := reach_runs (es := [.sweep]) h (by simp [S.runs, hs])
  obtain ⟨t, h1, h2⟩ := (reach_inv (reach_runs hm hr)).deadline o ho
  refine ⟨t, h1, ?_⟩
  have := (fresh_runs hf hr).2 o ho
  rw [h2] at this
  exact this

/-! ## The inbound rate -/

/-- Whether an inbound stream on connection `c` now is from `p` and is passed on. -/
def passes (p : Nat) (s : S) : Ev → Nat
  | .inbound c =>
    match s.conns[c]? with
    | some k => if k.peer = p ∧ (s.rateLimited p).1 = false then 1 else 0
    | none => 0
  | _ => 0

/-- Whether an inbound stream now is from `p`. -/
def arrives (p : Nat) (s : S) : Ev → Nat
  | .inbound c =>
    match s.conns[c]? with
    | some k => if k.peer = p then 1 else 0
    | none => 0
  | _ => 0

/-- The streams of `p` passed on during a run. -/
def passed (p : Nat) : S → List Ev → Nat
  | _, [] => 0
  | s, e :: es =>
    match s.step e with
    | some m => passes p s e + passed p m es
    | none => 0

/-- The streams `p` opened during a run. -/
def arrived (p : Nat) : S → List Ev → Nat
  | _, [] => 0
  | s, e :: es =>
    match s.step e with
    | some m => arrives p s e + arrived p m es
    | none => 0

/-- No connection is closed during the run. -/
def noClose (es : List Ev) : Prop := ∀ c, Ev.closed c ∉ es

/-- Steps other than an inbound stream and a close leave the windows alone. -/
theorem step_inbound {s s' : S} {e : Ev} (hs : s.step e = some s') (hi : ∀ c, e ≠ .inbound c)
    (hc : ∀ c, e ≠ .closed c) : s'.inbound = s.inbound := by
  cases e with
  | tick d => cases hs; rfl
  | call p a =>
    cases hs
    unfold S.openStream
    dsimp only
    split
    · rfl
    · split
      · rfl
      · split <;> rfl
  | sweep =>
    cases hs
    exact (failAll_spec _ _ _ _).2.2.2.2.2.2.2.1
  | poll c =>
    dsimp only [S.step] at hs
    have hact : ∀ (t : S) (o : Out), t.act c o = some s' → s'.inbound = t.inbound := by
      intro t o h
      cases o with
      | event e => cases h; rfl
      | dial p a => cases h; rfl
      | notify o =>
        dsimp only [S.act] at h
        split at h
        · split at h
          · split at h
            · cases h
              unfold S.toHandler
              split
              · split <;> rfl
              · rfl
            · cases h
          · cases h
        · cases h; rfl
    cases hp : s.poll with
    | none => rw [hp] at hs; cases hs
    | some x =>
      obtain ⟨o, t⟩ := x
      rw [hp] at hs
      rw [hact t o hs]
      unfold S.poll at hp
      split at hp
      · cases hp; rfl
      · split at hp
        · cases hp; rfl
        · split at hp
          · cases hp; rfl
          · cases hp
  | established p o =>
    dsimp only [S.step] at hs
    split at hs
    · cases hs
    · cases hs; rfl
  | closed c => exact absurd rfl (hc c)
  | dialFailed p o =>
    dsimp only [S.step] at hs
    split at hs
    · cases hs
    · have hs := Option.some.inj hs
      subst hs
      exact (failAll_spec _ _ _ _).2.2.2.2.2.2.2.1
  | request c =>
    dsimp only [S.step] at hs
    split at hs
    · split at hs
      · cases hs; rfl
      · cases hs
    · cases hs
  | negotiated c id =>
    dsimp only [S.step] at hs
    split at hs
    · split at hs
      · cases hs; rfl
      · cases hs
    · cases hs
  | upgradeError c id err =>
    dsimp only [S.step] at hs
    split at hs
    · split at hs
      · have hs := Option.some.inj hs
        subst hs
        split
        · exact (push_spec _ _).2.2.2.2.2.2.2.1
        · rfl
      · cases hs
    · cases hs
  | inbound c => exact absurd rfl (hi c)

/-- What an inbound stream does to the windows and the clock. -/
theorem step_inbound_window {s s' : S} {c : Nat} (hs : s.step (.inbound c) = some s') :
    ∃ k, s.conns[c]? = some k ∧ s'.now = s.now ∧
      s'.inbound = put k.peer (((get k.peer s.inbound).getD ⟨0, s.now⟩).take s.now) s.inbound := by
  dsimp only [S.step] at hs
  cases hk : s.conns[c]? with
  | none => rw [hk] at hs; cases hs
  | some k =>
    rw [hk] at hs
    dsimp only at hs
    have hs := Option.some.inj hs
    subst hs
    refine ⟨k, rfl, ?_⟩
    unfold S.onInbound S.rateLimited
    dsimp only
    split
    · exact ⟨(push_spec _ _).1, (push_spec _ _).2.2.2.2.2.2.2.1⟩
    · exact ⟨(push_spec _ _).1, (push_spec _ _).2.2.2.2.2.2.2.1⟩

/-- `n` streams passed since time `T0`, and `r` windows have replaced an older one since. -/
def Quota (p T0 n r : Nat) (s : S) : Prop := T0 ≤ s.now ∧
  match get p s.inbound with
  | none => n = 0 ∧ r = 0
  | some w => n ≤ 256 * r + min w.count 256 ∧
      (0 < r → T0 + (r - 1) * 1000 ≤ w.started ∧ w.started ≤ s.now)

theorem quota_frame {p T0 n r : Nat} {s s' : S} (h : Quota p T0 n r s) (hn : s.now ≤ s'.now)
    (hi : get p s'.inbound = get p s.inbound) : Quota p T0 n r s' := by
  refine ⟨Nat.le_trans h.1 hn, ?_⟩
  have h2 := h.2
  rw [hi]
  cases hg : get p s.inbound with
  | none => rw [hg] at h2; exact h2
  | some w =>
    rw [hg] at h2
    exact ⟨h2.1, fun hr => ⟨(h2.2 hr).1, Nat.le_trans (h2.2 hr).2 hn⟩⟩

theorem quota_step {p T0 n r : Nat} {s s' : S} {e : Ev} (h : Quota p T0 n r s)
    (hs : s.step e = some s') (hc : ∀ c, e ≠ .closed c) :
    ∃ r', Quota p T0 (n + passes p s e) r' s' := by
  have hmono := (step_pending hs).1
  by_cases hi : ∀ c, e ≠ .inbound c
  · have h0 : passes p s e = 0 := by
      cases e with
      | inbound c => exact absurd rfl (hi c)
      | _ => rfl
    rw [h0]
    exact ⟨r, quota_frame h hmono (by rw [step_inbound hs hi hc])⟩
  · have : ∃ c, e = .inbound c := by
      cases e with
      | inbound c => exact ⟨c, rfl⟩
      | _ => exact absurd (fun c h => by cases h) hi
    obtain ⟨c, rfl⟩ := this
    obtain ⟨k, hk, hnow, hw⟩ := step_inbound_window hs
    by_cases hkp : k.peer = p
    · subst hkp
      have hpass : passes k.peer s (.inbound c)
          = if maxInbound < (((get k.peer s.inbound).getD ⟨0, s.now⟩).take s.now).count then 0 else 1 := by
        dsimp only [passes]
        rw [hk]
        dsimp only [S.rateLimited]
        by_cases hlt : maxInbound < (((get k.peer s.inbound).getD ⟨0, s.now⟩).take s.now).count
        · simp [hlt]
        · simp [hlt]
      rw [hpass]
      have hg' : get k.peer s'.inbound = some (((get k.peer s.inbound).getD ⟨0, s.now⟩).take s.now) := by
        rw [hw, Net.get_put]; simp
      have h2 := h.2
      have e256 : maxInbound = 256 := rfl
      have e1000 : rateWindow = 1000 := rfl
      unfold Quota
      rw [hg', hnow]
      cases hg : get k.peer s.inbound with
      | none =>
        rw [hg] at h2
        refine ⟨0, h.1, ?_, fun h => by omega⟩
        obtain ⟨h3, -⟩ := h2
        have hcnt : (((none : Option Window).getD ⟨0, s.now⟩).take s.now).count = 1 := by
          simp [Window.take, Window.roll, rateWindow]
        rw [hcnt, if_neg (by omega)]
        omega
      | some w =>
        rw [hg] at h2
        obtain ⟨h3, h4⟩ := h2
        by_cases hroll : rateWindow ≤ s.now - w.started
        · have ht : (((some w).getD ⟨0, s.now⟩).take s.now) = ⟨1, s.now⟩ := by
            simp [Window.take, Window.roll, hroll]
          rw [ht]
          have h5 := h.1
          refine ⟨r + 1, h.1, ?_, fun _ => ⟨?_, Nat.le_refl _⟩⟩
          · rw [if_neg (show ¬ maxInbound < (⟨1, s.now⟩ : Window).count by rw [e256]; show ¬ 256 < 1; decide)]
            show n + 1 ≤ 256 * (r + 1) + min 1 256
            omega
          · rw [Nat.add_sub_cancel]
            have h6 : T0 + r * 1000 ≤ s.now := by
              by_cases hr : 0 < r
              · have h7 := (h4 hr).1
                rw [e1000] at hroll
                rw [Nat.sub_mul] at h7
                have h8 : 1 * 1000 ≤ r * 1000 := Nat.mul_le_mul_right _ hr
                omega
              · have : r = 0 := by omega
                subst this
                omega
            exact h6
        · have ht : (((some w).getD ⟨0, s.now⟩).take s.now) = ⟨w.count + 1, w.started⟩ := by
            simp [Window.take, Window.roll, hroll]
          rw [ht]
          refine ⟨r, h.1, ?_, h4⟩
          dsimp only
          by_cases hlt : maxInbound < w.count + 1
          · rw [if_pos hlt]; omega
          · rw [if_neg hlt]; omega
    · have h0 : passes p s (.inbound c) = 0 := by
        dsimp only [passes]
        rw [hk]
        simp [hkp]
      rw [h0]
      refine ⟨r, quota_frame h hmono ?_⟩
      rw [hw, Net.get_put]
      simp [Ne.symm hkp]

theorem quota_runs {p T0 : Nat} {es : List Ev} {s s' : S} {n r : Nat} (h : Quota p T0 n r s)
    (hr : s.runs es = some s') (hc : noClose es) : ∃ r', Quota p T0 (n + passed p s es) r' s' := by
  induction es generalizing s n r with
  | nil => cases hr; exact ⟨r, h⟩
  | cons e es ih =>
    obtain ⟨m, h1, h2⟩ := Option.bind_eq_some_iff.1 hr
    obtain ⟨r', h3⟩ := quota_step h h1 (fun c he => hc c (by rw [he]; exact List.mem_cons_self))
    obtain ⟨r'', h4⟩ := ih h3 h2 (fun c hm => hc c (List.mem_cons_of_mem _ hm))
    refine ⟨r'', ?_⟩
    have : passed p s (e :: es) = passes p s e + passed p m es := by
      rw [passed, h1]
    rw [this, ← Nat.add_assoc]
    exact h4

/-- While no connection closes, a peer gets at most 256 streams through per second begun, plus 256:
in particular fewer than 513 in any stretch shorter than a second. -/
theorem inbound_rate {p : Nat} {es : List Ev} {s s' : S} (hr : s.runs es = some s') (hc : noClose es) :
    passed p s es ≤ 256 * ((s'.now - s.now) / 1000 + 2) := by
  have h0 : Quota p s.now 0 0 s := by
    refine ⟨Nat.le_refl _, ?_⟩
    cases get p s.inbound with
    | none => exact ⟨rfl, rfl⟩
    | some w => exact ⟨Nat.zero_le _, fun h => absurd h (Nat.lt_irrefl _)⟩
  obtain ⟨r, h1, h2⟩ := quota_runs h0 hr hc
  cases hg : get p s'.inbound with
  | none => rw [hg] at h2; omega
  | some w =>
    rw [hg] at h2
    obtain ⟨h3, h4⟩ := h2
    have hrb : r ≤ (s'.now - s.now) / 1000 + 1 := by
      by_cases hr0 : 0 < r
      · have := h4 hr0
        omega
      · omega
    omega

/-! ## Who is limited -/

theorem arrived_snoc {p : Nat} {es : List Ev} {s m m' : S} {e : Ev} (hr : s.runs es = some m)
    (hs : m.step e = some m') : arrived p s (es ++ [e]) = arrived p s es + arrives p m e := by
  induction es generalizing s with
  | nil =>
    cases hr
    show arrived p _ [e] = 0 + _
    rw [arrived, hs, Nat.zero_add]
    rfl
  | cons x es ih =>
    obtain ⟨t, h1, h2⟩ := Option.bind_eq_some_iff.1 hr
    show arrived p s (x :: (es ++ [e])) = _
    rw [arrived, arrived, h1]
    dsimp only
    rw [ih h2]
    omega

/-- Each window counts streams that did arrive since it began. -/
theorem window_counts {es : List Ev} {s : S} (hr : S.init.runs es = some s) {p : Nat} {w : Window}
    (hw : get p s.inbound = some w) :
    ∃ es1 es2 m, es = es1 ++ es2 ∧ S.init.runs es1 = some m ∧ m.runs es2 = some s ∧ m.now = w.started ∧
      w.started ≤ s.now ∧ arrived p m es2 = w.count := by
  induction es using List.reverseRecOn generalizing s w with
  | nil =>
    cases hr
    cases hw
  | append_singleton es e ih =>
    rw [runs_append] at hr
    obtain ⟨t, h1, h2⟩ := Option.bind_eq_some_iff.1 hr
    have hs : t.step e = some s := by
      obtain ⟨x, h3, h4⟩ := Option.bind_eq_some_iff.1 h2
      cases h4; exact h3
    have hmono := (step_pending hs).1
    -- the window was there before, with `n` fewer streams
    have keep : ∀ w', get p t.inbound = some w' → w'.started = w.started →
        w.count = w'.count + arrives p t e →
        ∃ es1 es2 m, es ++ [e] = es1 ++ es2 ∧ S.init.runs es1 = some m ∧ m.runs es2 = some s ∧
          m.now = w.started ∧ w.started ≤ s.now ∧ arrived p m es2 = w.count := fun w' hw' hst hcnt => by
      obtain ⟨es1, es2, m, a1, a2, a3, a4, a5, a6⟩ := ih h1 hw'
      refine ⟨es1, es2 ++ [e], m, ?_, a2, ?_, a4.trans hst, ?_, ?_⟩
      · rw [a1, List.append_assoc]
      · rw [runs_append, a3]; exact h2
      · rw [← hst]; exact Nat.le_trans a5 hmono
      · rw [arrived_snoc a3 hs, a6, hcnt]
    by_cases hi : ∀ c, e ≠ .inbound c
    · have h0 : arrives p t e = 0 := by
        cases e with
        | inbound c => exact absurd rfl (hi c)
        | _ => rfl
      by_cases hc : ∀ c, e ≠ .closed c
      · rw [step_inbound hs hi hc] at hw
        exact keep w hw rfl (by omega)
      · have : ∃ c, e = .closed c := by
          cases e with
          | closed c => exact ⟨c, rfl⟩
          | _ => exact absurd (fun c h => by cases h) hc
        obtain ⟨c, rfl⟩ := this
        dsimp only [S.step] at hs
        cases hk : t.conns[c]? with
        | none => rw [hk] at hs; cases hs
        | some k =>
          rw [hk] at hs
          dsimp only at hs
          have a8 := (dropAll_spec t k).2.2.2.2.2.2.2.1
          split at hs
          · cases hs
            have hw : get p (t.dropAll k).inbound = some w := hw
            rw [a8] at hw
            exact keep w hw rfl (by omega)
          · cases hs
            have hw : get p (del k.peer (t.dropAll k).inbound) = some w := hw
            rw [a8, Net.get_del] at hw
            split at hw
            · cases hw
            · exact keep w hw rfl (by omega)
    · have : ∃ c, e = .inbound c := by
        cases e with
        | inbound c => exact ⟨c, rfl⟩
        | _ => exact absurd (fun c h => by cases h) hi
      obtain ⟨c, rfl⟩ := this
      obtain ⟨k, hk, hnow, hwi⟩ := step_inbound_window hs
      rw [hwi, Net.get_put] at hw
      by_cases hkp : p = k.peer
      · rw [if_pos hkp] at hw
        have hw := Option.some.inj hw
        have ha : arrives p t (.inbound c) = 1 := by
          dsimp only [arrives]; rw [hk]; simp [hkp]
        have fresh : w = ⟨1, t.now⟩ → ∃ es1 es2 m, es ++ [.inbound c] = es1 ++ es2 ∧
            S.init.runs es1 = some m ∧ m.runs es2 = some s ∧ m.now = w.started ∧ w.started ≤ s.now ∧
            arrived p m es2 = w.count := by
          rintro rfl
          refine ⟨es, [.inbound c], t, rfl, h1, h2, rfl, hmono, ?_⟩
          rw [arrived, hs]
          show arrives p t (.inbound c) + 0 = 1
          rw [ha]
        cases hg : get k.peer t.inbound with
        | none =>
          rw [hg] at hw
          exact fresh (by rw [← hw]; simp [Window.take, Window.roll, rateWindow])
        | some w' =>
          rw [hg] at hw
          by_cases hroll : rateWindow ≤ t.now - w'.started
          · exact fresh (by rw [← hw]; simp [Window.take, Window.roll, hroll])
          · have ht : w = ⟨w'.count + 1, w'.started⟩ := by
              rw [← hw]; simp [Window.take, Window.roll, hroll]
            rw [ht] at keep ⊢
            exact keep w' (by rw [hkp]; exact hg) rfl (by rw [ha])
      · rw [if_neg hkp] at hw
        exact keep w hw rfl (by
          have : arrives p t (.inbound c) = 0 := by
            dsimp only [arrives]; rw [hk]; simp [Ne.symm hkp]
          omega)

/-- Only a flooding peer is limited: a stream is refused for its rate only when the peer had opened at
least 256 others within the last second. -/
theorem limited_means_flood {es : List Ev} {s : S} (hr : S.init.runs es = some s) {p : Nat}
    (hl : (s.rateLimited p).1 = true) :
    ∃ es1 es2 m, es = es1 ++ es2 ∧ S.init.runs es1 = some m ∧ m.runs es2 = some s ∧
      s.now < m.now + 1000 ∧ 256 ≤ arrived p m es2 := by
  unfold S.rateLimited at hl
  dsimp only at hl
  have hl := of_decide_eq_true hl
  have e256 : maxInbound = 256 := rfl
  have e1000 : rateWindow = 1000 := rfl
  cases hg : get p s.inbound with
  | none =>
    rw [hg] at hl
    have : (((none : Option Window).getD ⟨0, s.now⟩).take s.now).count = 1 := by
      simp [Window.take, Window.roll, rateWindow]
    omega
  | some w =>
    rw [hg] at hl
    by_cases hroll : rateWindow ≤ s.now - w.started
    · have ht : (((some w).getD ⟨0, s.now⟩).take s.now) = ⟨1, s.now⟩ := by
        simp [Window.take, Window.roll, hroll]
      rw [ht] at hl
      dsimp only at hl
      omega
    · have ht : (((some w).getD ⟨0, s.now⟩).take s.now) = ⟨w.count + 1, w.started⟩ := by
        simp [Window.take, Window.roll, hroll]
      rw [ht] at hl
      dsimp only at hl
      obtain ⟨es1, es2, m, a1, a2, a3, a4, a5, a6⟩ := window_counts hr hg
      exact ⟨es1, es2, m, a1, a2, a3, by omega, by omega⟩

end Verif.Strm
