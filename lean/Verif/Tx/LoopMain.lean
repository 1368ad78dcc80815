import Verif.Tx.Loop

/-!
# C65: the builder proposes one batch at a time, and backs off while nobody takes its batches
-/

namespace Verif
namespace Tx
namespace Loop

/-! ### Histories -/

/-- the state after a list of turns -/
def run (c : Cfg) : St → List Turn → St
  | s, [] => s
  | s, t :: l => run c (s.after c t) l

/-- the time after a list of turns -/
def last (now : Nat) : List Turn → Nat
  | [] => now
  | t :: l => last t.wakeAt l

theorem history_append {c : Cfg} {a b : List Turn} : ∀ {s : St} {now : Nat}, History c s now (a ++ b) →
    History c s now a ∧ History c (run c s a) (last now a) b := by
  induction a with
  | nil => intro s now h; exact ⟨trivial, h⟩
  | cons t a ih =>
    rintro s now ⟨h1, h2, h3, h4, h5⟩
    obtain ⟨h6, h7⟩ := ih h5
    exact ⟨⟨h1, h2, h3, h4, h6⟩, h7⟩

theorem run_append (c : Cfg) (a b : List Turn) : ∀ s, run c s (a ++ b) = run c (run c s a) b := by
  induction a with
  | nil => intro s; rfl
  | cons t a ih => intro s; exact ih _

theorem last_le {c : Cfg} {l : List Turn} : ∀ {s : St} {now : Nat}, History c s now l → now ≤ last now l := by
  induction l with
  | nil => intro s now _; exact Nat.le_refl _
  | cons t l ih =>
    rintro s now ⟨h1, h2, _, _, h5⟩
    have := ih h5
    show now ≤ last t.wakeAt l
    omega

theorem time_ge {c : Cfg} {l : List Turn} : ∀ {s : St} {now : Nat}, History c s now l → ∀ t ∈ l, now ≤ t.time ∧
    t.wakeAt ≤ last now l := by
  induction l with
  | nil => intro s now _ t ht; cases ht
  | cons u l ih =>
    rintro s now ⟨h1, h2, _, _, h5⟩ t ht
    rcases List.mem_cons.mp ht with rfl | ht
    · exact ⟨h1, last_le h5⟩
    · have := ih h5 t ht
      exact ⟨by omega, this.2⟩

/-! ### One turn -/

theorem gate_back (c : Cfg) (s : St) (now : Nat) (e : Bool) : (s.gate c now e).back = s.back := by
  unfold St.gate
  split
  · split <;> rfl
  · rfl

theorem gate_pending (c : Cfg) (s : St) (now : Nat) (e : Bool) :
    (s.gate c now e).pending = (s.pending || s.opens now e) := by
  unfold St.gate St.opens
  rcases s with ⟨p, d, b, u⟩
  dsimp only
  cases p <;> cases d <;> cases St.holds _ now <;> cases e <;> rfl

theorem gate_defer (c : Cfg) (s : St) (now : Nat) (e : Bool) : (s.gate c now e).defer = false := by
  unfold St.gate
  split
  · split <;> rfl
  · rfl

theorem noteRefusal_rest (c : Cfg) (s : St) (now : Nat) : (s.noteRefusal c now).pending = s.pending := by
  unfold St.noteRefusal
  split
  · split <;> rfl
  · rfl

/-- whether a build is under way after a turn -/
theorem after_pending (c : Cfg) (s : St) (t : Turn) (hs : t.started = s.opens t.time t.empty) :
    (s.after c t).pending = ((s.pending || t.started) && !t.ended) := by
  unfold St.after
  have hg := gate_pending c s t.time t.empty
  rw [← hs] at hg
  generalize s.gate c t.time t.empty = g at hg
  unfold Turn.ended
  cases hw : t.wake with
  | canon => dsimp only [St.wake]; rw [hg, Bool.not_false, Bool.and_true]
  | tick => dsimp only [St.wake]; rw [hg, Bool.not_false, Bool.and_true]
  | result r =>
    dsimp only [St.wake]
    cases r with
    | mined => rw [Bool.not_true, Bool.and_false]
    | emptied => rw [Bool.not_true, Bool.and_false]
    | failed => rw [Bool.not_true, Bool.and_false]
    | refused =>
      rw [Bool.not_true, Bool.and_false]
      exact noteRefusal_rest c { g with pending := false } t.wakeAt

/-- the build gate is deferred after a result without transactions, and only then -/
theorem after_defer (c : Cfg) (s : St) (t : Turn) :
    (s.after c t).defer = true ↔ t.ended = true ∧ t.mined = false := by
  unfold St.after
  have hg := gate_defer c s t.time t.empty
  generalize s.gate c t.time t.empty = g at hg
  unfold Turn.ended Turn.mined
  cases hw : t.wake with
  | canon => dsimp only [St.wake]; rw [hg]; simp
  | tick => dsimp only [St.wake]; rw [hg]; simp
  | result r => dsimp only [St.wake]; cases r <;> simp [hg]

/-- the back-off after a turn -/
theorem after_back (c : Cfg) (s : St) (t : Turn) :
    (s.after c t).back =
      if t.refused then (s.noteRefusal c t.wakeAt).back else if t.mined then none else s.back := by
  unfold St.after
  have hg := gate_back c s t.time t.empty
  generalize s.gate c t.time t.empty = g at hg
  unfold Turn.refused Turn.mined
  cases hw : t.wake with
  | canon => dsimp only [St.wake]; rw [if_neg (by decide), if_neg (by decide)]; exact hg
  | tick => dsimp only [St.wake]; rw [if_neg (by decide), if_neg (by decide)]; exact hg
  | result r =>
    dsimp only [St.wake]
    cases r with
    | mined => rw [if_neg (by decide), if_pos (by decide)]
    | emptied => rw [if_neg (by decide), if_neg (by decide)]; exact hg
    | failed => rw [if_neg (by decide), if_neg (by decide)]; exact hg
    | refused =>
      rw [if_pos (by decide)]
      unfold St.noteRefusal
      dsimp only
      rw [hg]
      cases s.back with
      | none => rfl
      | some b => dsimp only; split <;> rfl

/-! ### One at a time -/

theorem pending_kept {c : Cfg} {l : List Turn} : ∀ {s : St} {now : Nat}, History c s now l → s.pending = true →
    (∀ t ∈ l, t.ended = false) → (run c s l).pending = true ∧ ∀ t ∈ l, t.started = false := by
  induction l with
  | nil => intro s now _ hp _; exact ⟨hp, by simp⟩
  | cons t l ih =>
    rintro s now ⟨_, _, h3, _, h5⟩ hp hn
    have hns : t.started = false := by
      rw [h3]; unfold St.opens; rw [hp]; rfl
    have hp' : (s.after c t).pending = true := by
      rw [after_pending c s t h3, hp, hn t List.mem_cons_self]; rfl
    obtain ⟨h6, h7⟩ := ih h5 hp' fun u hu => hn u (List.mem_cons_of_mem _ hu)
    refine ⟨h6, ?_⟩
    intro u hu
    rcases List.mem_cons.mp hu with rfl | hu
    · exact hns
    · exact h7 u hu

/-- **C65 (one batch at a time).**  In any history of the loop, between two starts of a build lies
a result. -/
theorem one_at_a_time {c : Cfg} {s : St} {now : Nat} {pre mid post : List Turn} {a b : Turn}
    (h : History c s now (pre ++ a :: mid ++ b :: post)) (ha : a.started = true) (hb : b.started = true) :
    ∃ m ∈ a :: mid, m.ended = true := by
  by_contra hno
  have hn : ∀ m ∈ a :: mid, m.ended = false := by
    intro m hm
    rw [Bool.eq_false_iff]
    exact fun he => hno ⟨m, hm, he⟩
  rw [List.append_assoc, List.cons_append] at h
  obtain ⟨_, h⟩ := history_append h
  obtain ⟨_, _, h3, _, h5⟩ := h
  have hp : ((run c s pre).after c a).pending = true := by
    rw [after_pending _ _ _ h3, ha, hn a List.mem_cons_self, Bool.or_true]; rfl
  obtain ⟨h6, h7⟩ := history_append h5
  have hp2 := (pending_kept h6 hp fun u hu => hn u (List.mem_cons_of_mem _ hu)).1
  have := h7.2.2.1
  rw [hb] at this
  unfold St.opens at this
  rw [hp2] at this
  cases this

/-- **C65 (no spinning).**  After a result that prunes nothing (a refusal, a failed quorum, an empty batch) the next
turn starts no build; the one after it only if a new block arrived or the configured delay has passed. -/
theorem no_spin {c : Cfg} {s : St} {now : Nat} {pre post : List Turn} {a b : Turn}
    (h : History c s now (pre ++ a :: b :: post)) (ha : a.ended = true) (hm : a.mined = false) :
    b.started = false ∧ ∀ d post', post = d :: post' → d.started = true →
      b.wake = .canon ∨ a.wakeAt + c.base ≤ d.time := by
  obtain ⟨_, h⟩ := history_append h
  obtain ⟨_, _, h3, h4, h5⟩ := h
  obtain ⟨g1, g2, g3, g4, g5⟩ := h5
  have hd := (after_defer c (run c s pre) a).mpr ⟨ha, hm⟩
  have hp : ((run c s pre).after c a).pending = false := by
    rw [after_pending _ _ _ h3, ha, Bool.not_true, Bool.and_false]
  have hdue : ((run c s pre).after c a).due = a.wakeAt + c.base := by
    unfold St.after
    generalize (run c s pre).gate c a.time a.empty = g
    unfold Turn.ended at ha
    unfold Turn.mined at hm
    cases hw : a.wake with
    | canon => rw [hw] at ha; cases ha
    | tick => rw [hw] at ha; cases ha
    | result r =>
      cases r with
      | mined => rw [hw] at hm; simp at hm
      | _ => rfl
  revert g3 g4 g5 hp hd hdue
  generalize (run c s pre).after c a = s1
  intro g3 g4 g5 hd hp hdue
  have hns : b.started = false := by
    rw [g3]; unfold St.opens; rw [hd]; cases s1.pending <;> rfl
  refine ⟨hns, ?_⟩
  rintro d post' rfl hds
  have hg : s1.gate c b.time b.empty = { s1 with defer := false } := by
    unfold St.gate
    rw [hd, hp]
    rfl
  rw [hg] at g4
  cases hw : b.wake with
  | canon => exact .inl rfl
  | result r =>
    rw [hw] at g4
    unfold St.can at g4
    dsimp only at g4
    rw [hp] at g4
    cases g4
  | tick =>
    rw [hw] at g4
    have h6 : s1.due ≤ b.wakeAt := g4.2
    have h7 := g5.1
    exact .inr (by omega)

/-- **C65 (a success is followed up).**  After a batch whose transactions were pruned, the next turn builds again if the pool
is not empty. -/
theorem mined_continues {c : Cfg} {s : St} {now : Nat} {pre post : List Turn} {a b : Turn}
    (h : History c s now (pre ++ a :: b :: post)) (ha : a.mined = true) (hb : b.empty = false) :
    b.started = true := by
  obtain ⟨_, h⟩ := history_append h
  obtain ⟨_, _, h3, h4, h5⟩ := h
  obtain ⟨_, _, g3, _, _⟩ := h5
  have he : a.ended = true := by
    unfold Turn.mined at ha
    unfold Turn.ended
    rw [of_decide_eq_true ha]
  have hr : a.refused = false := by
    unfold Turn.mined at ha
    unfold Turn.refused
    rw [of_decide_eq_true ha]
    decide
  have hd : ((run c s pre).after c a).defer = false := by
    rw [Bool.eq_false_iff]
    intro h
    have := ((after_defer _ _ _).mp h).2
    rw [ha] at this
    cases this
  have hp : ((run c s pre).after c a).pending = false := by
    rw [after_pending _ _ _ h3, he, Bool.not_true, Bool.and_false]
  have hbk : ((run c s pre).after c a).back = none := by
    rw [after_back, hr, ha]
    rfl
  rw [g3]
  unfold St.opens St.holds
  rw [hd, hp, hbk, hb]
  rfl

/-! ### The back-off -/

theorem delay_step (c : Cfg) (k : Nat) : delay c (k + 2) = min (delay c (k + 1) * 2) c.cap := by
  cases k with
  | zero => show min (c.base * 2 ^ 1) c.cap = min (c.base * 2) c.cap; rw [Nat.pow_one]
  | succ k =>
    show min (c.base * 2 ^ (k + 2)) c.cap = min (min (c.base * 2 ^ (k + 1)) c.cap * 2) c.cap
    have : c.base * 2 ^ (k + 2) = c.base * 2 ^ (k + 1) * 2 := by rw [Nat.mul_assoc]; congr 1
    rw [this]
    generalize c.base * 2 ^ (k + 1) = x
    omega

theorem delay_ge (c : Cfg) (k : Nat) : min c.base c.cap ≤ delay c (k + 1) := by
  cases k with
  | zero => exact Nat.min_le_left _ _
  | succ k =>
    show min c.base c.cap ≤ min (c.base * 2 ^ (k + 1)) c.cap
    have h1 : 1 ≤ 2 ^ (k + 1) := Nat.one_le_two_pow
    have : c.base * 1 ≤ c.base * 2 ^ (k + 1) := Nat.mul_le_mul_left _ h1
    omega

theorem delay_le (c : Cfg) (k : Nat) : delay c k ≤ max c.base c.cap := by
  match k with
  | 0 => exact Nat.zero_le _
  | 1 => exact Nat.le_max_left _ _
  | k + 2 =>
    show min (c.base * 2 ^ (k + 1)) c.cap ≤ max c.base c.cap
    omega

/-- the state of the back-off after `k` refusals in a row, the last at `t` -/
def Streak (c : Cfg) (s : St) (k t : Nat) : Prop :=
  (k = 0 → s.back = none) ∧ (0 < k → s.back = some ⟨t + delay c k, delay c k, k⟩)

theorem streak_step {c : Cfg} {s : St} {k t : Nat} (h : Streak c s k t) {u : Turn} (hm : u.mined = false)
    (hc : 0 < k → u.refused = true → u.wakeAt ≤ t + min c.base c.cap + c.cap) :
    Streak c (s.after c u) (if u.refused then k + 1 else k) (if u.refused then u.wakeAt else t) := by
  have hb := after_back c s u
  cases hr : u.refused with
  | false =>
    rw [hr, hm] at hb
    rw [if_neg (by decide), if_neg (by decide)]
    rw [if_neg (by decide), if_neg (by decide)] at hb
    exact ⟨fun hk => hb.trans (h.1 hk), fun hk => hb.trans (h.2 hk)⟩
  | true =>
    rw [hr, if_pos rfl] at hb
    rw [if_pos rfl, if_pos rfl]
    refine ⟨fun hk => absurd hk (Nat.succ_ne_zero k), fun _ => ?_⟩
    rw [hb]
    unfold St.noteRefusal
    cases k with
    | zero => rw [h.1 rfl]; rfl
    | succ k =>
      rw [h.2 (Nat.succ_pos k)]
      dsimp only
      have h1 := hc (Nat.succ_pos k) hr
      have h2 := delay_ge c k
      rw [if_pos (by omega), delay_step]

theorem streak_run {c : Cfg} {l : List Turn} : ∀ {s : St} {k t : Nat}, Streak c s k t →
    (∀ u ∈ l, u.mined = false) →
    (if k = 0 then refusals l else t :: refusals l).IsChain (fun a b => b ≤ a + min c.base c.cap + c.cap) →
    Streak c (run c s l) (k + (refusals l).length) ((refusals l).getLast?.getD t) := by
  induction l with
  | nil => intro s k t h _ _; exact h
  | cons u l ih =>
    intro s k t h hm hc
    have hstep := streak_step h (hm u List.mem_cons_self) (by
      intro hk hr
      have hf : refusals (u :: l) = u.wakeAt :: refusals l := by
        unfold refusals; rw [List.filter_cons_of_pos hr]; rfl
      rw [if_neg (by omega), hf] at hc
      exact (List.isChain_cons_cons.mp hc).1)
    cases hr : u.refused with
    | false =>
      have hf : refusals (u :: l) = refusals l := by
        unfold refusals; rw [List.filter_cons_of_neg (by rw [hr]; decide)]
      rw [hr, if_neg (by decide), if_neg (by decide)] at hstep
      rw [hf] at hc ⊢
      exact ih hstep (fun v hv => hm v (List.mem_cons_of_mem _ hv)) hc
    | true =>
      have hf : refusals (u :: l) = u.wakeAt :: refusals l := by
        unfold refusals; rw [List.filter_cons_of_pos hr]; rfl
      rw [hr, if_pos rfl, if_pos rfl] at hstep
      rw [hf] at hc ⊢
      have hc' : (u.wakeAt :: refusals l).IsChain (fun a b => b ≤ a + min c.base c.cap + c.cap) := by
        by_cases hk : k = 0
        · rw [if_pos hk] at hc; exact hc
        · rw [if_neg hk] at hc; exact (List.isChain_cons_cons.mp hc).2
      have := ih hstep (fun v hv => hm v (List.mem_cons_of_mem _ hv)) (by rw [if_neg (by omega)]; exact hc')
      rw [List.length_cons, List.getLast?_cons, Option.getD_some]
      rw [Nat.add_comm (refusals l).length 1, ← Nat.add_assoc]
      exact this

theorem closed_until {c : Cfg} {l : List Turn} {till : Nat} : ∀ {s : St} {now : Nat}, History c s now l →
    (s.pending = false ∧ (∃ b, s.back = some b ∧ till ≤ b.till) ∨ till ≤ now) →
    ∀ t ∈ l, t.started = true → till ≤ t.time := by
  induction l with
  | nil => intro s now _ _ t ht; cases ht
  | cons u l ih =>
    rintro s now ⟨h1, h2, h3, h4, h5⟩ hinv t ht hts
    have hu : u.started = true → till ≤ u.time := by
      intro hs
      rcases hinv with ⟨_, b, hb, hle⟩ | hle
      · rw [h3] at hs
        unfold St.opens St.holds at hs
        rw [hb] at hs
        dsimp only at hs
        by_contra hlt
        rw [decide_eq_true (by omega : u.time < b.till)] at hs
        simp at hs
      · omega
    rcases List.mem_cons.mp ht with rfl | ht
    · exact hu hts
    · refine ih h5 ?_ t ht hts
      by_cases hle : till ≤ u.wakeAt
      · exact .inr hle
      · refine .inl ?_
        rcases hinv with ⟨hp, b, hb, hbt⟩ | hl
        · have hns : u.started = false := by
            rw [Bool.eq_false_iff]
            intro hs
            have := hu hs
            omega
          have hpg : (s.gate c u.time u.empty).pending = false := by
            rw [gate_pending, hp, ← h3, hns]; rfl
          have hw : u.ended = false := by
            unfold Turn.ended
            cases hw : u.wake with
            | canon => rfl
            | tick => rfl
            | result r =>
              rw [hw] at h4
              unfold St.can at h4
              dsimp only at h4
              rw [hpg] at h4
              cases h4
          refine ⟨by rw [after_pending _ _ _ h3, hp, hns]; rfl, b, ?_, hbt⟩
          rw [after_back, ← hb]
          have e1 : u.refused = false := by
            unfold Turn.refused; unfold Turn.ended at hw
            cases hwk : u.wake with
            | canon => decide
            | tick => decide
            | result r => rw [hwk] at hw; cases hw
          have e2 : u.mined = false := by
            unfold Turn.mined; unfold Turn.ended at hw
            cases hwk : u.wake with
            | canon => decide
            | tick => decide
            | result r => rw [hwk] at hw; cases hw
          rw [e1, e2]
          rfl
        · omega

/-- **C65 (back-off).**  Let a run of turns without a pruned batch begin at the start of the
loop or after a pruned batch, contain `k ≥ 1` refusals that follow each other closely, and end with one of them at time
`t`.  Then no build starts before `t` plus the delay of the `k`-th refusal: the configured delay, doubled with every refusal,
at most the cap. -/
theorem backoff {c : Cfg} {s : St} {now : Nat} {pre seg post : List Turn} {a : Turn}
    (h : History c s now (pre ++ (seg ++ [a]) ++ post))
    (hpre : (pre = [] ∧ s.back = none) ∨ ∃ m pre', pre = pre' ++ [m] ∧ m.mined = true)
    (hseg : ∀ m ∈ seg, m.mined = false) (ha : a.refused = true) (hc : Close c (seg ++ [a])) :
    ∀ b ∈ post, b.started = true → a.wakeAt + delay c (refusals (seg ++ [a])).length ≤ b.time := by
  have ham : a.mined = false := by
    unfold Turn.refused at ha
    unfold Turn.mined
    rw [of_decide_eq_true ha]
    decide
  have hae : a.ended = true := by
    unfold Turn.refused at ha
    unfold Turn.ended
    rw [of_decide_eq_true ha]
  rw [List.append_assoc] at h
  obtain ⟨_, h⟩ := history_append h
  obtain ⟨hs, hpost⟩ := history_append h
  have hnone : (run c s pre).back = none := by
    rcases hpre with ⟨rfl, hb⟩ | ⟨m, pre', rfl, hm⟩
    · exact hb
    · rw [run_append]
      show ((run c s pre').after c m).back = none
      have hmr : m.refused = false := by
        unfold Turn.mined at hm
        unfold Turn.refused
        rw [of_decide_eq_true hm]
        decide
      rw [after_back, hmr, hm]
      rfl
  have hst : Streak c (run c s pre) 0 0 := ⟨fun _ => hnone, fun h => absurd h (Nat.lt_irrefl 0)⟩
  have hrun := streak_run hst (l := seg ++ [a]) (by
    intro u hu
    rcases List.mem_append.mp hu with hu | hu
    · exact hseg u hu
    · rw [List.mem_singleton] at hu; rw [hu]; exact ham) (by rw [if_pos rfl]; exact hc)
  have hra : refusals (seg ++ [a]) = refusals seg ++ [a.wakeAt] := by
    unfold refusals
    rw [List.filter_append, List.map_append, List.filter_cons_of_pos ha]
    rfl
  rw [Nat.zero_add] at hrun
  have hlen : 0 < (refusals (seg ++ [a])).length := by rw [hra, List.length_append]; simp
  have hback := hrun.2 hlen
  rw [hra, List.getLast?_concat, ← hra, Option.getD_some] at hback
  obtain ⟨hs1, hs2⟩ := history_append hs
  have hp : (run c (run c s pre) (seg ++ [a])).pending = false := by
    rw [run_append]
    show ((run c (run c s pre) seg).after c a).pending = false
    rw [after_pending _ _ _ hs2.2.2.1, hae, Bool.not_true, Bool.and_false]
  exact closed_until hpost (.inl ⟨hp, _, hback, Nat.le_refl _⟩)

theorem back_bound {c : Cfg} {l : List Turn} {T : Nat} : ∀ {s : St},
    (∀ b, s.back = some b → b.till ≤ T ∧ b.delay ≤ max c.base c.cap) →
    (∀ t ∈ l, t.refused = true → t.wakeAt + max c.base c.cap ≤ T) →
    ∀ b, (run c s l).back = some b → b.till ≤ T ∧ b.delay ≤ max c.base c.cap := by
  induction l with
  | nil => intro s h _; exact h
  | cons u l ih =>
    intro s h hl
    refine ih ?_ fun t ht => hl t (List.mem_cons_of_mem _ ht)
    intro b hb
    rw [after_back] at hb
    split at hb
    · next hr =>
      have h1 := hl u List.mem_cons_self hr
      unfold St.noteRefusal at hb
      split at hb
      · next b' hb' =>
        split at hb
        · dsimp only at hb
          injection hb with hb
          subst hb
          dsimp only
          omega
        · dsimp only at hb
          injection hb with hb
          subst hb
          dsimp only
          omega
      · dsimp only at hb
        injection hb with hb
        subst hb
        dsimp only
        omega
    · split at hb
      · cases hb
      · exact h b hb

/-- **C65 (the builder retries).**  A turn starts a build if the pool is not empty, no build is under way, the turn
before did not end with a result that pruned nothing, and every refusal is at least the larger of the configured delay and the cap
ago. -/
theorem retries {c : Cfg} {pre post : List Turn} {b : Turn} (h : History c {} 0 (pre ++ b :: post))
    (he : b.empty = false)
    (hidle : ∀ (p q : List Turn) (a : Turn), pre = p ++ a :: q → a.started = true → ∃ m ∈ a :: q, m.ended = true)
    (hdef : ∀ (p : List Turn) (a : Turn), pre = p ++ [a] → a.ended = true → a.mined = true)
    (hold : ∀ t ∈ pre, t.refused = true → t.wakeAt + max c.base c.cap ≤ b.time) : b.started = true := by
  obtain ⟨hpre, hb⟩ := history_append h
  have hp : (run c {} pre).pending = false := by
    have aux : ∀ (l : List Turn) {s : St} {now : Nat}, History c s now l → (run c s l).pending = true →
        (s.pending = true ∧ ∀ t ∈ l, t.ended = false) ∨
        ∃ p a q, l = p ++ a :: q ∧ a.started = true ∧ ∀ m ∈ a :: q, m.ended = false := by
      intro l
      induction l with
      | nil => intro s now _ hp; exact .inl ⟨hp, by simp⟩
      | cons u l ih =>
        rintro s now ⟨_, _, h3, _, h5⟩ hp
        rcases ih h5 hp with ⟨h6, h7⟩ | ⟨p, a, q, rfl, h7, h8⟩
        · rw [after_pending _ _ _ h3, Bool.and_eq_true] at h6
          have hue : u.ended = false := by simpa using h6.2
          cases hus : u.started with
          | true =>
            refine .inr ⟨[], u, l, rfl, hus, ?_⟩
            intro m hm
            rcases List.mem_cons.mp hm with rfl | hm
            · exact hue
            · exact h7 m hm
          | false =>
            rw [hus, Bool.or_false] at h6
            refine .inl ⟨h6.1, ?_⟩
            intro m hm
            rcases List.mem_cons.mp hm with rfl | hm
            · exact hue
            · exact h7 m hm
        · exact .inr ⟨u :: p, a, q, rfl, h7, h8⟩
    rw [Bool.eq_false_iff]
    intro hpt
    rcases aux pre hpre hpt with ⟨h6, _⟩ | ⟨p, a, q, he, hs, hn⟩
    · cases h6
    · obtain ⟨m, hm, hme⟩ := hidle p q a he hs
      rw [hn m hm] at hme
      cases hme
  have hd : (run c {} pre).defer = false := by
    rcases List.eq_nil_or_concat pre with rfl | ⟨p, a, rfl⟩
    · rfl
    · rw [List.concat_eq_append, run_append, Bool.eq_false_iff]
      intro hdd
      obtain ⟨h1, h2⟩ := (after_defer c (run c {} p) a).mp hdd
      rw [hdef p a List.concat_eq_append h1] at h2
      cases h2
  have hh : (run c {} pre).holds b.time = false := by
    unfold St.holds
    split
    · next bk hbk =>
      have := (back_bound (T := b.time) (c := c) (s := {}) (fun _ h => by cases h) hold bk hbk).1
      rw [decide_eq_false (by omega)]
    · rfl
  rw [hb.2.2.1]
  unfold St.opens
  rw [hp, hd, hh, he]
  rfl

/-! ### A concrete history -/

/-- one second and the cap of the code -/
def demo : Cfg := ⟨1, 30⟩

/-- three refusals, the last at 8: closed until 12 -/
def demoTurns : List Turn :=
  [⟨0, false, true, .result .refused, 1⟩, ⟨1, false, false, .tick, 2⟩,
   ⟨2, false, true, .canon, 2⟩, ⟨2, false, false, .result .refused, 3⟩,
   ⟨3, false, false, .canon, 4⟩, ⟨4, false, false, .tick, 5⟩,
   ⟨5, false, true, .result .refused, 8⟩, ⟨8, false, false, .canon, 10⟩, ⟨10, false, false, .tick, 12⟩,
   ⟨12, false, true, .result .mined, 13⟩, ⟨13, false, true, .canon, 13⟩]

instance (s : St) (now : Nat) (w : Wake) : Decidable (s.can now w) := by
  cases w <;> unfold St.can <;> infer_instance

instance decHistory (c : Cfg) : ∀ (l : List Turn) (s : St) (now : Nat), Decidable (History c s now l)
  | [], _, _ => .isTrue trivial
  | t :: l, s, now => by
    have := decHistory c l (s.after c t) t.wakeAt
    unfold History
    infer_instance

theorem demo_history : History demo {} 0 demoTurns := by decide +kernel

/-- `backoff` on it: the third refusal, at 8, closes the gate until 8 + 4 -/
example : ∀ b ∈ demoTurns.drop 7, b.started = true → 12 ≤ b.time := by
  have h : History demo {} 0 ([] ++ (demoTurns.take 6 ++ [⟨5, false, true, .result .refused, 8⟩]) ++ demoTurns.drop 7) :=
    demo_history
  exact backoff h (.inl ⟨rfl, rfl⟩) (by decide) rfl (by unfold Close; decide)

end Loop
end Tx
end Verif
