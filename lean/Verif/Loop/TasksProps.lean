import Verif.Loop.Tasks

/-!
# What shutdown notices and the task manager guarantee
-/
namespace Verif.Tasks

/-! ## Notifiers -/

theorem getElem?_ringAll (l : List Nat) (all : List Noticer) (i : Nat) :
    (ringAll l all)[i]? = (all[i]?).map (fun n => if i ∈ l then n.ring else n) := by
  unfold ringAll
  rw [List.getElem?_mapIdx]

theorem length_ringAll (l : List Nat) (all : List Noticer) : (ringAll l all).length = all.length := by
  unfold ringAll
  exact List.length_mapIdx

theorem ring_flag (n : Noticer) : n.ring.flag = true := rfl

theorem poll_flag (n : Noticer) : n.poll.flag = n.flag := by
  unfold Noticer.poll
  split <;> rfl

/-- A history of the sticky notifier. -/
def shutRun (ops : List BellOp) : Bell := ops.foldl Bell.shut {}

/-- A history of the re-arming notifier. -/
def rearmRun (ops : List BellOp) : Bell := ops.foldl Bell.rearm {}

/-- What holds of a noticer at any time: a stored waker waits for a notice that has not come, and a
task whose last poll was pending has been woken if the notice has come. -/
def Noticer.Sound (n : Noticer) : Prop :=
  (n.waker = true → n.flag = false) ∧ (n.pending = true → n.flag = true → n.woken = true) ∧
  (n.pending = true → n.flag = false → n.waker = true)

theorem sound_new (f : Bool) : Noticer.Sound { flag := f } := by
  refine ⟨?_, ?_, ?_⟩ <;> intro h <;> cases h

theorem sound_ring {n : Noticer} (h : n.Sound) : n.ring.Sound := by
  obtain ⟨h1, h2, h3⟩ := h
  refine ⟨fun h => (by cases h), ?_, fun _ hf => (by cases hf)⟩
  intro hp _
  show (n.woken || n.waker) = true
  cases hf : n.flag with
  | true => rw [h2 hp hf]; rfl
  | false => rw [h3 hp hf]; simp

theorem sound_poll {n : Noticer} (_ : n.Sound) : n.poll.Sound := by
  unfold Noticer.poll
  split
  · rename_i hf
    refine ⟨fun h => (by cases h), fun h => (by cases h), fun h => (by cases h)⟩
  · rename_i hf
    have hf' : n.flag = false := by simpa using hf
    refine ⟨fun _ => hf', fun _ h => ?_, fun _ _ => rfl⟩
    have h' : n.flag = true := h
    rw [hf'] at h'
    cases h'

/-- The invariant of the sticky notifier. -/
structure ShutInv (b : Bell) : Prop where
  flags : ∀ (i : Nat) (n : Noticer), b.all[i]? = some n → n.flag = b.sticky ∧ n.Sound
  listed : b.sticky = false → ∀ i, i < b.all.length → i ∈ b.listed

theorem shutInv_step (b : Bell) (op : BellOp) (h : ShutInv b) : ShutInv (b.shut op) := by
  obtain ⟨hf, hl⟩ := h
  cases op with
  | subscribe =>
    refine ⟨?_, ?_⟩
    · intro i n hn
      have hn' : (b.all ++ [({ flag := b.sticky } : Noticer)])[i]? = some n := hn
      show n.flag = b.sticky ∧ _
      rw [List.getElem?_append] at hn'
      split at hn'
      · exact hf i n hn'
      · rename_i hlen
        have : n = { flag := b.sticky } := by
          cases hk : i - b.all.length with
          | zero => rw [hk] at hn'; simpa using hn'.symm
          | succ k => rw [hk] at hn'; simp at hn'
        subst this
        exact ⟨rfl, sound_new _⟩
    · intro hs i hi
      have hs' : b.sticky = false := hs
      have hi' : i < (b.all ++ [({ flag := b.sticky } : Noticer)]).length := hi
      rw [List.length_append, List.length_singleton] at hi'
      show i ∈ (if b.sticky then b.listed else b.listed ++ [b.all.length])
      rw [hs']
      simp only [Bool.false_eq_true, if_false, List.mem_append, List.mem_singleton]
      by_cases hc : i < b.all.length
      · exact .inl (hl hs' i hc)
      · exact .inr (by omega)
  | notify =>
    refine ⟨?_, fun hs => (by cases hs)⟩
    intro i n hn
    have hn' : (ringAll b.listed b.all)[i]? = some n := hn
    rw [getElem?_ringAll] at hn'
    obtain ⟨n0, h0, h1⟩ := Option.map_eq_some_iff.mp hn'
    obtain ⟨hf0, hs0⟩ := hf i n0 h0
    show n.flag = true ∧ _
    split at h1
    · subst h1; exact ⟨rfl, sound_ring hs0⟩
    · rename_i hni
      subst h1
      refine ⟨?_, hs0⟩
      cases hst : b.sticky with
      | true => rw [hf0, hst]
      | false =>
        exact absurd (hl hst i (List.getElem?_eq_some_iff.mp h0).1) hni
  | poll j =>
    refine ⟨?_, ?_⟩
    · intro i n hn
      have hn' : (b.all.modify j Noticer.poll)[i]? = some n := hn
      rw [List.getElem?_modify] at hn'
      show n.flag = b.sticky ∧ _
      obtain ⟨n0, h0, h1⟩ := Option.map_eq_some_iff.mp hn'
      obtain ⟨hf0, hs0⟩ := hf i n0 h0
      subst h1
      split
      · exact ⟨(poll_flag n0).trans hf0, sound_poll hs0⟩
      · exact ⟨hf0, hs0⟩
    · intro hs i hi
      have hi' : i < (b.all.modify j Noticer.poll).length := hi
      rw [List.length_modify] at hi'
      exact hl hs i hi'

theorem foldl_inv {σ ε : Type} (f : σ → ε → σ) (P : σ → Prop) (hs : ∀ s e, P s → P (f s e)) :
    ∀ (l : List ε) (s : σ), P s → P (l.foldl f s) := by
  intro l
  induction l with
  | nil => intro s h; exact h
  | cons a l ih => intro s h; exact ih _ (hs s a h)

theorem shutInv (ops : List BellOp) : ShutInv (shutRun ops) :=
  foldl_inv _ ShutInv (fun s e h => shutInv_step s e h) ops {}
    ⟨fun i n h => (by simp at h), fun _ i h => (by simp at h)⟩

theorem sticky_iff (ops : List BellOp) : ∀ b : Bell,
    (ops.foldl Bell.shut b).sticky = true ↔ b.sticky = true ∨ BellOp.notify ∈ ops := by
  induction ops with
  | nil => intro b; simp
  | cons op ops ih =>
    intro b
    rw [List.foldl_cons, ih]
    cases op with
    | subscribe => simp [Bell.shut]
    | notify => simp [Bell.shut]
    | poll i => simp [Bell.shut]

/-- **C93.** A shutdown notice reaches every subscriber, whether it subscribed before or after the
notice, and nobody is noticed without one. -/
theorem shutdown_reaches_all (ops : List BellOp) (i : Nat) (n : Noticer)
    (h : (shutRun ops).all[i]? = some n) : n.flag = true ↔ BellOp.notify ∈ ops := by
  rw [((shutInv ops).flags i n h).1]
  have := sticky_iff ops {}
  simpa [shutRun] using this

/-- **C93.** No wake-up is lost: after the notice, every task whose last poll was pending has been
woken. -/
theorem no_lost_wakeup (ops : List BellOp) (i : Nat) (n : Noticer)
    (h : (shutRun ops).all[i]? = some n) (hn : BellOp.notify ∈ ops) (hp : n.pending = true) :
    n.woken = true :=
  ((shutInv ops).flags i n h).2.2.1 hp ((shutdown_reaches_all ops i n h).mpr hn)

theorem rearm_get (b : Bell) (op : BellOp) (i : Nat) (n : Noticer) (h : b.all[i]? = some n)
    (hn : op ≠ .notify) :
    (∃ n', (b.rearm op).all[i]? = some n' ∧ n'.flag = n.flag) ∧
    (i ∈ b.listed → i ∈ (b.rearm op).listed) := by
  cases op with
  | subscribe =>
    refine ⟨⟨n, ?_, rfl⟩, fun hi => List.mem_append_left _ hi⟩
    show (b.all ++ [({} : Noticer)])[i]? = some n
    rw [List.getElem?_append_left (List.getElem?_eq_some_iff.mp h).1]
    exact h
  | notify => exact absurd rfl hn
  | poll j =>
    refine ⟨?_, fun hi => hi⟩
    by_cases hc : j = i
    · refine ⟨n.poll, ?_, poll_flag n⟩
      show (b.all.modify j Noticer.poll)[i]? = _
      rw [List.getElem?_modify, h]; simp [hc]
    · refine ⟨n, ?_, rfl⟩
      show (b.all.modify j Noticer.poll)[i]? = _
      rw [List.getElem?_modify, h]; simp [hc]

/-- A flag once set stays. -/
theorem rearm_keeps (b : Bell) (op : BellOp) (i : Nat) (n : Noticer) (h : b.all[i]? = some n)
    (hf : n.flag = true) : ∃ n', (b.rearm op).all[i]? = some n' ∧ n'.flag = true := by
  by_cases hn : op = .notify
  · subst hn
    refine ⟨if i ∈ b.listed then n.ring else n, ?_, ?_⟩
    · show (ringAll b.listed b.all)[i]? = _
      rw [getElem?_ringAll, h]; rfl
    · split
      · rfl
      · exact hf
  · obtain ⟨⟨n', h1, h2⟩, _⟩ := rearm_get b op i n h hn
    exact ⟨n', h1, h2.trans hf⟩

theorem rearm_keeps_run : ∀ (ops : List BellOp) (b : Bell) (i : Nat) (n : Noticer),
    b.all[i]? = some n → n.flag = true →
    ∃ n', (ops.foldl Bell.rearm b).all[i]? = some n' ∧ n'.flag = true := by
  intro ops
  induction ops with
  | nil => intro b i n h hf; exact ⟨n, h, hf⟩
  | cons op ops ih =>
    intro b i n h hf
    obtain ⟨n', h1, h2⟩ := rearm_keeps b op i n h hf
    exact ih _ i n' h1 h2

theorem rearm_from : ∀ (ops : List BellOp) (b : Bell) (i : Nat) (n : Noticer),
    b.all[i]? = some n → n.flag = false → i ∈ b.listed →
    ∃ n', (ops.foldl Bell.rearm b).all[i]? = some n' ∧ (n'.flag = true ↔ BellOp.notify ∈ ops) := by
  intro ops
  induction ops with
  | nil => intro b i n h hf _; exact ⟨n, h, by simp [hf]⟩
  | cons op ops ih =>
    intro b i n h hf hl
    rw [List.foldl_cons]
    by_cases hn : op = .notify
    · subst hn
      have h1 : (b.rearm .notify).all[i]? = some n.ring := by
        show (ringAll b.listed b.all)[i]? = _
        rw [getElem?_ringAll, h]; simp [hl]
      obtain ⟨n', h2, h3⟩ := rearm_keeps_run ops _ i n.ring h1 rfl
      exact ⟨n', h2, by simp [h3]⟩
    · obtain ⟨⟨n1, h1, h2⟩, h3⟩ := rearm_get b op i n h hn
      obtain ⟨n', h4, h5⟩ := ih _ i n1 h1 (h2.trans hf) (h3 hl)
      refine ⟨n', h4, h5.trans ?_⟩
      rw [List.mem_cons]
      constructor
      · exact .inr
      · rintro (e | e)
        · exact absurd e.symm hn
        · exact e

/-- **C93.** The re-arming notifier reaches exactly those who subscribed before: a subscriber after
the last notice waits for the next one. -/
theorem rearm_reaches_earlier (pre post : List BellOp) :
    ∃ n, (rearmRun (pre ++ .subscribe :: post)).all[(rearmRun pre).all.length]? = some n ∧
      (n.flag = true ↔ BellOp.notify ∈ post) := by
  unfold rearmRun
  rw [List.foldl_append, List.foldl_cons]
  refine rearm_from post _ _ {} ?_ rfl ?_
  · show ((List.foldl Bell.rearm {} pre).all ++ [({} : Noticer)])[_]? = _
    rw [List.getElem?_append_right (Nat.le_refl _)]
    simp
  · show _ ∈ (List.foldl Bell.rearm {} pre).listed ++ [_]
    simp

/-! ## The loop's end -/

/-- The result is set once. -/
theorem result_stays (d : Bool) (m : M) (e : Ev) (r : Except (Nat × Outcome) Unit)
    (h : m.result = some r) : (step d m e).result = some r := by
  cases e <;> simp only [step] <;> (try exact h)
  · split <;> exact h
  · split <;> exact h
  · split <;> exact h
  · rw [if_pos (by simp [h])]; exact h
  · rw [if_pos (by simp [h])]; exact h
  · rw [if_neg (by simp [h])]; exact h
  · rw [if_neg (by simp [h])]; exact h

theorem down_stays (d : Bool) (m : M) (e : Ev) (h : m.down = true) :
    (step d m e).down = true := by
  cases e <;> simp only [step] <;> (try exact h)
  · split <;> exact h
  · split <;> exact h
  · split <;> exact h
  · split
    · exact h
    · split
      · exact h
      · exact h
  · split
    · exact h
    · split
      · exact h
      · split
        · exact h
        · split
          · first | rfl | (split <;> rfl)
          · exact h
  · split
    · rfl
    · exact h
  · split
    · rfl
    · exact h

/-- Why the loop ends in one step with result `r`. -/
inductive Cause (m : M) : Ev → Except (Nat × Outcome) Unit → Prop
  | shut (h : m.down = true) : Cause m .shut (.ok ())
  | sig (h : m.got = true) : Cause m .sig (.ok ())
  | quiet (i : Nat) (t : Task) (o : Outcome) (hi : i ∈ m.tracked) (ht : m.tasks[i]? = some t)
      (hc : t.critical = true) (hs : t.status = some o) (hd : m.down = true) :
      Cause m (.done i) (.ok ())
  | failed (i : Nat) (t : Task) (o : Outcome) (hi : i ∈ m.tracked) (ht : m.tasks[i]? = some t)
      (hc : t.critical = true) (hs : t.status = some o) (hd : m.down = false) :
      Cause m (.done i) (.error (i, o))

/-- **C93.** The loop returns exactly on a shutdown notice, an exit signal its listener received, or
the end of a critical task it watches; only the last, without a shutdown notice, is an error, and it
names the task and how it ended. -/
theorem ends_iff (d : Bool) (m : M) (e : Ev) (r : Except (Nat × Outcome) Unit)
    (hr : m.result = none) : (step d m e).result = some r ↔ Cause m e r := by
  constructor
  · intro h
    cases e with
    | spawn c => simp only [step] at h; rw [hr] at h; cases h
    | spawnVia c b => simp only [step] at h; rw [hr] at h; cases h
    | finish i o => simp only [step] at h; rw [hr] at h; cases h
    | stop i => simp only [step] at h; split at h <;> (rw [hr] at h; cases h)
    | notify => simp only [step] at h; rw [hr] at h; cases h
    | signal => simp only [step] at h; split at h <;> (rw [hr] at h; cases h)
    | arm => simp only [step] at h; split at h <;> (rw [hr] at h; cases h)
    | recv =>
      simp only [step] at h
      split at h
      · rw [hr] at h; cases h
      · split at h
        · rw [hr] at h; cases h
        · have h' : m.result = some r := h
          rw [hr] at h'; cases h'
    | done i =>
      simp only [step] at h
      split at h
      · rw [hr] at h; cases h
      · rename_i hc
        have hi : i ∈ m.tracked := by by_contra hn; exact hc (.inr hn)
        split at h
        · rw [hr] at h; cases h
        · rename_i t ht
          split at h
          · rw [hr] at h; cases h
          · rename_i o hs
            split at h
            · rename_i hcr
              split at h
              · rename_i hd
                cases h
                exact .quiet i t o hi ht hcr hs hd
              · rename_i hd
                cases h
                exact .failed i t o hi ht hcr hs (by simpa using hd)
            · have h' : m.result = some r := h
              rw [hr] at h'; cases h'
    | shut =>
      simp only [step] at h
      split at h
      · rename_i hc; cases h; exact .shut hc.2
      · rw [hr] at h; cases h
    | sig =>
      simp only [step] at h
      split at h
      · rename_i hc; cases h; exact .sig hc.2
      · rw [hr] at h; cases h
    | abort => simp only [step] at h; rw [hr] at h; cases h
    | update => simp only [step] at h; rw [hr] at h; cases h
    | drop => simp only [step] at h; rw [hr] at h; cases h
  · intro h
    cases h with
    | shut h => simp only [step]; rw [if_pos ⟨by simp [hr], h⟩]; rfl
    | sig h => simp only [step]; rw [if_pos ⟨by simp [hr], h⟩]; rfl
    | quiet i t o hi ht hc hs hd =>
      simp only [step]
      rw [if_neg (by simp [hr, hi])]
      simp only [ht, hs, if_pos hc, if_pos hd]
      rfl
    | failed i t o hi ht hc hs hd =>
      simp only [step]
      rw [if_neg (by simp [hr, hi])]
      simp only [ht, hs, if_pos hc]
      rw [if_neg (by simp [hd])]
      rfl

/-- When the loop has returned, the shutdown notice has been given. -/
theorem ended_notified (d : Bool) : ∀ (evs : List Ev) (m : M), (m.result.isSome → m.down = true) →
    (run d m evs).result.isSome → (run d m evs).down = true := by
  intro evs
  induction evs with
  | nil => intro m h; exact h
  | cons e evs ih =>
    intro m h
    refine ih _ ?_
    intro hs
    obtain ⟨r, hr⟩ := Option.isSome_iff_exists.mp hs
    cases hm : m.result with
    | some r0 => exact down_stays d m e (h (by simp [hm]))
    | none =>
      have hc := (ends_iff d m e r hm).mp hr
      cases hc with
      | shut h => simp only [step]; rw [if_pos ⟨by simp [hm], h⟩]; rfl
      | sig h => simp only [step]; rw [if_pos ⟨by simp [hm], h⟩]; rfl
      | quiet i t o hi ht hc hs hd => exact down_stays d m _ hd
      | failed i t o hi ht hc hs' hd =>
        simp only [step]
        rw [if_neg (by simp [hm, hi])]
        simp only [ht, hs', if_pos hc]
        rw [if_neg (by simp [hd])]
        rfl

/-- **C93.** After a shutdown notice the loop cannot return an error. -/
theorem no_error_after_shutdown (d : Bool) : ∀ (evs : List Ev) (m : M), m.down = true →
    (∀ x, m.result ≠ some (.error x)) → ∀ x, (run d m evs).result ≠ some (.error x) := by
  intro evs
  induction evs with
  | nil => intro m _ h; exact h
  | cons e evs ih =>
    intro m hd h
    refine ih _ (down_stays d m e hd) ?_
    intro x hx
    cases hm : m.result with
    | some r =>
      rw [result_stays d m e r hm] at hx
      cases hx
      exact h x hm
    | none =>
      have hc := (ends_iff d m e _ hm).mp hx
      cases hc with
      | failed i t o hi ht hc hs hd' => rw [hd] at hd'; cases hd'

/-! ## No watched task is forgotten -/

/-- A task the manager will hear of. -/
def M.watches (m : M) (i : Nat) : Prop := i ∈ m.tracked ∨ i ∈ m.queue

/-- A task stays watched until its end is taken. -/
theorem watched_stays (d : Bool) (m : M) (e : Ev) (i : Nat) (h : m.watches i) (he : e ≠ .done i) :
    (step d m e).watches i := by
  cases e with
  | spawn c =>
    rcases h with h | h
    · exact .inl (List.mem_append_left _ h)
    · exact .inr h
  | spawnVia c b =>
    rcases h with h | h
    · exact .inl h
    · refine .inr ?_
      show i ∈ (if m.queue.length < queueCap then m.queue ++ [m.tasks.length] else m.queue)
      split
      · exact List.mem_append_left _ h
      · exact h
  | finish j o => exact h
  | stop j => simp only [step]; split <;> exact h
  | notify => exact h
  | signal => simp only [step]; split <;> exact h
  | arm => simp only [step]; split <;> exact h
  | recv =>
    simp only [step]
    split
    · exact h
    · split
      · exact h
      · rename_i j q hq
        rcases h with h | h
        · exact .inl (List.mem_append_left _ h)
        · rw [hq, List.mem_cons] at h
          rcases h with h | h
          · exact .inl (List.mem_append_right _ (by simp [h]))
          · exact .inr h
  | done j =>
    have hji : i ≠ j := fun e' => he (by rw [e'])
    simp only [step]
    split
    · exact h
    · split
      · exact h
      · split
        · exact h
        · have hw : ({ m with tracked := m.tracked.erase j } : M).watches i := by
            rcases h with h | h
            · exact .inl ((List.mem_erase_of_ne hji).mpr h)
            · exact .inr h
          split
          · split
            · exact hw
            · exact hw
          · exact hw
  | shut => simp only [step]; split <;> exact h
  | sig => simp only [step]; split <;> exact h
  | abort => exact h
  | update =>
    refine .inl ?_
    rcases h with h | h
    · exact List.mem_append_left _ h
    · exact List.mem_append_right _ h
  | drop => exact h

/-- A task spawned by the manager, or by a spawner whose channel is not full, is watched. -/
theorem spawn_watched (d : Bool) (m : M) (c : Bool) : (step d m (.spawn c)).watches m.tasks.length :=
  .inl (List.mem_append_right _ (by simp))

theorem spawnVia_watched (d : Bool) (m : M) (c b : Bool) (h : m.queue.length < 1000) :
    (step d m (.spawnVia c b)).watches m.tasks.length := by
  refine .inr ?_
  show _ ∈ (if m.queue.length < queueCap then m.queue ++ [m.tasks.length] else m.queue)
  rw [if_pos (show m.queue.length < queueCap from h)]
  simp

/-- **Finding.** With a full channel the task runs, is not watched, and its end changes nothing the
loop sees: no later `done` of it is ever taken. -/
theorem spawnVia_untracked (d : Bool) (m : M) (c b : Bool) (h : 1000 ≤ m.queue.length) :
    (step d m (.spawnVia c b)).queue = m.queue ∧ (step d m (.spawnVia c b)).tracked = m.tracked ∧
    (step d m (.spawnVia c b)).tasks = m.tasks ++ [⟨c, b, none⟩] := by
  refine ⟨?_, rfl, rfl⟩
  show (if m.queue.length < queueCap then m.queue ++ [m.tasks.length] else m.queue) = m.queue
  rw [if_neg (by unfold queueCap; omega)]

/-- Task numbers stay below the number of tasks. -/
def M.Bounded (m : M) : Prop := ∀ i, m.watches i → i < m.tasks.length

theorem tasks_grow (d : Bool) (m : M) (e : Ev) : m.tasks.length ≤ (step d m e).tasks.length := by
  cases e <;> simp only [step, List.length_append, List.length_singleton, List.length_modify,
    List.length_mapIdx] <;> (try omega)
  · split <;> simp
  · split <;> simp
  · split <;> simp
  · split
    · exact Nat.le_refl _
    · split
      · exact Nat.le_refl _
      · exact Nat.le_refl _
  · split
    · exact Nat.le_refl _
    · split
      · exact Nat.le_refl _
      · split
        · exact Nat.le_refl _
        · split
          · split
            · exact Nat.le_refl _
            · exact Nat.le_refl _
          · exact Nat.le_refl _
  · split <;> exact Nat.le_refl _
  · split <;> exact Nat.le_refl _

/-- Only the spawning of a task makes it watched. -/
theorem unwatched_stays (d : Bool) (m : M) (e : Ev) (i : Nat) (hi : i < m.tasks.length)
    (h : ¬ m.watches i) : ¬ (step d m e).watches i := by
  intro hw
  apply h
  cases e with
  | spawn c =>
    rcases hw with hw | hw
    · rcases List.mem_append.mp hw with hw | hw
      · exact .inl hw
      · have := List.mem_singleton.mp hw; omega
    · exact .inr hw
  | spawnVia c b =>
    rcases hw with hw | hw
    · exact .inl hw
    · have hw' : i ∈ (if m.queue.length < queueCap then m.queue ++ [m.tasks.length] else m.queue) :=
        hw
      split at hw'
      · rcases List.mem_append.mp hw' with hw' | hw'
        · exact .inr hw'
        · have := List.mem_singleton.mp hw'; omega
      · exact .inr hw'
  | finish j o => exact hw
  | stop j => simp only [step] at hw; split at hw <;> exact hw
  | notify => exact hw
  | signal => simp only [step] at hw; split at hw <;> exact hw
  | arm => simp only [step] at hw; split at hw <;> exact hw
  | recv =>
    simp only [step] at hw
    split at hw
    · exact hw
    · split at hw
      · exact hw
      · rename_i j q hq
        rcases hw with hw | hw
        · rcases List.mem_append.mp hw with hw | hw
          · exact .inl hw
          · refine .inr ?_
            rw [hq, List.mem_singleton.mp hw]; simp
        · refine .inr ?_
          rw [hq]
          exact List.mem_cons_of_mem _ hw
  | done j =>
    simp only [step] at hw
    split at hw
    · exact hw
    · split at hw
      · exact hw
      · split at hw
        · exact hw
        · have key : ({ m with tracked := m.tracked.erase j } : M).watches i → m.watches i := by
            rintro (h1 | h1)
            · exact .inl (List.mem_of_mem_erase h1)
            · exact .inr h1
          split at hw
          · split at hw
            · exact key hw
            · exact key hw
          · exact key hw
  | shut => simp only [step] at hw; split at hw <;> exact hw
  | sig => simp only [step] at hw; split at hw <;> exact hw
  | abort => exact hw
  | update =>
    rcases hw with hw | hw
    · exact List.mem_append.mp hw
    · cases hw
  | drop => exact hw

/-- **Finding.** A task that was not tracked when it was spawned is never tracked later, so whatever
happens to it never ends the loop. -/
theorem untracked_forever (d : Bool) : ∀ (evs : List Ev) (m : M) (i : Nat), i < m.tasks.length →
    ¬ m.watches i → ¬ (run d m evs).watches i ∧
      ∀ o, m.result = none → (run d m evs).result ≠ some (.error (i, o)) := by
  intro evs
  induction evs with
  | nil => intro m i _ h; exact ⟨h, fun o hr => by show m.result ≠ _; rw [hr]; simp⟩
  | cons e evs ih =>
    intro m i hi h
    have h1 := unwatched_stays d m e i hi h
    have h2 := Nat.lt_of_lt_of_le hi (tasks_grow d m e)
    refine ⟨(ih _ i h2 h1).1, ?_⟩
    intro o hr
    cases hs : (step d m e).result with
    | none => exact (ih _ i h2 h1).2 o hs
    | some r =>
      have hrun : (run d (step d m e) evs).result = some r :=
        foldl_inv (step d) (fun s => s.result = some r)
          (fun s ev hh => result_stays d s ev r hh) evs _ hs
      show (run d (step d m e) evs).result ≠ _
      rw [hrun]
      rintro hx
      cases hx
      have hc := (ends_iff d m e _ hr).mp hs
      cases hc with
      | failed _ t o' hmem _ _ _ _ => exact h (.inl hmem)

/-! ## A critical end is always found -/

/-- The branches of the loop. -/
def Ev.isBranch : Ev → Bool
  | .recv | .done _ | .shut | .sig => true
  | _ => false

/-- A branch is ready. -/
def ready (m : M) (e : Ev) : Prop :=
  m.result = none ∧ match e with
  | .recv => m.queue ≠ []
  | .done i => i ∈ m.tracked ∧ ∃ t, m.tasks[i]? = some t ∧ t.status.isSome
  | .shut => m.down = true
  | .sig => m.got = true
  | _ => False

/-- How much is left to take. -/
def measure (m : M) : Nat :=
  if m.result.isSome then 0 else 1 + 2 * m.queue.length + m.tracked.length

/-- Every branch taken makes progress. -/
theorem branch_decreases (d : Bool) (m : M) (e : Ev) (h : ready m e) :
    measure (step d m e) < measure m := by
  obtain ⟨hr, h⟩ := h
  have hm : measure m = 1 + 2 * m.queue.length + m.tracked.length := by
    unfold measure; simp [hr]
  cases e with
  | recv =>
    cases hq : m.queue with
    | nil => exact absurd hq h
    | cons i q =>
      have : step d m .recv = M.again { m with queue := q, tracked := m.tracked ++ [i] } := by
        simp only [step]; rw [if_neg (by simp [hr])]; simp only [hq]
      rw [this, hm, hq]
      unfold measure M.again
      simp [hr]
      omega
  | done i =>
    obtain ⟨hi, t, ht, hs⟩ := h
    obtain ⟨o, ho⟩ := Option.isSome_iff_exists.mp hs
    rw [hm]
    simp only [step]
    rw [if_neg (by simp [hr, hi])]
    simp only [ht, ho]
    have hpos : 0 < m.tracked.length := List.length_pos_of_mem hi
    split
    · split
      · simp [measure, M.finishLoop]
      · simp [measure, M.finishLoop]
    · simp only [measure, M.again, hr, Option.isSome_none, Bool.false_eq_true, if_false,
        List.length_erase_of_mem hi]
      omega
  | shut =>
    have h' : m.down = true := h
    simp only [step]
    rw [if_pos ⟨by simp [hr], h'⟩, hm]
    simp [measure, M.finishLoop]
  | sig =>
    have h' : m.got = true := h
    simp only [step]
    rw [if_pos ⟨by simp [hr], h'⟩, hm]
    simp [measure, M.finishLoop]
  | spawn c => exact absurd h (by simp)
  | spawnVia c b => exact absurd h (by simp)
  | finish i o => exact absurd h (by simp)
  | stop i => exact absurd h (by simp)
  | notify => exact absurd h (by simp)
  | signal => exact absurd h (by simp)
  | arm => exact absurd h (by simp)
  | abort => exact absurd h (by simp)
  | update => exact absurd h (by simp)
  | drop => exact absurd h (by simp)

/-- A sequence of ready branches, in any order the select may choose. -/
inductive Turns (d : Bool) : M → List Ev → M → Prop
  | nil (m : M) : Turns d m [] m
  | cons {m m' : M} {e : Ev} {evs : List Ev} (h : ready m e) (ht : Turns d (step d m e) evs m') :
      Turns d m (e :: evs) m'

theorem turns_bound {d : Bool} {m m' : M} {evs : List Ev} (h : Turns d m evs m') :
    evs.length + measure m' ≤ measure m := by
  induction h with
  | nil m => simp
  | cons h ht ih =>
    have := branch_decreases d _ _ h
    simp only [List.length_cons]
    omega

/-- Branches leave the tasks alone, and a watched critical task stays watched while the loop runs. -/
theorem turns_watch {d : Bool} {m m' : M} {evs : List Ev} (h : Turns d m evs m') {i : Nat} {t : Task}
    (ht : m.tasks[i]? = some t) (hc : t.critical = true) (hw : m.watches i)
    (hr : m'.result = none) : m'.watches i ∧ m'.tasks[i]? = some t := by
  induction h with
  | nil m => exact ⟨hw, ht⟩
  | @cons m m' e evs h hts ih =>
    refine ih ?_ ?_ hr
    · obtain ⟨hr0, h⟩ := h
      cases e with
      | recv =>
        simp only [step]
        split
        · exact ht
        · split
          · exact ht
          · exact ht
      | done j =>
        simp only [step]
        split
        · exact ht
        · split
          · exact ht
          · split
            · exact ht
            · split
              · split
                · exact ht
                · exact ht
              · exact ht
      | shut => simp only [step]; split <;> exact ht
      | sig => simp only [step]; split <;> exact ht
      | _ => exact absurd h (by simp)
    · by_cases he : e = .done i
      · subst he
        exfalso
        obtain ⟨hr0, hi, t', ht', hs⟩ := h
        rw [ht] at ht'
        cases ht'
        obtain ⟨o, ho⟩ := Option.isSome_iff_exists.mp hs
        have hend : ∃ r, (step d m (.done i)).result = some r := by
          by_cases hd : m.down = true
          · exact ⟨_, (ends_iff d m _ _ hr0).mpr (.quiet i t o hi ht hc ho hd)⟩
          · exact ⟨_, (ends_iff d m _ _ hr0).mpr (.failed i t o hi ht hc ho (by simpa using hd))⟩
        obtain ⟨r, hre⟩ := hend
        have hstay : ∀ {a b : M} {l : List Ev}, Turns d a l b → a.result = some r →
            b.result = some r := by
          intro a b l hab
          induction hab with
          | nil m => exact fun h => h
          | cons h _ ih => exact fun hh => ih (result_stays d _ _ r hh)
        rw [hstay hts hre] at hr
        cases hr
      · exact watched_stays d m e i hw he

/-- **C93.** When a critical task the manager watches has ended, the loop returns after at most
`1 + 2 * queued + tracked` branches, whatever order the select takes them in: as long as it has not
returned a branch is ready. -/
theorem critical_end_found {d : Bool} {m m' : M} {evs : List Ev} (h : Turns d m evs m') {i : Nat}
    {t : Task} (ht : m.tasks[i]? = some t) (hc : t.critical = true) (hs : t.status.isSome)
    (hw : m.watches i) :
    evs.length ≤ 1 + 2 * m.queue.length + m.tracked.length ∧
    (m'.result = none → ∃ e, ready m' e) := by
  refine ⟨?_, ?_⟩
  · have h1 := turns_bound h
    have h2 : measure m ≤ 1 + 2 * m.queue.length + m.tracked.length := by
      unfold measure; split <;> omega
    omega
  · intro hr
    obtain ⟨hw', ht'⟩ := turns_watch h ht hc hw hr
    by_cases hq : m'.queue = []
    · rcases hw' with hw' | hw'
      · exact ⟨.done i, hr, hw', t, ht', hs⟩
      · rw [hq] at hw'; cases hw'
    · exact ⟨.recv, hr, hq⟩

/-! ## Exit signals -/

/-- A signal the listener has received ends the loop when its branch is taken. -/
theorem signal_ends (m : M) (hr : m.result = none) (ha : m.armed = true) :
    (step true (step true m .signal) .sig).result = some (.ok ()) := by
  have : step true m .signal = { m with got := true } := by simp [step, ha]
  rw [this]
  exact (ends_iff true { m with got := true } .sig _ hr).mpr (.sig rfl)

/-- **Finding.** A signal that arrives together with another ready branch is lost if the select takes
the other one: the listener, with the signal it received, is dropped, and the loop goes on as if the
signal had never come. -/
theorem signal_lost_to_task (m : M) (hr : m.result = none) {i : Nat} {t : Task} {o : Outcome}
    (hi : i ∈ m.tracked) (ht : m.tasks[i]? = some t) (hc : t.critical = false)
    (hs : t.status = some o) :
    step true (step true m .signal) (.done i) = step true m (.done i) ∧
    (step true m (.done i)).result = none := by
  have hcase : ∀ b : Bool, step true { m with got := b } (.done i)
      = M.again { m with tracked := m.tracked.erase i } := by
    intro b
    simp only [step]
    rw [if_neg (by simp [hr, hi])]
    simp only [ht, hs, hc]
    rfl
  have h0 : step true m (.done i) = M.again { m with tracked := m.tracked.erase i } :=
    hcase m.got
  refine ⟨?_, by rw [h0]; exact hr⟩
  rw [h0]
  have : step true m .signal = if m.armed then { m with got := true } else m := rfl
  rw [this]
  split
  · exact hcase true
  · exact h0

theorem signal_lost_to_recv (m : M) (hr : m.result = none) (hq : m.queue ≠ []) :
    step true (step true m .signal) .recv = step true m .recv ∧
    (step true m .recv).result = none := by
  cases hqe : m.queue with
  | nil => exact absurd hqe hq
  | cons i q =>
    have hcase : ∀ b : Bool, step true { m with got := b } .recv
        = M.again { m with queue := q, tracked := m.tracked ++ [i] } := by
      intro b
      simp only [step]
      rw [if_neg (by simp [hr])]
      simp only [hqe]
      rfl
    have h0 : step true m .recv = M.again { m with queue := q, tracked := m.tracked ++ [i] } :=
      hcase m.got
    refine ⟨?_, by rw [h0]; exact hr⟩
    rw [h0]
    have : step true m .signal = if m.armed then { m with got := true } else m := rfl
    rw [this]
    split
    · exact hcase true
    · exact h0

/-- **Finding.** Between two iterations nobody listens: a signal then changes nothing at all. -/
theorem signal_lost_unarmed (m : M) (h : m.armed = false) : step true m .signal = m := by
  simp [step, h]

/-! ## Ending the tasks -/

/-- **C93.** `abort_all_tasks` ends every tracked task that is not on the blocking pool. -/
theorem abort_ends_tracked (d : Bool) (m : M) (i : Nat) (t : Task) (hi : i ∈ m.tracked)
    (h : (step d m .abort).tasks[i]? = some t) (hb : t.blocking = false) : t.status.isSome := by
  have h' : (m.tasks.mapIdx (fun i t => if i ∈ m.tracked then abortTask t else t))[i]? = some t := h
  rw [List.getElem?_mapIdx] at h'
  obtain ⟨t0, h0, h1⟩ := Option.map_eq_some_iff.mp h'
  rw [if_pos hi] at h1
  subst h1
  unfold abortTask at hb ⊢
  split
  · rename_i hbl
    rw [if_pos hbl] at hb
    rw [hbl] at hb; cases hb
  · unfold settle
    split
    · rfl
    · rename_i o ho; simp [ho]

/-- **Finding.** A task still in the channel is not aborted (`run_epoch` aborts without taking the
channel first). -/
theorem abort_misses_queue (d : Bool) (m : M) (i : Nat) (hi : i ∉ m.tracked) :
    (step d m .abort).tasks[i]? = m.tasks[i]? := by
  show (m.tasks.mapIdx (fun i t => if i ∈ m.tracked then abortTask t else t))[i]? = _
  rw [List.getElem?_mapIdx]
  simp [hi]

/-- Taking the channel first covers them. -/
theorem update_abort (d : Bool) (m : M) (i : Nat) (t : Task) (hw : m.watches i)
    (h : (step d (step d m .update) .abort).tasks[i]? = some t) (hb : t.blocking = false) :
    t.status.isSome := by
  refine abort_ends_tracked d _ i t ?_ h hb
  show i ∈ m.tracked ++ m.queue
  exact List.mem_append.mpr hw

/-- **C93.** Once the manager is dropped, every task not on the blocking pool ends when it is next
polled, tracked or not, spawned before or after. -/
theorem drop_ends_all (d : Bool) (m : M) (evs : List Ev) (i : Nat) (t : Task)
    (h : (step d (run d (step d m .drop) evs) (.stop i)).tasks[i]? = some t)
    (hb : t.blocking = false) : t.status.isSome := by
  have hl : (run d (step d m .drop) evs).localDown = true := by
    refine foldl_inv (step d) (fun s => s.localDown = true) ?_ evs _ rfl
    intro s e hs
    cases e <;> simp only [step] <;> (try exact hs)
    · split <;> exact hs
    · split <;> exact hs
    · split <;> exact hs
    · split
      · exact hs
      · split
        · exact hs
        · exact hs
    · split
      · exact hs
      · split
        · exact hs
        · split
          · exact hs
          · split
            · split
              · exact hs
              · exact hs
            · exact hs
    · split <;> exact hs
    · split <;> exact hs
  have h' : ((run d (step d m .drop) evs).tasks.modify i
      (fun t => if t.blocking then t else settle .ok t))[i]? = some t := by
    generalize hM : run d (step d m .drop) evs = mm at h hl ⊢
    simp only [step] at h
    rw [if_pos hl] at h
    exact h
  rw [List.getElem?_modify] at h'
  obtain ⟨t0, h0, h1⟩ := Option.map_eq_some_iff.mp h'
  simp only [if_true] at h1
  subst h1
  split
  · rename_i hbl
    rw [if_pos hbl] at hb
    rw [hbl] at hb; cases hb
  · unfold settle
    split
    · rfl
    · rename_i o ho; simp [ho]

/-- **Finding.** Neither the abort nor the drop ends a running task on the blocking pool: it goes on
into the next epoch. -/
theorem blocking_survives (d : Bool) (m : M) (i : Nat) (t : Task) (h : m.tasks[i]? = some t)
    (hb : t.blocking = true) :
    (run d m [.abort, .drop, .stop i]).tasks[i]? = some t := by
  show (step d (step d (step d m .abort) .drop) (.stop i)).tasks[i]? = some t
  have h1 : (step d m .abort).tasks[i]? = some t := by
    show (m.tasks.mapIdx (fun i t => if i ∈ m.tracked then abortTask t else t))[i]? = _
    rw [List.getElem?_mapIdx, h]
    simp [abortTask, hb]
  show (((step d m .abort).tasks).modify i (fun t => if t.blocking then t else settle .ok t))[i]? = _
  rw [List.getElem?_modify, h1]
  simp [hb]

/-! ## A concrete run -/

/-- A non-critical and a critical task, the first through the channel; the first ends and is ignored,
the second fails and ends the loop with its name. -/
theorem example_run :
    (run true {} [.spawnVia false false, .spawn true, .arm, .finish 0 .ok, .recv, .done 0, .arm,
      .finish 1 .err, .done 1]).result = some (.error (1, .err)) ∧
    (run true {} [.spawnVia false false, .spawn true, .arm, .finish 0 .ok, .recv, .done 0, .arm,
      .finish 1 .err, .notify, .done 1]).result = some (.ok ()) := ⟨rfl, rfl⟩

/-- The signal that is lost, concretely: it arrives while a finished task is waiting. -/
theorem example_signal_lost :
    (run true {} [.spawn false, .spawn true, .arm, .finish 0 .ok, .signal, .done 0, .arm]).result
      = none ∧
    (run true {} [.spawn false, .spawn true, .arm, .finish 0 .ok, .signal, .done 0, .arm]).got
      = false ∧
    (run true {} [.spawn false, .spawn true, .arm, .finish 0 .ok, .signal, .sig]).result
      = some (.ok ()) := ⟨rfl, rfl, rfl⟩

/-- A subscriber before and one after the notice. -/
theorem example_bell :
    ((shutRun [.subscribe, .poll 0, .notify, .subscribe]).all.map (·.flag)) = [true, true] ∧
    ((rearmRun [.subscribe, .poll 0, .notify, .subscribe]).all.map (·.flag)) = [true, false] ∧
    ((shutRun [.subscribe, .poll 0, .notify, .subscribe]).all.map (·.woken)) = [true, false] :=
  ⟨rfl, rfl, rfl⟩

end Verif.Tasks
