import Verif.Proposer.CertifierMain
/-
Runs in which the proposer never proposes a stored header again because the maximum delay expired: every
record found by a proposal task is on disk when it is found, because the proposer's barrier for the header
covers it.
-/
namespace Verif.Crt

open Verif

/-- The task may still start, or continue, collecting votes. -/
def Stage.active : Stage → Bool
  | .spawned | .waiting | .collecting _ => true
  | _ => false

/-- The task has not looked for a record yet. -/
def Stage.isOpen : Stage → Bool
  | .spawned | .waiting => true
  | _ => false

theorem Stage.active_of_open {g : Stage} (h : g.isOpen = true) : g.active = true := by
  cases g <;> simp_all [Stage.isOpen, Stage.active]

/-- The header in the proposer's hand. -/
def Phase.hand : Phase → List Header
  | .storing h _ | .sending h => [h]
  | _ => []

/-- Headers that have not reached a task. -/
def pend (s : S) : List Header := s.queue ++ s.phase.hand

/-- The header belongs to the epoch and to a round already entered. -/
def Live (E : Env) (round : Round) (h : Header) : Prop :=
  h.epoch = E.c.epoch ∧ E.roundOf h.digest = h.round ∧ h.round ≤ round

/-- All certificate records of the digest are among the first `n` writes. -/
def Within (log : List Rec) (n : Nat) (d : Digest) : Prop :=
  ∀ x, Rec.cert d x ∈ log → Rec.cert d x ∈ log.take n

/-- The invariant of runs without `repropose`. -/
structure NInv (E : Env) (s : S) : Prop where
  livePend : ∀ h ∈ pend s, Live E s.round h
  liveTask : ∀ t ∈ s.tasks, Live E s.round t.h
  nodup : ((pend s).map (·.digest)).Nodup
  apart : ∀ t ∈ s.tasks, t.stage.active = true → ∀ h ∈ pend s, h.digest ≠ t.h.digest
  single : ∀ (i j : Nat) t u, s.tasks[i]? = some t → s.tasks[j]? = some u → t.stage.active = true →
    u.stage.active = true → t.h.digest = u.h.digest → i = j
  queue : ∀ h ∈ s.queue, Within s.log s.durable h.digest
  sending : ∀ h, s.phase = .sending h → Within s.log s.durable h.digest
  storing : ∀ h pos, s.phase = .storing h pos → Within s.log pos h.digest
  opened : ∀ t ∈ s.tasks, t.stage.isOpen = true → Within s.log s.durable t.h.digest
  again : ∀ t ∈ s.tasks, ∀ x, t.stage = .again x → Rec.cert t.h.digest x ∈ s.log.take s.durable
  early : s.early = false

theorem Within.mono {log : List Rec} {n m : Nat} {d : Digest} (h : Within log n d) (hn : n ≤ m) :
    Within log m d := fun x hx => mem_take_mono hn (h x hx)

theorem Within.push {log : List Rec} {n : Nat} {d : Digest} (h : Within log n d) (r : Rec)
    (hr : ∀ x, r ≠ Rec.cert d x) : Within (log ++ [r]) n d := by
  intro x hx
  rcases List.mem_append.mp hx with hx | hx
  · exact mem_take_append (h x hx)
  · exact absurd (List.mem_singleton.mp hx).symm (hr x)

theorem NInv.setTask {E : Env} {s : S} (i : NInv E s) {k : Nat} {t t' : Task} (hk : s.tasks[k]? = some t)
    (hh : t'.h = t.h) (ha : t'.stage.active = true → t.stage.active = true)
    (ho : t'.stage.isOpen = true → t.stage.isOpen = true)
    (hg : ∀ x, t'.stage = .again x → Rec.cert t.h.digest x ∈ s.log.take s.durable) :
    NInv E (setTask s k t') := by
  have hm : t ∈ s.tasks := List.mem_of_getElem? hk
  have mem : ∀ u ∈ (Crt.setTask s k t').tasks, u ∈ s.tasks ∨ u = t' := fun u hu =>
    List.mem_or_eq_of_mem_set hu
  refine { i with liveTask := ?_, apart := ?_, single := ?_, opened := ?_, again := ?_ }
  · intro u hu
    rcases mem u hu with hu | hu
    · exact i.liveTask u hu
    · rw [hu, hh]; exact i.liveTask t hm
  · intro u hu au
    rcases mem u hu with hu | hu
    · exact i.apart u hu au
    · rw [hu, hh]; rw [hu] at au; exact i.apart t hm (ha au)
  · have key : ∀ (a : Nat) u, (s.tasks.set k t')[a]? = some u → u.stage.active = true →
        ∃ u0, s.tasks[a]? = some u0 ∧ u0.stage.active = true ∧ u0.h = u.h := by
      intro a u hu au
      rw [List.getElem?_set] at hu
      split at hu
      · rename_i e
        split at hu
        · cases hu; subst e; exact ⟨t, hk, ha au, hh.symm⟩
        · cases hu
      · exact ⟨u, hu, au, rfl⟩
    intro a b u v hu hv au av e
    obtain ⟨u0, h1, h2, h3⟩ := key a u hu au
    obtain ⟨v0, h4, h5, h6⟩ := key b v hv av
    exact i.single a b u0 v0 h1 h4 h2 h5 (by rw [h3, h6]; exact e)
  · intro u hu au
    rcases mem u hu with hu | hu
    · exact i.opened u hu au
    · rw [hu, hh]; rw [hu] at au; exact i.opened t hm (ho au)
  · intro u hu x hx
    rcases mem u hu with hu | hu
    · exact i.again u hu x hx
    · rw [hu, hh]; rw [hu] at hx; exact hg x hx

/-- A certificate for a digest that nobody is waiting for is recorded. -/
theorem NInv.push {E : Env} {s : S} (i : NInv E s) (d : Digest) (x : Certificate)
    (hp : ∀ h ∈ pend s, h.digest ≠ d) (ht : ∀ t ∈ s.tasks, t.stage.isOpen = true → t.h.digest ≠ d) :
    NInv E { s with log := s.log ++ [.cert d x] } := by
  have ne : ∀ d', d' ≠ d → ∀ y, Rec.cert d x ≠ Rec.cert d' y := by
    intro d' hd y e; injection e with e; exact hd e.symm
  refine { i with queue := ?_, sending := ?_, storing := ?_, opened := ?_, again := ?_ }
  · intro h hh
    exact (i.queue h hh).push _ (ne _ (hp h (List.mem_append_left _ hh)))
  · intro h hh
    exact (i.sending h hh).push _ (ne _ (hp h (List.mem_append_right _ (by
      have hh' : s.phase = _ := hh
      rw [hh']; simp [Phase.hand]))))
  · intro h pos hh
    exact (i.storing h pos hh).push _ (ne _ (hp h (List.mem_append_right _ (by
      have hh' : s.phase = _ := hh
      rw [hh']; simp [Phase.hand]))))
  · intro t ht' ho; exact (i.opened t ht' ho).push _ (ne _ (ht t ht' ho))
  · intro t ht' y hy; exact mem_take_append (i.again t ht' y hy)

/-- A vote is appended by an active task. -/
theorem NInv.feed {E : Env} {s : S} (i : NInv E s) {k : Nat} {t : Task} (hk : s.tasks[k]? = some t)
    (ha : t.stage.active = true) (st : VotesAgg) (v : Vote) (ok : Bool) :
    NInv E { Crt.setTask s k { t with stage := (feed E s.log t.h st v ok).2 } with
               log := (feed E s.log t.h st v ok).1 } := by
  unfold Crt.feed
  have hm : t ∈ s.tasks := List.mem_of_getElem? hk
  have hcol : ∀ st', NInv E (Crt.setTask s k { t with stage := .collecting st' }) := fun st' =>
    i.setTask hk rfl (fun _ => ha) (fun h => by cases h) (fun x h => by cases h)
  split
  · exact hcol _
  · exact hcol _
  · rename_i x _
    split
    · have j := i.setTask (t' := { t with stage := .barrier x (s.log.length + 1) }) hk rfl
        (fun h => by cases h) (fun h => by cases h) (fun x h => by cases h)
      refine j.push t.h.digest x ?_ ?_
      · exact fun h hh => i.apart t hm ha h hh
      · intro u hu ho e
        obtain ⟨a, hu'⟩ := List.mem_iff_getElem?.mp hu
        simp only [Crt.setTask, List.getElem?_set] at hu'
        split at hu'
        · split at hu'
          · cases hu'; cases ho
          · cases hu'
        · rename_i hka
          exact hka (i.single k a t u hk hu' ha (Stage.active_of_open ho) e.symm)
    · exact i.setTask (t' := { t with stage := .done }) hk rfl (fun h => by cases h) (fun h => by cases h)
        (fun x h => by cases h)

theorem NInv.done {E : Env} {s : S} (i : NInv E s) {k : Nat} {t : Task} (hk : s.tasks[k]? = some t) :
    NInv E (Crt.setTask s k { t with stage := .done }) :=
  i.setTask hk rfl (fun h => by cases h) (fun h => by cases h) (fun x h => by cases h)

/-- In every reachable state, what the proposer proposes supersedes what is stored: the header is written
and its barrier awaited. -/
theorem beginStore_eq {E : Env} {s : S} (i : Inv E s) {h : Header} (hm : mayPropose E s h = true) :
    supersedes (lastProposed s.log) h = true := by
  unfold supersedes
  cases hw : lastProposed s.log with
  | none => rfl
  | some w =>
    simp only [decide_eq_true_eq]
    by_cases he : w.epoch = h.epoch
    · exact .inr (supersedes_of i hm w (lastProposed_mem hw) (by rw [he]; exact mayPropose_epoch hm))
    · exact .inl he

theorem Live.lift {E : Env} {r r' : Round} {h : Header} (l : Live E r h) (hr : r ≤ r') : Live E r' h :=
  ⟨l.1, l.2.1, l.2.2.trans hr⟩

theorem NInv.step {E : Env} {s s' : S} {e : Ev} (b : Inv E s) (i : NInv E s)
    (hne : e ≠ .repropose) (h : step E s e = some s') : NInv E s' := by
  cases e with
  | repropose => exact absurd rfl hne
  | propose hd =>
    simp only [Crt.step] at h
    split at h
    · rename_i hm
      cases h
      have hep := mayPropose_epoch hm.2
      have hr := mayPropose_round hm.2
      have hro : E.roundOf hd.digest = hd.round := by
        have := hm.2
        simp only [mayPropose, Bool.and_eq_true, decide_eq_true_eq] at this
        exact this.1.1.2
      have hle : s.round ≤ hd.round := by omega
      have fresh : ∀ h, Live E s.round h → h.digest ≠ hd.digest := by
        intro h l e
        have h1 := l.2.1
        have h2 := l.2.2
        rw [e, hro] at h1
        omega
      have hpend : pend s = s.queue := by simp [pend, hm.1, Phase.hand]
      unfold beginStore
      rw [if_pos (beginStore_eq b hm.2)]
      refine { livePend := ?_, liveTask := ?_, nodup := ?_, apart := ?_, single := i.single, queue := ?_,
               sending := (fun h e => by cases e), storing := ?_, opened := ?_, again := ?_, early := i.early }
      · intro g hg
        simp only [pend, Phase.hand, List.mem_append, List.mem_singleton] at hg
        rcases hg with hg | hg
        · exact (i.livePend g (by rw [hpend]; exact hg)).lift hle
        · rw [hg]; exact ⟨hep, hro, le_refl _⟩
      · intro t ht; exact (i.liveTask t ht).lift hle
      · show ((s.queue ++ [hd]).map (·.digest)).Nodup
        have := i.nodup
        rw [hpend] at this
        rw [List.map_append]
        refine List.nodup_append.mpr ⟨this, by simp, ?_⟩
        intro a ha b' hb e
        obtain ⟨g, hg, rfl⟩ := List.mem_map.mp ha
        simp only [List.map_cons, List.map_nil, List.mem_singleton] at hb
        exact fresh g (i.livePend g (by rw [hpend]; exact hg)) (e.trans hb)
      · intro t ht ha g hg
        simp only [pend, Phase.hand, List.mem_append, List.mem_singleton] at hg
        rcases hg with hg | hg
        · exact i.apart t ht ha g (by rw [hpend]; exact hg)
        · rw [hg]; exact fun e => fresh t.h (i.liveTask t ht) e.symm
      · intro g hg; exact (i.queue g hg).push _ (fun x => by simp)
      · intro g pos e
        injection e with e1 e2
        subst e1; subst e2
        intro x hx
        rw [List.take_of_length_le (by simp)]; exact hx
      · intro t ht ho; exact (i.opened t ht ho).push _ (fun x => by simp)
      · intro t ht x hx; exact mem_take_append (i.again t ht x hx)
    · cases h
  | stored ok =>
    simp only [Crt.step] at h
    split at h
    · rename_i hd pos hph
      have hpend : pend s = s.queue ++ [hd] := by simp [pend, hph, Phase.hand]
      split at h
      · split at h
        · rename_i hp
          cases h
          refine { i with livePend := ?_, nodup := ?_, apart := ?_, sending := ?_,
                          storing := (fun h p e => by cases e) }
          · intro g hg; exact i.livePend g (by rw [hpend]; exact hg)
          · have := i.nodup; rw [hpend] at this; exact this
          · intro t ht ha g hg; exact i.apart t ht ha g (by rw [hpend]; exact hg)
          · intro g e
            injection e with e; subst e
            exact (i.storing hd pos hph).mono hp
        · cases h
      · cases h
        refine { i with livePend := ?_, nodup := ?_, apart := ?_, sending := (fun h e => by cases e),
                        storing := (fun h p e => by cases e) }
        · intro g hg
          simp only [pend, Phase.hand, List.append_nil] at hg
          exact i.livePend g (List.mem_append_left _ hg)
        · have := i.nodup
          rw [hpend, List.map_append] at this
          simp only [pend, Phase.hand, List.append_nil]
          exact (List.nodup_append.mp this).1
        · intro t ht ha g hg
          simp only [pend, Phase.hand, List.append_nil] at hg
          exact i.apart t ht ha g (List.mem_append_left _ hg)
    · cases h
  | send =>
    simp only [Crt.step] at h
    split at h
    · rename_i hd hph
      cases h
      have hpend : pend s = s.queue ++ [hd] := by simp [pend, hph, Phase.hand]
      have hpend' : ∀ g, g ∈ (s.queue ++ [hd]) ++ Phase.hand .idle → g ∈ pend s := by
        intro g hg; rw [hpend]; simpa [Phase.hand] using hg
      refine { i with livePend := ?_, nodup := ?_, apart := ?_, queue := ?_, sending := (fun h e => by cases e),
                      storing := (fun h p e => by cases e) }
      · intro g hg; exact i.livePend g (hpend' g hg)
      · have := i.nodup
        rw [hpend] at this
        simpa [pend, Phase.hand] using this
      · intro t ht ha g hg; exact i.apart t ht ha g (hpend' g hg)
      · intro g hg
        rcases List.mem_append.mp hg with hg | hg
        · exact i.queue g hg
        · rw [List.mem_singleton.mp hg]; exact i.sending hd hph
    · cases h
  | flush n =>
    simp only [Crt.step] at h
    split at h
    · rename_i hn
      cases h
      exact { i with
        queue := fun g hg => (i.queue g hg).mono hn.1
        sending := fun g hg => (i.sending g hg).mono hn.1
        opened := fun t ht ho => (i.opened t ht ho).mono hn.1
        again := fun t ht x hx => mem_take_mono hn.1 (i.again t ht x hx) }
    · cases h
  | recv =>
    simp only [Crt.step] at h
    split at h
    · rename_i hd q hq
      cases h
      have hpend : pend s = hd :: (q ++ s.phase.hand) := by simp [pend, hq]
      have hnd := i.nodup
      rw [hpend, List.map_cons] at hnd
      obtain ⟨hnd1, hnd2⟩ := List.nodup_cons.mp hnd
      have key : ∀ t ∈ s.tasks.map notice ++ [({ h := hd } : Task)],
          (∃ t0 ∈ s.tasks, t0.stage = t.stage ∧ t0.h = t.h) ∨ t = { h := hd } := by
        intro t ht
        rcases List.mem_append.mp ht with ht | ht
        · obtain ⟨t0, h0, e⟩ := List.mem_map.mp ht
          exact .inl ⟨t0, h0, by rw [← e, notice_stage], by rw [← e, notice_h]⟩
        · exact .inr (List.mem_singleton.mp ht)
      have keyi : ∀ (a : Nat) t, (s.tasks.map notice ++ [({ h := hd } : Task)])[a]? = some t →
          (∃ t0, s.tasks[a]? = some t0 ∧ t0.stage = t.stage ∧ t0.h = t.h) ∨
            (a = s.tasks.length ∧ t = { h := hd }) := by
        intro a t ht
        rw [List.getElem?_append] at ht
        split at ht
        · rw [List.getElem?_map] at ht
          cases h0 : s.tasks[a]? with
          | none => rw [h0] at ht; cases ht
          | some t0 =>
            rw [h0] at ht
            cases ht
            exact .inl ⟨t0, rfl, by rw [notice_stage], by rw [notice_h]⟩
        · rename_i hge
          simp only [List.length_map] at hge ht
          have hlt := (List.getElem?_eq_some_iff.mp ht).1
          simp only [List.length_singleton] at hlt
          exact .inr ⟨by omega, List.mem_singleton.mp (List.mem_of_getElem? ht)⟩
      refine { i with livePend := ?_, liveTask := ?_, nodup := hnd2, apart := ?_, single := ?_, queue := ?_,
                      opened := ?_, again := ?_ }
      · intro g hg; exact i.livePend g (by rw [hpend]; exact List.mem_cons_of_mem _ hg)
      · intro t ht
        rcases key t ht with ⟨t0, h0, -, e⟩ | e
        · rw [← e]; exact i.liveTask t0 h0
        · rw [e]; exact i.livePend hd (by rw [hpend]; simp)
      · intro t ht ha g hg
        rcases key t ht with ⟨t0, h0, e1, e2⟩ | e
        · rw [← e2]
          exact i.apart t0 h0 (by rw [e1]; exact ha) g (by rw [hpend]; exact List.mem_cons_of_mem _ hg)
        · rw [e]
          intro e'
          exact hnd1 (List.mem_map.mpr ⟨g, hg, e'⟩)
      · intro a c t u ht hu at' au e
        rcases keyi a t ht with ⟨t0, h1, h2, h3⟩ | ⟨h1, h2⟩
        · rcases keyi c u hu with ⟨u0, h4, h5, h6⟩ | ⟨h4, h5⟩
          · exact i.single a c t0 u0 h1 h4 (by rw [h2]; exact at') (by rw [h5]; exact au)
              (by rw [h3, h6]; exact e)
          · exfalso
            rw [h5] at e
            exact i.apart t0 (List.mem_of_getElem? h1) (by rw [h2]; exact at') hd
              (by rw [hpend]; simp) (by rw [h3]; exact e.symm)
        · rcases keyi c u hu with ⟨u0, h4, h5, h6⟩ | ⟨h4, h5⟩
          · exfalso
            rw [h2] at e
            exact i.apart u0 (List.mem_of_getElem? h4) (by rw [h5]; exact au) hd
              (by rw [hpend]; simp) (by rw [h6]; exact e)
          · omega
      · intro g hg; exact i.queue g (by rw [hq]; exact List.mem_cons_of_mem _ hg)
      · intro t ht ho
        rcases key t ht with ⟨t0, h0, e1, e2⟩ | e
        · rw [← e2]; exact i.opened t0 h0 (by rw [e1]; exact ho)
        · rw [e]; exact i.queue hd (by rw [hq]; simp)
      · intro t ht x hx
        rcases key t ht with ⟨t0, h0, e1, e2⟩ | e
        · rw [← e2]; exact i.again t0 h0 x (by rw [e1]; exact hx)
        · rw [e] at hx; cases hx
    · cases h
  | start k =>
    simp only [Crt.step] at h
    split at h
    · rename_i t hk
      split at h
      · rename_i hst
        cases h
        exact i.setTask (t' := { t with stage := .waiting }) hk rfl (fun _ => by rw [hst]; rfl)
          (fun _ => by rw [hst]; rfl) (fun x h => by cases h)
      · cases h
    · cases h
  | acquire k ok =>
    simp only [Crt.step] at h
    split at h
    · rename_i t hk
      split at h
      · rename_i hw
        cases h
        have hm : t ∈ s.tasks := List.mem_of_getElem? hk
        have ho : t.stage.isOpen = true := by rw [hw.1]; rfl
        unfold Crt.acquire
        cases hf : findCert s.log t.h.digest with
        | some x =>
          refine i.setTask (t' := { t with stage := .again x }) hk rfl (fun h => by cases h) (fun h => by cases h) ?_
          intro y hy
          injection hy with hy
          subst hy
          exact i.opened t hm ho _ (findCert_some hf)
        | none =>
          dsimp only
          split
          · exact i.done hk
          · split
            · exact i.done hk
            · exact i.feed hk (Stage.active_of_open ho) _ _ ok
      · cases h
    · cases h
  | vote k v ok =>
    simp only [Crt.step] at h
    split at h
    · rename_i t hk
      split at h
      · rename_i st hst
        cases h
        exact i.feed hk (by rw [hst]; rfl) st v ok
      · cases h
    · cases h
  | exhausted k =>
    simp only [Crt.step] at h
    split at h
    · rename_i t hk
      split at h
      · cases h; exact i.done hk
      · cases h
    · cases h
  | cancel k =>
    simp only [Crt.step] at h
    split at h
    · rename_i t hk
      split at h
      · split at h
        · cases h; exact i.done hk
        · cases h
      · cases h
    · cases h
  | ack k ok =>
    simp only [Crt.step] at h
    split at h
    · rename_i t hk
      split at h
      · rename_i x pos hst
        split at h
        · split at h
          · cases h
            exact i.setTask (t' := { t with stage := .durable x }) hk rfl (fun h => by cases h)
              (fun h => by cases h) (fun x h => by cases h)
          · cases h
        · cases h; exact i.done hk
      · cases h
    · cases h
  | process k ok =>
    simp only [Crt.step] at h
    split at h
    · rename_i t hk
      split at h
      · rename_i x hst
        cases h
        have j := i.setTask (t' := { t with stage := if ok then .processed x else .done }) hk rfl
          (fun h => by cases ok <;> cases h) (fun h => by cases ok <;> cases h)
          (fun x h => by cases ok <;> cases h)
        exact { j with }
      · cases h
    · cases h
  | publish k =>
    simp only [Crt.step] at h
    split at h
    · rename_i t hk
      have j := i.done hk
      split at h
      · cases h; exact { j with }
      · rename_i x hst
        cases h
        have hd := i.again t (List.mem_of_getElem? hk) x hst
        have he : x.header.digest = t.h.digest := (b.wf _ _ (List.mem_of_mem_take hd)).1
        refine { j with early := ?_ }
        show (s.early || !onDisk s x) = false
        rw [i.early]
        simp only [onDisk, Bool.false_or, Bool.not_eq_false', decide_eq_true_eq]
        rw [he]; exact hd
      · cases h
    · cases h
  | primary p =>
    simp only [Crt.step] at h
    split at h
    · cases h; exact { i with }
    · cases h
  | restart p =>
    simp only [Crt.step] at h
    cases h
    exact { livePend := (fun g hg => by cases hg), liveTask := (fun g hg => by cases hg),
            nodup := List.nodup_nil, apart := (fun g hg => by cases hg),
            single := (fun a c t u hg => by cases hg), queue := (fun g hg => by cases hg),
            sending := (fun g hg => by cases hg), storing := (fun g p hg => by cases hg),
            opened := (fun g hg => by cases hg), again := (fun g hg => by cases hg), early := i.early }
  | crash k p =>
    simp only [Crt.step] at h
    split at h
    · cases h
      exact { livePend := (fun g hg => by cases hg), liveTask := (fun g hg => by cases hg),
              nodup := List.nodup_nil, apart := (fun g hg => by cases hg),
              single := (fun a c t u hg => by cases hg), queue := (fun g hg => by cases hg),
              sending := (fun g hg => by cases hg), storing := (fun g p hg => by cases hg),
              opened := (fun g hg => by cases hg), again := (fun g hg => by cases hg), early := i.early }
    · cases h

theorem NInv.init {E : Env} {s : S} (h : Init E s) : NInv E s := by
  have hp : pend s = [] := by simp [pend, h.queue, h.phase, Phase.hand]
  exact { livePend := (fun g hg => by rw [hp] at hg; cases hg),
          liveTask := (fun g hg => by rw [h.tasks] at hg; cases hg),
          nodup := by rw [hp]; exact List.nodup_nil
          apart := (fun g hg => by rw [h.tasks] at hg; cases hg),
          single := (fun a c t u hg => by rw [h.tasks] at hg; cases hg),
          queue := (fun g hg => by rw [h.queue] at hg; cases hg),
          sending := (fun g hg => by rw [h.phase] at hg; cases hg),
          storing := (fun g p hg => by rw [h.phase] at hg; cases hg),
          opened := (fun g hg => by rw [h.tasks] at hg; cases hg),
          again := (fun g hg => by rw [h.tasks] at hg; cases hg), early := h.early }

theorem NInv.runs {E : Env} (hc : E.c.WF) {s s' : S} {es : List Ev} (b : Inv E s) (i : NInv E s)
    (hes : Ev.repropose ∉ es) (h : runs E s es = some s') : NInv E s' := by
  induction es generalizing s with
  | nil => cases h; exact i
  | cons e es ih =>
    obtain ⟨s1, h1, h2⟩ := Option.bind_eq_some_iff.mp h
    exact ih (b.step hc h1) (i.step b (fun e' => hes (by rw [e']; simp)) h1)
      (fun hm => hes (List.mem_cons_of_mem _ hm)) h2

end Verif.Crt
