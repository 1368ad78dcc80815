import Verif.Proposer.CertifierLife
/-
C98: the statements about the certifier.
-/
namespace Verif.Crt

open Verif

/-- C98 (a): certificates that left the certifier through its main path – handed to the node's own consensus
or published after that – never differ for the same header, over any number of crashes and restarts. -/
theorem main_path_unique {E : Env} (hc : E.c.WF) {s : S} (h : Reach E s) {w v : How} {x y : Certificate}
    (hx : (w, x) ∈ s.ext) (hy : (v, y) ∈ s.ext) (hw : w ≠ .again) (hv : v ≠ .again)
    (hd : x.header.digest = y.header.digest) : x = y := by
  have i := h.inv hc
  have h1 := List.mem_of_mem_take (i.ext w x hx (.inl hw))
  have h2 := List.mem_of_mem_take (i.ext v y hy (.inl hv))
  rw [hd] at h1
  exact cert_unique i.uniq h1 h2

/-- C98 (b): what left through the main path is on disk, now and after any later crash. -/
theorem main_path_on_disk {E : Env} (hc : E.c.WF) {s : S} (h : Reach E s) {w : How} {x : Certificate}
    (hx : (w, x) ∈ s.ext) (hw : w ≠ .again) : Rec.cert x.header.digest x ∈ s.log.take s.durable :=
  (h.inv hc).ext w x hx (.inl hw)

/-- C98 (c): as long as no certificate was ever published again from a record that was not on disk, no two
different certificates for the same header ever left the certifier, by any way. Without the proviso this is
false of the code: `Example.two_certificates`. -/
theorem one_certificate_partial {E : Env} (hc : E.c.WF) {s : S} (h : Reach E s) (he : s.early = false)
    {w v : How} {x y : Certificate} (hx : (w, x) ∈ s.ext) (hy : (v, y) ∈ s.ext)
    (hd : x.header.digest = y.header.digest) : x = y := by
  have i := h.inv hc
  have h1 := List.mem_of_mem_take (i.ext w x hx (.inr he))
  have h2 := List.mem_of_mem_take (i.ext v y hy (.inr he))
  rw [hd] at h1
  exact cert_unique i.uniq h1 h2

/-- C98 (d): the proviso holds, and so the certificates are unique, in every run in which the proposer never
proposes its stored header again on expiry of the maximum delay (`Ev.repropose`): re-proposals after a restart
or a crash are covered by the proposer's barrier. -/
theorem one_certificate_without_reproposal {E : Env} (hc : E.c.WF) {s0 s : S} {es : List Ev}
    (h0 : Init E s0) (hr : runs E s0 es = some s) (hes : Ev.repropose ∉ es)
    {w v : How} {x y : Certificate} (hx : (w, x) ∈ s.ext) (hy : (v, y) ∈ s.ext)
    (hd : x.header.digest = y.header.digest) : x = y :=
  one_certificate_partial hc ⟨s0, es, h0, hr⟩
    ((NInv.init h0).runs hc (Inv.init h0) hes hr).early hx hy hd

/-- C98 (e): a certificate of this epoch that leaves the certifier is for a header the proposer handed over;
its signers are exactly the authors of valid votes for that header, the first vote considered being the
node's own, and they reach the quorum. -/
theorem externalized_sound {E : Env} (hc : E.c.WF) {s : S} (h : Reach E s) {w : How} {x : Certificate}
    (hx : (w, x) ∈ s.ext) (he : x.header.epoch = E.c.epoch) :
    x.header ∈ s.handed ∧ ∃ vs, vs.head? = some (ownVote E x.header) ∧
      (x.signedBy E.c.blsKeys).2.toFinset = VotesAgg.countedKeys E.B E.c x.header vs ∧
      ((VotesAgg.counted E.B E.c x.header vs).map (·.author)).Nodup ∧
      E.c.quorumThreshold ≤ (VotesAgg.counted E.B E.c x.header vs).length ∧
      E.c.quorumThreshold ≤ (x.signedBy E.c.blsKeys).1 := by
  obtain ⟨⟨vs, v, h1, h2⟩, h3⟩ := (h.inv hc).extp w x hx he
  have := VotesAgg.append_cert_sound E.B E.c hc x.header vs v x h2
  exact ⟨h3, vs ++ [v], h1, this.2.2.2.2.1, this.2.2.1, this.2.2.2.1, this.2.2.2.2.2.2.1⟩

/-- C98 (f): the main path only lets certificates of this epoch out. -/
theorem main_path_epoch {E : Env} (hc : E.c.WF) {s : S} (h : Reach E s) {w : How} {x : Certificate}
    (hx : (w, x) ∈ s.ext) (hw : w ≠ .again) : x.header.epoch = E.c.epoch := (h.inv hc).own w x hx hw

/-- C98 (g): at most one proposal task is collecting votes or publishing again at any time. -/
theorem lock_exclusive {E : Env} (hc : E.c.WF) {s : S} (h : Reach E s) {i j : Nat} {t u : Task}
    (hi : s.tasks[i]? = some t) (hj : s.tasks[j]? = some u)
    (ht : (∃ st, t.stage = .collecting st) ∨ ∃ x, t.stage = .again x)
    (hu : (∃ st, u.stage = .collecting st) ∨ ∃ x, u.stage = .again x) : i = j := by
  refine (h.inv hc).lock i j t u hi hj ?_ ?_
  · rcases ht with ⟨st, e⟩ | ⟨x, e⟩ <;> rw [e] <;> rfl
  · rcases hu with ⟨st, e⟩ | ⟨x, e⟩ <;> rw [e] <;> rfl

/-- C98 (h): while a task is collecting votes for a header no certificate for the header is recorded, so the
record it is about to write replaces nothing. -/
theorem collecting_unrecorded {E : Env} (hc : E.c.WF) {s : S} (h : Reach E s) {i : Nat} {t : Task}
    {st : VotesAgg} (hi : s.tasks[i]? = some t) (hst : t.stage = .collecting st) :
    findCert s.log t.h.digest = none := by
  have := ((h.inv hc).task t (List.mem_of_getElem? hi)).2
  unfold TInv at this
  rw [hst] at this
  cases hf : findCert s.log t.h.digest with
  | none => rfl
  | some x => exact absurd (findCert_some hf) (this.2.1 x)

/-- C98 (i): receiving a header fires the cancel signal of every task that has subscribed to it, and starts
one new task for the header. -/
theorem recv_cancels {E : Env} {s s' : S} {h : Header} {q : List Header} (hq : s.queue = h :: q)
    (hs : step E s .recv = some s') :
    s'.tasks.length = s.tasks.length + 1 ∧ s'.tasks[s.tasks.length]? = some { h := h } ∧
    ∀ (i : Nat) t, s.tasks[i]? = some t → ∃ t', s'.tasks[i]? = some t' ∧ t'.h = t.h ∧ t'.stage = t.stage ∧
      (t.stage ≠ .spawned → t'.noticed = true) := by
  simp only [step, hq] at hs
  cases hs
  refine ⟨by simp, by simp, ?_⟩
  intro i t ht
  have hlt := (List.getElem?_eq_some_iff.mp ht).1
  refine ⟨notice t, ?_, notice_h t, notice_stage t, ?_⟩
  · show (s.tasks.map notice ++ [_])[i]? = some (notice t)
    rw [List.getElem?_append_left (by simpa using hlt), List.getElem?_map, ht]; rfl
  · intro hne
    unfold notice
    have : t.stage.subscribed = true := by
      cases hst : t.stage <;> simp_all [Stage.subscribed]
    rw [if_pos this]

/-- C98 (j): whatever the proposer proposes in its next round is first written and waits for the barrier:
it cannot reach the certifier before the record is on disk. -/
theorem proposal_waits_for_disk {E : Env} (hc : E.c.WF) {s s' : S} (h : Reach E s) {hd : Header}
    (hs : step E s (.propose hd) = some s') :
    s'.log = s.log ++ [.last hd] ∧ s'.phase = .storing hd s'.log.length ∧
    ∀ s'', step E s' (.stored true) = some s'' → Rec.last hd ∈ s''.log.take s''.durable := by
  simp only [step] at hs
  split at hs
  · rename_i hm
    cases hs
    have hsup := beginStore_eq (h.inv hc) hm.2
    have e : beginStore { s with round := hd.round, primary := hd.round } hd =
        { s with round := hd.round, primary := hd.round, log := s.log ++ [.last hd],
                 phase := .storing hd (s.log.length + 1) } := by
      unfold beginStore; rw [if_pos hsup]
    rw [e]
    refine ⟨rfl, by simp, ?_⟩
    intro s'' h''
    simp only [step, if_true] at h''
    by_cases hp : s.log.length + 1 ≤ s.durable
    · rw [if_pos hp] at h''
      cases h''
      show Rec.last hd ∈ (s.log ++ [Rec.last hd]).take s.durable
      rw [List.take_of_length_le (by simpa using hp)]; simp
    · rw [if_neg hp] at h''; cases h''
  · cases hs

/-! ### A record that outlives its task is never processed again -/

/-- The certificate of digest `d` is recorded on disk and no task will pass it on internally. -/
def Held (d : Digest) (x : Certificate) (s : S) : Prop :=
  Rec.cert d x ∈ s.log.take s.durable ∧
  ∀ t ∈ s.tasks, t.h.digest = d → t.stage.isOpen = true ∨ t.stage = .done ∨ ∃ y, t.stage = .again y

theorem Held.setTask {d : Digest} {x : Certificate} {s : S} (h : Held d x s) {k : Nat} {t t' : Task}
    (ht : t'.h.digest = d → t'.stage.isOpen = true ∨ t'.stage = .done ∨ ∃ y, t'.stage = .again y) :
    Held d x (setTask s k t') := by
  refine ⟨h.1, ?_⟩
  intro u hu e
  rcases List.mem_or_eq_of_mem_set hu with hu | hu
  · exact h.2 u hu e
  · subst hu; exact ht e

theorem feed_log {E : Env} {log : List Rec} {h : Header} {st : VotesAgg} {v : Vote} {ok : Bool} :
    (feed E log h st v ok).1 = log ∨ ∃ x, (feed E log h st v ok).1 = log ++ [.cert h.digest x] := by
  unfold feed
  split
  · exact .inl rfl
  · exact .inl rfl
  · split
    · exact .inr ⟨_, rfl⟩
    · exact .inl rfl

theorem Held.log {d : Digest} {x : Certificate} {s : S} {l : List Rec} (h : Held d x s)
    (hl : l = s.log ∨ ∃ r, l = s.log ++ [r]) : Held d x { s with log := l } := by
  refine ⟨?_, h.2⟩
  rcases hl with rfl | ⟨r, rfl⟩
  · exact h.1
  · exact mem_take_append h.1

/-- One step: the record stays, and nothing new about the header is passed on internally. -/
theorem Held.step {E : Env} {s s' : S} {d : Digest} {x : Certificate} {e : Ev} (i : Inv E s)
    (h : Held d x s) (hs : step E s e = some s') :
    Held d x s' ∧ ∀ w y, (w, y) ∈ s'.ext → w ≠ .again → y.header.digest = d → (w, y) ∈ s.ext := by
  have frame : ∀ s2 : S, s2.ext = s.ext → Held d x s2 →
      Held d x s2 ∧ ∀ w y, (w, y) ∈ s2.ext → w ≠ .again → y.header.digest = d → (w, y) ∈ s.ext :=
    fun s2 he hh => ⟨hh, fun w y hy _ _ => by rw [he] at hy; exact hy⟩
  have held_mem : ∀ t ∈ s.tasks, t.h.digest = d → t.stage.active = true → t.stage.isOpen = true := by
    intro t ht e ha
    rcases h.2 t ht e with h1 | h1 | ⟨y, h1⟩
    · exact h1
    · rw [h1] at ha; cases ha
    · rw [h1] at ha; cases ha
  have store : ∀ (s1 : S) hd, s1.log = s.log → s1.durable = s.durable → s1.tasks = s.tasks → s1.ext = s.ext →
      (beginStore s1 hd).ext = s.ext ∧ Held d x (beginStore s1 hd) := by
    intro s1 hd e1 e2 e3 e4
    unfold beginStore
    split
    · refine ⟨e4, ?_, ?_⟩
      · show _ ∈ (s1.log ++ _).take s1.durable
        rw [e1, e2]; exact mem_take_append h.1
      · show ∀ t ∈ s1.tasks, _
        rw [e3]; exact h.2
    · refine ⟨e4, ?_, ?_⟩
      · show _ ∈ s1.log.take s1.durable
        rw [e1, e2]; exact h.1
      · show ∀ t ∈ s1.tasks, _
        rw [e3]; exact h.2
  cases e with
  | propose hd =>
    simp only [Crt.step] at hs
    split at hs
    · cases hs
      have := store { s with round := hd.round, primary := hd.round } hd rfl rfl rfl rfl
      exact frame _ this.1 this.2
    · cases hs
  | repropose =>
    simp only [Crt.step] at hs
    split at hs
    · rename_i hd _
      split at hs
      · cases hs
        have := store s hd rfl rfl rfl rfl
        exact frame _ this.1 this.2
      · cases hs
    · cases hs
  | stored ok =>
    simp only [Crt.step] at hs
    split at hs
    · split at hs
      · split at hs
        · cases hs; exact frame _ rfl ⟨h.1, h.2⟩
        · cases hs
      · cases hs; exact frame _ rfl ⟨h.1, h.2⟩
    · cases hs
  | send =>
    simp only [Crt.step] at hs
    split at hs
    · cases hs; exact frame _ rfl ⟨h.1, h.2⟩
    · cases hs
  | flush n =>
    simp only [Crt.step] at hs
    split at hs
    · rename_i hn
      cases hs
      exact frame _ rfl ⟨mem_take_mono hn.1 h.1, h.2⟩
    · cases hs
  | recv =>
    simp only [Crt.step] at hs
    split at hs
    · cases hs
      refine frame _ rfl ⟨h.1, ?_⟩
      intro t ht e
      rcases List.mem_append.mp ht with ht | ht
      · obtain ⟨t0, h0, e0⟩ := List.mem_map.mp ht
        rw [← e0, notice_stage]
        exact h.2 t0 h0 (by rw [← e, ← e0, notice_h])
      · rw [List.mem_singleton.mp ht]; exact .inl rfl
    · cases hs
  | start k =>
    simp only [Crt.step] at hs
    split at hs
    · rename_i t hk
      split at hs
      · cases hs
        exact frame _ rfl (h.setTask (t := t) (fun _ => .inl rfl))
      · cases hs
    · cases hs
  | acquire k ok =>
    simp only [Crt.step] at hs
    split at hs
    · rename_i t hk
      split at hs
      · cases hs
        refine frame _ rfl ?_
        unfold Crt.acquire
        cases hf : findCert s.log t.h.digest with
        | some y => exact h.setTask (t := t) (fun _ => .inr (.inr ⟨y, rfl⟩))
        | none =>
          have hne : t.h.digest ≠ d := by
            intro e
            rw [e] at hf
            exact findCert_none hf x (List.mem_of_mem_take h.1)
          dsimp only
          split
          · exact h.setTask (t := t) (fun _ => .inr (.inl rfl))
          · split
            · exact h.setTask (t := t) (fun _ => .inr (.inl rfl))
            · have hl := feed_log (E := E) (log := s.log) (h := t.h) (st := {}) (v := ownVote E t.h) (ok := ok)
              refine (h.setTask (k := k) (t := t)
                (t' := { t with stage := (feed E s.log t.h {} (ownVote E t.h) ok).2 }) (fun e => absurd e hne)).log ?_
              rcases hl with e | ⟨y, e⟩
              · exact .inl e
              · exact .inr ⟨_, e⟩
      · cases hs
    · cases hs
  | vote k v ok =>
    simp only [Crt.step] at hs
    split at hs
    · rename_i t hk
      split at hs
      · rename_i st hst
        cases hs
        have hne : t.h.digest ≠ d := by
          intro e
          have := held_mem t (List.mem_of_getElem? hk) e (by rw [hst]; rfl)
          rw [hst] at this; cases this
        refine frame _ rfl ?_
        have hl := feed_log (E := E) (log := s.log) (h := t.h) (st := st) (v := v) (ok := ok)
        refine (h.setTask (k := k) (t := t)
          (t' := { t with stage := (feed E s.log t.h st v ok).2 }) (fun e => absurd e hne)).log ?_
        rcases hl with e | ⟨y, e⟩
        · exact .inl e
        · exact .inr ⟨_, e⟩
      · cases hs
    · cases hs
  | exhausted k =>
    simp only [Crt.step] at hs
    split at hs
    · rename_i t hk
      split at hs
      · cases hs; exact frame _ rfl (h.setTask (t := t) (fun _ => .inr (.inl rfl)))
      · cases hs
    · cases hs
  | cancel k =>
    simp only [Crt.step] at hs
    split at hs
    · rename_i t hk
      split at hs
      · split at hs
        · cases hs; exact frame _ rfl (h.setTask (t := t) (fun _ => .inr (.inl rfl)))
        · cases hs
      · cases hs
    · cases hs
  | ack k ok =>
    simp only [Crt.step] at hs
    split at hs
    · rename_i t hk
      split at hs
      · rename_i y pos hst
        have hne : t.h.digest ≠ d := by
          intro e
          rcases h.2 t (List.mem_of_getElem? hk) e with h1 | h1 | ⟨z, h1⟩ <;> rw [hst] at h1 <;> cases h1
        split at hs
        · split at hs
          · cases hs; exact frame _ rfl (h.setTask (t := t) (fun e => absurd e hne))
          · cases hs
        · cases hs; exact frame _ rfl (h.setTask (t := t) (fun _ => .inr (.inl rfl)))
      · cases hs
    · cases hs
  | process k ok =>
    simp only [Crt.step] at hs
    split at hs
    · rename_i t hk
      split at hs
      · rename_i y hst
        have hm := List.mem_of_getElem? hk
        have hne : t.h.digest ≠ d := by
          intro e
          rcases h.2 t hm e with h1 | h1 | ⟨z, h1⟩ <;> rw [hst] at h1 <;> cases h1
        have ti := (i.task t hm).2
        unfold TInv at ti
        rw [hst] at ti
        have hyd := (i.wf _ _ (List.mem_of_mem_take ti.1)).1
        cases hs
        have j := h.setTask (k := k) (t := t) (t' := { t with stage := if ok then Stage.processed y else .done })
          (fun e => absurd e hne)
        refine ⟨⟨j.1, j.2⟩, ?_⟩
        intro w z hz _ e
        rcases List.mem_cons.mp hz with hz | hz
        · cases hz; exact absurd (hyd.symm.trans e) hne
        · exact hz
      · cases hs
    · cases hs
  | publish k =>
    simp only [Crt.step] at hs
    split at hs
    · rename_i t hk
      have hm := List.mem_of_getElem? hk
      have ti := (i.task t hm).2
      unfold TInv at ti
      have j := h.setTask (k := k) (t := t) (t' := { t with stage := .done }) (fun _ => .inr (.inl rfl))
      split at hs
      · rename_i y hst
        have hne : t.h.digest ≠ d := by
          intro e
          rcases h.2 t hm e with h1 | h1 | ⟨z, h1⟩ <;> rw [hst] at h1 <;> cases h1
        rw [hst] at ti
        have hyd := (i.wf _ _ (List.mem_of_mem_take ti.1)).1
        cases hs
        refine ⟨⟨j.1, j.2⟩, ?_⟩
        intro w z hz _ e
        rcases List.mem_cons.mp hz with hz | hz
        · cases hz; exact absurd (hyd.symm.trans e) hne
        · exact hz
      · cases hs
        refine ⟨⟨j.1, j.2⟩, ?_⟩
        intro w z hz hw _
        rcases List.mem_cons.mp hz with hz | hz
        · cases hz; exact absurd rfl hw
        · exact hz
      · cases hs
    · cases hs
  | primary p =>
    simp only [Crt.step] at hs
    split at hs
    · cases hs; exact frame _ rfl ⟨h.1, h.2⟩
    · cases hs
  | restart p =>
    simp only [Crt.step] at hs
    cases hs
    exact frame _ rfl ⟨h.1, fun t ht => by cases ht⟩
  | crash k p =>
    simp only [Crt.step] at hs
    split at hs
    · rename_i hk
      cases hs
      refine frame _ rfl ⟨?_, fun t ht => by cases ht⟩
      show _ ∈ (s.log.take k).take k
      rw [List.take_take, Nat.min_self]
      exact mem_take_mono hk.1 h.1
    · cases hs

/-- C98 (k): a certificate that is on disk when the node crashes or restarts is afterwards only ever
published again: if it had not been handed to the node's own consensus before, it never will be by the
certifier. -/
theorem recorded_never_processed {E : Env} (hc : E.c.WF) {s s1 s' : S} {e : Ev} {es : List Ev}
    (h : Reach E s) (he : (∃ p, e = .restart p) ∨ ∃ k p, e = .crash k p)
    (h1 : step E s e = some s1) {d : Digest} {x : Certificate}
    (hx : Rec.cert d x ∈ s.log.take s.durable) (hr : runs E s1 es = some s') :
    ∀ w y, (w, y) ∈ s'.ext → w ≠ .again → y.header.digest = d → (w, y) ∈ s.ext := by
  have held : Held d x s1 ∧ s1.ext = s.ext := by
    rcases he with ⟨p, rfl⟩ | ⟨k, p, rfl⟩
    · simp only [step] at h1
      cases h1
      exact ⟨⟨hx, fun t ht => by cases ht⟩, rfl⟩
    · simp only [step] at h1
      split at h1
      · rename_i hk
        cases h1
        refine ⟨⟨?_, fun t ht => by cases ht⟩, rfl⟩
        show _ ∈ (s.log.take k).take k
        rw [List.take_take, Nat.min_self]
        exact mem_take_mono hk.1 hx
      · cases h1
  have i1 := (h.inv hc).step hc h1
  rw [← held.2]
  have hh := held.1
  clear h1 held he hx h
  induction es generalizing s1 with
  | nil => cases hr; exact fun w y hy _ _ => hy
  | cons e es ih =>
    obtain ⟨s2, h2, h3⟩ := Option.bind_eq_some_iff.mp hr
    have := hh.step i1 h2
    intro w y hy hw hd
    exact this.2 w y (ih h3 (i1.step hc h2) this.1 w y hy hw hd) hw hd

end Verif.Crt
