import Verif.Proposer.Certifier
import Mathlib.Data.List.Induction
import Mathlib.Tactic.Common
/-
Invariants of the certifier and what they give: see `Verif/Proposer/Certifier.lean` for the model.
-/
namespace Verif.Crt

open Verif

/-! ### Reading the log -/

theorem certKeys_append (l : List Rec) (r : Rec) :
    certKeys (l ++ [r]) = certKeys l ++ certKeys [r] := by simp [certKeys]

theorem mem_certKeys {l : List Rec} {d : Digest} : d ∈ certKeys l ↔ ∃ x, Rec.cert d x ∈ l := by
  simp only [certKeys, List.mem_filterMap]
  constructor
  · rintro ⟨r, hr, e⟩
    cases r with
    | cert d' x => simp only [Option.some.injEq] at e; subst e; exact ⟨x, hr⟩
    | last h => simp at e
  · rintro ⟨x, hx⟩; exact ⟨_, hx, rfl⟩

theorem cert_unique {l : List Rec} (hn : (certKeys l).Nodup) {d : Digest} {x y : Certificate}
    (hx : Rec.cert d x ∈ l) (hy : Rec.cert d y ∈ l) : x = y := by
  induction l with
  | nil => simp at hx
  | cons r l ih =>
    have hl : (certKeys l).Nodup := by
      cases r with
      | cert d' z => exact (List.nodup_cons.mp (show (d' :: certKeys l).Nodup from hn)).2
      | last h => exact hn
    rcases List.mem_cons.mp hx with e | hx'
    · rcases List.mem_cons.mp hy with e' | hy'
      · rw [← e] at e'; injection e' with _ e2; exact e2.symm
      · subst e
        exact absurd (mem_certKeys.mpr ⟨y, hy'⟩) (List.nodup_cons.mp (show (d :: certKeys l).Nodup from hn)).1
    · rcases List.mem_cons.mp hy with e' | hy'
      · subst e'
        exact absurd (mem_certKeys.mpr ⟨x, hx'⟩) (List.nodup_cons.mp (show (d :: certKeys l).Nodup from hn)).1
      · exact ih hl hx' hy'

theorem findCert_some {l : List Rec} {d : Digest} {x : Certificate} (h : findCert l d = some x) :
    Rec.cert d x ∈ l := by
  have := List.mem_of_getLast? h
  obtain ⟨r, hr, e⟩ := List.mem_filterMap.mp this
  cases r with
  | cert d' y =>
    simp only [Rec.certFor] at e
    split at e
    · rename_i e'; subst e'; cases e; exact hr
    · cases e
  | last h => cases e

theorem findCert_none {l : List Rec} {d : Digest} (h : findCert l d = none) (x : Certificate) :
    Rec.cert d x ∉ l := by
  intro hx
  have h' := List.getLast?_eq_none_iff.mp h
  have : x ∈ l.filterMap (Rec.certFor d) := List.mem_filterMap.mpr ⟨_, hx, by simp [Rec.certFor]⟩
  rw [h'] at this; simp at this

theorem mem_take_mono {l : List Rec} {a b : Nat} (h : a ≤ b) {r : Rec} (hr : r ∈ l.take a) : r ∈ l.take b :=
  (List.take_prefix_take_left (l := l) h).subset hr

theorem mem_take_append {l l' : List Rec} {a : Nat} {r : Rec} (hr : r ∈ l.take a) : r ∈ (l ++ l').take a := by
  rw [List.take_append]; exact List.mem_append_left _ hr

/-! ### The invariant -/

/-- The certificate was made from votes for its header, the own vote first. -/
def Prov (E : Env) (x : Certificate) : Prop :=
  ∃ vs v, (vs ++ [v]).head? = some (ownVote E x.header) ∧
    (VotesAgg.append E.B (VotesAgg.run E.B E.c x.header {} vs).1 v E.c x.header).2 = .ok (some x)

/-- What the stage of a task guarantees. -/
def TInv (E : Env) (log : List Rec) (durable : Nat) (t : Task) : Prop :=
  match t.stage with
  | .collecting st => t.h.epoch = E.c.epoch ∧ (∀ x, Rec.cert t.h.digest x ∉ log) ∧
      ∃ vs, vs.head? = some (ownVote E t.h) ∧ st = (VotesAgg.run E.B E.c t.h {} vs).1
  | .again x => Rec.cert t.h.digest x ∈ log
  | .barrier x pos => Rec.cert t.h.digest x ∈ log.take pos ∧ x.header.epoch = E.c.epoch
  | .durable x | .processed x => Rec.cert t.h.digest x ∈ log.take durable ∧ x.header.epoch = E.c.epoch
  | _ => True

/-- Order of `LastProposed` writes: once a header of this epoch is stored, later ones are of this epoch and
of no lower round. -/
def LR (E : Env) (r r' : Rec) : Prop :=
  ∀ h h', r = .last h → r' = .last h' → h.epoch = E.c.epoch → h'.epoch = E.c.epoch ∧ h.round ≤ h'.round

/-- The invariant. -/
structure Inv (E : Env) (s : S) : Prop where
  dl : s.durable ≤ s.log.length
  uniq : (certKeys s.log).Nodup
  wf : ∀ d x, Rec.cert d x ∈ s.log → x.header.digest = d ∧
    (x.header.epoch = E.c.epoch → Prov E x ∧ x.header ∈ s.handed)
  lock : ∀ (i j : Nat) t u, s.tasks[i]? = some t → s.tasks[j]? = some u → t.stage.locked = true →
    u.stage.locked = true → i = j
  task : ∀ t ∈ s.tasks, t.h ∈ s.handed ∧ TInv E s.log s.durable t
  que : ∀ h ∈ s.queue, h ∈ s.handed
  ext : ∀ w x, (w, x) ∈ s.ext → (w ≠ How.again ∨ s.early = false) →
    Rec.cert x.header.digest x ∈ s.log.take s.durable
  extp : ∀ w x, (w, x) ∈ s.ext → x.header.epoch = E.c.epoch → Prov E x ∧ x.header ∈ s.handed
  own : ∀ w x, (w, x) ∈ s.ext → w ≠ How.again → x.header.epoch = E.c.epoch
  lasts : s.log.Pairwise (LR E)
  bound : ∀ h, Rec.last h ∈ s.log → h.epoch = E.c.epoch → h.round ≤ max (s.round + 1) s.primary

theorem lastProposed_some {l : List Rec} {h : Header} (hl : lastProposed l = some h) :
    ∃ l1 l2, l = l1 ++ Rec.last h :: l2 ∧ ∀ h', Rec.last h' ∉ l2 := by
  induction l using List.reverseRecOn with
  | nil => simp [lastProposed] at hl
  | append_singleton l r ih =>
    cases r with
    | last h' =>
      simp only [lastProposed, List.filterMap_append, List.filterMap_cons, Rec.lastOf, List.filterMap_nil,
        List.getLast?_append, List.getLast?_singleton, Option.some_or, Option.some.injEq] at hl
      subst hl
      exact ⟨l, [], rfl, by simp⟩
    | cert d x =>
      have : lastProposed (l ++ [Rec.cert d x]) = lastProposed l := by
        simp [lastProposed, Rec.lastOf]
      rw [this] at hl
      obtain ⟨l1, l2, e, hn⟩ := ih hl
      exact ⟨l1, l2 ++ [Rec.cert d x], by rw [e]; simp, by
        intro h' hm
        rcases List.mem_append.mp hm with hm | hm
        · exact hn h' hm
        · simp at hm⟩

theorem lastProposed_mem {l : List Rec} {h : Header} (hl : lastProposed l = some h) : Rec.last h ∈ l := by
  obtain ⟨l1, l2, e, -⟩ := lastProposed_some hl
  rw [e]; simp

theorem lastProposed_none {l : List Rec} (hl : lastProposed l = none) (h : Header) : Rec.last h ∉ l := by
  intro hm
  have h' := List.getLast?_eq_none_iff.mp hl
  have : h ∈ l.filterMap Rec.lastOf := List.mem_filterMap.mpr ⟨_, hm, rfl⟩
  rw [h'] at this; simp at this

/-- The stored header is the highest of this epoch. -/
theorem lastProposed_top {E : Env} {l : List Rec} (hp : l.Pairwise (LR E)) {w : Header}
    (hw : lastProposed l = some w) {h : Header} (hm : Rec.last h ∈ l) (he : h.epoch = E.c.epoch) :
    w.epoch = E.c.epoch ∧ h.round ≤ w.round := by
  obtain ⟨l1, l2, e, hn⟩ := lastProposed_some hw
  rw [e] at hm hp
  rcases List.mem_append.mp hm with hm | hm
  · exact (List.pairwise_append.mp hp).2.2 _ hm _ (by simp) h w rfl rfl he
  · rcases List.mem_cons.mp hm with hm | hm
    · injection hm with hm; subst hm; exact ⟨he, le_refl _⟩
    · exact absurd hm (hn h)

theorem recovered_bound {E : Env} {l : List Rec} (hp : l.Pairwise (LR E)) (p : Nat) {h : Header}
    (hm : Rec.last h ∈ l) (he : h.epoch = E.c.epoch) : h.round ≤ max (recovered E l p + 1) p := by
  unfold recovered
  cases hw : lastProposed l with
  | none => exact absurd hm (lastProposed_none hw h)
  | some w =>
    obtain ⟨e1, e2⟩ := lastProposed_top hp hw hm he
    simp only [e1, if_true]
    split <;> omega

/-! ### Frames -/

theorem TInv.log {E : Env} {log : List Rec} {n : Nat} {t : Task} (h : TInv E log n t) (r : Rec)
    (hr : ∀ st, t.stage = .collecting st → ∀ x, r ≠ Rec.cert t.h.digest x) : TInv E (log ++ [r]) n t := by
  unfold TInv at h ⊢
  split
  · rename_i st e
    rw [e] at h
    refine ⟨h.1, ?_, h.2.2⟩
    intro x hx
    rcases List.mem_append.mp hx with hx | hx
    · exact h.2.1 x hx
    · exact hr st e x (List.mem_singleton.mp hx).symm
  · rename_i e; rw [e] at h; exact List.mem_append_left _ h
  · rename_i e; rw [e] at h; exact ⟨mem_take_append h.1, h.2⟩
  · rename_i e; rw [e] at h; exact ⟨mem_take_append h.1, h.2⟩
  · rename_i e; rw [e] at h; exact ⟨mem_take_append h.1, h.2⟩
  · trivial

theorem TInv.disk {E : Env} {log : List Rec} {n m : Nat} {t : Task} (h : TInv E log n t) (hnm : n ≤ m) :
    TInv E log m t := by
  unfold TInv at h ⊢
  split <;> rename_i e <;> simp only [e] at h
  all_goals first | exact h | exact ⟨mem_take_mono hnm h.1, h.2⟩

theorem Inv.beginStore {E : Env} {s : S} (i : Inv E s) (h : Header)
    (hb : h.epoch = E.c.epoch → h.round ≤ max (s.round + 1) s.primary)
    (ho : ∀ h0, Rec.last h0 ∈ s.log → h0.epoch = E.c.epoch → h.epoch = E.c.epoch ∧ h0.round ≤ h.round) :
    Inv E (beginStore s h) := by
  unfold Crt.beginStore
  split
  · refine { dl := ?_, uniq := ?_, wf := ?_, lock := i.lock, task := ?_, que := i.que, ext := ?_, extp := i.extp,
             own := i.own, lasts := ?_, bound := ?_ }
    · simp only [List.length_append]; have := i.dl; omega
    · rw [certKeys_append]; simpa [certKeys] using i.uniq
    · intro d x hx
      rcases List.mem_append.mp hx with hx | hx
      · exact i.wf d x hx
      · simp at hx
    · intro t ht
      exact ⟨(i.task t ht).1, (i.task t ht).2.log _ (by intro _ _ x; simp)⟩
    · intro w x hx hw; exact mem_take_append (i.ext w x hx hw)
    · refine List.pairwise_append.mpr ⟨i.lasts, by simp, ?_⟩
      intro a ha b hb' h1 h2 e1 e2 he
      rw [List.mem_singleton.mp hb'] at e2
      injection e2 with e2; subst e2; subst e1
      exact ho h1 ha he
    · intro h' hh he
      rcases List.mem_append.mp hh with hh | hh
      · exact i.bound h' hh he
      · injection (List.mem_singleton.mp hh) with e; subst e; exact hb he
  · exact { i with }

/-- Replacing a task by one that holds no lock (or held it before). -/
theorem Inv.setTask {E : Env} {s : S} (i : Inv E s) {k : Nat} {t t' : Task} (hk : s.tasks[k]? = some t)
    (hh : t'.h = t.h) (hl : t'.stage.locked = true → t.stage.locked = true ∨ lockFree s = true)
    (ht : TInv E s.log s.durable t') : Inv E (setTask s k t') := by
  refine { i with lock := ?_, task := ?_ }
  · intro a b u v hu hv lu lv
    simp only [Crt.setTask, List.getElem?_set] at hu hv
    have free : ∀ (c : Nat) (w : Task), s.tasks[c]? = some w → w.stage.locked = true → lockFree s = true → False := by
      intro c w hw lw hf
      have := List.all_eq_true.mp hf w (List.mem_of_getElem? hw)
      simp [lw] at this
    by_cases ea : k = a
    · by_cases eb : k = b
      · omega
      · rw [if_neg eb] at hv
        rw [if_pos ea] at hu
        split at hu
        · cases hu
          rcases hl lu with l | l
          · have := i.lock k b t v hk hv l lv; omega
          · exact (free b v hv lv l).elim
        · cases hu
    · rw [if_neg ea] at hu
      by_cases eb : k = b
      · rw [if_pos eb] at hv
        split at hv
        · cases hv
          rcases hl lv with l | l
          · have := i.lock a k u t hu hk lu l; omega
          · exact (free a u hu lu l).elim
        · cases hv
      · rw [if_neg eb] at hv; exact i.lock a b u v hu hv lu lv
  · intro u hu
    rcases List.mem_or_eq_of_mem_set hu with hu | hu
    · exact i.task u hu
    · subst hu; exact ⟨hh ▸ (i.task t (List.mem_of_getElem? hk)).1, ht⟩

theorem run_append' (B : Bls) (c : Committee) (h : Header) (st : VotesAgg) (vs : List Vote) (v : Vote) :
    (VotesAgg.run B c h st (vs ++ [v])).1 = (VotesAgg.append B (VotesAgg.run B c h st vs).1 v c h).1 := by
  induction vs generalizing st with
  | nil => rfl
  | cons u vs ih => exact ih _

/-- Appending a vote: the votes so far are `vs`, the own vote is the first of them or the one appended. -/
theorem Inv.feed {E : Env} (hc : E.c.WF) {s : S} (i : Inv E s) {k : Nat} {t : Task}
    (hk : s.tasks[k]? = some t) (hl : t.stage.locked = true ∨ lockFree s = true)
    (he : t.h.epoch = E.c.epoch) (hn : ∀ x, Rec.cert t.h.digest x ∉ s.log) (vs : List Vote) (v : Vote)
    (hv : (vs ++ [v]).head? = some (ownVote E t.h)) (ok : Bool) :
    Inv E { Crt.setTask s k { t with stage := (feed E s.log t.h (VotesAgg.run E.B E.c t.h {} vs).1 v ok).2 } with
              log := (feed E s.log t.h (VotesAgg.run E.B E.c t.h {} vs).1 v ok).1 } := by
  unfold Crt.feed
  have hcs := VotesAgg.append_cert_sound E.B E.c hc t.h vs v
  have hra := run_append' E.B E.c t.h {} vs v
  cases hap : VotesAgg.append E.B (VotesAgg.run E.B E.c t.h {} vs).1 v E.c t.h with
  | mk st' r =>
    have hcol : TInv E s.log s.durable { t with stage := Stage.collecting st' } :=
      ⟨he, hn, vs ++ [v], hv, by rw [hra, hap]⟩
    cases r with
    | error e => exact i.setTask hk rfl (fun _ => hl) hcol
    | ok o =>
      cases o with
      | none => exact i.setTask hk rfl (fun _ => hl) hcol
      | some x =>
        cases ok with
        | false => exact i.setTask (t' := { t with stage := .done }) hk rfl (fun h => by cases h) trivial
        | true =>
          have hx : x.header = t.h := (hcs x (by rw [hap])).2.2.2.2.2.2.2
          have j := i.setTask (t' := { t with stage := .done }) hk rfl (fun h => by cases h) trivial
          have hth : t.h ∈ s.handed := (i.task t (List.mem_of_getElem? hk)).1
          refine { dl := ?_, uniq := ?_, wf := ?_, lock := ?_, task := ?_, que := i.que, ext := ?_,
                   extp := i.extp, own := i.own, lasts := ?_, bound := ?_ }
          · show s.durable ≤ (s.log ++ [_]).length
            simp only [List.length_append]; have := i.dl; omega
          · show (certKeys (s.log ++ [_])).Nodup
            rw [certKeys_append]
            refine List.nodup_append.mpr ⟨i.uniq, by simp [certKeys], ?_⟩
            intro a ha b hb e
            simp only [certKeys, List.filterMap_cons, List.filterMap_nil, List.mem_singleton] at hb
            rw [e, hb] at ha
            obtain ⟨y, hy⟩ := mem_certKeys.mp ha
            exact hn y hy
          · intro d y hy
            rcases List.mem_append.mp hy with hy | hy
            · exact i.wf d y hy
            · injection (List.mem_singleton.mp hy) with e1 e2
              subst e1; subst e2
              exact ⟨by rw [hx], fun _ => ⟨⟨vs, v, by rw [hx]; exact hv, by rw [hx, hap]⟩, by rw [hx]; exact hth⟩⟩
          · intro a b u w hu hw lu lw
            refine j.lock a b (if a = k then { t with stage := .done } else u)
              (if b = k then { t with stage := .done } else w) ?_ ?_ ?_ ?_
            all_goals
              simp only [Crt.setTask, List.getElem?_set] at hu hw ⊢
            · by_cases ea : k = a
              · subst ea; rw [if_pos rfl] at hu
                split at hu
                · cases hu; simp [Stage.locked] at lu
                · cases hu
              · rw [if_neg ea] at hu ⊢; rw [if_neg (fun h => ea h.symm)]; exact hu
            · by_cases eb : k = b
              · subst eb; rw [if_pos rfl] at hw
                split at hw
                · cases hw; simp [Stage.locked] at lw
                · cases hw
              · rw [if_neg eb] at hw ⊢; rw [if_neg (fun h => eb h.symm)]; exact hw
            · by_cases ea : k = a
              · subst ea; rw [if_pos rfl] at hu
                split at hu
                · cases hu; simp [Stage.locked] at lu
                · cases hu
              · rw [if_neg (fun h => ea h.symm)]; exact lu
            · by_cases eb : k = b
              · subst eb; rw [if_pos rfl] at hw
                split at hw
                · cases hw; simp [Stage.locked] at lw
                · cases hw
              · rw [if_neg (fun h => eb h.symm)]; exact lw
          · intro u hu
            have hu' : u ∈ s.tasks.set k { t with stage := .barrier x (s.log.length + 1) } := hu
            by_cases eu : u = { t with stage := .barrier x (s.log.length + 1) }
            · subst eu
              refine ⟨hth, ?_⟩
              refine ⟨?_, by rw [hx]; exact he⟩
              show Rec.cert t.h.digest x ∈ (s.log ++ [Rec.cert t.h.digest x]).take (s.log.length + 1)
              rw [List.take_of_length_le (by simp)]; simp
            · obtain ⟨a, ha⟩ := List.mem_iff_getElem?.mp hu'
              rw [List.getElem?_set] at ha
              split at ha
              · split at ha
                · cases ha; exact absurd rfl eu
                · cases ha
              · rename_i hka
                have hm := List.mem_of_getElem? ha
                refine ⟨(i.task u hm).1, (i.task u hm).2.log _ ?_⟩
                intro st hst y _
                have lu : u.stage.locked = true := by rw [hst]; rfl
                rcases hl with l | l
                · exact hka (i.lock k a t u hk ha l lu)
                · have := List.all_eq_true.mp l u hm
                  simp [lu] at this
          · intro w y hy hw; exact mem_take_append (i.ext w y hy hw)
          · refine List.pairwise_append.mpr ⟨i.lasts, by simp, ?_⟩
            intro a _ b hb h1 h2 _ e2
            rw [List.mem_singleton.mp hb] at e2; cases e2
          · intro h' hh
            rcases List.mem_append.mp hh with hh | hh
            · exact i.bound h' hh
            · simp at hh

end Verif.Crt
