import Verif.Epoch.DiskInv
/-
Property C104: the theorems about the database of epoch records on the disk.
-/
namespace Verif
namespace EDisk
open CertPack (Inner Snap Seg SaveOut Restart total header fileLen recAt cutSeg atSeg)

/-! ### What the events hand over -/

/-- The record an event hands over. -/
def Ev.record? : Ev → Option Rec
  | .record r _ => some r
  | .both r _ _ _ => some r
  | _ => none

/-- The certificate an event hands over, under the digest it is filed under. -/
def Ev.cert? : Ev → Option Rec
  | .cert c _ => some c
  | .both r c _ _ => some { c with digest := r.digest }
  | _ => none

/-- Not a restart. -/
def Ev.live : Ev → Prop
  | .restart _ => False
  | _ => True

/-- No restart at which an interrupted split of the digest index loses the entry of `k` (see `Hdx.split_crash_loses`). -/
def Ev.spares (k : Nat) : Ev → Prop
  | .restart f => f.rc.lost k = false
  | _ => True

/-! ### Histories -/

/-- One event: the kept records stay, new ones are handed over, and without a restart all stay. -/
theorem step_inv {ep : Rec → Nat} {saved : List Rec} {kept : Nat} {d : Disk} (h : Inv ep saved kept d) {e : Ev}
    (he : e.Legal d) : ∃ saved' : List Rec, Inv ep saved' kept (step ep d e).1 ∧
      saved'.take kept = saved.take kept ∧ (∀ c ∈ saved', c ∈ saved ∨ e.record? = some c) ∧
      (e.live → saved <+: saved') := by
  have hrec : ∀ (r : Rec) (o : RecOut), ∃ saved' : List Rec, Inv ep saved' kept (d.saveRecord ep r o).1 ∧
      saved'.take kept = saved.take kept ∧ (∀ c ∈ saved', c ∈ saved ∨ some r = some c) ∧ saved <+: saved' := by
    intro r o
    rcases saveRecord_inv h r o with ⟨h1, _⟩ | ⟨h1, _, _⟩
    · exact ⟨saved, h1, rfl, fun c hc => Or.inl hc, List.prefix_rfl⟩
    · refine ⟨saved ++ [r], h1, ?_, ?_, List.prefix_append _ _⟩
      · exact List.take_append_of_le_length h.kp.2
      · intro c hc
        rcases List.mem_append.1 hc with hc | hc
        · exact Or.inl hc
        · rw [List.mem_singleton.1 hc]; exact Or.inr rfl
  cases e with
  | record r o =>
    obtain ⟨s', h1, h2, h3, h4⟩ := hrec r o
    exact ⟨s', h1, h2, h3, fun _ => h4⟩
  | cert c o => exact ⟨saved, saveCert_inv h c o, rfl, fun c hc => Or.inl hc, fun _ => List.prefix_rfl⟩
  | both r c o oc =>
    obtain ⟨s', h1, h2, h3, h4⟩ := hrec r o
    refine ⟨s', ?_, h2, h3, fun _ => h4⟩
    show Inv ep s' kept (d.save ep r c o oc).1
    unfold Disk.save
    split
    · rename_i d' x hd
      rw [hd] at h1
      exact h1
    · rename_i d' hd
      rw [hd] at h1
      exact saveCert_inv h1 _ _
  | persist o => exact ⟨saved, (persist_inv h o).1, rfl, fun c hc => Or.inl hc, fun _ => List.prefix_rfl⟩
  | restart f =>
    obtain ⟨m, hm, h1⟩ := reopen_inv h he
    refine ⟨saved.take m, h1, ?_, fun c hc => Or.inl (List.mem_of_mem_take hc), fun h' => h'.elim⟩
    rw [List.take_take, Nat.min_eq_left hm]

theorem steps_inv {ep : Rec → Nat} {d t : Disk} {es : List Ev} (h : Steps ep d es t) : ∀ {saved : List Rec} {kept : Nat},
    Inv ep saved kept d → ∃ saved' : List Rec, Inv ep saved' kept t ∧ saved'.take kept = saved.take kept ∧
      (∀ c ∈ saved', c ∈ saved ∨ ∃ e ∈ es, e.record? = some c) ∧ ((∀ e ∈ es, e.live) → saved <+: saved') := by
  induction h with
  | nil d => intro saved kept hi; exact ⟨saved, hi, rfl, fun c hc => Or.inl hc, fun _ => List.prefix_rfl⟩
  | cons he _ ih =>
    intro saved kept hi
    obtain ⟨s1, a1, a2, a3, a4⟩ := step_inv hi he
    obtain ⟨s2, b1, b2, b3, b4⟩ := ih a1
    refine ⟨s2, b1, by rw [b2, a2], ?_, ?_⟩
    · intro c hc
      rcases b3 c hc with hc | ⟨e, he, hc⟩
      · rcases a3 c hc with hc | hc
        · exact Or.inl hc
        · exact Or.inr ⟨_, List.mem_cons_self, hc⟩
      · exact Or.inr ⟨e, List.mem_cons_of_mem _ he, hc⟩
    · intro hl
      exact (a4 (hl _ List.mem_cons_self)).trans (b4 fun e he => hl e (List.mem_cons_of_mem _ he))

/-- The state after a history from a new database. -/
theorem reach {ep : Rec → Nat} {t : Disk} {es : List Ev} (h : Steps ep Disk.new es t) :
    ∃ saved : List Rec, Inv ep saved 0 t ∧ ∀ c ∈ saved, ∃ e ∈ es, e.record? = some c := by
  obtain ⟨s, h1, _, h3, _⟩ := steps_inv h (Inv.new ep)
  refine ⟨s, h1, fun c hc => ?_⟩
  rcases h3 c hc with hc | hc
  · cases hc
  · exact hc

/-! ### Records by epoch -/

/-- What is read for an epoch is a record of that epoch, and it was handed over. -/
theorem read_is_own {ep : Rec → Nat} {t : Disk} {es : List Ev} (h : Steps ep Disk.new es t) {e : Nat} {r : Rec}
    (hr : t.recordByEpoch e = some r) : ep r = e ∧ ∃ x ∈ es, x.record? = some r := by
  obtain ⟨s, hi, hs⟩ := reach h
  rw [hi.byEpoch] at hr
  refine ⟨?_, hs r (List.mem_of_getElem? hr)⟩
  have hl : e < t.pos.length := by rw [hi.len]; exact (List.getElem?_eq_some_iff.mp hr).1
  exact (hi.rec_ e _ r (List.getElem?_eq_getElem hl) hr).1

/-- There are no gaps. -/
theorem no_gaps {ep : Rec → Nat} {t : Disk} {es : List Ev} (h : Steps ep Disk.new es t) {e : Nat} {r : Rec}
    (hr : t.recordByEpoch e = some r) {e' : Nat} (he : e' ≤ e) : ∃ r', t.recordByEpoch e' = some r' := by
  obtain ⟨s, hi, hs⟩ := reach h
  rw [hi.byEpoch] at hr
  have hl := (List.getElem?_eq_some_iff.mp hr).1
  exact ⟨s[e'], by rw [hi.byEpoch]; exact List.getElem?_eq_getElem (by omega)⟩

/-- The record of an epoch is the first that was stored: any other is taken without error, and nothing changes. -/
theorem first_wins {ep : Rec → Nat} {t : Disk} {es : List Ev} (h : Steps ep Disk.new es t) {r r' : Rec}
    (hr : t.recordByEpoch (ep r') = some r) (o : RecOut) : t.saveRecord ep r' o = (t, none) := by
  obtain ⟨s, hi, hs⟩ := reach h
  rw [hi.byEpoch] at hr
  have hl : ep r' < t.pos.length := by rw [hi.len]; exact (List.getElem?_eq_some_iff.mp hr).1
  unfold Disk.saveRecord
  rw [if_pos hl]

/-- While the node runs, a record that was read for an epoch is read for it ever after. -/
theorem stays {ep : Rec → Nat} {s t : Disk} {as bs : List Ev} (ha : Steps ep Disk.new as s) (hb : Steps ep s bs t)
    (hl : ∀ x ∈ bs, x.live) {e : Nat} {r : Rec} (hr : s.recordByEpoch e = some r) : t.recordByEpoch e = some r := by
  obtain ⟨sv, hi, _⟩ := reach ha
  obtain ⟨s2, h1, _, _, h4⟩ := steps_inv hb hi
  obtain ⟨m, hm⟩ := h4 hl
  rw [hi.byEpoch] at hr
  rw [h1.byEpoch, ← hm, List.getElem?_append_left (List.getElem?_eq_some_iff.mp hr).1]
  exact hr

/-- A save without error: the record is stored, or the epoch has one already. -/
theorem saved_is_stored {ep : Rec → Nat} {t : Disk} {es : List Ev} (h : Steps ep Disk.new es t) {r : Rec} {o : RecOut}
    (ho : (t.saveRecord ep r o).2 = none) :
    (∃ r', t.recordByEpoch (ep r) = some r') ∨
    (t.recordByEpoch (ep r) = none ∧ (t.saveRecord ep r o).1.recordByEpoch (ep r) = some r) := by
  obtain ⟨s, hi, hs⟩ := reach h
  rcases saveRecord_inv hi r o with ⟨h1, h2⟩ | ⟨h1, _, h3⟩
  · left
    exact ⟨s[ep r]'(h2 ho), by rw [hi.byEpoch]; exact List.getElem?_eq_getElem (h2 ho)⟩
  · right
    refine ⟨?_, ?_⟩
    · rw [hi.byEpoch, h3]; exact List.getElem?_eq_none_iff.mpr (Nat.le_refl _)
    · rw [h1.byEpoch, h3]; simp

/-- A save with an error, and a save for an epoch that is not the next, change no record that can be read. -/
theorem failed_save_same {ep : Rec → Nat} {t : Disk} {es : List Ev} (h : Steps ep Disk.new es t) {r : Rec} {o : RecOut}
    (ho : (t.saveRecord ep r o).2 ≠ none) (e : Nat) :
    (t.saveRecord ep r o).1.recordByEpoch e = t.recordByEpoch e := by
  obtain ⟨s, hi, hs⟩ := reach h
  rcases saveRecord_inv hi r o with ⟨h1, h2⟩ | ⟨_, h2, _⟩
  · rw [h1.byEpoch, hi.byEpoch]
  · exact absurd h2 ho

/-- A record is refused unless the record before it is stored. -/
theorem in_order {ep : Rec → Nat} {t : Disk} {es : List Ev} (h : Steps ep Disk.new es t) {r : Rec} {n : Nat}
    (hr : ep r = n + 1) (hn : t.recordByEpoch n = none) (o : RecOut) :
    (t.saveRecord ep r o).1 = t ∧ ∃ want, (t.saveRecord ep r o).2 = some (.outOfOrder want (n + 1)) ∧ want ≤ n := by
  obtain ⟨s, hi, hs⟩ := reach h
  rw [hi.byEpoch] at hn
  have hl := List.getElem?_eq_none_iff.mp hn
  rw [← hi.len] at hl
  unfold Disk.saveRecord
  rw [if_neg (by omega), if_pos (by omega), hr]
  exact ⟨rfl, _, rfl, hl⟩

/-- The next record is stored whenever the disk works and the file did not fail before; it is always so after a restart. -/
theorem next_is_taken {ep : Rec → Nat} {t : Disk} {es : List Ev} (h : Steps ep Disk.new es t) {r : Rec}
    (h0 : t.recordByEpoch (ep r) = none) (h1 : ∀ n, ep r = n + 1 → t.recordByEpoch n ≠ none)
    (hf : t.recs.failed = none) (extra : Nat → Bool) :
    (t.saveRecord ep r (.low (.fine extra))).2 = none ∧
      (t.saveRecord ep r (.low (.fine extra))).1.recordByEpoch (ep r) = some r := by
  obtain ⟨s, hi, hs⟩ := reach h
  have h0' := h0
  rw [hi.byEpoch] at h0
  have hl := List.getElem?_eq_none_iff.mp h0
  have he : ep r = t.pos.length := by
    rw [hi.len]
    cases hn : ep r with
    | zero => omega
    | succ n =>
      have := h1 n hn
      rw [hi.byEpoch] at this
      have : n < s.length := by
        by_contra hx
        exact this (List.getElem?_eq_none_iff.mpr (by omega))
      omega
  have hok : (t.saveRecord ep r (.low (.fine extra))).2 = none := by
    unfold Disk.saveRecord
    rw [if_neg (by omega), if_neg (by omega), hf]
  refine ⟨hok, ?_⟩
  rcases saved_is_stored h hok with ⟨r', h'⟩ | ⟨_, h'⟩
  · rw [h0'] at h'; cases h'
  · exact h'

theorem restart_clears (d : Disk) (f : Found) : (d.reopen f).recs.failed = none ∧ (d.reopen f).certs.failed = none :=
  ⟨rfl, rfl⟩

/-- A restart loses at most a tail of the records. -/
theorem restart_prefix {ep : Rec → Nat} {t : Disk} {es : List Ev} (h : Steps ep Disk.new es t) {f : Found} (hf : f.Legal t) :
    ∃ m : Nat, ∀ e, (t.reopen f).recordByEpoch e = if e < m then t.recordByEpoch e else none := by
  obtain ⟨s, hi, hs⟩ := reach h
  obtain ⟨m, _, h1⟩ := reopen_inv hi hf
  refine ⟨m, fun e => ?_⟩
  rw [h1.byEpoch, hi.byEpoch, List.getElem?_take]

/-- After a restart the data file ends with the last record of the position index: no damaged bytes are left behind it, and
the next record follows it at once. -/
theorem restart_no_tail (d : Disk) (f : Found) {p : Nat} {c : Rec} (hp : (d.reopen f).pos.getLast? = some p)
    (hc : recAt (d.reopen f).recs.file p = some c) : fileLen (d.reopen f).recs.file = p + c.len := by
  have hpos : (d.reopen f).pos = (healRecords (d.foundFile f) (d.pos.take (max d.dpos f.entries) ++ f.bad)
      (d.recs.found f.ri).len).2 := rfl
  have hfile : (d.reopen f).recs.file = (healRecords (d.foundFile f) (d.pos.take (max d.dpos f.entries) ++ f.bad)
      (d.recs.found f.ri).len).1 := rfl
  rw [hpos] at hp
  rw [hfile] at hc ⊢
  generalize d.pos.take (max d.dpos f.entries) ++ f.bad = pos at *
  generalize d.foundFile f = file at *
  generalize (d.recs.found f.ri).len = len at *
  unfold healRecords at hp hc ⊢
  dsimp only at hp hc ⊢
  by_cases hn : pos = []
  · rw [if_pos hn] at hp; cases hp
  · rw [if_neg hn] at hp hc ⊢
    dsimp only at hp hc ⊢
    rcases healLoop_spec (cutTo file len) pos (pos.length - 1) with ⟨h1, _⟩ | ⟨j, q, x, hj, hq, hx, h1, _⟩
    · rw [h1] at hp; cases hp
    · rw [h1] at hp hc ⊢
      dsimp only at hp hc ⊢
      have hjl := (List.getElem?_eq_some_iff.mp hq).1
      have hqp : q = p := by
        rw [List.getLast?_eq_getElem?, List.length_take, List.getElem?_take] at hp
        have e : min (j + 1) pos.length - 1 = j := by omega
        rw [e, if_pos (show j < j + 1 by omega), hq] at hp
        exact Option.some.inj hp
      subst hqp
      have h2 := recAt_cutEnd (o := some (q + x.len)) hx (fun n h => by (cases h; exact Nat.le_refl _))
      rw [h2] at hc
      cases hc
      have h3 := CertPack.recAt_le hx
      have h4 := CertPack.recAt_ge hx
      unfold cutEnd
      dsimp only
      split
      · unfold fileLen at *
        rw [CertPack.total_cut]
        omega
      · rename_i h5
        exact (not_not.mp h5).symm

/-- After a persist without error, every record that can be read by its epoch is read ever after, whatever happens: failed
writes, failed syncs, crashes at any point and restarts. -/
theorem persisted_stays {ep : Rec → Nat} {s t : Disk} {as bs : List Ev} (ha : Steps ep Disk.new as s) {o : PersistOut}
    (ho : (s.persist o).2 = none) (hb : Steps ep (s.persist o).1 bs t) {e : Nat} {r : Rec}
    (hr : s.recordByEpoch e = some r) : t.recordByEpoch e = some r := by
  obtain ⟨sv, hi, _⟩ := reach ha
  have hk := (persist_inv hi o).2 ho
  obtain ⟨s2, h1, h2, _, _⟩ := steps_inv hb hk
  rw [hi.byEpoch] at hr
  have hl := (List.getElem?_eq_some_iff.mp hr).1
  rw [h1.byEpoch]
  have : (s2.take sv.length)[e]? = some r := by rw [h2, List.take_length]; exact hr
  exact (take_get this).1

/-! ### Certificates -/

theorem reopenCerts_good {i : Inner} {r : Restart} {k : Nat} {c : Rec} (h : CertPack.Good i k c) (hk : r.lost k = false) :
    CertPack.Good (reopenCerts i r) k c := by
  obtain ⟨p, h1, h2, h3, h4⟩ := h
  have hv : ∀ n, (i.version r.written n).raw k = some p ∧ p + c.len ≤ (i.version r.written n).len := by
    intro n
    rcases CertPack.version_mem i r.written n with e | e | ⟨_, e⟩
    · rw [e]; obtain ⟨a, _, b⟩ := h4 i.base (Or.inr (Or.inl rfl)); exact ⟨a, b⟩
    · obtain ⟨a, _, b⟩ := h4 _ (Or.inr (Or.inr e)); exact ⟨a, b⟩
    · rw [e]; obtain ⟨a, _, b⟩ := h4 i.idx (Or.inl rfl); exact ⟨a, b⟩
  have hfl : p + c.len ≤ (i.found r).len := (hv r.lenPick).2
  have hraw : (i.found r).raw k = some p := by
    show (if r.lost k then none else _) = _
    rw [hk, if_neg (by decide)]; exact (hv _).1
  have hvis : (i.found r).vis k = true := by
    show (i.base.vis k || r.seen k) = true
    rw [(h4 i.base (Or.inr (Or.inl rfl))).2.1]; rfl
  have hat : recAt (reopenCerts i r).file p = some c :=
    recAt_cutTo (CertPack.recAt_left _ (CertPack.recAt_cut h2 h3)) (Or.inr hfl)
  refine ⟨p, h1, hat, ?_, ?_⟩
  · have := CertPack.recAt_le hat
    unfold fileLen at this
    show _ ≤ header + min i.dur (total (reopenCerts i r).file)
    omega
  · intro v hv'
    have : v = i.found r := by
      rcases hv' with e | e | e
      · exact e
      · exact e
      · cases e
    subst this
    exact ⟨hraw, hvis, hfl⟩

theorem good_synced {i : Inner} {k : Nat} {c : Rec} (h : CertPack.Good i k c) :
    CertPack.Good { i with dur := total i.file } k c := by
  obtain ⟨p, h1, h2, _, h4⟩ := h
  exact ⟨p, h1, h2, CertPack.recAt_le h2, h4⟩

theorem good_more {i : Inner} {k : Nat} {c : Rec} (h : CertPack.Good i k c) :
    CertPack.Good { i with more := i.more ++ [i.idx] } k c := by
  obtain ⟨p, h1, h2, h3, h4⟩ := h
  refine ⟨p, h1, h2, h3, fun v hv => ?_⟩
  rcases hv with hv | hv | hv
  · exact h4 v (Or.inl hv)
  · exact h4 v (Or.inr (Or.inl hv))
  · rcases List.mem_append.1 hv with hv | hv
    · exact h4 v (Or.inr (Or.inr hv))
    · exact h4 v (Or.inl (List.mem_singleton.1 hv))

theorem good_base {i : Inner} {k : Nat} {c : Rec} (h : CertPack.Good i k c) :
    CertPack.Good { i with base := i.idx, more := [] } k c := by
  obtain ⟨p, h1, h2, h3, h4⟩ := h
  refine ⟨p, h1, h2, h3, fun v hv => ?_⟩
  rcases hv with hv | hv | hv
  · exact h4 v (Or.inl hv)
  · exact h4 v (Or.inl hv)
  · cases hv

/-- What a persist does to the certificates. -/
theorem persist_certs (d : Disk) (o : PersistOut) :
    ((d.persist o).1.certs = d.certs ∧ (d.persist o).2 ≠ none) ∨
    ((d.persist o).1.certs = { d.certs with dur := total d.certs.file } ∧ (d.persist o).2 ≠ none) ∨
    ((d.persist o).1.certs = { d.certs with dur := total d.certs.file, more := d.certs.more ++ [d.certs.idx] } ∧
      (d.persist o).2 ≠ none) ∨
    (d.persist o).1.certs = { d.certs with dur := total d.certs.file, base := d.certs.idx, more := [] } := by
  unfold Disk.persist
  cases h1 : d.recs.failed.or (o.at_ 1) with
  | some e => exact Or.inl ⟨rfl, by simp⟩
  | none =>
    dsimp only
    cases h2 : d.certs.failed.or (o.at_ 2) with
    | some e => exact Or.inl ⟨rfl, by simp⟩
    | none =>
      dsimp only
      cases h3 : o.at_ 3 with
      | some e => exact Or.inr (Or.inl ⟨rfl, by simp⟩)
      | none =>
        dsimp only
        unfold Disk.syncIdx
        cases h4 : o.at_ 4 with
        | some e => exact Or.inr (Or.inl ⟨rfl, by simp⟩)
        | none =>
          dsimp only
          cases h5 : o.at_ 5 with
          | some e => exact Or.inr (Or.inr (Or.inl ⟨rfl, by simp⟩))
          | none => exact Or.inr (Or.inr (Or.inr rfl))

theorem persist_good {d : Disk} {o : PersistOut} {k : Nat} {c : Rec} (h : CertPack.Good d.certs k c) :
    CertPack.Good (d.persist o).1.certs k c := by
  rcases persist_certs d o with ⟨e, _⟩ | ⟨e, _⟩ | ⟨e, _⟩ | e
  · rw [e]; exact h
  · rw [e]; exact good_synced h
  · rw [e]; exact good_more (good_synced h)
  · rw [e]; exact good_base (good_synced h)

theorem persist_makes_good {d : Disk} {o : PersistOut} {k : Nat} {c : Rec} (h : CertPack.Stored d.certs k c)
    (ho : (d.persist o).2 = none) : CertPack.Good (d.persist o).1.certs k c := by
  rcases persist_certs d o with ⟨_, e⟩ | ⟨_, e⟩ | ⟨_, e⟩ | e
  · exact absurd ho e
  · exact absurd ho e
  · exact absurd ho e
  · rw [e]
    obtain ⟨p, h1, h2, h3, h4, h5⟩ := h
    refine ⟨p, h1, h2, CertPack.recAt_le h2, fun v hv => ?_⟩
    rcases hv with hv | hv | hv
    · subst hv; exact ⟨h3, h4, h5⟩
    · subst hv; exact ⟨h3, h4, h5⟩
    · cases hv

theorem saveRecord_certs (ep : Rec → Nat) (d : Disk) (r : Rec) (o : RecOut) : (d.saveRecord ep r o).1.certs = d.certs := by
  unfold Disk.saveRecord
  split
  · rfl
  · split
    · rfl
    · split
      · rfl
      · split <;> rfl

theorem save_certs (ep : Rec → Nat) (d : Disk) (r c : Rec) (o : RecOut) (oc : SaveOut) :
    (d.save ep r c o oc).1.certs = d.certs ∨
    (d.save ep r c o oc).1.certs = (d.certs.save { c with digest := r.digest } oc).1 := by
  have hc := saveRecord_certs ep d r o
  unfold Disk.save
  split
  · rename_i d' x hd
    rw [hd] at hc
    exact Or.inl hc
  · rename_i d' hd
    rw [hd] at hc
    right
    show (d'.certs.save _ oc).1 = _
    rw [show d'.certs = d.certs from hc]

/-- A property of the certificates that saves and persists keep, and restarts. -/
theorem steps_certs {P : Inner → Prop} {ep : Rec → Nat} {d t : Disk} {es : List Ev} (h : Steps ep d es t)
    (hs : ∀ i c o, P i → P (Inner.save i c o).1) (hp : ∀ (x : Disk) o, P x.certs → P (x.persist o).1.certs)
    (hr : ∀ (x : Disk) f, Ev.restart f ∈ es → f.Legal x → P x.certs → P (reopenCerts x.certs f.rc)) : P d.certs → P t.certs := by
  induction h with
  | nil d => exact id
  | @cons d t e es he _ ih =>
    intro hd
    refine ih (fun x f hf => hr x f (List.mem_cons_of_mem _ hf)) ?_
    cases e with
    | record r o => rw [show (step ep d (.record r o)).1.certs = d.certs from saveRecord_certs ep d r o]; exact hd
    | cert c o => exact hs _ _ _ hd
    | both r c o oc =>
      rcases save_certs ep d r c o oc with e | e
      · show P (d.save ep r c o oc).1.certs
        rw [e]; exact hd
      · show P (d.save ep r c o oc).1.certs
        rw [e]; exact hs _ _ _ hd
    | persist o => exact hp d o hd
    | restart f => exact hr d f List.mem_cons_self he hd

theorem certByDigest_of_stored {d : Disk} {k : Nat} {c : Rec} (h : CertPack.Stored d.certs k c) :
    d.certByDigest k = some c := by
  obtain ⟨p, _, h2, h3, h4, _⟩ := h
  unfold Disk.certByDigest
  have hl : d.certs.idx.load k = some p := by unfold Snap.load; rw [if_pos h4, h3]
  rw [hl]
  exact h2

/-- A certificate saved without error for a record that had none is found. -/
theorem fresh_cert {d : Disk} {e : Nat} {r c : Rec} {o : SaveOut} (hr : d.recordByEpoch e = some r)
    (hn : d.certified e = false) (hc : c.digest = r.digest) (ho : (d.saveCert c o).2 = none) :
    CertPack.Stored (d.saveCert c o).1.certs c.digest c := by
  unfold Disk.certified at hn
  rw [hr] at hn
  dsimp only at hn
  have hl : d.certs.idx.load c.digest = none := by
    rw [hc]
    cases hx : d.certs.idx.load r.digest with
    | none => rfl
    | some p => rw [hx] at hn; cases hn
  have ho' : (d.certs.save c o).2 = none := by
    have : ofErr (d.certs.save c o).2 = none := ho
    cases hx : (d.certs.save c o).2 with
    | none => rfl
    | some x => rw [hx] at this; cases x <;> cases this
  show CertPack.Stored (d.certs.save c o).1 c.digest c
  rcases CertPack.save_cases d.certs c o with ⟨x, hp, _⟩ | ⟨_, ⟨x, e⟩ | ⟨x, n, _, e⟩ | ⟨x, _, e⟩ | ⟨x, _, _, e⟩⟩
  · rw [hl] at hp; cases hp
  · rw [e] at ho'; cases ho'
  · rw [e] at ho'; cases ho'
  · rw [e] at ho'; cases ho'
  · rw [e]
    refine ⟨fileLen d.certs.file, rfl, CertPack.recAt_end _ _, ?_, ?_, CertPack.recAt_le (CertPack.recAt_end _ _)⟩
    · simp [Snap.save]
    · simp [Snap.save]

/-- A certificate that was saved without error for a record that had none is read by its digest, while the node runs; and
from the next persist without error on, ever after, whatever happens - unless an interrupted split of the digest index loses
the entry. -/
theorem cert_stays {ep : Rec → Nat} {s u t : Disk} {as bs cs : List Ev} (_ha : Steps ep Disk.new as s) {e : Nat} {r c : Rec}
    {o : SaveOut} (hr : s.recordByEpoch e = some r) (hn : s.certified e = false) (hc : c.digest = r.digest)
    (ho : (s.saveCert c o).2 = none) (hb : Steps ep (s.saveCert c o).1 bs u) (hl : ∀ x ∈ bs, x.live) {po : PersistOut}
    (hp : (u.persist po).2 = none) (ht : Steps ep (u.persist po).1 cs t) (hs : ∀ x ∈ cs, x.spares r.digest) :
    u.certByDigest r.digest = some c ∧ t.certByDigest r.digest = some c := by
  have h0 := fresh_cert hr hn hc ho
  rw [hc] at h0
  have h1 : CertPack.Stored u.certs r.digest c := by
    refine steps_certs (P := fun i => CertPack.Stored i r.digest c) hb (fun i c o h => CertPack.save_stored h) ?_ ?_ h0
    · intro x o h
      obtain ⟨p, h1, h2, h3, h4, h5⟩ := h
      rcases persist_certs x o with ⟨e, _⟩ | ⟨e, _⟩ | ⟨e, _⟩ | e <;> rw [e] <;> exact ⟨p, h1, h2, h3, h4, h5⟩
    · intro x f hf
      exact (hl _ hf).elim
  refine ⟨certByDigest_of_stored h1, certByDigest_of_stored (CertPack.Good.stored ?_)⟩
  refine steps_certs (P := fun i => CertPack.Good i r.digest c) ht (fun i c o h => CertPack.save_good h)
    (fun x o h => persist_good h) ?_ (persist_makes_good h1 hp)
  intro x f hf _ h
  exact reopenCerts_good h (hs _ hf)

/-- A record saved with its certificate without error: the epoch has a record, and if it is this one, the epoch counts as
certified. -/
theorem both_certified {ep : Rec → Nat} {t : Disk} {es : List Ev} (h : Steps ep Disk.new es t) {r c : Rec} {o : RecOut}
    {oc : SaveOut} (ho : (t.save ep r c o oc).2 = none) :
    ∃ r' : Rec, (t.save ep r c o oc).1.recordByEpoch (ep r) = some r' ∧ ep r' = ep r ∧
      (t.recordByEpoch (ep r) = none → r' = r) ∧
      (r'.digest = r.digest → (t.save ep r c o oc).1.certified (ep r) = true) := by
  have hst : Steps ep Disk.new (es ++ [.both r c o oc]) (t.save ep r c o oc).1 :=
    (by
      have : Steps ep t [.both r c o oc] (t.save ep r c o oc).1 := .cons trivial (.nil _)
      have tr : ∀ {a b c : Disk} {xs ys : List Ev}, Steps ep a xs b → Steps ep b ys c → Steps ep a (xs ++ ys) c := by
        intro a b c xs ys h h'
        induction h with
        | nil d => exact h'
        | cons he _ ih => exact .cons he (ih h')
      exact tr h this)
  cases hx : t.saveRecord ep r o with
  | mk d' x =>
    cases x with
    | some e =>
      have hs : t.save ep r c o oc = (d', some e) := by unfold Disk.save; rw [hx]
      rw [hs] at ho; cases ho
    | none =>
      have hs : t.save ep r c o oc = d'.saveCert { c with digest := r.digest } oc := by unfold Disk.save; rw [hx]
      have hok : (t.saveRecord ep r o).2 = none := by rw [hx]
      have hd : (t.saveRecord ep r o).1 = d' := by rw [hx]
      have hread : ∃ r', d'.recordByEpoch (ep r) = some r' ∧ (t.recordByEpoch (ep r) = none → r' = r) := by
        rcases saved_is_stored h hok with ⟨r', h'⟩ | ⟨_, h'⟩
        · refine ⟨r', ?_, fun hn => by rw [hn] at h'; cases h'⟩
          have := first_wins h h' o
          rw [hx] at this
          have e : d' = t := congrArg Prod.fst this
          rw [e]
          exact h'
        · rw [hd] at h'
          exact ⟨r, h', fun _ => rfl⟩
      obtain ⟨r', h1, h2⟩ := hread
      have h3 : (t.save ep r c o oc).1.recordByEpoch (ep r) = some r' := by rw [hs]; exact h1
      refine ⟨r', h3, (read_is_own hst h3).1, h2, fun hdig => ?_⟩
      unfold Disk.certified
      rw [h3]
      dsimp only
      rw [hdig, hs]
      rw [hs] at ho
      have ho' : (d'.certs.save { c with digest := r.digest } oc).2 = none := by
        have : ofErr (d'.certs.save { c with digest := r.digest } oc).2 = none := ho
        cases hy : (d'.certs.save { c with digest := r.digest } oc).2 with
        | none => rfl
        | some y => rw [hy] at this; cases y <;> cases this
      have := CertPack.save_load ho'
      show ((d'.certs.save { c with digest := r.digest } oc).1.idx.load r.digest).isSome = true
      cases hz : (d'.certs.save { c with digest := r.digest } oc).1.idx.load r.digest with
      | some _ => rfl
      | none => exact absurd hz this

/-- Every certificate that can be read was handed over. -/
theorem cert_handed {ep : Rec → Nat} {t : Disk} {es : List Ev} (h : Steps ep Disk.new es t) {k : Nat} {c : Rec}
    (hc : t.certByDigest k = some c) : ∃ x ∈ es, x.cert? = some c := by
  have key : ∀ {d t : Disk} {es : List Ev}, Steps ep d es t → ∀ c, Seg.rec_ c ∈ t.certs.file →
      Seg.rec_ c ∈ d.certs.file ∨ ∃ x ∈ es, x.cert? = some c := by
    intro d t es h
    induction h with
    | nil d => intro c hc; exact Or.inl hc
    | @cons d t e es he _ ih =>
      intro c hc
      have hsave : ∀ (x : Rec) (o : SaveOut), Seg.rec_ c ∈ (d.certs.save x o).1.file → Seg.rec_ c ∈ d.certs.file ∨ x = c := by
        intro x o hx
        rcases CertPack.save_cases d.certs x o with ⟨y, hp, e⟩ | ⟨hl, ⟨y, e⟩ | ⟨y, n, _, e⟩ | ⟨y, _, e⟩ | ⟨y, _, _, e⟩⟩
        · rw [e] at hx; exact Or.inl hx
        · rw [e] at hx; exact Or.inl hx
        · rw [e] at hx
          rcases List.mem_append.1 hx with hx | hx
          · exact Or.inl hx
          · cases List.mem_singleton.1 hx
        · rw [e] at hx
          rcases List.mem_append.1 hx with hx | hx
          · exact Or.inl hx
          · cases List.mem_singleton.1 hx; exact Or.inr rfl
        · rw [e] at hx
          rcases List.mem_append.1 hx with hx | hx
          · exact Or.inl hx
          · cases List.mem_singleton.1 hx; exact Or.inr rfl
      rcases ih c hc with hc | ⟨x, hx, hc⟩
      · cases e with
        | record r o =>
          rw [show (step ep d (.record r o)).1.certs = d.certs from saveRecord_certs ep d r o] at hc
          exact Or.inl hc
        | cert x o =>
          rcases hsave x o hc with h' | h'
          · exact Or.inl h'
          · exact Or.inr ⟨_, List.mem_cons_self, by rw [← h']; rfl⟩
        | both r x o oc =>
          change Seg.rec_ c ∈ (d.save ep r x o oc).1.certs.file at hc
          rcases save_certs ep d r x o oc with e | e
          · rw [e] at hc; exact Or.inl hc
          · rw [e] at hc
            rcases hsave _ oc hc with h' | h'
            · exact Or.inl h'
            · exact Or.inr ⟨_, List.mem_cons_self, by rw [← h']; rfl⟩
        | persist o =>
          change Seg.rec_ c ∈ (d.persist o).1.certs.file at hc
          rcases persist_certs d o with ⟨e, _⟩ | ⟨e, _⟩ | ⟨e, _⟩ | e <;> rw [e] at hc <;> exact Or.inl hc
        | restart f =>
          left
          change Seg.rec_ c ∈ cutTo (cutSeg d.certs.file d.certs.dur ++ f.rc.tail) _ at hc
          have : Seg.rec_ c ∈ cutSeg d.certs.file d.certs.dur ++ f.rc.tail := by
            unfold cutTo at hc
            split at hc
            · exact CertPack.cut_mem hc
            · exact hc
          rcases List.mem_append.1 this with h' | h'
          · exact CertPack.cut_mem h'
          · exact Found.Legal.tail he c h'
      · exact Or.inr ⟨x, List.mem_cons_of_mem _ hx, hc⟩
  unfold Disk.certByDigest at hc
  obtain ⟨p, _, hp⟩ := Option.bind_eq_some_iff.mp hc
  rcases key h c (CertPack.recAt_mem hp) with h' | h'
  · cases h'
  · exact h'

/-! ### Concrete histories -/

/-- The epoch of a record of the examples: its body. -/
def exEp (r : Rec) : Nat := r.body

def r0 : Rec := ⟨100, 0, 40⟩
def r1 : Rec := ⟨101, 1, 40⟩
/-- Another record of epoch 1. -/
def r1b : Rec := ⟨201, 1, 40⟩
/-- The certificates of the three records. -/
def c0 : Rec := ⟨100, 7, 60⟩
def c1 : Rec := ⟨101, 8, 60⟩

def noExtra : Nat → Bool := fun _ => false

/-- A restart at which all is found as it was synced. -/
def calm : Restart := ⟨[], false, fun _ => 0, fun _ => false, fun _ => false, 0, false⟩

/-- A run of events. -/
def run (d : Disk) : List Ev → Disk
  | [] => d
  | e :: es => run (step exEp d e).1 es

/-- The events' answers. -/
def answers (d : Disk) : List Ev → List (Option Err)
  | [] => []
  | e :: es => (step exEp d e).2 :: answers (step exEp d e).1 es

theorem steps_run (es : List Ev) : ∀ d, (∀ e ∈ es, ∀ x, Ev.Legal x e) → Steps exEp d es (run d es) := by
  induction es with
  | nil => intro d _; exact .nil d
  | cons e es ih =>
    intro d h
    exact .cons (h e List.mem_cons_self d) (ih _ fun x hx => h x (List.mem_cons_of_mem _ hx))

theorem steps_trans {ep : Rec → Nat} {a b c : Disk} {xs ys : List Ev} (h : Steps ep a xs b) (h' : Steps ep b ys c) :
    Steps ep a (xs ++ ys) c := by
  induction h with
  | nil d => exact h'
  | cons he _ ih => exact .cons he (ih h')

theorem calm_legal (f : Found) (hb : f.bad = []) (ht : f.rc.tail = []) (d : Disk) : f.Legal d :=
  ⟨by (rw [hb]; intro p hp; cases hp), by (rw [ht]; intro c hc; cases hc)⟩

/-- Two epochs are stored with the certificate of the first, persisted; the second certificate is stored but not persisted;
the node crashes in the middle of a write and restarts. -/
def exRun : List Ev :=
  [.record r0 (.low (.fine noExtra)), .both r0 c0 (.low (.fine noExtra)) (.fine noExtra), .record r1 (.low (.fine noExtra)),
   .persist .fine, .cert c1 (.fine noExtra), .record ⟨102, 2, 40⟩ (.low (.fine noExtra)),
   .restart ⟨60, 5, 2, [], calm, calm⟩]

theorem exRun_steps : Steps exEp Disk.new exRun (run Disk.new exRun) := by
  refine steps_run _ _ ?_
  intro e he x
  simp only [exRun, List.mem_cons, List.not_mem_nil, or_false] at he
  rcases he with rfl | rfl | rfl | rfl | rfl | rfl | rfl <;> first | exact trivial | exact calm_legal _ rfl rfl x

/-- The hypotheses of the theorems are met, and the promises are kept: epochs 0 and 1 are there, epoch 2 is gone, the first
certificate is there, the second is not and is not claimed. -/
theorem exRun_ok : (run Disk.new exRun).recordByEpoch 0 = some r0 ∧ (run Disk.new exRun).recordByEpoch 1 = some r1 ∧
    (run Disk.new exRun).recordByEpoch 2 = none ∧ (run Disk.new exRun).certByDigest 100 = some c0 ∧
    (run Disk.new exRun).certified 0 = true ∧ (run Disk.new exRun).certified 1 = false ∧
    (run Disk.new exRun).recordByDigest 101 = some r1 ∧
    answers Disk.new exRun = [none, none, none, none, none, none, none] := by
  refine ⟨by rfl, by rfl, by rfl, by rfl, by rfl, by rfl, by rfl, by rfl⟩

/-- The hypotheses of `restart_no_tail`: four bytes of the torn third record and five damaged ones are cut off. -/
theorem no_tail_example : ∃ d : Disk, ∃ p : Nat, (d.reopen ⟨100, 5, 2, [], calm, calm⟩).pos.getLast? = some p ∧
    recAt (d.reopen ⟨100, 5, 2, [], calm, calm⟩).recs.file p = some r1 ∧
    fileLen (d.foundFile ⟨100, 5, 2, [], calm, calm⟩) = p + r1.len + 9 := by
  refine ⟨run Disk.new (exRun.take 6), header + 48, by rfl, by rfl, by rfl⟩

/-- The hypotheses of `cert_stays`. -/
theorem cert_stays_example : ∃ s : Disk, Steps exEp Disk.new (exRun.take 4) s ∧ s.recordByEpoch 1 = some r1 ∧
    s.certified 1 = false ∧ c1.digest = r1.digest ∧ (s.saveCert c1 (.fine noExtra)).2 = none ∧
    ((s.saveCert c1 (.fine noExtra)).1.persist .fine).2 = none := by
  refine ⟨run Disk.new (exRun.take 4), steps_run _ _ ?_, by rfl, by rfl, rfl, by rfl, by rfl⟩
  intro e he x
  simp only [exRun, List.take_succ_cons, List.take_zero, List.mem_cons, List.not_mem_nil, or_false] at he
  rcases he with rfl | rfl | rfl | rfl <;> exact trivial

/-! ### What does not hold -/

/-- A crash in the first persist, after the sync of the position index and before that of the digest index. -/
def noDigestRun : List Ev :=
  [.record r0 (.low (.fine noExtra)), .persist (.fail 4 0), .restart ⟨48, 0, 1, [], ⟨[], false, fun _ => 9, fun _ => false,
    fun _ => false, 9, false⟩, calm⟩]

/-- Read by epoch, not by digest; saving it again reports success and changes nothing, so it stays so. -/
theorem no_digest : Steps exEp Disk.new noDigestRun (run Disk.new noDigestRun) ∧
    (run Disk.new noDigestRun).recordByEpoch 0 = some r0 ∧
    (run Disk.new noDigestRun).recordByDigest 100 = none ∧
    ∀ o, (run Disk.new noDigestRun).saveRecord exEp r0 o = (run Disk.new noDigestRun, none) := by
  have hs : Steps exEp Disk.new noDigestRun (run Disk.new noDigestRun) := by
    refine steps_run _ _ ?_
    intro e he x
    simp only [noDigestRun, List.mem_cons, List.not_mem_nil, or_false] at he
    rcases he with rfl | rfl | rfl <;> first | exact trivial | exact calm_legal _ rfl rfl x
  exact ⟨hs, by rfl, by rfl, fun o => first_wins hs (r := r0) (by rfl) o⟩

/-- Another record of a stored epoch, saved with its certificate: reported as a success, but the certificate is filed under a
record that is not there, and the epoch stays uncertified. -/
theorem cert_of_no_record :
    (run Disk.new (exRun.take 4)).save exEp r1b c1 (.low (.fine noExtra)) (.fine noExtra) =
      (run Disk.new (exRun.take 4 ++ [.both r1b c1 (.low (.fine noExtra)) (.fine noExtra)]), none) ∧
    (run Disk.new (exRun.take 4 ++ [.both r1b c1 (.low (.fine noExtra)) (.fine noExtra)])).certified 1 = false ∧
    (run Disk.new (exRun.take 4 ++ [.both r1b c1 (.low (.fine noExtra)) (.fine noExtra)])).certByDigest r1b.digest =
      some { c1 with digest := r1b.digest } ∧
    (run Disk.new (exRun.take 4 ++ [.both r1b c1 (.low (.fine noExtra)) (.fine noExtra)])).recordByDigest r1b.digest =
      none := ⟨by rfl, by rfl, by rfl, by rfl⟩

/-- A crash within the sync of the digest index: the entry of record 1 is on the disk, the length is still the old one. The
healing cuts the record off; another record of epoch 1 is stored in its place. -/
def otherRun : List Ev :=
  [.record r0 (.low (.fine noExtra)), .persist .fine, .record r1 (.low (.fine noExtra)), .persist (.fail 4 0),
   .restart ⟨96, 0, 2, [], ⟨[], false, fun _ => 0, fun _ => false, fun k => k == 101, 9, false⟩, calm⟩,
   .record r1b (.low (.fine noExtra))]

/-- The read by the digest of record 1 gives a record with another digest. -/
theorem other_by_digest : Steps exEp Disk.new otherRun (run Disk.new otherRun) ∧
    (run Disk.new otherRun).recordByDigest r1.digest = some r1b ∧ r1b.digest ≠ r1.digest := by
  refine ⟨steps_run _ _ ?_, by rfl, by decide⟩
  intro e he x
  simp only [otherRun, List.mem_cons, List.not_mem_nil, or_false] at he
  rcases he with rfl | rfl | rfl | rfl | rfl | rfl <;> first | exact trivial | exact calm_legal _ rfl rfl x

/-- The same crash within the sync of the certificates' index. -/
def beforeCrash : List Ev :=
  [.record r0 (.low (.fine noExtra)), .cert c0 (.fine noExtra), .record r1 (.low (.fine noExtra)), .persist .fine,
   .cert c1 (.fine noExtra), .persist (.fail 5 0)]

def crash : Found :=
  ⟨96, 0, 2, [], calm, ⟨[.rec_ c1], false, fun _ => 0, fun _ => false, fun k => k == 101, 9, false⟩⟩

def lostCertRun : List Ev := beforeCrash ++ [.restart crash]

/-- Then the certificate of the next epoch is stored. -/
def wrongCertRun : List Ev := lostCertRun ++ [.record ⟨102, 2, 40⟩ (.low (.fine noExtra)), .cert ⟨102, 9, 60⟩ (.fine noExtra)]

/-- Epoch 1 counts as certified, but there is no certificate; saving it again reports success and changes nothing. When the
certificate of epoch 2 is stored, it is read as the certificate of epoch 1. -/
theorem lost_cert : Steps exEp Disk.new wrongCertRun (run Disk.new wrongCertRun) ∧
    (run Disk.new lostCertRun).certified 1 = true ∧ (run Disk.new lostCertRun).certByDigest 101 = none ∧
    (∀ o, (run Disk.new lostCertRun).saveCert c1 o = (run Disk.new lostCertRun, none)) ∧
    (run Disk.new wrongCertRun).certByDigest 101 = some ⟨102, 9, 60⟩ := by
  have h1 : Steps exEp Disk.new beforeCrash (run Disk.new beforeCrash) := by
    refine steps_run _ _ ?_
    intro e he x
    simp only [beforeCrash, List.mem_cons, List.not_mem_nil, or_false] at he
    rcases he with rfl | rfl | rfl | rfl | rfl | rfl <;> exact trivial
  have h2 : crash.Legal (run Disk.new beforeCrash) := by
    refine ⟨fun p hp => (List.not_mem_nil hp).elim, fun c hc => ?_⟩
    have : c = c1 := by
      cases List.mem_singleton.1 hc
      rfl
    subst this
    exact List.mem_of_getElem? (i := 1) (by rfl)
  have h3 : Steps exEp (run Disk.new lostCertRun) [.record ⟨102, 2, 40⟩ (.low (.fine noExtra)), .cert ⟨102, 9, 60⟩ (.fine noExtra)]
      (run Disk.new wrongCertRun) := .cons trivial (.cons trivial (.nil _))
  have h4 : Steps exEp (run Disk.new beforeCrash) [.restart crash] (run Disk.new lostCertRun) := .cons h2 (.nil _)
  refine ⟨steps_trans (steps_trans h1 h4) h3, by rfl, by rfl, ?_, by rfl⟩
  intro o
  have hl : (run Disk.new lostCertRun).certs.idx.load c1.digest = some 96 := by rfl
  unfold Disk.saveCert CertPack.Inner.save
  rw [hl]
  rfl

end EDisk
end Verif
