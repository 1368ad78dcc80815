import Verif.Storage.LayeredReads
/-
Guard records: a single slot of the full-memory layered database that holds the last value a node has
committed itself to (for a position given by epoch and round), written before the value leaves the node and
awaited with a durability barrier. General facts used for the proposer.
-/
namespace Verif
namespace Guard

open Layered

variable {V : Type} (ep rd : V → Nat) (t k : Nat)

/-- A later epoch, a later round in the epoch, or the same value. -/
def le (v w : V) : Prop := ep v < ep w ∨ (ep v = ep w ∧ (rd v < rd w ∨ v = w))

variable {ep rd}

theorem le_refl (v : V) : le ep rd v v := .inr ⟨rfl, .inr rfl⟩

theorem le_trans {u v w : V} (h : le ep rd u v) (h2 : le ep rd v w) : le ep rd u w := by
  rcases h with h | ⟨h, h' | rfl⟩
  · rcases h2 with h2 | ⟨h2, _⟩
    · exact .inl (by omega)
    · exact .inl (by omega)
  · rcases h2 with h2 | ⟨h2, h3 | rfl⟩
    · exact .inl (by omega)
    · exact .inr ⟨by omega, .inl (by omega)⟩
    · exact .inr ⟨h, .inl h'⟩
  · exact h2

theorem le_eq {v w : V} (h : le ep rd v w) (he : ep v = ep w) (hr : rd v = rd w) : v = w := by
  rcases h with h | ⟨_, h | h⟩
  · omega
  · omega
  · exact h

/-- The value a write puts in the slot, if it does. -/
def insAt : Op V → Option V
  | .ins t' k' v => if t' = t ∧ k' = k then some v else none
  | _ => none

/-- The values of the slot in a run, oldest first: the one found at start, then those written. -/
def recs (d0 : KV V) (W : List (Op V)) : List V := (d0 t k).toList ++ W.filterMap (insAt t k)

/-- A write that removes from the table. -/
def clears : Op V → Prop
  | .ins _ _ _ => False
  | .rm t' _ => t' = t
  | .clr t' => t' = t

variable {t k}

theorem apply_keep {m : KV V} {o : Op V} (hc : ¬ clears t o) :
    o.apply m t k = (insAt t k o).orElse (fun _ => m t k) := by
  cases o with
  | ins t' k' v =>
    simp only [Op.apply, insAt]
    by_cases h : t = t' ∧ k = k'
    · rw [if_pos h, if_pos ⟨h.1.symm, h.2.symm⟩]; rfl
    · rw [if_neg h, if_neg (fun h' => h ⟨h'.1.symm, h'.2.symm⟩)]; rfl
  | rm t' k' =>
    simp only [Op.apply, insAt]
    rw [if_neg (fun h => hc h.1.symm)]; rfl
  | clr t' =>
    simp only [Op.apply, insAt]
    rw [if_neg (fun h => hc h.symm)]; rfl

theorem applyOps_above {v : V} (l : List (Op V)) :
    ∀ (m : KV V), (∃ w, m t k = some w ∧ le ep rd v w) → (∀ o ∈ l, ¬ clears t o) →
      (∀ o ∈ l, ∀ x, insAt t k o = some x → le ep rd v x) →
      ∃ w, applyOps m l t k = some w ∧ le ep rd v w := by
  induction l with
  | nil => intro m h _ _; exact h
  | cons o l ih =>
    intro m h hc hi
    refine ih (o.apply m) ?_ (fun x hx => hc x (List.mem_cons_of_mem _ hx))
      (fun x hx => hi x (List.mem_cons_of_mem _ hx))
    rw [apply_keep (hc o (List.mem_cons_self ..))]
    cases ho : insAt t k o with
    | none => exact h
    | some x => exact ⟨x, rfl, hi o (List.mem_cons_self ..) x ho⟩

theorem applyOps_mem {w : V} (l : List (Op V)) :
    ∀ (m : KV V), applyOps m l t k = some w → w ∈ recs t k m l := by
  induction l with
  | nil => intro m h; simp only [applyOps, List.foldl_nil] at h; simp [recs, h]
  | cons o l ih =>
    intro m h
    have := ih (o.apply m) h
    simp only [recs, List.mem_append, Option.mem_toList] at this ⊢
    rcases this with this | this
    · by_cases hc : clears t o
      · cases o with
        | ins t' k' v => exact hc.elim
        | rm t' k' =>
          have hc : t' = t := hc
          subst hc
          simp only [Op.apply] at this
          split at this
          · cases this
          · exact .inl this
        | clr t' =>
          have hc : t' = t := hc
          subst hc
          simp [Op.apply] at this
      · rw [apply_keep hc] at this
        cases ho : insAt t k o with
        | none => rw [ho] at this; exact .inl this
        | some x =>
          rw [ho] at this
          exact .inr (List.mem_filterMap.mpr ⟨o, List.mem_cons_self .., by rw [ho]; exact this⟩)
    · exact .inr (by
        obtain ⟨y, h1, h2⟩ := List.mem_filterMap.mp this
        exact List.mem_filterMap.mpr ⟨y, List.mem_cons_of_mem _ h1, h2⟩)

variable (ep rd t k)

/-- The history of the slot in the present run of the process, in epoch `e`: once there is a value of the
current epoch, values only go up. -/
structure Hist (e : Nat) (d0 : KV V) (W : List (Op V)) : Prop where
  epochs : ∀ w ∈ recs t k d0 W, ep w ≤ e
  chain : (recs t k d0 W).Pairwise (fun v w => ep v = e → le ep rd v w)
  uniq : ∀ v ∈ recs t k d0 W, ∀ w ∈ recs t k d0 W, ep v = ep w → rd v = rd w → v = w
  fresh : ∀ P o Q, W = P ++ o :: Q → clears t o → ∀ w ∈ recs t k d0 P, ep w < e

variable {ep rd t k}

theorem recs_append (d0 : KV V) (P Q : List (Op V)) :
    recs t k d0 (P ++ Q) = recs t k d0 P ++ Q.filterMap (insAt t k) := by
  simp [recs]

theorem Hist.protected {e : Nat} {d0 : KV V} {P Q l : List (Op V)}
    (h : Hist ep rd t k e d0 (P ++ Q)) {v w : V} (hv : ep v = e)
    (hP : applyOps d0 P t k = some w) (hvw : le ep rd v w) (hl : l.Sublist Q) :
    ∃ w', applyOps d0 (P ++ l) t k = some w' ∧ le ep rd v w' := by
  have hw : w ∈ recs t k d0 P := applyOps_mem P d0 hP
  have hwe : ep w = e := by
    have := h.epochs w (by rw [recs_append]; exact List.mem_append_left _ hw)
    rcases hvw with hvw | hvw
    · omega
    · omega
  rw [applyOps_append]
  refine applyOps_above l _ ⟨w, hP, hvw⟩ ?_ ?_
  · intro o ho hc
    obtain ⟨Q1, Q2, rfl⟩ := List.append_of_mem (hl.subset ho)
    have := h.fresh (P ++ Q1) o Q2 (by simp) hc w
      (by rw [recs_append]; exact List.mem_append_left _ hw)
    omega
  · intro o ho x hx
    have hch := h.chain
    rw [recs_append, List.pairwise_append] at hch
    exact le_trans hvw (hch.2.2 w hw x (List.mem_filterMap.mpr ⟨o, hl.subset ho, hx⟩) hwe)

theorem Hist.current {e : Nat} {d0 : KV V} {W : List (Op V)}
    (h : Hist ep rd t k e d0 W) {v : V} (hv : ep v = e) (hm : v ∈ recs t k d0 W) :
    ∃ w, applyOps d0 W t k = some w ∧ le ep rd v w := by
  simp only [recs, List.mem_append, Option.mem_toList] at hm
  rcases hm with hm | hm
  · have h' : Hist ep rd t k e d0 ([] ++ W) := h
    have := h'.protected (P := []) (l := W) hv hm (le_refl v) (List.Sublist.refl _)
    simpa using this
  · obtain ⟨o, ho, hov⟩ := List.mem_filterMap.mp hm
    obtain ⟨P, Q, rfl⟩ := List.append_of_mem ho
    have h' : Hist ep rd t k e d0 ((P ++ [o]) ++ Q) := by simpa using h
    have hc : ¬ clears t o := by
      intro hc
      cases o <;> simp_all [insAt, clears]
    have hP : applyOps d0 (P ++ [o]) t k = some v := by
      rw [applyOps_append]
      show o.apply _ t k = some v
      rw [apply_keep hc, hov]; rfl
    have := h'.protected (l := Q) hv hP (le_refl v) (List.Sublist.refl _)
    simpa using this

/-- The database of a run. -/
def db (d0 : KV V) (evs : List (Ev V)) : DB V := exec (openDb true d0) evs

theorem get_mem {d0 : KV V} {evs : List (Ev V)} {w : V} (h : (db d0 evs).get t k = some w) :
    w ∈ recs t k d0 (written evs) := by
  unfold DB.get at h
  split at h
  · rename_i v hm
    cases h
    rw [show (db d0 evs).mem = applyOps d0 (written evs) from mem_full d0 evs] at hm
    exact applyOps_mem _ _ hm
  · obtain ⟨done, g, hi⟩ := inv_exec true d0 evs
    obtain ⟨l, h1, h2⟩ := hi.diskOk
    rw [show (db d0 evs).disk = _ from h2] at h
    have := applyOps_mem _ _ h
    have hs := hi.split
    simp only [recs, List.mem_append, Option.mem_toList] at this ⊢
    rcases this with this | this
    · exact .inl this
    · refine .inr ?_
      obtain ⟨o, ho, hx⟩ := List.mem_filterMap.mp this
      refine List.mem_filterMap.mpr ⟨o, ?_, hx⟩
      rw [hs]
      refine List.mem_append_left _ ?_
      rcases List.mem_append.mp ho with ho | ho
      · exact List.mem_of_mem_take ho
      · exact List.mem_of_mem_drop (h1.subset ho)

theorem disk_mem {d0 : KV V} {evs : List (Ev V)} {w : V} (h : (db d0 evs).disk t k = some w) :
    w ∈ recs t k d0 (written evs) := by
  obtain ⟨done, g, hi⟩ := inv_exec true d0 evs
  obtain ⟨l, h1, h2⟩ := hi.diskOk
  rw [show (db d0 evs).disk = _ from h2] at h
  have := applyOps_mem _ _ h
  have hs := hi.split
  simp only [recs, List.mem_append, Option.mem_toList] at this ⊢
  rcases this with this | this
  · exact .inl this
  · refine .inr ?_
    obtain ⟨o, ho, hx⟩ := List.mem_filterMap.mp this
    refine List.mem_filterMap.mpr ⟨o, ?_, hx⟩
    rw [hs]
    refine List.mem_append_left _ ?_
    rcases List.mem_append.mp ho with ho | ho
    · exact List.mem_of_mem_take ho
    · exact List.mem_of_mem_drop (h1.subset ho)

theorem get_eq {d0 : KV V} {evs : List (Ev V)} {w : V} (h : applyOps d0 (written evs) t k = some w) :
    (db d0 evs).get t k = some w := (get_full_written d0 evs t k w h).1

theorem handle_acks (d : DB V) (m : Msg V) (ok : Bool) (x : Nat × Bool)
    (h : x ∈ d.acks) : x ∈ (handle d m ok).acks := by
  obtain ⟨full, mem, disk, queue, txn, failed, retained, pending, acks, nb⟩ := d
  have h : x ∈ acks := h
  rcases txn with _ | ⟨s, n⟩
  · cases m <;> cases ok <;> simp [handle, runOp, endTxn, ackPending, h]
  · by_cases hn : n ≤ 1 <;> cases m <;> cases ok <;> simp [handle, runOp, endTxn, ackPending, hn, h]

theorem exec_acks (d : DB V) (evs : List (Ev V)) (x : Nat × Bool) (h : x ∈ d.acks) :
    x ∈ (exec d evs).acks := by
  induction evs generalizing d with
  | nil => exact h
  | cons e evs ih =>
    refine ih (step d e) ?_
    cases e with
    | run ok =>
      simp only [step]
      cases hq : d.queue with
      | nil => exact h
      | cons m q => exact handle_acks { d with queue := q } m ok x h
    | _ => exact h

variable (ep rd t k)

/-- Barrier `b` is behind a record above `v`. -/
def Behind (e : Nat) (d0 : KV V) (evs : List (Ev V)) (v : V) (b : Nat) : Prop :=
  ∃ pre post, evs = pre ++ .persist :: post ∧ b = persists pre ∧
    (ep v = e → ∃ w, applyOps d0 (written pre) t k = some w ∧ le ep rd v w)

/-- `v` is protected on the disk: by what was found at start, or by an acknowledged barrier. -/
def Durable (e : Nat) (d0 : KV V) (evs : List (Ev V)) (v : V) : Prop :=
  (∃ w, d0 t k = some w ∧ le ep rd v w) ∨
    (∃ b, (b, true) ∈ (db d0 evs).acks ∧ Behind ep rd t k e d0 evs v b)

/-- Events that leave the table alone. -/
def foreign : Ev V → Prop
  | .write (.ins t' _ _) => t' ≠ t
  | .write (.rm t' _) => t' ≠ t
  | .write (.clr t') => t' ≠ t
  | _ => True

variable {ep rd t k}

theorem acks_ext {d0 : KV V} {evs more : List (Ev V)} {x : Nat × Bool} (h : x ∈ (db d0 evs).acks) :
    x ∈ (db d0 (evs ++ more)).acks := by
  unfold db; rw [exec_append]; exact exec_acks _ _ _ h

theorem Behind.ext {e : Nat} {d0 : KV V} {evs more : List (Ev V)} {v : V} {b : Nat}
    (h : Behind ep rd t k e d0 evs v b) : Behind ep rd t k e d0 (evs ++ more) v b := by
  obtain ⟨pre, post, h1, h2, h3⟩ := h
  exact ⟨pre, post ++ more, by rw [h1]; simp, h2, h3⟩

theorem Durable.ext {e : Nat} {d0 : KV V} {evs more : List (Ev V)} {v : V}
    (h : Durable ep rd t k e d0 evs v) : Durable ep rd t k e d0 (evs ++ more) v := by
  rcases h with h | ⟨b, h1, h2⟩
  · exact .inl h
  · exact .inr ⟨b, acks_ext h1, h2.ext⟩

theorem Durable.read {e : Nat} {d0 : KV V} {evs : List (Ev V)} {v : V}
    (hh : Hist ep rd t k e d0 (written evs)) (he : ep v = e) (h : Durable ep rd t k e d0 evs v) :
    ∃ w, applyOps d0 (written evs) t k = some w ∧ le ep rd v w := by
  rcases h with ⟨w, h1, h2⟩ | ⟨b, _, pre, post, h1, _, h3⟩
  · have hh : Hist ep rd t k e d0 ([] ++ written evs) := hh
    have := hh.protected (P := []) (l := written evs) he h1 h2 (List.Sublist.refl _)
    simpa using this
  · obtain ⟨w, h4, h5⟩ := h3 he
    have hW : written evs = written pre ++ written post := by
      rw [h1, written_append]; rfl
    rw [hW] at hh ⊢
    exact hh.protected (l := written post) he h4 h5 (List.Sublist.refl _)

theorem Durable.disk {e : Nat} {d0 : KV V} {evs : List (Ev V)} {v : V}
    (hh : Hist ep rd t k e d0 (written evs)) (he : ep v = e) (h : Durable ep rd t k e d0 evs v) :
    ∃ w, (db d0 evs).disk t k = some w ∧ le ep rd v w := by
  rcases h with ⟨w, h1, h2⟩ | ⟨b, hack, pre, post, h1, hb, h3⟩
  · obtain ⟨done, g, hi⟩ := inv_exec true d0 evs
    obtain ⟨l, h4, h5⟩ := hi.diskOk
    have hs := hi.split
    have hh : Hist ep rd t k e d0 ([] ++ written evs) := hh
    have := hh.protected (P := []) (l := done.take g ++ l) he h1 h2 (by
      rw [hs]
      refine List.Sublist.trans ?_ (List.sublist_append_left _ _)
      conv_rhs => rw [← List.take_append_drop g done]
      exact List.Sublist.append (List.Sublist.refl _) h4)
    rw [show (db d0 evs).disk = _ from h5]
    simpa using this
  · obtain ⟨w, h4, h5⟩ := h3 he
    have hack' : (persists pre, true) ∈ (exec (openDb true d0) (pre ++ .persist :: post)).acks := by
      rw [← h1, ← hb]; exact hack
    obtain ⟨l, h6, h7⟩ := persist_durable true d0 pre post hack'
    have hW : written evs = written pre ++ written post := by
      rw [h1, written_append]; rfl
    rw [hW] at hh
    have hd : (db d0 evs).disk = applyOps d0 (written pre ++ l) := by
      unfold db; rw [h1]; exact h7
    rw [hd]
    exact hh.protected he h4 h5 h6

theorem foreign_written {e : Ev V} (he : foreign t e) :
    (written [e]).filterMap (insAt t k) = [] ∧ (∀ o ∈ written [e], ¬ clears t o) := by
  cases e with
  | write o =>
    cases o with
    | ins t' k' v =>
      have he : t' ≠ t := he
      exact ⟨by simp [written, insAt, he], fun o ho => by simp [written] at ho; subst ho; exact id⟩
    | rm t' k' =>
      have he : t' ≠ t := he
      exact ⟨by simp [written, insAt], fun o ho => by simp [written] at ho; subst ho; exact he⟩
    | clr t' =>
      have he : t' ≠ t := he
      exact ⟨by simp [written, insAt], fun o ho => by simp [written] at ho; subst ho; exact he⟩
  | _ => exact ⟨rfl, fun o ho => by cases ho⟩

theorem recs_foreign {e : Ev V} (he : foreign t e) (d0 : KV V) (evs : List (Ev V)) :
    recs t k d0 (written (evs ++ [e])) = recs t k d0 (written evs) := by
  rw [written_append, recs_append, (foreign_written he).1, List.append_nil]

theorem Hist.append_keep {e : Nat} {d0 : KV V} {P Q : List (Op V)}
    (h : Hist ep rd t k e d0 P) (hc : ∀ o ∈ Q, ¬ clears t o)
    (hr : ∀ w ∈ recs t k d0 (P ++ Q), ep w ≤ e)
    (hch : (recs t k d0 (P ++ Q)).Pairwise (fun v w => ep v = e → le ep rd v w))
    (hu : ∀ v ∈ recs t k d0 (P ++ Q), ∀ w ∈ recs t k d0 (P ++ Q), ep v = ep w → rd v = rd w → v = w) :
    Hist ep rd t k e d0 (P ++ Q) where
  epochs := hr
  chain := hch
  uniq := hu
  fresh A o B hW hco w hw := by
    rcases List.append_eq_append_iff.mp hW with ⟨X, h1, h2⟩ | ⟨X, h1, h2⟩
    · exfalso
      exact hc o (by rw [h2]; simp) hco
    · cases X with
      | nil =>
        exfalso
        have h2 : o :: B = Q := by simpa using h2
        exact hc o (by rw [← h2]; simp) hco
      | cons x X =>
        simp only [List.cons_append, List.cons.injEq] at h2
        obtain ⟨rfl, h2⟩ := h2
        exact h.fresh A o X h1 hco w hw

variable (ep rd t k)

/-- Everything in `S` (what left the node) is protected by the slot. -/
structure Ok (e : Nat) (d0 : KV V) (evs : List (Ev V)) (S : List V) : Prop where
  hist : Hist ep rd t k e d0 (written evs)
  epochs : ∀ s ∈ S, ep s ≤ e
  compat : ∀ s ∈ S, ∀ w ∈ recs t k d0 (written evs), ep w = ep s → rd w = rd s → w = s
  durable : ∀ s ∈ S, ep s = e → Durable ep rd t k e d0 evs s
  once : ∀ s ∈ S, ∀ s' ∈ S, ep s = ep s' → rd s = rd s' → s = s'

variable {ep rd t k}
variable {e : Nat} {d0 : KV V} {evs : List (Ev V)} {S : List V}

theorem Ok.start (e : Nat) : Ok ep rd t k e (fun _ _ => none) [] [] := by
  refine ⟨⟨?_, ?_, ?_, ?_⟩, ?_, ?_, ?_, ?_⟩
  · intro w hw; simp [recs, written] at hw
  · simp [recs, written]
  · intro w hw; simp [recs, written] at hw
  · intro P o Q hW; simp [written] at hW
  all_goals intro s hs; cases hs

theorem Ok.foreignEv (h : Ok ep rd t k e d0 evs S) {x : Ev V} (hx : foreign t x) :
    Ok ep rd t k e d0 (evs ++ [x]) S where
  hist := by
    have hr := recs_foreign (k := k) hx d0 evs
    rw [written_append] at hr ⊢
    exact h.hist.append_keep (foreign_written (k := k) hx).2 (by rw [hr]; exact h.hist.epochs)
      (by rw [hr]; exact h.hist.chain) (by rw [hr]; exact h.hist.uniq)
  epochs := h.epochs
  compat s hs w hw := h.compat s hs w (by rw [← recs_foreign hx]; exact hw)
  durable s hs he := (h.durable s hs he).ext
  once := h.once

/-- What is read covers everything that left the node in this epoch. -/
theorem Ok.covered (h : Ok ep rd t k e d0 evs S) {s : V} (hs : s ∈ S) (he : ep s = e) :
    ∃ w, (db d0 evs).get t k = some w ∧ le ep rd s w := by
  obtain ⟨w, h1, h2⟩ := (h.durable s hs he).read h.hist he
  exact ⟨w, get_eq h1, h2⟩

theorem Ok.stored_epoch (h : Ok ep rd t k e d0 evs S) {w : V} (hw : (db d0 evs).get t k = some w) :
    ep w ≤ e := h.hist.epochs w (get_mem hw)

/-- Every record is below what is read, if the record is of the current epoch. -/
theorem Ok.rec_le (h : Ok ep rd t k e d0 evs S) {v : V} (hv : v ∈ recs t k d0 (written evs))
    (he : ep v = e) : ∃ w, (db d0 evs).get t k = some w ∧ le ep rd v w := by
  obtain ⟨w, h1, h2⟩ := h.hist.current he hv
  exact ⟨w, get_eq h1, h2⟩

/-- Recording a value: one that is above all of the current epoch, and, if its position was recorded
before, is the value recorded then. -/
theorem Ok.record (h : Ok ep rd t k e d0 evs S) {v : V} (he : ep v ≤ e)
    (hle : ∀ w ∈ recs t k d0 (written evs), ep w = e → le ep rd w v)
    (hold : ∀ w ∈ recs t k d0 (written evs), ep w = ep v → rd w = rd v → w = v)
    (hsent : ep v < e → v ∈ recs t k d0 (written evs)) :
    Ok ep rd t k e d0 (evs ++ [.write (.ins t k v)]) S := by
  have hrec : recs t k d0 (written (evs ++ [.write (.ins t k v)])) = recs t k d0 (written evs) ++ [v] := by
    rw [written_append, recs_append]; simp [written, insAt]
  refine ⟨?_, h.epochs, ?_, fun s hs hse => (h.durable s hs hse).ext, h.once⟩
  · rw [written_append] at hrec ⊢
    refine h.hist.append_keep ?_ ?_ ?_ ?_
    · intro o ho hc
      simp [written] at ho; subst ho; exact hc
    · intro w hw
      rw [hrec] at hw
      rcases List.mem_append.mp hw with hw | hw
      · exact h.hist.epochs w hw
      · rw [List.mem_singleton.mp hw]; exact he
    · rw [hrec, List.pairwise_append]
      refine ⟨h.hist.chain, by simp, ?_⟩
      intro w hw w' hw' hwe
      rw [List.mem_singleton.mp hw']; exact hle w hw hwe
    · rw [hrec]
      intro x hx y hy h1 h2
      rcases List.mem_append.mp hx with hx | hx
      · rcases List.mem_append.mp hy with hy | hy
        · exact h.hist.uniq x hx y hy h1 h2
        · rw [List.mem_singleton.mp hy] at h1 h2 ⊢; exact hold x hx h1 h2
      · rw [List.mem_singleton.mp hx] at h1 h2 ⊢
        rcases List.mem_append.mp hy with hy | hy
        · exact (hold y hy h1.symm h2.symm).symm
        · rw [List.mem_singleton.mp hy]
  · intro s hs w hw hwe hwr
    rw [hrec] at hw
    rcases List.mem_append.mp hw with hw | hw
    · exact h.compat s hs w hw hwe hwr
    · rw [List.mem_singleton.mp hw] at hwe hwr ⊢
      by_cases hve : ep v = e
      · obtain ⟨w', h1, h2⟩ := h.covered hs (by omega)
        have hw'e : ep w' = e := by
          have := h.stored_epoch h1
          rcases h2 with h2 | h2 <;> omega
        have h3 := le_trans h2 (hle w' (get_mem h1) hw'e)
        exact (le_eq h3 hwe.symm hwr.symm).symm
      · exact h.compat s hs v (hsent (by omega)) hwe hwr

/-- Entering a later epoch with a cleared table. -/
theorem Ok.clear (h : Ok ep rd t k e d0 evs S) {e' : Nat} (he : e < e') :
    Ok ep rd t k e' d0 (evs ++ [.write (.clr t)]) S := by
  have hrec : recs t k d0 (written (evs ++ [.write (.clr t)])) = recs t k d0 (written evs) := by
    rw [written_append, recs_append]; simp [written, insAt]
  refine ⟨⟨?_, ?_, by rw [hrec]; exact h.hist.uniq, ?_⟩, ?_, ?_, ?_, h.once⟩
  · intro w hw; rw [hrec] at hw; have := h.hist.epochs w hw; omega
  · rw [hrec]
    refine List.Pairwise.imp_of_mem ?_ h.hist.chain
    intro a b ha _ _ hae
    have := h.hist.epochs a ha
    omega
  · intro P o Q hW hc w hw
    have hW : written evs ++ [.clr t] = P ++ o :: Q := by
      rw [written_append] at hW; exact hW
    have : w ∈ recs t k d0 (written evs) := by
      rcases List.append_eq_append_iff.mp hW with ⟨A, h1, h2⟩ | ⟨A, h1, h2⟩
      · cases A with
        | nil => rw [List.append_nil] at h1; rw [← h1]; exact hw
        | cons y A => simp at h2
      · rw [h1, recs_append]; exact List.mem_append_left _ hw
    have := h.hist.epochs w this
    omega
  · intro s hs; have := h.epochs s hs; omega
  · intro s hs w hw; rw [hrec] at hw; exact h.compat s hs w hw
  · intro s hs hse; have := h.epochs s hs; omega

/-- A crash: the next run starts from the disk, in this epoch or a later one. -/
theorem Ok.crash (h : Ok ep rd t k e d0 evs S) {e' : Nat} (he : e ≤ e') :
    Ok ep rd t k e' (db d0 evs).disk [] S := by
  have hrec : ∀ w, w ∈ recs t k (db d0 evs).disk (written []) → w ∈ recs t k d0 (written evs) := by
    intro w hw
    simp [recs, written] at hw
    exact disk_mem hw
  refine ⟨⟨?_, ?_, ?_, ?_⟩, ?_, ?_, ?_, h.once⟩
  · intro w hw; have := h.hist.epochs w (hrec w hw); omega
  · simp only [recs, written, List.filterMap_nil, List.append_nil]
    cases (db d0 evs).disk t k <;> simp
  · intro x hx y hy h1 h2; exact h.hist.uniq x (hrec x hx) y (hrec y hy) h1 h2
  · intro P o Q hW; simp [written] at hW
  · intro s hs; have := h.epochs s hs; omega
  · intro s hs w hw; exact h.compat s hs w (hrec w hw)
  · intro s hs hse
    have := h.epochs s hs
    exact .inl ((h.durable s hs (by omega)).disk h.hist (by omega))

/-- A recorded value may leave the node once the barrier behind it has reported success (or if it is of an
earlier epoch). -/
theorem Ok.send (h : Ok ep rd t k e d0 evs S) {v : V}
    (hrec : v ∈ recs t k d0 (written evs))
    (hb : ep v = e → ∃ b, Behind ep rd t k e d0 evs v b ∧ (b, true) ∈ (db d0 evs).acks) :
    Ok ep rd t k e d0 evs (v :: S) := by
  have hcomp : ∀ w ∈ recs t k d0 (written evs), ep w = ep v → rd w = rd v → w = v :=
    fun w hw he hr => h.hist.uniq w hw v hrec he hr
  refine ⟨h.hist, ?_, ?_, ?_, ?_⟩
  · intro s hs
    rcases List.mem_cons.mp hs with rfl | hs
    · exact h.hist.epochs _ hrec
    · exact h.epochs s hs
  · intro s hs w hw he hr
    rcases List.mem_cons.mp hs with rfl | hs
    · exact hcomp w hw he hr
    · exact h.compat s hs w hw he hr
  · intro s hs hse
    rcases List.mem_cons.mp hs with rfl | hs
    · obtain ⟨b, h1, h2⟩ := hb hse
      exact .inr ⟨b, h2, h1⟩
    · exact h.durable s hs hse
  · intro s hs s' hs' h1 h2
    rcases List.mem_cons.mp hs with hv | ha
    · rcases List.mem_cons.mp hs' with hv' | hb'
      · rw [hv, hv']
      · rw [hv] at h1 h2 ⊢; exact h.compat s' hb' v hrec h1 h2
    · rcases List.mem_cons.mp hs' with hv' | hb'
      · rw [hv'] at h1 h2 ⊢; exact (h.compat s ha v hrec h1.symm h2.symm).symm
      · exact h.once s ha s' hb' h1 h2

/-- A barrier requested now is behind every record there is. -/
theorem Ok.behindNow (h : Ok ep rd t k e d0 evs S) {v : V} (hv : v ∈ recs t k d0 (written evs)) :
    Behind ep rd t k e d0 (evs ++ [.persist]) v (persists evs) :=
  ⟨evs, [], by simp, rfl, fun he => h.hist.current he hv⟩

end Guard
end Verif
