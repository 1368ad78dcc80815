/- The loop that turns committed sub-dags into outputs: numbers, order, save before broadcast, shutdown (C81). -/
import Verif.Loop.Sequencer

namespace Verif
namespace Loop
namespace Seq

variable {D P : Type}

theorem setDone_out (l : List (Fetch D P)) (i : Nat) (ok : Bool) : (setDone l i ok).map (·.out) = l.map (·.out) := by
  unfold setDone
  induction l generalizing i with
  | nil => cases i <;> rfl
  | cons f r ih =>
    cases i with
    | zero => rfl
    | succ i => show _ :: _ = _ :: _; exact congrArg _ (ih i)

theorem setDone_length (l : List (Fetch D P)) (i : Nat) (ok : Bool) : (setDone l i ok).length = l.length := by
  have := congrArg List.length (setDone_out l i ok)
  rwa [List.length_map, List.length_map] at this

/-- After an error nothing more happens to the outputs. -/
theorem inv_ended {e : Env D P} {n : Nat} {p : P} {s : St D P} {r : Ret} (i : Inv e n p s) (hr : r = .ok → s.drain = true ∧ ∀ o, s.busy ≠ .save o) :
    Inv e n p { s with ret := some r } :=
  ⟨i.numEq, i.parentEq, (fun h => by cases h), i.pre, i.sentSub, (fun _ h => by cases h), i.sentTail, i.bound, i.edge,
    fun h => (hr (Option.some.inj h)).1, fun h => (hr (Option.some.inj h)).2⟩

theorem inv_next {e : Env D P} {n : Nat} {p : P} {s t : St D P} {a : Act D} (i : Inv e n p s) (hn : next e s a = some t) :
    Inv e n p t := by
  cases a with
  | commit d =>
    cases hn
    exact ⟨i.numEq, i.parentEq, i.line, i.pre, i.sentSub, i.sentAll, i.sentTail, i.bound, i.edge, i.drained, i.noSave⟩
  | notify =>
    cases hn
    exact ⟨i.numEq, i.parentEq, i.line, i.pre, i.sentSub, i.sentAll, i.sentTail, i.bound, i.edge, i.drained, i.noSave⟩
  | fetched j ok =>
    simp only [next] at hn
    split at hn
    · cases hn
      refine ⟨i.numEq, i.parentEq, ?_, i.pre, i.sentSub, i.sentAll, i.sentTail, ?_, i.edge, i.drained, i.noSave⟩
      · intro hr
        have := i.line hr
        unfold pending at this ⊢
        dsimp only
        rw [setDone_out]
        exact this
      · show (setDone s.waiting j ok).length ≤ _
        rw [setDone_length]; exact i.bound
    · cases hn
  | recv =>
    simp only [next] at hn
    split at hn
    · rename_i hb
      split at hn
      · rename_i hc
        unfold receive at hn
        split at hn
        · cases hn
        · rename_i d r hch
          cases hn
          have hline := i.line hc.1
          have hchain : chain e n p (s.received ++ [d]) = chain e n p s.received ++ [⟨s.num + 1, s.parent, d⟩] := by
            rw [chain_concat, i.numEq, i.parentEq]
          refine ⟨?_, ?_, ?_, ?_, i.sentSub, i.sentAll, i.sentTail, ?_, ?_, i.drained, i.noSave⟩
          · show s.num + 1 = n + (s.received ++ [d]).length
            rw [List.length_append, List.length_singleton, i.numEq]; omega
          · show e.digest s.parent d (s.num + 1) = tip e n p (s.received ++ [d])
            rw [tip_concat, i.numEq, i.parentEq]
          · intro _
            show s.saved ++ pending _ = chain e n p (s.received ++ [d])
            rw [hchain, ← hline]
            unfold pending
            dsimp only
            rw [List.map_append, List.map_singleton, List.append_assoc, List.append_assoc]
          · show s.saved <+: chain e n p (s.received ++ [d])
            rw [hchain]
            exact i.pre.trans (List.prefix_append _ _)
          · show (s.waiting ++ [_]).length ≤ _
            rw [List.length_append, List.length_singleton]; exact hc.2.2.2
          · have hnb : ∀ x ∈ s.received, e.time x < e.boundary := by
              intro x hx
              rcases List.eq_nil_or_concat s.received with h0 | ⟨l, y, hl⟩
              · rw [h0] at hx; cases hx
              · rw [List.concat_eq_append] at hl
                have h1 := i.edge.1
                have h2 := i.edge.2
                rw [hl, List.dropLast_concat] at h1
                rw [hl, List.getLast?_concat] at h2
                rw [hl] at hx
                rcases List.mem_append.mp hx with hx | hx
                · exact h1 x hx
                · rw [List.mem_singleton.mp hx]
                  rcases Nat.lt_or_ge (e.time y) e.boundary with h | h
                  · exact h
                  · have := h2.mpr ⟨y, rfl, h⟩
                    rw [hc.2.2.1] at this; cases this
            constructor
            · show ∀ x ∈ (s.received ++ [d]).dropLast, _
              rw [List.dropLast_concat]; exact hnb
            · show (if e.boundary ≤ e.time d then true else s.done) = true ↔ ∃ x, (s.received ++ [d]).getLast? = some x ∧ _
              rw [List.getLast?_concat, hc.2.2.1]
              constructor
              · intro h
                refine ⟨d, rfl, ?_⟩
                split at h
                · assumption
                · cases h
              · rintro ⟨x, hx, hle⟩
                cases hx
                rw [if_pos hle]
      · cases hn
    · cases hn
  | next =>
    simp only [next] at hn
    split at hn
    · rename_i hb
      split at hn
      · rename_i hc
        have hline := i.line hc.1
        unfold yield_ at hn
        split at hn
        · rename_i o w hw
          cases hn
          refine ⟨i.numEq, i.parentEq, ?_, i.pre, i.sentSub, ?_, ?_, ?_, i.edge, i.drained, ?_⟩
          · intro _
            rw [← hline]
            unfold pending
            dsimp only
            rw [hw, hb]
            rfl
          · intro hd hr
            have := i.sentAll hd hr
            rw [hb] at this
            exact this
          · intro o' h; cases h
          · have := i.bound
            rw [hw, List.length_cons] at this
            exact Nat.le_of_succ_le this
          · intro h; rw [show s.ret = some .ok from h] at hc; cases hc.1
        · rename_i o w hw
          cases hn
          have i2 : Inv e n p { s with waiting := w, ret := some .aborted } :=
            ⟨i.numEq, i.parentEq, (fun h => by cases h), i.pre, i.sentSub, (fun _ h => by cases h), i.sentTail,
              (by have := i.bound; rw [hw, List.length_cons] at this; exact Nat.le_of_succ_le this), i.edge,
              (fun h => by cases h), (fun h => by cases h)⟩
          have := inv_ended (r := if s.drain then Ret.ok else Ret.fetchError) i2 (by
            intro h
            refine ⟨?_, ?_⟩
            · cases hd : s.drain with
              | true => rfl
              | false => rw [hd] at h; cases h
            · intro o h; rw [show s.busy = _ from h] at hb; cases hb)
          exact this
        · cases hn
      · cases hn
    · cases hn
  | save ok =>
    simp only [next] at hn
    split at hn
    · rename_i o hb
      split at hn
      · rename_i hr
        have hline := i.line hr
        unfold pending at hline
        rw [hb] at hline
        dsimp only at hline
        split at hn
        · cases hn
          refine ⟨i.numEq, i.parentEq, ?_, ?_, ?_, ?_, ?_, i.bound, i.edge, i.drained, ?_⟩
          · intro _
            rw [← hline]
            unfold pending
            simp
          · refine ⟨s.waiting.map (·.out), ?_⟩
            rw [← hline]
            simp
          · exact i.sentSub.trans (List.sublist_append_left _ _)
          · intro hd hr
            have := i.sentAll hd hr
            rw [hb] at this
            show s.saved ++ [o] = s.sent ++ [o]
            rw [this]; simp
          · intro o' h
            cases h
            exact ⟨s.saved, rfl, i.sentSub⟩
          · intro h; rw [show s.ret = some .ok from h] at hr; cases hr
        · cases hn
          refine ⟨i.numEq, i.parentEq, ?_, i.pre, i.sentSub, ?_, ?_, i.bound, i.edge, ?_, ?_⟩
          · intro h; cases h
          · intro _ h; cases h
          · intro o' h; cases h
          · intro h
            have h' := Option.some.inj h
            cases hd : s.drain with
            | true => rfl
            | false => rw [hd] at h'; cases h'
          · intro _ o' h; cases h
      · cases hn
    · cases hn
  | send ok =>
    simp only [next] at hn
    split at hn
    · rename_i o hb
      split at hn
      · rename_i hr
        obtain ⟨l, hl, hsub⟩ := i.sentTail o hb
        have hline := i.line hr
        unfold pending at hline
        rw [hb] at hline
        dsimp only at hline
        split at hn
        · cases hn
          refine ⟨i.numEq, i.parentEq, ?_, i.pre, ?_, ?_, ?_, i.bound, i.edge, i.drained, ?_⟩
          · intro _
            rw [← hline]; rfl
          · show (s.sent ++ [o]).Sublist s.saved
            rw [hl]
            exact List.Sublist.append hsub (List.Sublist.refl _)
          · intro hd hr
            have := i.sentAll hd hr
            rw [hb] at this
            show s.saved = s.sent ++ [o] ++ []
            rw [List.append_nil]
            exact this
          · intro o' h; cases h
          · intro _ o' h; cases h
        · split at hn
          · rename_i hd
            cases hn
            refine ⟨i.numEq, i.parentEq, ?_, i.pre, i.sentSub, ?_, ?_, i.bound, i.edge, i.drained, ?_⟩
            · intro _
              rw [← hline]; rfl
            · intro h; rw [show s.drain = false from h] at hd; cases hd
            · intro o' h; cases h
            · intro _ o' h; cases h
          · cases hn
            refine ⟨i.numEq, i.parentEq, ?_, i.pre, i.sentSub, ?_, ?_, i.bound, i.edge, ?_, ?_⟩
            · intro h; cases h
            · intro _ h; cases h
            · intro o' h; cases h
            · intro h; cases h
            · intro _ o' h; cases h
      · cases hn
    · cases hn
  | shutdown =>
    simp only [next] at hn
    split at hn
    · split at hn
      · rename_i hc
        cases hn
        exact ⟨i.numEq, i.parentEq, i.line, i.pre, i.sentSub, (fun h => by cases h), i.sentTail, i.bound, i.edge,
          (fun _ => rfl), i.noSave⟩
      · cases hn
    · cases hn
  | deadline =>
    simp only [next] at hn
    split at hn
    · cases hn
      exact ⟨i.numEq, i.parentEq, i.line, i.pre, i.sentSub, i.sentAll, i.sentTail, i.bound, i.edge, i.drained, i.noSave⟩
    · cases hn
  | finish =>
    simp only [next] at hn
    split at hn
    · rename_i hb
      split at hn
      · rename_i hc
        cases hn
        exact inv_ended i (fun _ => ⟨hc.2.1, fun o h => by rw [h] at hb; cases hb⟩)
      · cases hn
    · cases hn
  | abort =>
    simp only [next] at hn
    split at hn
    · cases hn
      exact inv_ended i (fun h => by cases h)
    · cases hn

theorem reach_inv {e : Env D P} {n : Nat} {p : P} {s : St D P} (h : Reach e n p s) : Inv e n p s := by
  induction h with
  | start =>
    refine ⟨rfl, rfl, fun _ => rfl, List.prefix_refl _, List.Sublist.refl _, fun _ _ => rfl, ?_, Nat.zero_le _, ⟨?_, ?_⟩, ?_, ?_⟩
    · intro o h; cases h
    · intro d hd; cases hd
    · constructor
      · intro h; cases h
      · rintro ⟨d, hd, _⟩; cases hd
    · intro h; cases h
    · intro h; cases h
  | step a _ hn ih => exact inv_next ih hn

/-! ## C81 -/

/-- **C81**, numbers and parents. While the task runs, the outputs it has saved, the one it is saving and those it is fetching are exactly
the outputs of the sub-dags it received, in their order, with consecutive numbers behind the last executed one, each naming the one before as its
parent. -/
theorem numbered {e : Env D P} {n : Nat} {p : P} {s : St D P} (h : Reach e n p s) (hr : s.ret = none) :
    s.saved ++ pending s = chain e n p s.received := (reach_inv h).line hr

/-- **C81**, no gap. What has been saved is at all times, also after an error, an abort or a shutdown, an initial piece of that chain. -/
theorem saved_prefix {e : Env D P} {n : Nat} {p : P} {s : St D P} (h : Reach e n p s) : s.saved <+: chain e n p s.received :=
  (reach_inv h).pre

/-- **C81**, saved before broadcast. Only saved outputs are broadcast, in their order and once each; before shutdown none is left out. -/
theorem saved_before_sent {e : Env D P} {n : Nat} {p : P} {s : St D P} (h : Reach e n p s) :
    s.sent.Sublist s.saved ∧ (s.drain = false → s.ret = none → s.busy = .no → s.sent = s.saved) := by
  refine ⟨(reach_inv h).sentSub, ?_⟩
  intro hd hr hb
  have := (reach_inv h).sentAll hd hr
  rw [hb] at this
  rw [this]; simp

/-- **C81**, the end of the epoch. At most one received sub-dag, the last one, reaches the end of the epoch; behind it nothing is received. -/
theorem boundary {e : Env D P} {n : Nat} {p : P} {s : St D P} (h : Reach e n p s) :
    (∀ d ∈ s.received.dropLast, e.time d < e.boundary) ∧
    ∀ (t : St D P) (d : D), s.received.getLast? = some d → e.boundary ≤ e.time d → next e s .recv = some t → False := by
  refine ⟨(reach_inv h).edge.1, ?_⟩
  intro t d hd hle hn
  have := (reach_inv h).edge.2.mpr ⟨d, hd, hle⟩
  simp only [next] at hn
  split at hn
  · rw [if_neg (by rw [this]; rintro ⟨_, _, h, _⟩; cases h)] at hn
    cases hn
  · cases hn

/-- **C81**, bounded: never more than a thousand fetches. -/
theorem bounded {e : Env D P} {n : Nat} {p : P} {s : St D P} (h : Reach e n p s) : s.waiting.length ≤ 1000 := (reach_inv h).bound

/-- **C81**, agreement. Two nodes that start behind the same output and receive the same sub-dags, one perhaps further than the other, save the
same outputs: what one has saved is an initial piece of what the other has saved, or the other way round. -/
theorem agree {e : Env D P} {n : Nat} {p : P} {s t : St D P} (hs : Reach e n p s) (ht : Reach e n p t)
    (hpre : s.received <+: t.received ∨ t.received <+: s.received) : s.saved <+: t.saved ∨ t.saved <+: s.saved := by
  have key : ∀ {a b : List D}, a <+: b → chain e n p a <+: chain e n p b := by
    intro a b ⟨c, hc⟩
    rw [← hc, chain_append]
    exact List.prefix_append _ _
  have h1 := saved_prefix hs
  have h2 := saved_prefix ht
  rcases hpre with h | h
  · have h3 := h1.trans (key h)
    rcases Nat.le_total s.saved.length t.saved.length with hl | hl
    · exact Or.inl (List.prefix_of_prefix_length_le h3 h2 hl)
    · exact Or.inr (List.prefix_of_prefix_length_le h2 h3 hl)
  · have h3 := h2.trans (key h)
    rcases Nat.le_total s.saved.length t.saved.length with hl | hl
    · exact Or.inl (List.prefix_of_prefix_length_le h1 h3 hl)
    · exact Or.inr (List.prefix_of_prefix_length_le h3 h1 hl)

/-- The sub-dag of every output of a chain. -/
theorem chain_dags (e : Env D P) (n : Nat) (p : P) (l : List D) : (chain e n p l).map (·.dag) = l := by
  induction l generalizing n p with
  | nil => rfl
  | cons d r ih => rw [chain, List.map_cons, ih]

theorem chain_take (e : Env D P) (n : Nat) (p : P) (l : List D) (k : Nat) : (chain e n p l).take k = chain e n p (l.take k) := by
  induction l generalizing n p k with
  | nil => simp [chain]
  | cons d r ih =>
    cases k with
    | zero => simp [chain]
    | succ k => rw [chain, List.take_succ_cons, List.take_succ_cons, chain, ih]

/-- **C81**, restart. A task that starts again behind what was saved, and is given the sub-dags behind the last saved one, continues the same
chain: what both have saved together is an initial piece of the outputs of the whole sequence. -/
theorem restart {e : Env D P} {n : Nat} {p : P} {s t : St D P} (hs : Reach e n p s)
    (ht : Reach e (n + s.saved.length) (tip e n p (s.saved.map (·.dag))) t) :
    s.saved ++ t.saved <+: chain e n p (s.saved.map (·.dag) ++ t.received) := by
  have h1 := saved_prefix hs
  have hc : s.saved = chain e n p (s.saved.map (·.dag)) := by
    have : s.saved = chain e n p (s.received.take s.saved.length) := by
      rw [← chain_take]; exact List.prefix_iff_eq_take.mp h1
    have h2 := congrArg (List.map (·.dag)) this
    rw [chain_dags] at h2
    rw [h2]; exact this
  rw [chain_append, ← hc]
  refine (List.prefix_append_right_inj _).mpr ?_
  have h3 := saved_prefix ht
  rw [List.length_map]
  exact h3

/-- **C81**, a failed fetch stops the task: neither the output that failed nor any behind it is saved, ever. -/
theorem fetch_failed {e : Env D P} {n : Nat} {p : P} {s t : St D P} (h : Reach e n p s) {o : Out D P} {w : List (Fetch D P)}
    (hw : s.waiting = ⟨o, some false⟩ :: w) (hn : next e s .next = some t) :
    t.ret ≠ none ∧ t.saved = s.saved ∧ s.saved ++ o :: w.map (·.out) = chain e n p s.received := by
  simp only [next] at hn
  split at hn
  · rename_i hb
    split at hn
    · rename_i hc
      have hl := numbered h hc.1
      unfold pending at hl
      rw [hb, hw] at hl
      unfold yield_ at hn
      rw [hw] at hn
      cases hn
      exact ⟨(fun h => by cases h), rfl, hl⟩
    · cases hn
  · cases hn

/-- **C81**, the end is the end: once the task has ended nothing is saved or broadcast. -/
theorem ended {e : Env D P} {s t : St D P} {a : Act D} (hr : s.ret ≠ none) (hn : next e s a = some t) :
    t.saved = s.saved ∧ t.sent = s.sent ∧ t.ret = s.ret ∧ t.received = s.received := by
  cases a with
  | commit d => cases hn; exact ⟨rfl, rfl, rfl, rfl⟩
  | notify => cases hn; exact ⟨rfl, rfl, rfl, rfl⟩
  | fetched j ok =>
    simp only [next] at hn
    split at hn
    · rename_i h; exact absurd h.2 hr
    · cases hn
  | recv =>
    simp only [next] at hn
    split at hn
    · split at hn
      · rename_i h; exact absurd h.1 hr
      · cases hn
    · cases hn
  | next =>
    simp only [next] at hn
    split at hn
    · split at hn
      · rename_i h; exact absurd h.1 hr
      · cases hn
    · cases hn
  | save ok =>
    simp only [next] at hn
    split at hn
    · split at hn
      · rename_i h; exact absurd h hr
      · cases hn
    · cases hn
  | send ok =>
    simp only [next] at hn
    split at hn
    · split at hn
      · rename_i h; exact absurd h hr
      · cases hn
    · cases hn
  | shutdown =>
    simp only [next] at hn
    split at hn
    · split at hn
      · rename_i h; exact absurd h.1 hr
      · cases hn
    · cases hn
  | deadline =>
    simp only [next] at hn
    split at hn
    · cases hn; exact ⟨rfl, rfl, rfl, rfl⟩
    · cases hn
  | finish =>
    simp only [next] at hn
    split at hn
    · split at hn
      · rename_i h; exact absurd h.1 hr
      · cases hn
    · cases hn
  | abort =>
    simp only [next] at hn
    split at hn
    · rename_i h; exact absurd h hr
    · cases hn

/-- **C81**, a complete drain. If the task ends by the shutdown signal with no fetch pending and nothing failed, everything it received is saved. -/
theorem drain_complete {e : Env D P} {n : Nat} {p : P} {s t : St D P} (h : Reach e n p s) (hw : s.waiting = [])
    (hn : next e s .finish = some t) : t.saved = chain e n p t.received := by
  simp only [next] at hn
  split at hn
  · rename_i hb
    split at hn
    · rename_i hc
      cases hn
      have := numbered h hc.1
      unfold pending at this
      rw [hb, hw] at this
      rw [← this]; simp
    · cases hn
  · cases hn

/-- **C81**, never stuck. A running task can act, or waits for something outside it: a sub-dag, the end of the oldest fetch, or the deadline of its
drain. -/
theorem never_stuck {e : Env D P} {n : Nat} {p : P} {s : St D P} (h : Reach e n p s) (hr : s.ret = none)
    (hno : ∀ a ∈ ([.recv, .next, .save true, .send true, .shutdown, .finish] : List (Act D)), next e s a = none) :
    s.busy = .no ∧
    ((s.drain = false ∧ s.notice = false ∧ (s.done = true ∨ s.chan = [] ∨ s.waiting.length = 1000) ∧
        (s.waiting = [] ∨ ∃ o w, s.waiting = ⟨o, none⟩ :: w)) ∨
     (s.drain = true ∧ s.late = false ∧ ∃ o w, s.waiting = ⟨o, none⟩ :: w)) := by
  have hb : s.busy = .no := by
    cases hb : s.busy with
    | no => rfl
    | save o =>
      have := hno (.save true) (by simp)
      simp only [next] at this
      rw [hb] at this
      dsimp only at this
      rw [if_pos hr] at this
      cases this
    | send o =>
      have := hno (.send true) (by simp)
      simp only [next] at this
      rw [hb] at this
      dsimp only at this
      rw [if_pos hr] at this
      cases this
  refine ⟨hb, ?_⟩
  have hnext := hno .next (by simp)
  simp only [next] at hnext
  rw [hb] at hnext
  dsimp only at hnext
  have hhead : (s.drain = true → s.late = false) → s.waiting = [] ∨ ∃ o w, s.waiting = ⟨o, none⟩ :: w := by
    intro hl
    rw [if_pos ⟨hr, hl⟩] at hnext
    unfold yield_ at hnext
    cases hw : s.waiting with
    | nil => exact Or.inl rfl
    | cons f w =>
      right
      obtain ⟨o, dn⟩ := f
      cases dn with
      | none => exact ⟨o, w, rfl⟩
      | some b => rw [hw] at hnext; cases b <;> cases hnext
  cases hd : s.drain with
  | false =>
    left
    have hsh := hno .shutdown (by simp)
    simp only [next] at hsh
    rw [hb] at hsh
    dsimp only at hsh
    have hnot : s.notice = false := by
      cases hx : s.notice with
      | false => rfl
      | true => rw [if_pos ⟨hr, hd, hx⟩] at hsh; cases hsh
    refine ⟨rfl, hnot, ?_, hhead (fun h => by rw [hd] at h; cases h)⟩
    have hrc := hno .recv (by simp)
    simp only [next] at hrc
    rw [hb] at hrc
    dsimp only at hrc
    by_cases hx : s.done = true
    · exact Or.inl hx
    · right
      rw [Bool.not_eq_true] at hx
      by_cases hl : s.waiting.length < maxPending
      · left
        rw [if_pos ⟨hr, hd, hx, hl⟩] at hrc
        unfold receive at hrc
        cases hc : s.chan with
        | nil => rfl
        | cons d r => rw [hc] at hrc; cases hrc
      · right
        have := bounded h
        have h2 : maxPending = 1000 := rfl
        omega
  | true =>
    right
    have hf := hno .finish (by simp)
    simp only [next] at hf
    rw [hb] at hf
    dsimp only at hf
    have hlate : s.late = false := by
      cases hx : s.late with
      | false => rfl
      | true => rw [if_pos ⟨hr, hd, Or.inl hx⟩] at hf; cases hf
    have hne : s.waiting ≠ [] := by
      intro hx
      rw [if_pos ⟨hr, hd, Or.inr hx⟩] at hf; cases hf
    refine ⟨rfl, hlate, ?_⟩
    rcases hhead (fun _ => hlate) with hx | hx
    · exact absurd hx hne
    · exact hx

/-- Runs, for the examples. -/
def runs (e : Env D P) (s : St D P) : List (Act D) → Option (St D P)
  | [] => some s
  | a :: as => match next e s a with
    | none => none
    | some t => runs e t as

theorem reach_runs {e : Env D P} {n : Nat} {p : P} {as : List (Act D)} :
    ∀ {s t : St D P}, Reach e n p s → runs e s as = some t → Reach e n p t := by
  induction as with
  | nil => intro s t h e; cases e; exact h
  | cons a as ih =>
    intro s t h e
    unfold runs at e
    split at e
    · cases e
    · rename_i u hu
      exact ih (.step a h hu) e

/-- A small instance: sub-dags are their commit times, a digest is a number. -/
def tiny : Env Nat Nat := ⟨fun p d n => 100 * p + 10 * d + n, fun d => d, 5⟩

/-- Two fetches end in the wrong order, the outputs come out in the right one; the third sub-dag reaches the end of the epoch and the fourth is not
received. -/
theorem ordered_example : ∃ s : St Nat Nat, Reach tiny 7 0 s ∧ s.ret = none ∧ s.saved = [⟨8, 0, 1⟩, ⟨9, 18, 2⟩] ∧ s.sent = s.saved ∧
    s.received = [1, 2, 5] ∧ s.done = true ∧ s.chan = [6] := by
  have hb : ((runs tiny (start 7 0) ([.commit 1, .commit 2, .commit 5, .commit 6, .recv, .recv, .recv, .fetched 1 true, .fetched 0 true,
      .next, .save true, .send true, .next, .save true, .send true] : List (Act Nat))).map
      (fun t : St Nat Nat => decide (t.ret = none ∧ t.saved = [⟨8, 0, 1⟩, ⟨9, 18, 2⟩] ∧ t.sent = t.saved ∧ t.received = [1, 2, 5] ∧
        t.done = true ∧ t.chan = [6]))) = some true := by
    decide +kernel
  obtain ⟨t, ht, hd⟩ := Option.map_eq_some_iff.mp hb
  exact ⟨t, reach_runs .start ht, of_decide_eq_true hd⟩

/-- The shutdown signal with three fetches pending: the first has been dequeued when the deadline passes and is still saved; the second has not
ended, and nothing past the gap is saved although the third fetch has ended. -/
theorem drain_example : ∃ s : St Nat Nat, Reach tiny 7 0 s ∧ s.ret = some .ok ∧ s.saved = [⟨8, 0, 1⟩] ∧ s.sent = [] ∧ s.received = [1, 2, 3] := by
  have hb : ((runs tiny (start 7 0) ([.commit 1, .commit 2, .commit 3, .recv, .recv, .recv, .notify, .shutdown, .fetched 2 true,
      .fetched 0 true, .next, .deadline, .save true, .send false, .finish] : List (Act Nat))).map
      (fun t : St Nat Nat => decide (t.ret = some .ok ∧ t.saved = [⟨8, 0, 1⟩] ∧ t.sent = [] ∧ t.received = [1, 2, 3]))) = some true := by
    decide +kernel
  obtain ⟨t, ht, hd⟩ := Option.map_eq_some_iff.mp hb
  exact ⟨t, reach_runs .start ht, of_decide_eq_true hd⟩

end Seq
end Loop
end Verif
