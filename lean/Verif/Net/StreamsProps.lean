import Verif.Net.Streams
import Mathlib.Tactic.Common

/-!
# Every stream open is answered exactly once
-/

namespace Verif.Strm

open Verif.Net (get put del)

/-! ## Where a call is -/

/-- How often call `i` is in the connections' handlers. -/
def held (i : Nat) : List Conn → Nat
  | [] => 0
  | k :: l => k.queue.count i + (k.nego.map Prod.fst).count i + held i l

/-- How often call `i` waits in the behaviour. -/
def waiting (i : Nat) (s : S) : Nat := (s.pending.map Open.id).count i

/-- How often call `i` was answered. -/
def answered (i : Nat) (s : S) : Nat := (s.answers.map Prod.fst).count i

/-- Everywhere call `i` is. -/
def place (i : Nat) (s : S) : Nat := waiting i s + held i s.conns + answered i s

theorem held_append (i : Nat) (l m : List Conn) : held i (l ++ m) = held i l + held i m := by
  induction l with
  | nil => simp [held]
  | cons k l ih => simp only [List.cons_append, held, ih]; omega

theorem held_set (i : Nat) (l : List Conn) (c : Nat) (k k' : Conn) (h : l[c]? = some k) :
    held i (l.set c k') + (k.queue.count i + (k.nego.map Prod.fst).count i)
      = held i l + (k'.queue.count i + (k'.nego.map Prod.fst).count i) := by
  induction l generalizing c with
  | nil => simp at h
  | cons x l ih =>
    cases c with
    | zero => simp at h; subst h; simp only [List.set_cons_zero, held]; omega
    | succ c =>
      simp at h
      have := ih c h
      simp only [List.set_cons_succ, held]; omega

theorem held_erase (i : Nat) (l : List Conn) (c : Nat) (k : Conn) (h : l[c]? = some k) :
    held i (l.eraseIdx c) + (k.queue.count i + (k.nego.map Prod.fst).count i) = held i l := by
  induction l generalizing c with
  | nil => simp at h
  | cons x l ih =>
    cases c with
    | zero => simp at h; subst h; simp only [List.eraseIdx_cons_zero, held]; omega
    | succ c =>
      simp at h
      have := ih c h
      simp only [List.eraseIdx_cons_succ, held]; omega

theorem count_split (i : Nat) (l : List Open) (q : Open → Bool) :
    ((l.filter q).map Open.id).count i + ((l.filter fun o => !q o).map Open.id).count i
      = (l.map Open.id).count i := by
  induction l with
  | nil => rfl
  | cons o l ih =>
    by_cases h : q o = true
    · simp [List.filter_cons, h, List.count_cons] at ih ⊢; omega
    · simp [List.filter_cons, h, List.count_cons] at ih ⊢; omega

theorem count_map_id (i : Nat) (l : List Open) (f : Open → Open) (hf : ∀ o, (f o).id = o.id) :
    ((l.map f).map Open.id).count i = (l.map Open.id).count i := by
  rw [List.map_map]
  congr 1
  exact List.map_congr_left fun o _ => hf o

theorem count_erase (i : Nat) (l : List Open) (o : Open) (h : o ∈ l) :
    ((l.erase o).map Open.id).count i + (if o.id = i then 1 else 0) = (l.map Open.id).count i := by
  have hp := (List.perm_cons_erase h).map Open.id
  have := hp.count_eq i
  rw [this, List.map_cons, List.count_cons]
  by_cases he : o.id = i
  · simp [he]
  · simp [he]

theorem count_erase_fst (i : Nat) (l : List (Nat × Nat)) (e : Nat × Nat) (h : e ∈ l) :
    ((l.erase e).map Prod.fst).count i + (if e.1 = i then 1 else 0) = (l.map Prod.fst).count i := by
  have hp := (List.perm_cons_erase h).map Prod.fst
  have := hp.count_eq i
  rw [this, List.map_cons, List.count_cons]
  by_cases he : e.1 = i
  · simp [he]
  · simp [he]

theorem ready_id (p : Nat) (o : Open) : (Open.ready p o).id = o.id := by
  unfold Open.ready; split <;> rfl

theorem back_id (p : Nat) (o : Open) : (Open.back p o).id = o.id := by
  unfold Open.back; split <;> rfl

theorem dialed_id (p : Nat) (o : Open) : (Open.dialed p o).id = o.id := by
  unfold Open.dialed; split <;> rfl

theorem ready_peer (p : Nat) (o : Open) : (Open.ready p o).peer = o.peer := by
  unfold Open.ready; split <;> rfl

theorem ready_deadline (p : Nat) (o : Open) : (Open.ready p o).deadline = o.deadline := by
  unfold Open.ready; split <;> rfl

theorem back_peer (p : Nat) (o : Open) : (Open.back p o).peer = o.peer := by
  unfold Open.back; split <;> rfl

theorem back_deadline (p : Nat) (o : Open) : (Open.back p o).deadline = o.deadline := by
  unfold Open.back; split <;> rfl

theorem dialed_peer (p : Nat) (o : Open) : (Open.dialed p o).peer = o.peer := by
  unfold Open.dialed; split <;> rfl

theorem dialed_deadline (p : Nat) (o : Open) : (Open.dialed p o).deadline = o.deadline := by
  unfold Open.dialed; split <;> rfl

/-! ## Frames -/

/-- `push` touches only the event buffer. -/
theorem push_spec (s : S) (e : SEv) : (s.push e).now = s.now ∧ (s.push e).calls = s.calls ∧
    (s.push e).pending = s.pending ∧ (s.push e).connected = s.connected ∧ (s.push e).conns = s.conns ∧
    (s.push e).dials = s.dials ∧ (s.push e).answers = s.answers ∧ (s.push e).inbound = s.inbound ∧
    (s.events.length ≤ maxEvents → (s.push e).events.length ≤ maxEvents) := by
  unfold S.push
  split
  · rename_i h
    refine ⟨rfl, rfl, rfl, rfl, rfl, rfl, rfl, rfl, fun _ => ?_⟩
    show (s.events ++ [e]).length ≤ maxEvents
    rw [List.length_append]; exact h
  · exact ⟨rfl, rfl, rfl, rfl, rfl, rfl, rfl, rfl, id⟩

/-- `failAll` answers each open and touches nothing else but the event buffer. -/
theorem failAll_spec (a : Answer) (f : Failure) (os : List Open) (s : S) :
    let t := S.failAll a f s os
    t.now = s.now ∧ t.calls = s.calls ∧ t.pending = s.pending ∧ t.connected = s.connected ∧
    t.conns = s.conns ∧ t.dials = s.dials ∧
    t.answers = s.answers ++ os.map (fun o => (o.id, a, s.now)) ∧ t.inbound = s.inbound ∧
    (s.events.length ≤ maxEvents → t.events.length ≤ maxEvents) := by
  dsimp only
  induction os generalizing s with
  | nil => exact ⟨rfl, rfl, rfl, rfl, rfl, rfl, (List.append_nil _).symm, rfl, id⟩
  | cons o os ih =>
    have h := ih ((s.reply o.id a).push (.outboundFailure o.peer f))
    have hp := push_spec (s.reply o.id a) (.outboundFailure o.peer f)
    obtain ⟨a1, a2, a3, a4, a5, a6, a7, a8, a9⟩ := h
    obtain ⟨b1, b2, b3, b4, b5, b6, b7, b8, b9⟩ := hp
    refine ⟨a1.trans b1, a2.trans b2, a3.trans b3, a4.trans b4, a5.trans b5, a6.trans b6, ?_,
      a8.trans b8, fun h => a9 (b9 h)⟩
    refine a7.trans ?_
    rw [b7, b1]
    show s.answers ++ [(o.id, a, s.now)] ++ _ = _
    rw [List.append_assoc]
    rfl

theorem dropAll_spec (s : S) (k : Conn) :
    let t := s.dropAll k
    t.now = s.now ∧ t.calls = s.calls ∧ t.pending = s.pending ∧ t.connected = s.connected ∧
    t.conns = s.conns ∧ t.dials = s.dials ∧
    t.answers = s.answers ++ (k.queue ++ k.nego.map Prod.fst).map (fun i => (i, Answer.dropped, s.now)) ∧
    t.inbound = s.inbound ∧ t.events = s.events := by
  have key : ∀ (l : List Nat) (s : S),
      let t := l.foldl (fun s id => s.reply id .dropped) s
      t.now = s.now ∧ t.calls = s.calls ∧ t.pending = s.pending ∧ t.connected = s.connected ∧
      t.conns = s.conns ∧ t.dials = s.dials ∧
      t.answers = s.answers ++ l.map (fun i => (i, Answer.dropped, s.now)) ∧
      t.inbound = s.inbound ∧ t.events = s.events := by
    intro l
    induction l with
    | nil => intro s; exact ⟨rfl, rfl, rfl, rfl, rfl, rfl, (List.append_nil _).symm, rfl, rfl⟩
    | cons i l ih =>
      intro s
      obtain ⟨a1, a2, a3, a4, a5, a6, a7, a8, a9⟩ := ih (s.reply i .dropped)
      refine ⟨a1, a2, a3, a4, a5, a6, ?_, a8, a9⟩
      refine a7.trans ?_
      show s.answers ++ [(i, Answer.dropped, s.now)] ++ _ = _
      rw [List.append_assoc]; rfl
  exact key _ s

/-! ## Invariant -/

structure Inv (s : S) : Prop where
  /-- Every call made is in exactly one place. -/
  once : ∀ i, place i s = if i < s.calls.length then 1 else 0
  deadline : ∀ o ∈ s.pending, ∃ t, s.calls[o.id]? = some (t, o.peer) ∧ o.deadline = t + openDeadline
  past : ∀ t ∈ s.calls, Prod.fst t ≤ s.now
  conns : ∀ p, p ∈ s.connected ↔ ∃ k ∈ s.conns, Conn.peer k = p
  nodup : s.connected.Nodup
  phase : ∀ o ∈ s.pending, (o.phase = .connected ↔ o.peer ∈ s.connected)
  dialing : ∀ o ∈ s.pending, o.phase = .awaiting → ∃ d ∈ s.dials, Prod.fst d = o.peer
  pending : s.pending.length ≤ maxPending
  events : s.events.length ≤ maxEvents
  queues : ∀ k ∈ s.conns, (Conn.queue k).length ≤ maxOutbound
  /-- A connection's handler holds only calls for its peer. -/
  target : ∀ k ∈ s.conns, ∀ i, i ∈ Conn.queue k ++ (Conn.nego k).map Prod.fst → ∃ t, s.calls[i]? = some (t, Conn.peer k)

theorem inv_init : Inv S.init where
  once := by intro i; simp [S.init, place, waiting, held, answered]
  deadline := by simp [S.init]
  past := by simp [S.init]
  conns := by simp [S.init]
  nodup := by simp [S.init]
  phase := by simp [S.init]
  dialing := by simp [S.init]
  pending := by simp [S.init]
  events := by simp [S.init]
  queues := by simp [S.init]
  target := by simp [S.init]

/-- Replacing the answers and the events only: the invariant needs the count and the bound. -/
theorem place_eq {s : S} (i : Nat) (w h a : Nat) (h1 : waiting i s = w) (h2 : held i s.conns = h)
    (h3 : answered i s = a) : place i s = w + h + a := by
  unfold place; rw [h1, h2, h3]

theorem inv_call {s : S} (h : Inv s) (peer : Nat) (addrs : List Nat) :
    Inv (s.openStream peer addrs) := by
  have hcall : ∀ (x : List Open), (∀ o ∈ x, ∃ t, s.calls[o.id]? = some (t, o.peer) ∧ o.deadline = t + openDeadline) →
      ∀ o ∈ x, ∃ t, (s.calls ++ [(s.now, peer)])[o.id]? = some (t, o.peer) ∧ o.deadline = t + openDeadline := by
    intro x hx o ho
    obtain ⟨t, h1, h2⟩ := hx o ho
    refine ⟨t, ?_, h2⟩
    rw [List.getElem?_append_left (List.getElem?_eq_some_iff.1 h1).1]; exact h1
  have htgt : ∀ k ∈ s.conns, ∀ i, i ∈ Conn.queue k ++ (Conn.nego k).map Prod.fst →
      ∃ t, (s.calls ++ [(s.now, peer)])[i]? = some (t, Conn.peer k) := by
    intro k hk i hi
    obtain ⟨t, h1⟩ := h.target k hk i hi
    refine ⟨t, ?_⟩
    rw [List.getElem?_append_left (List.getElem?_eq_some_iff.1 h1).1]; exact h1
  have hpast : ∀ t ∈ s.calls ++ [(s.now, peer)], t.1 ≤ s.now := by
    intro t ht
    rcases List.mem_append.1 ht with h1 | h1
    · exact h.past t h1
    · rw [List.mem_singleton] at h1; subst h1; exact Nat.le_refl _
  have hif : ∀ i, (if i < s.calls.length + 1 then 1 else 0)
      = (if i < s.calls.length then 1 else 0) + (if s.calls.length = i then 1 else 0) := by
    intro i
    by_cases h1 : i < s.calls.length
    · rw [if_pos h1, if_pos (show i < s.calls.length + 1 by omega), if_neg (show ¬ s.calls.length = i by omega)]
    · by_cases h2 : s.calls.length = i
      · rw [if_neg h1, if_pos h2, if_pos (show i < s.calls.length + 1 by omega)]
      · rw [if_neg h1, if_neg h2, if_neg (show ¬ i < s.calls.length + 1 by omega)]
  have hreply : ∀ a, Inv (S.reply { s with calls := s.calls ++ [(s.now, peer)] } s.calls.length a) := by
    intro a
    refine { h with once := ?_, deadline := hcall _ h.deadline, past := hpast, target := htgt }
    intro i
    have := h.once i
    show waiting i s + held i s.conns + ((s.answers ++ [(s.calls.length, a, s.now)]).map Prod.fst).count i
      = if i < (s.calls ++ [(s.now, peer)]).length then 1 else 0
    rw [List.map_append, List.count_append, List.length_append]
    show waiting i s + held i s.conns + (answered i s + [s.calls.length].count i)
      = if i < s.calls.length + 1 then 1 else 0
    rw [hif, ← this, List.count_singleton]
    unfold place
    by_cases h2 : s.calls.length = i
    · simp [h2]; omega
    · simp [h2]
  have hqueue : ∀ ph, (ph = Phase.connected ↔ peer ∈ s.connected) → ph ≠ .awaiting →
      s.pending.length < maxPending →
      Inv (S.queue { s with calls := s.calls ++ [(s.now, peer)] } s.calls.length peer addrs ph) := by
    intro ph hph hna hlt
    refine { h with once := ?_, deadline := ?_, past := hpast, target := htgt, phase := ?_, dialing := ?_, pending := ?_ }
    · intro i
      have := h.once i
      show ((s.pending ++ [(⟨s.calls.length, peer, addrs, s.now + openDeadline, ph⟩ : Open)]).map Open.id).count i
          + held i s.conns + answered i s = if i < (s.calls ++ [(s.now, peer)]).length then 1 else 0
      rw [List.map_append, List.count_append, List.length_append]
      show waiting i s + [s.calls.length].count i + held i s.conns + answered i s
        = if i < s.calls.length + 1 then 1 else 0
      rw [hif, ← this, List.count_singleton]
      unfold place
      by_cases h2 : s.calls.length = i
      · simp [h2]; omega
      · simp [h2]
    · intro o ho
      rcases List.mem_append.1 ho with h1 | h1
      · exact hcall _ h.deadline o h1
      · rw [List.mem_singleton] at h1
        subst h1
        show ∃ t, (s.calls ++ [(s.now, peer)])[s.calls.length]? = some (t, peer) ∧ s.now + openDeadline = t + openDeadline
        exact ⟨s.now, by simp, rfl⟩
    · intro o ho
      rcases List.mem_append.1 ho with h1 | h1
      · exact h.phase o h1
      · rw [List.mem_singleton] at h1; subst h1; exact hph
    · intro o ho ha
      rcases List.mem_append.1 ho with h1 | h1
      · exact h.dialing o h1 ha
      · rw [List.mem_singleton] at h1; subst h1; exact absurd ha hna
    · show (s.pending ++ [_]).length ≤ maxPending
      rw [List.length_append]; exact hlt
  unfold S.openStream
  dsimp only
  split
  · exact hreply _
  · rename_i h1
    split
    · rename_i h2
      exact hqueue .connected ⟨fun _ => h2, fun _ => rfl⟩ (by decide) (by omega)
    · rename_i h2
      split
      · exact hreply _
      · exact hqueue .needsDial ⟨(fun h => by cases h), fun h => absurd h h2⟩ (by decide) (by omega)

/-- Failing some of the pending opens keeps the invariant. -/
theorem inv_fail {s : S} (h : Inv s) (q : Open → Bool) (a : Answer) (f : Failure) :
    Inv (S.failAll a f { s with pending := s.pending.filter fun o => !q o } (s.pending.filter q)) := by
  obtain ⟨a1, a2, a3, a4, a5, a6, a7, a8, a9⟩ :=
    failAll_spec a f (s.pending.filter q) { s with pending := s.pending.filter fun o => !q o }
  refine ⟨?_, ?_, ?_, ?_, ?_, ?_, ?_, ?_, ?_, ?_, ?_⟩
  · intro i
    have h0 := h.once i
    have h1 := count_split i s.pending q
    unfold place waiting answered at h0 ⊢
    rw [a2, a3, a5, a7]
    rw [List.map_append, List.count_append]
    have e : ((s.pending.filter q).map (fun o => (o.id, a, s.now))).map Prod.fst
        = (s.pending.filter q).map Open.id := by rw [List.map_map]; rfl
    show ((s.pending.filter fun o => !q o).map Open.id).count i + held i s.conns
      + ((s.answers.map Prod.fst).count i
        + (((s.pending.filter q).map (fun o => (o.id, a, s.now))).map Prod.fst).count i) = _
    rw [e]
    show _ = if i < s.calls.length then 1 else 0
    rw [← h0]; omega
  · intro o ho
    rw [a3] at ho
    rw [a2]
    exact h.deadline o (List.mem_of_mem_filter ho)
  · intro t ht; rw [a2] at ht; rw [a1]; exact h.past t ht
  · intro p; rw [a4, a5]; exact h.conns p
  · rw [a4]; exact h.nodup
  · intro o ho
    rw [a3] at ho
    rw [a4]
    exact h.phase o (List.mem_of_mem_filter ho)
  · intro o ho ha
    rw [a3] at ho
    rw [a6]
    exact h.dialing o (List.mem_of_mem_filter ho) ha
  · rw [a3]
    exact Nat.le_trans (List.length_filter_le _ _) h.pending
  · exact a9 h.events
  · rw [a5]; exact h.queues
  · rw [a5, a2]; exact h.target

theorem inv_push {s : S} (h : Inv s) (e : SEv) : Inv (s.push e) := by
  obtain ⟨a1, a2, a3, a4, a5, a6, a7, a8, a9⟩ := push_spec s e
  refine ⟨?_, ?_, ?_, ?_, ?_, ?_, ?_, ?_, a9 h.events, ?_, ?_⟩
  · intro i; unfold place waiting answered; rw [a2, a3, a5, a7]; exact h.once i
  · rw [a3, a2]; exact h.deadline
  · rw [a2, a1]; exact h.past
  · rw [a4, a5]; exact h.conns
  · rw [a4]; exact h.nodup
  · rw [a3, a4]; exact h.phase
  · rw [a3, a6]; exact h.dialing
  · rw [a3]; exact h.pending
  · rw [a5]; exact h.queues
  · rw [a5, a2]; exact h.target

/-- The invariant does not read the inbound windows. -/
theorem inv_inbound {s : S} (h : Inv s) (w : List (Nat × Window)) : Inv { s with inbound := w } :=
  ⟨h.once, h.deadline, h.past, h.conns, h.nodup, h.phase, h.dialing, h.pending, h.events, h.queues, h.target⟩

/-- A step at one connection: call `id` moves from its handler to the answers. -/
theorem inv_answer {s : S} (h : Inv s) {c : Nat} {k k' : Conn} (hk : s.conns[c]? = some k) (id : Nat)
    (a : Answer) (hp : k'.peer = k.peer) (hq : k'.queue.length ≤ maxOutbound)
    (hc : ∀ i, k'.queue.count i + (k'.nego.map Prod.fst).count i + (if id = i then 1 else 0)
      = k.queue.count i + (k.nego.map Prod.fst).count i) :
    Inv (S.reply { s with conns := s.conns.set c k' } id a) := by
  have hlt := (List.getElem?_eq_some_iff.1 hk).1
  refine { h with once := ?_, conns := ?_, queues := ?_, target := ?_ }
  · intro i
    have h0 := h.once i
    have h1 := held_set i s.conns c k k' hk
    have h2 := hc i
    show waiting i s + held i (s.conns.set c k') + ((s.answers ++ [(id, a, s.now)]).map Prod.fst).count i
      = if i < s.calls.length then 1 else 0
    rw [List.map_append, List.count_append, ← h0]
    show waiting i s + held i (s.conns.set c k') + (answered i s + [id].count i) = _
    rw [List.count_singleton]
    unfold place
    by_cases h3 : id = i
    · simp [h3] at h2 ⊢; omega
    · simp [h3] at h2 ⊢; omega
  · intro p
    show p ∈ s.connected ↔ ∃ x ∈ s.conns.set c k', Conn.peer x = p
    rw [h.conns p]
    constructor
    · rintro ⟨x, hx, hxp⟩
      obtain ⟨j, hj⟩ := List.getElem?_of_mem hx
      by_cases hcj : c = j
      · subst hcj
        rw [hk] at hj; cases hj
        exact ⟨k', List.mem_of_getElem? (List.getElem?_set_self hlt), hp.trans hxp⟩
      · exact ⟨x, List.mem_of_getElem? (by rw [← hj]; exact List.getElem?_set_ne hcj), hxp⟩
    · rintro ⟨x, hx, hxp⟩
      rcases List.mem_or_eq_of_mem_set hx with h1 | h1
      · exact ⟨x, h1, hxp⟩
      · subst h1; exact ⟨k, List.mem_of_getElem? hk, hp.symm.trans hxp⟩
  · intro x hx
    rcases List.mem_or_eq_of_mem_set hx with h1 | h1
    · exact h.queues x h1
    · subst h1; exact hq
  · intro x hx i hi
    rcases List.mem_or_eq_of_mem_set hx with h1 | h1
    · exact h.target x h1 i hi
    · subst h1
      rw [hp]
      refine h.target k (List.mem_of_getElem? hk) i ?_
      have := hc i
      rw [← List.count_pos_iff, List.count_append] at hi ⊢
      omega

theorem any_dial {l : List (Nat × List Nat)} {p q : Nat} (h : ∃ d ∈ l, Prod.fst d = q) (hne : q ≠ p) :
    ∃ d ∈ l.eraseP (fun d => decide (d.1 = p)), Prod.fst d = q := by
  obtain ⟨d, hd, he⟩ := h
  refine ⟨d, (List.mem_eraseP_of_neg ?_).2 hd, he⟩
  simp [he, hne]

theorem inv_poll {s s' : S} (h : Inv s) {c : Nat} (hs : s.step (.poll c) = some s') : Inv s' := by
  dsimp only [S.step] at hs
  unfold S.poll at hs
  cases he : s.events with
  | cons e es =>
    rw [he] at hs
    dsimp only [S.act] at hs
    cases hs
    refine { h with events := ?_ }
    have := h.events
    rw [he] at this
    simp at this
    show es.length ≤ maxEvents
    omega
  | nil =>
    rw [he] at hs
    dsimp only at hs
    cases hf : s.pending.find? Open.isConnected with
    | some o =>
      rw [hf] at hs
      have ho : o ∈ s.pending := List.mem_of_find?_eq_some hf
      have hph : o.phase = .connected := by simpa [Open.isConnected] using List.find?_some hf
      obtain ⟨k0, hk0, hkp0⟩ := (h.conns o.peer).1 ((h.phase o ho).1 hph)
      dsimp only [S.act] at hs
      rw [if_pos (List.any_eq_true.2 ⟨k0, hk0, by simpa using hkp0⟩)] at hs
      cases hk : s.conns[c]? with
      | none => rw [hk] at hs; cases hs
      | some k =>
        rw [hk] at hs
        dsimp only at hs
        split at hs
        · rename_i hkp
          have hs := Option.some.inj hs
          subst hs
          unfold S.toHandler
          dsimp only
          rw [hk]
          dsimp only
          have hpl : (s.pending.erase o).length ≤ maxPending :=
            Nat.le_trans (List.length_erase_le) h.pending
          have hsub : ∀ x ∈ s.pending.erase o, x ∈ s.pending := fun x hx => List.mem_of_mem_erase hx
          split
          · refine { h with once := ?_, deadline := fun x hx => h.deadline x (hsub x hx), phase := fun x hx => h.phase x (hsub x hx), dialing := fun x hx => h.dialing x (hsub x hx), events := Nat.zero_le _, pending := hpl }
            intro i
            have h0 := h.once i
            have h1 := count_erase i s.pending o ho
            show ((s.pending.erase o).map Open.id).count i + held i s.conns
              + ((s.answers ++ [(o.id, Answer.tooMany, s.now)]).map Prod.fst).count i
              = if i < s.calls.length then 1 else 0
            rw [List.map_append, List.count_append, ← h0]
            show _ + _ + (answered i s + [o.id].count i) = _
            rw [List.count_singleton]
            unfold place waiting
            by_cases h3 : o.id = i
            · simp [h3] at h1 ⊢; omega
            · simp [h3] at h1 ⊢; omega
          · rename_i hq
            refine { h with once := ?_, deadline := fun x hx => h.deadline x (hsub x hx), phase := fun x hx => h.phase x (hsub x hx), dialing := fun x hx => h.dialing x (hsub x hx), events := Nat.zero_le _, pending := hpl, conns := ?_, queues := ?_, target := ?_ }
            · intro i
              have h0 := h.once i
              have h1 := count_erase i s.pending o ho
              have h2 := held_set i s.conns c k { k with queue := k.queue ++ [o.id] } hk
              show ((s.pending.erase o).map Open.id).count i
                + held i (s.conns.set c { k with queue := k.queue ++ [o.id] }) + answered i s
                = if i < s.calls.length then 1 else 0
              rw [← h0]
              rw [List.count_append, List.count_singleton] at h2
              unfold place waiting
              by_cases h3 : o.id = i
              · simp [h3] at h1 h2 ⊢; omega
              · simp [h3] at h1 h2 ⊢; omega
            · have hlt := (List.getElem?_eq_some_iff.1 hk).1
              intro p
              show p ∈ s.connected ↔ ∃ x ∈ s.conns.set c { k with queue := k.queue ++ [o.id] }, Conn.peer x = p
              rw [h.conns p]
              constructor
              · rintro ⟨x, hx, hxp⟩
                obtain ⟨j, hj⟩ := List.getElem?_of_mem hx
                by_cases hcj : c = j
                · subst hcj
                  rw [hk] at hj; cases hj
                  exact ⟨_, List.mem_of_getElem? (List.getElem?_set_self hlt), hxp⟩
                · exact ⟨x, List.mem_of_getElem? (by rw [← hj]; exact List.getElem?_set_ne hcj), hxp⟩
              · rintro ⟨x, hx, hxp⟩
                rcases List.mem_or_eq_of_mem_set hx with h1 | h1
                · exact ⟨x, h1, hxp⟩
                · subst h1; exact ⟨k, List.mem_of_getElem? hk, hxp⟩
            · intro x hx
              rcases List.mem_or_eq_of_mem_set hx with h1 | h1
              · exact h.queues x h1
              · subst h1
                show (k.queue ++ [o.id]).length ≤ maxOutbound
                rw [List.length_append]
                have : [o.id].length = 1 := rfl
                omega
            · intro x hx i hi
              rcases List.mem_or_eq_of_mem_set hx with h1 | h1
              · exact h.target x h1 i hi
              · subst h1
                have hi : i ∈ (k.queue ++ [o.id]) ++ k.nego.map Prod.fst := hi
                simp only [List.mem_append, List.mem_singleton] at hi
                rcases hi with (hi | hi) | hi
                · exact h.target k (List.mem_of_getElem? hk) i (List.mem_append_left _ hi)
                · subst hi
                  obtain ⟨t, ht, _⟩ := h.deadline o ho
                  exact ⟨t, by rw [show ({ k with queue := k.queue ++ [o.id] } : Conn).peer = o.peer from hkp]; exact ht⟩
                · exact h.target k (List.mem_of_getElem? hk) i (List.mem_append_right _ hi)
        · cases hs
    | none =>
      rw [hf] at hs
      dsimp only at hs
      cases hn : s.pending.find? Open.isNeedsDial with
      | none => rw [hn] at hs; cases hs
      | some o =>
        rw [hn] at hs
        dsimp only [S.act] at hs
        have hs := Option.some.inj hs
        subst hs
        have ho : o ∈ s.pending := List.mem_of_find?_eq_some hn
        have hph : o.phase = .needsDial := by simpa [Open.isNeedsDial] using List.find?_some hn
        refine { h with once := ?_, deadline := ?_, phase := ?_, dialing := ?_, pending := ?_, events := Nat.zero_le _ }
        · intro i
          have h0 := h.once i
          show ((s.pending.map (Open.dialed o.peer)).map Open.id).count i + held i s.conns + answered i s = _
          rw [count_map_id i _ _ (dialed_id o.peer)]
          exact h0
        · intro x hx
          obtain ⟨y, hy, rfl⟩ := List.mem_map.1 hx
          rw [dialed_id, dialed_peer, dialed_deadline]
          exact h.deadline y hy
        · intro x hx
          obtain ⟨y, hy, rfl⟩ := List.mem_map.1 hx
          have := h.phase y hy
          unfold Open.dialed
          split
          · rename_i hc
            constructor
            · intro h; cases h
            · intro hm
              have := this.2 hm
              rw [hc.2] at this; cases this
          · exact this
        · intro x hx ha
          obtain ⟨y, hy, rfl⟩ := List.mem_map.1 hx
          unfold Open.dialed at ha ⊢
          split at ha
          · rename_i hc
            rw [if_pos hc]
            exact ⟨(o.peer, o.addrs), by simp, hc.1.symm⟩
          · rename_i hc
            rw [if_neg hc]
            obtain ⟨d, hd, he⟩ := h.dialing y hy ha
            exact ⟨d, List.mem_append_left _ hd, he⟩
        · show (s.pending.map _).length ≤ maxPending
          rw [List.length_map]; exact h.pending

theorem inv_established {s s' : S} (h : Inv s) {p : Nat} {ours : Bool}
    (hs : s.step (.established p ours) = some s') : Inv s' := by
  dsimp only [S.step] at hs
  split at hs
  · cases hs
  · have hs := Option.some.inj hs
    subst hs
    refine ⟨?_, ?_, h.past, ?_, ?_, ?_, ?_, ?_, h.events, ?_, ?_⟩
    · intro i
      have h0 := h.once i
      show ((s.pending.map (Open.ready p)).map Open.id).count i
        + held i (s.conns ++ [⟨p, [], []⟩]) + answered i s = _
      rw [count_map_id i _ _ (ready_id p), held_append]
      exact h0
    · intro x hx
      obtain ⟨y, hy, rfl⟩ := List.mem_map.1 hx
      rw [ready_id, ready_peer, ready_deadline]
      exact h.deadline y hy
    · intro q
      show q ∈ (if p ∈ s.connected then s.connected else s.connected ++ [p]) ↔
        ∃ k ∈ s.conns ++ [⟨p, [], []⟩], Conn.peer k = q
      have hh := h.conns q
      constructor
      · intro hq
        have : q ∈ s.connected ∨ q = p := by
          split at hq
          · exact Or.inl hq
          · simpa using hq
        rcases this with h1 | h1
        · obtain ⟨k, hk, he⟩ := hh.1 h1
          exact ⟨k, List.mem_append_left _ hk, he⟩
        · exact ⟨⟨p, [], []⟩, by simp, h1.symm⟩
      · rintro ⟨k, hk, he⟩
        rcases List.mem_append.1 hk with h1 | h1
        · have := hh.2 ⟨k, h1, he⟩
          split
          · exact this
          · exact List.mem_append_left _ this
        · rw [List.mem_singleton] at h1
          subst h1
          have he : p = q := he
          subst he
          split
          · assumption
          · simp
    · show (if p ∈ s.connected then s.connected else s.connected ++ [p]).Nodup
      split
      · exact h.nodup
      · rename_i hp
        rw [List.nodup_append]
        refine ⟨h.nodup, by simp, ?_⟩
        intro a ha b hb hab
        rw [List.mem_singleton] at hb
        subst hb; subst hab
        exact hp ha
    · intro x hx
      obtain ⟨y, hy, rfl⟩ := List.mem_map.1 hx
      show _ ↔ _ ∈ (if p ∈ s.connected then s.connected else s.connected ++ [p])
      have h1 := h.phase y hy
      have hmem : p ∈ (if p ∈ s.connected then s.connected else s.connected ++ [p]) := by
        split
        · assumption
        · simp
      unfold Open.ready
      split
      · rename_i hy2
        refine ⟨fun _ => ?_, fun _ => rfl⟩
        show y.peer ∈ _
        rw [hy2]; exact hmem
      · rename_i hy2
        rw [h1]
        split
        · exact Iff.rfl
        · simp [hy2]
    · intro x hx ha
      obtain ⟨y, hy, rfl⟩ := List.mem_map.1 hx
      unfold Open.ready at ha ⊢
      split at ha
      · cases ha
      · rename_i hne
        rw [if_neg hne]
        have := h.dialing y hy ha
        show ∃ d ∈ (if ours then s.dials.eraseP fun d => decide (d.1 = p) else s.dials), Prod.fst d = y.peer
        split
        · exact any_dial this hne
        · exact this
    · show (s.pending.map _).length ≤ maxPending
      rw [List.length_map]; exact h.pending
    · intro k hk
      rcases List.mem_append.1 hk with h1 | h1
      · exact h.queues k h1
      · rw [List.mem_singleton] at h1; subst h1; exact Nat.zero_le _
    · intro k hk i hi
      rcases List.mem_append.1 hk with h1 | h1
      · exact h.target k h1 i hi
      · rw [List.mem_singleton] at h1; subst h1; cases hi

theorem inv_closed {s s' : S} (h : Inv s) {c : Nat} (hs : s.step (.closed c) = some s') : Inv s' := by
  dsimp only [S.step] at hs
  cases hk : s.conns[c]? with
  | none => rw [hk] at hs; cases hs
  | some k =>
    rw [hk] at hs
    dsimp only at hs
    obtain ⟨a1, a2, a3, a4, a5, a6, a7, a8, a9⟩ := dropAll_spec s k
    have honce : ∀ i, ((s.dropAll k).pending.map Open.id).count i + held i (s.conns.eraseIdx c)
        + ((s.dropAll k).answers.map Prod.fst).count i = if i < (s.dropAll k).calls.length then 1 else 0 := by
      intro i
      have h0 := h.once i
      have h1 := held_erase i s.conns c k hk
      rw [a3, a7, a2, ← h0, List.map_append, List.count_append, List.map_map]
      have e : (k.queue ++ k.nego.map Prod.fst).map (Prod.fst ∘ fun i => (i, Answer.dropped, s.now))
          = k.queue ++ k.nego.map Prod.fst := by
        rw [show (Prod.fst ∘ fun i => (i, Answer.dropped, s.now)) = (id : Nat → Nat) from rfl, List.map_id]
      rw [e, List.count_append]
      unfold place waiting answered
      omega
    have hqueues : ∀ x ∈ s.conns.eraseIdx c, (Conn.queue x).length ≤ maxOutbound :=
      fun x hx => h.queues x (List.mem_of_mem_eraseIdx hx)
    have htarget : ∀ x ∈ s.conns.eraseIdx c, ∀ i, i ∈ Conn.queue x ++ (Conn.nego x).map Prod.fst →
        ∃ t, (s.dropAll k).calls[i]? = some (t, Conn.peer x) := by
      rw [a2]
      exact fun x hx => h.target x (List.mem_of_mem_eraseIdx hx)
    have hcs : ∀ p, (∃ x ∈ s.conns, Conn.peer x = p) ↔
        (p = k.peer ∨ ∃ x ∈ s.conns.eraseIdx c, Conn.peer x = p) := by
      intro p
      constructor
      · rintro ⟨x, hx, he⟩
        obtain ⟨j, hj⟩ := List.getElem?_of_mem hx
        by_cases hcj : j = c
        · subst hcj
          rw [hk] at hj; cases hj
          exact Or.inl he.symm
        · refine Or.inr ⟨x, ?_, he⟩
          rw [List.mem_eraseIdx_iff_getElem?]
          exact ⟨j, hcj, hj⟩
      · rintro (h1 | ⟨x, hx, he⟩)
        · exact ⟨k, List.mem_of_getElem? hk, h1.symm⟩
        · exact ⟨x, List.mem_of_mem_eraseIdx hx, he⟩
    split at hs
    · rename_i hany
      have hs := Option.some.inj hs
      subst hs
      obtain ⟨x, hx, hxp⟩ := List.any_eq_true.1 hany
      have hxp : x.peer = k.peer := by simpa using hxp
      refine ⟨honce, ?_, ?_, ?_, ?_, ?_, ?_, ?_, ?_, hqueues, htarget⟩
      · show ∀ o ∈ (s.dropAll k).pending, ∃ t, (s.dropAll k).calls[o.id]? = some (t, _) ∧ _
        rw [a3, a2]; exact h.deadline
      · show ∀ t ∈ (s.dropAll k).calls, t.1 ≤ (s.dropAll k).now
        rw [a2, a1]; exact h.past
      · intro p
        show p ∈ (s.dropAll k).connected ↔ ∃ k ∈ s.conns.eraseIdx c, Conn.peer k = p
        rw [a4, h.conns p, hcs p]
        constructor
        · rintro (h1 | h1)
          · exact ⟨x, hx, hxp.trans h1.symm⟩
          · exact h1
        · exact Or.inr
      · show (s.dropAll k).connected.Nodup
        rw [a4]; exact h.nodup
      · show ∀ o ∈ (s.dropAll k).pending, (_ ↔ _ ∈ (s.dropAll k).connected)
        rw [a3, a4]; exact h.phase
      · show ∀ o ∈ (s.dropAll k).pending, _ → ∃ d ∈ (s.dropAll k).dials, _
        rw [a3, a6]; exact h.dialing
      · show (s.dropAll k).pending.length ≤ _
        rw [a3]; exact h.pending
      · show (s.dropAll k).events.length ≤ _
        rw [a9]; exact h.events
    · rename_i hany
      have hs := Option.some.inj hs
      subst hs
      have hno : ∀ x ∈ s.conns.eraseIdx c, Conn.peer x ≠ k.peer := by
        intro x hx he
        exact hany (List.any_eq_true.2 ⟨x, hx, by simpa using he⟩)
      refine ⟨?_, ?_, ?_, ?_, ?_, ?_, ?_, ?_, ?_, hqueues, htarget⟩
      · intro i
        have := honce i
        show ((((s.dropAll k).pending).map (Open.back k.peer)).map Open.id).count i
          + held i (s.conns.eraseIdx c) + ((s.dropAll k).answers.map Prod.fst).count i = _
        rw [count_map_id i _ _ (back_id k.peer)]
        exact this
      · intro x hx
        have hx : x ∈ (s.dropAll k).pending.map (Open.back k.peer) := hx
        rw [a3] at hx
        obtain ⟨y, hy, rfl⟩ := List.mem_map.1 hx
        show ∃ t, (s.dropAll k).calls[_]? = some (t, _) ∧ _
        rw [a2, back_id, back_peer, back_deadline]
        exact h.deadline y hy
      · show ∀ t ∈ (s.dropAll k).calls, t.1 ≤ (s.dropAll k).now
        rw [a2, a1]; exact h.past
      · intro p
        show p ∈ ((s.dropAll k).connected.filter fun p => !decide (p = k.peer)) ↔
          ∃ k ∈ s.conns.eraseIdx c, Conn.peer k = p
        rw [a4, List.mem_filter, h.conns p, hcs p]
        constructor
        · rintro ⟨h1 | h1, h2⟩
          · simp [h1] at h2
          · exact h1
        · rintro ⟨x, hx, he⟩
          refine ⟨Or.inr ⟨x, hx, he⟩, ?_⟩
          have := hno x hx
          rw [he] at this
          simp [this]
      · show ((s.dropAll k).connected.filter _).Nodup
        rw [a4]; exact h.nodup.filter _
      · intro x hx
        have hx : x ∈ (s.dropAll k).pending.map (Open.back k.peer) := hx
        rw [a3] at hx
        obtain ⟨y, hy, rfl⟩ := List.mem_map.1 hx
        show _ ↔ _ ∈ ((s.dropAll k).connected.filter fun p => !decide (p = k.peer))
        rw [a4, List.mem_filter]
        have h1 := h.phase y hy
        unfold Open.back
        split
        · rename_i hc
          constructor
          · intro h; cases h
          · rintro ⟨_, h2⟩
            simp [hc.1] at h2
        · rename_i hc
          constructor
          · intro hp
            refine ⟨h1.1 hp, ?_⟩
            have : ¬ y.peer = k.peer := fun he => hc ⟨he, hp⟩
            simp [this]
          · rintro ⟨hm, _⟩; exact h1.2 hm
      · intro x hx ha
        have hx : x ∈ (s.dropAll k).pending.map (Open.back k.peer) := hx
        rw [a3] at hx
        obtain ⟨y, hy, rfl⟩ := List.mem_map.1 hx
        show ∃ d ∈ (s.dropAll k).dials, _
        rw [a6]
        unfold Open.back at ha ⊢
        split at ha
        · cases ha
        · rename_i hc
          rw [if_neg hc]
          exact h.dialing y hy ha
      · show ((s.dropAll k).pending.map _).length ≤ _
        rw [a3, List.length_map]; exact h.pending
      · show (s.dropAll k).events.length ≤ _
        rw [a9]; exact h.events

theorem inv_dialFailed {s s' : S} (h : Inv s) {p : Nat} {ours : Bool}
    (hs : s.step (.dialFailed p ours) = some s') : Inv s' := by
  dsimp only [S.step] at hs
  split at hs
  · cases hs
  · have hs := Option.some.inj hs
    subst hs
    unfold S.onDialFailed
    dsimp only
    -- first fail the opens, then forget the dial
    have h1 := inv_fail h (Open.hit p) .notConnected .dial
    obtain ⟨a1, a2, a3, a4, a5, a6, a7, a8, a9⟩ := failAll_spec .notConnected .dial
      (s.pending.filter fun o => o.hit p) { s with pending := s.pending.filter fun o => !o.hit p }
    generalize hd : (if ours = true then s.dials.eraseP fun d => decide (d.1 = p) else s.dials) = dials
    obtain ⟨b1, b2, b3, b4, b5, b6, b7, b8, b9⟩ := failAll_spec .notConnected .dial
      (s.pending.filter fun o => o.hit p)
      { s with dials := dials, pending := s.pending.filter fun o => !o.hit p }
    refine ⟨?_, ?_, ?_, ?_, ?_, ?_, ?_, ?_, b9 h.events, ?_, ?_⟩
    · intro i
      have := h1.once i
      unfold place waiting answered at this ⊢
      rw [a2, a3, a5, a7] at this
      rw [b2, b3, b5, b7]
      exact this
    · have := h1.deadline
      rw [a2, a3] at this; rw [b2, b3]; exact this
    · have := h1.past
      rw [a1, a2] at this; rw [b1, b2]; exact this
    · have := h1.conns
      rw [a4, a5] at this; rw [b4, b5]; exact this
    · have := h1.nodup
      rw [a4] at this; rw [b4]; exact this
    · have := h1.phase
      rw [a3, a4] at this; rw [b3, b4]; exact this
    · intro o ho ha
      rw [b3] at ho
      rw [b6]
      have hmem : o ∈ s.pending := List.mem_of_mem_filter ho
      have hnh : o.hit p = false := by simpa using (List.mem_filter.1 ho).2
      have hne : o.peer ≠ p := by
        intro he
        simp [Open.hit, he, ha] at hnh
      have := h.dialing o hmem ha
      show ∃ d ∈ dials, Prod.fst d = o.peer
      rw [← hd]
      split
      · exact any_dial this hne
      · exact this
    · have := h1.pending
      rw [a3] at this; rw [b3]; exact this
    · have := h1.queues
      rw [a5] at this; rw [b5]; exact this
    · have := h1.target
      rw [a5, a2] at this; rw [b5, b2]; exact this

theorem inv_step {s s' : S} {e : Ev} (h : Inv s) (hs : s.step e = some s') : Inv s' := by
  cases e with
  | tick d =>
    cases hs
    exact { h with past := fun t ht => Nat.le_trans (h.past t ht) (Nat.le_add_right _ _) }
  | call p a => cases hs; exact inv_call h p a
  | sweep => cases hs; exact inv_fail h (Open.stale s.now) .timeout .timeout
  | poll c => exact inv_poll h hs
  | established p o => exact inv_established h hs
  | closed c => exact inv_closed h hs
  | dialFailed p o => exact inv_dialFailed h hs
  | request c =>
    dsimp only [S.step] at hs
    cases hk : s.conns[c]? with
    | none => rw [hk] at hs; cases hs
    | some k =>
      rw [hk] at hs
      dsimp only at hs
      cases hq : k.queue with
      | nil => rw [hq] at hs; cases hs
      | cons id q =>
        rw [hq] at hs
        dsimp only at hs
        have hs := Option.some.inj hs
        subst hs
        have hlt := (List.getElem?_eq_some_iff.1 hk).1
        refine { h with once := ?_, conns := ?_, queues := ?_, target := ?_ }
        · intro i
          have h0 := h.once i
          have h1 := held_set i s.conns c k { k with queue := q, nego := k.nego ++ [(id, s.now)] } hk
          show waiting i s + held i (s.conns.set c { k with queue := q, nego := k.nego ++ [(id, s.now)] })
            + answered i s = if i < s.calls.length then 1 else 0
          rw [← h0]
          rw [hq, List.map_append, List.count_append, List.count_cons] at h1
          unfold place
          have : ([(id, s.now)].map Prod.fst).count i = if (id == i) = true then 1 else 0 := by
            show [id].count i = _
            rw [List.count_singleton]
          rw [this] at h1
          dsimp only at h1
          omega
        · intro p
          show p ∈ s.connected ↔ ∃ x ∈ s.conns.set c
            { k with queue := q, nego := k.nego ++ [(id, s.now)] }, Conn.peer x = p
          rw [h.conns p]
          constructor
          · rintro ⟨x, hx, hxp⟩
            obtain ⟨j, hj⟩ := List.getElem?_of_mem hx
            by_cases hcj : c = j
            · subst hcj
              rw [hk] at hj; cases hj
              exact ⟨_, List.mem_of_getElem? (List.getElem?_set_self hlt), hxp⟩
            · exact ⟨x, List.mem_of_getElem? (by rw [← hj]; exact List.getElem?_set_ne hcj), hxp⟩
          · rintro ⟨x, hx, hxp⟩
            rcases List.mem_or_eq_of_mem_set hx with h1 | h1
            · exact ⟨x, h1, hxp⟩
            · subst h1; exact ⟨k, List.mem_of_getElem? hk, hxp⟩
        · intro x hx
          rcases List.mem_or_eq_of_mem_set hx with h1 | h1
          · exact h.queues x h1
          · subst h1
            have := h.queues k (List.mem_of_getElem? hk)
            rw [hq] at this
            exact Nat.le_of_succ_le this
        · intro x hx i hi
          rcases List.mem_or_eq_of_mem_set hx with h1 | h1
          · exact h.target x h1 i hi
          · subst h1
            refine h.target k (List.mem_of_getElem? hk) i ?_
            rw [hq]
            simp only [List.mem_append, List.map_append, List.map_cons, List.map_nil, List.mem_cons,
              List.not_mem_nil, or_false] at hi ⊢
            tauto
  | negotiated c id =>
    dsimp only [S.step] at hs
    cases hk : s.conns[c]? with
    | none => rw [hk] at hs; cases hs
    | some k =>
      rw [hk] at hs
      dsimp only at hs
      cases hn : k.nego.find? fun e => decide (e.1 = id) with
      | none => rw [hn] at hs; cases hs
      | some e =>
        rw [hn] at hs
        dsimp only at hs
        have hs := Option.some.inj hs
        subst hs
        have he : e.1 = id := by simpa using List.find?_some hn
        refine inv_answer h hk id .stream rfl (h.queues k (List.mem_of_getElem? hk)) ?_
        intro i
        have := count_erase_fst i k.nego e (List.mem_of_find?_eq_some hn)
        rw [he] at this
        show k.queue.count i + ((k.nego.erase e).map Prod.fst).count i + _ = _
        omega
  | upgradeError c id err =>
    dsimp only [S.step] at hs
    cases hk : s.conns[c]? with
    | none => rw [hk] at hs; cases hs
    | some k =>
      rw [hk] at hs
      dsimp only at hs
      cases hn : k.nego.find? fun e => decide (e.1 = id) with
      | none => rw [hn] at hs; cases hs
      | some e =>
        rw [hn] at hs
        dsimp only at hs
        have hs := Option.some.inj hs
        have he : e.1 = id := by simpa using List.find?_some hn
        have key : Inv (S.reply { s with conns := s.conns.set c { k with nego := k.nego.erase e } } id
            (classify err).2) := by
          refine inv_answer h hk id _ rfl (h.queues k (List.mem_of_getElem? hk)) ?_
          intro i
          have := count_erase_fst i k.nego e (List.mem_of_find?_eq_some hn)
          rw [he] at this
          show k.queue.count i + ((k.nego.erase e).map Prod.fst).count i + _ = _
          omega
        subst hs
        split
        · exact inv_push key _
        · exact key
  | inbound c =>
    dsimp only [S.step] at hs
    cases hk : s.conns[c]? with
    | none => rw [hk] at hs; cases hs
    | some k =>
      rw [hk] at hs
      dsimp only at hs
      have hs := Option.some.inj hs
      subst hs
      unfold S.onInbound S.rateLimited
      dsimp only
      split
      · exact inv_push (inv_inbound h _) _
      · exact inv_push (inv_inbound h _) _

theorem inv_runs {es : List Ev} {s s' : S} (h : Inv s) (hr : s.runs es = some s') : Inv s' := by
  induction es generalizing s with
  | nil => cases hr; exact h
  | cons e es ih =>
    obtain ⟨m, h1, h2⟩ := Option.bind_eq_some_iff.1 hr
    exact ih (inv_step h h1) h2

theorem reach_inv {s : S} (h : Reach s) : Inv s := by
  obtain ⟨es, hr⟩ := h
  exact inv_runs inv_init hr

end Verif.Strm
