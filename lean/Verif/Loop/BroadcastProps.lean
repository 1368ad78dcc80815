import Verif.Loop.Broadcast
/-
C121: the theorems.
-/
namespace Verif
namespace Cast

variable {α : Type} {cap : Nat}

theorem run_append (s : St α) (a b : List (Ev α)) :
    run cap s (a ++ b) = ((run cap (run cap s a).1 b).1, (run cap s a).2 ++ (run cap (run cap s a).1 b).2) := by
  induction a generalizing s with
  | nil => rfl
  | cons e a ih => rw [List.cons_append, run, run, ih]; simp [List.append_assoc]

theorem values_append (a b : List (Out α)) : values (a ++ b) = values a ++ values b := by
  simp [values, List.filterMap_append]

theorem lost_append (a b : List (Out α)) : lost (a ++ b) = lost a + lost b := by simp [lost]

/-- What holds of a history: the messages given are those at the indices `idx`, ascending, and those passed over are older
than the newest `cap`. -/
structure Acc (cap : Nat) (s : St α) (os : List (Out α)) (idx : List Nat) : Prop where
  asc : idx.Pairwise (· < ·)
  below : ∀ i ∈ idx, i < s.pos
  got : (values os).map some = idx.map (fun i => s.sent[i]?)
  gone : ∀ i, i < s.pos → i ∉ idx → i + cap < s.sent.length
  le : s.pos ≤ s.sent.length
  count : idx.length + lost os = s.pos

theorem acc_step {s : St α} {os : List (Out α)} {idx : List Nat} (h : Acc cap s os idx) (e : Ev α) :
    ∃ idx', Acc cap (step cap s e).1 (os ++ (step cap s e).2) idx' := by
  cases e with
  | send v =>
    unfold step
    dsimp only
    rw [List.append_nil]
    split
    · exact ⟨idx, h⟩
    · refine ⟨idx, h.asc, h.below, ?_, ?_, ?_, h.count⟩
      · rw [h.got]
        apply List.map_congr_left
        intro i hi
        have h1 := h.below i hi
        have h2 := h.le
        dsimp only
        rw [List.getElem?_append_left (by omega)]
      · intro i h1 h2
        have := h.gone i h1 h2
        dsimp only
        rw [List.length_append, List.length_singleton]
        omega
      · have := h.le
        dsimp only
        rw [List.length_append]
        omega
  | close =>
    unfold step
    dsimp only
    rw [List.append_nil]
    exact ⟨idx, h.asc, h.below, h.got, h.gone, h.le, h.count⟩
  | poll =>
    unfold step
    dsimp only
    unfold poll
    split
    · rename_i hl
      refine ⟨idx, h.asc, ?_, ?_, ?_, ?_, ?_⟩
      · intro i hi
        have := h.below i hi
        dsimp only
        omega
      · rw [values_append]
        show (values os ++ []).map some = _
        rw [List.append_nil]
        exact h.got
      · intro i h1 h2
        dsimp only at h1 ⊢
        omega
      · dsimp only; omega
      · rw [lost_append]
        have h0 := h.count
        have h1 : lost [(.lagged (s.sent.length - cap - s.pos) : Out α)] = s.sent.length - cap - s.pos := by simp [lost]
        rw [h1]
        dsimp only
        omega
    · cases hv : s.sent[s.pos]? with
      | none =>
        refine ⟨idx, h.asc, h.below, ?_, h.gone, h.le, ?_⟩
        · rw [values_append]
          cases s.closed <;> (show (values os ++ []).map some = _; rw [List.append_nil]; exact h.got)
        · rw [lost_append]
          cases s.closed <;> exact h.count
      | some v =>
        have hlt : s.pos < s.sent.length := (List.getElem?_eq_some_iff.mp hv).1
        refine ⟨idx ++ [s.pos], ?_, ?_, ?_, ?_, ?_, ?_⟩
        · rw [List.pairwise_append]
          refine ⟨h.asc, by simp, ?_⟩
          intro a ha b hb
          rw [List.mem_singleton.mp hb]
          exact h.below a ha
        · intro i hi
          dsimp only
          rcases List.mem_append.mp hi with hi | hi
          · have := h.below i hi; omega
          · rw [List.mem_singleton.mp hi]; omega
        · rw [values_append, List.map_append, List.map_append, h.got]
          dsimp only
          congr 1
          show [some v] = [s.sent[s.pos]?]
          rw [hv]
        · intro i h1 h2
          dsimp only at h1 ⊢
          rw [List.mem_append, List.mem_singleton] at h2
          exact h.gone i (by omega) (fun hi => h2 (.inl hi))
        · dsimp only; omega
        · rw [lost_append, List.length_append, List.length_singleton]
          have h0 := h.count
          have h1 : lost [(.value v : Out α)] = 0 := rfl
          rw [h1]
          dsimp only
          omega

theorem acc_run (es : List (Ev α)) : ∀ {s : St α} {os : List (Out α)} {idx : List Nat}, Acc cap s os idx →
    ∃ idx', Acc cap (run cap s es).1 (os ++ (run cap s es).2) idx' := by
  induction es with
  | nil => intro s os idx h; exact ⟨idx, by rw [run, List.append_nil]; exact h⟩
  | cons e es ih =>
    intro s os idx h
    obtain ⟨i1, h1⟩ := acc_step h e
    obtain ⟨i2, h2⟩ := ih h1
    exact ⟨i2, by rw [run, ← List.append_assoc]; exact h2⟩

theorem acc_init : Acc cap (St.init : St α) [] [] :=
  ⟨.nil, (fun _ h => by cases h), rfl, (fun _ h => absurd h (Nat.not_lt_zero _)), Nat.le_refl _, rfl⟩

theorem sent_run (es : List (Ev α)) : ∀ s : St α, (run cap s es).1.sent = s.sent ++ (if s.closed then [] else sentOf es) ∧
    ((run cap s es).1.closed = true ↔ s.closed = true ∨ Ev.close ∈ es) := by
  induction es with
  | nil => intro s; rw [run]; cases h : s.closed <;> simp [sentOf, h]
  | cons e es ih =>
    intro s
    rw [run]
    obtain ⟨i1, i2⟩ := ih (step cap s e).1
    dsimp only
    rw [i1, i2]
    cases e with
    | send v =>
      cases h : s.closed <;> simp [step, sentOf, h]
    | close => cases h : s.closed <;> simp [step, sentOf]
    | poll =>
      have e1 : (poll cap s).1.sent = s.sent := by unfold poll; split; · rfl
                                                   · split <;> rfl
      have e2 : (poll cap s).1.closed = s.closed := by unfold poll; split; · rfl
                                                       · split <;> rfl
      cases h : s.closed <;> simp [step, sentOf, e1, e2, h]

/-- C121. The messages given to a receiver are messages sent since it subscribed, in the order they were sent, each at most
once; one that was passed over had more than `cap` messages sent from it on; and as many were passed over as were reported. -/
theorem received (cap : Nat) (es : List (Ev α)) :
    ∃ idx : List Nat, idx.Pairwise (· < ·) ∧
      (values (run cap St.init es).2).map some = idx.map (fun i => (sentOf es)[i]?) ∧
      (∀ i ∈ idx, i < (run cap St.init es).1.pos) ∧
      (∀ i, i < (run cap St.init es).1.pos → i ∉ idx → i + cap < (sentOf es).length) ∧
      (run cap St.init es).1.pos ≤ (sentOf es).length ∧
      idx.length + lost (run cap St.init es).2 = (run cap St.init es).1.pos := by
  obtain ⟨idx, h⟩ := acc_run es (acc_init (cap := cap) (α := α))
  rw [List.nil_append] at h
  have hs : (run cap (St.init : St α) es).1.sent = sentOf es := by
    rw [(sent_run es _).1]; rfl
  refine ⟨idx, h.asc, ?_, h.below, ?_, ?_, h.count⟩
  · rw [← hs]; exact h.got
  · rw [← hs]; exact h.gone
  · rw [← hs]; exact h.le

/-- C121. Without a lag the receiver is given every message, up to where it has read. -/
theorem all_without_lag (cap : Nat) (es : List (Ev α)) (h : lost (run cap St.init es).2 = 0) :
    values (run cap St.init es).2 = (sentOf es).take (run cap St.init es).1.pos := by
  obtain ⟨idx, h1, h2, h3, -, h5, h6⟩ := received cap es
  have e : idx = List.range (run cap (St.init : St α) es).1.pos := by
    have hl : idx.length = (run cap (St.init : St α) es).1.pos := by omega
    generalize (run cap (St.init : St α) es).1.pos = p at h3 hl
    clear h2 h5 h6 h
    induction p generalizing idx with
    | zero => rw [List.length_eq_zero_iff.mp hl]; rfl
    | succ p ih =>
      rcases List.eq_nil_or_concat idx with rfl | ⟨l, x, rfl⟩
      · cases hl
      · rw [List.concat_eq_append] at h1 h3 hl ⊢
        rw [List.pairwise_append] at h1
        have hx : x < p + 1 := h3 x (by simp)
        have hlen : l.length = p := by simpa using hl
        have hlp : ∀ i ∈ l, i < p := fun i hi => by have := h1.2.2 i hi x (by simp); omega
        have hr := ih l h1.1 hlp hlen
        have hxp : x = p := by
          rcases Nat.lt_or_ge x p with h | h
          · have hm : x ∈ l := by rw [hr]; exact List.mem_range.mpr h
            exact absurd (h1.2.2 x hm x (by simp)) (Nat.lt_irrefl _)
          · omega
        rw [hr, hxp, List.range_succ]
  refine List.map_inj_right (f := some) (fun _ _ h => Option.some.inj h) |>.mp ?_
  rw [h2, e]
  apply List.ext_getElem?
  intro i
  rw [List.getElem?_map, List.getElem?_map]
  by_cases hi : i < (run cap (St.init : St α) es).1.pos
  · rw [List.getElem?_range hi, List.getElem?_take_of_lt hi, Option.map_some, List.getElem?_eq_getElem (by omega)]
    rfl
  · rw [List.getElem?_eq_none (by rw [List.length_range]; omega),
      List.getElem?_eq_none (by rw [List.length_take]; omega)]
    rfl

/-- C121. A lag is reported exactly when more than `cap` messages wait, and the next message is the oldest of the `cap` newest. -/
theorem lag_iff (cap : Nat) (s : St α) (n : Nat) :
    (poll cap s).2 = .lagged n ↔ s.pos + cap < s.sent.length ∧ n = s.sent.length - cap - s.pos := by
  unfold poll
  split
  · rename_i h; simp [h, eq_comm]
  · rename_i h
    constructor
    · intro e
      revert e
      cases s.sent[s.pos]? with
      | some v => simp
      | none => cases s.closed <;> simp
    · exact fun e => absurd e.1 h

/-- C121. `recv` says that the channel is at its end exactly when the last sender is gone and everything was read: never
while a sender is there, and never because of a lag. -/
theorem ended_iff (cap : Nat) (es : List (Ev α)) :
    returned (poll cap (run cap St.init es).1).2 = some none ↔
      Ev.close ∈ es ∧ (run cap St.init es).1.pos = (sentOf es).length := by
  have hs : (run cap (St.init : St α) es).1.sent = sentOf es := by rw [(sent_run es _).1]; rfl
  have hc := (sent_run (cap := cap) es (St.init : St α)).2
  obtain ⟨-, -, -, -, -, hle, -⟩ := received cap es
  rw [show ((St.init : St α).closed = true) = False by simp [St.init], false_or] at hc
  rw [← hc]
  rw [← hs] at hle ⊢
  generalize (run cap (St.init : St α) es).1 = s at hle
  unfold poll
  split
  · rename_i h
    constructor
    · intro e; cases e
    · rintro ⟨-, e⟩; omega
  · cases hv : s.sent[s.pos]? with
    | some v =>
      have := (List.getElem?_eq_some_iff.mp hv).1
      constructor
      · intro e; cases e
      · rintro ⟨-, e⟩; omega
    | none =>
      have := List.getElem?_eq_none_iff.mp hv
      dsimp only
      cases hcl : s.closed with
      | true => exact ⟨fun _ => ⟨rfl, by omega⟩, fun _ => rfl⟩
      | false =>
        constructor
        · intro e; cases e
        · rintro ⟨e, -⟩; cases e

/-- C121. If something is unread, `recv`, undisturbed, returns a message in at most two polls: the first unread one, or the
oldest that is kept. -/
theorem next_message (s : St α) (hcap : 0 < cap) (h : s.pos < s.sent.length) :
    ∃ v, s.sent[max s.pos (s.sent.length - cap)]? = some v ∧
      ((poll cap s).2 = .value v ∨ (∃ n, (poll cap s).2 = .lagged n) ∧ (poll cap (poll cap s).1).2 = .value v) := by
  have hlt : max s.pos (s.sent.length - cap) < s.sent.length := by omega
  refine ⟨_, List.getElem?_eq_getElem hlt, ?_⟩
  by_cases hl : s.pos + cap < s.sent.length
  · right
    have e : poll cap s = ({ s with pos := s.sent.length - cap }, .lagged (s.sent.length - cap - s.pos)) := by
      unfold poll; rw [if_pos hl]
    refine ⟨⟨_, by rw [e]⟩, ?_⟩
    rw [e]
    dsimp only
    unfold poll
    dsimp only
    rw [if_neg (by omega)]
    have : max s.pos (s.sent.length - cap) = s.sent.length - cap := by omega
    simp only [this]
    rw [List.getElem?_eq_getElem (by omega)]
  · left
    unfold poll
    rw [if_neg hl]
    have : max s.pos (s.sent.length - cap) = s.pos := by omega
    simp only [this]
    rw [List.getElem?_eq_getElem h]

/-- C121. `try_recv` reports a lag exactly when messages were passed over. -/
theorem try_tells (o : Out α) : tryReturned o = .error .lagged ↔ ∃ n, o = .lagged n := by
  cases o <;> simp [tryReturned]

/-! ### Cases -/

namespace Ex

/-- Six messages into a channel of four, read after the sixth: the first two are lost, and said to be. -/
def es : List (Ev Nat) := [.send 1, .send 2, .send 3, .send 4, .send 5, .send 6, .poll, .poll, .poll, .send 7, .poll, .poll, .poll,
  .poll, .close, .poll]

example : (run 4 St.init es).2 = [.lagged 2, .value 3, .value 4, .value 5, .value 6, .value 7, .pending, .closed] := by decide +kernel

example : values (run 4 St.init es).2 = [3, 4, 5, 6, 7] ∧ lost (run 4 St.init es).2 = 2 := by decide +kernel

/-- Without a lag. -/
example : values (run 4 St.init [.send 1, .send 2, .poll, .send 3, .poll]).2 = [1, 2] := by
  rw [all_without_lag 4 [.send 1, .send 2, .poll, .send 3, .poll] (by decide +kernel)]
  decide +kernel

/-- `try_recv` tells of the lag; `recv` does not: its caller cannot know that messages are missing. -/
theorem silent : tryReturned (poll 1 ⟨[1, 2], 0, false⟩ : St Nat × Out Nat).2 = .error .lagged ∧
    returned (poll 1 ⟨[1, 2], 0, false⟩ : St Nat × Out Nat).2 = none := ⟨rfl, rfl⟩

end Ex

end Cast
end Verif
