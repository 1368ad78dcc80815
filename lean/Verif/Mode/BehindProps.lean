import Verif.Mode.Behind

/-!
# When a validator finds itself behind: what is proved (C108)
-/

namespace Verif.Bhd

/-! ## The chain -/

theorem E_mono {c : Chain} (ok : c.Ok) {a b : Nat} (h : a ≤ b) : c.E a ≤ c.E b := by
  induction b with
  | zero => rw [Nat.le_zero.mp h]; exact Nat.le_refl _
  | succ b ih =>
      rcases Nat.lt_or_ge a (b + 1) with h' | h'
      · have := ih (by omega)
        rcases ok.step b with e | e <;> omega
      · have : a = b + 1 := by omega
        rw [this]; exact Nat.le_refl _

theorem R_mono {c : Chain} (ok : c.Ok) {a b : Nat} (h : a ≤ b) (he : c.E a = c.E b) :
    c.R a + (b - a) ≤ c.R b := by
  induction b with
  | zero => rw [Nat.le_zero.mp h]; omega
  | succ b ih =>
      rcases Nat.lt_or_ge a (b + 1) with h' | h'
      · have h1 := E_mono ok (show a ≤ b by omega)
        have h2 := E_mono ok (show b ≤ b + 1 by omega)
        have := ih (by omega) (by omega)
        have := ok.rounds b (by omega)
        omega
      · have : a = b + 1 := by omega
        rw [this]; omega

/-- An output two epochs on is at least two outputs on. -/
theorem E_gap {c : Chain} (ok : c.Ok) {a b : Nat} (h : c.E a + 2 ≤ c.E b) : a + 2 ≤ b := by
  rcases Nat.lt_or_ge b (a + 2) with hb | hb
  · exfalso
    have h1 := E_mono ok (show b ≤ a + 1 by omega)
    rcases ok.step a with e | e <;> omega
  · exact hb

/-! ## The node -/

structure Inv (c : Chain) (s : Node) : Prop where
  le : s.done ≤ s.seen
  /-- the last committed output is of the epoch, or the closing one of the epoch before -/
  seen : c.E s.seen = s.epoch ∨ (c.E s.seen + 1 = s.epoch ∧ c.E (s.seen + 1) = s.epoch)
  done : c.E s.done = s.epoch ∨ (c.E s.done + 1 = s.epoch ∧ c.E (s.done + 1) = s.epoch)
  committed : s.committed = c.primed s.epoch s.seen

theorem init_inv {c : Chain} (ok : c.Ok) : Inv c Node.init where
  le := Nat.le_refl _
  seen := Or.inl ok.zero.1
  done := Or.inl ok.zero.1
  committed := by
    show 0 = c.primed 0 0
    unfold Chain.primed; rw [if_pos ok.zero.1]; exact ok.zero.2.1.symm

theorem step_inv {gc : Nat} {c : Chain} (ok : c.Ok) {s : Node} (i : Inv c s) (e : Ev) :
    Inv c (s.step gc c e) := by
  have le := i.le
  have hseen := i.seen
  have hdone := i.done
  cases e with
  | commit =>
      dsimp only [Node.step]
      split
      · rename_i h
        refine ⟨by dsimp only; omega, Or.inl h.2, hdone, ?_⟩
        dsimp only
        unfold Chain.primed; rw [if_pos h.2]
      · exact i
  | process =>
      dsimp only [Node.step]
      split
      · rename_i h
        refine ⟨by dsimp only; omega, hseen, ?_, i.committed⟩
        dsimp only
        have m1 := E_mono ok (show s.done ≤ s.done + 1 by omega)
        have m2 := E_mono ok (show s.done + 1 ≤ s.seen by omega)
        rcases hdone with hd | ⟨hd, hd'⟩
        · left
          rcases hseen with hs | ⟨hs, _⟩ <;> omega
        · exact Or.inl hd'
      · exact i
  | enter =>
      dsimp only [Node.step]
      split
      · rename_i h
        obtain ⟨_, h1, h2, h3⟩ := h
        refine ⟨le, Or.inr ⟨by dsimp only; omega, h3⟩, Or.inr ⟨?_, ?_⟩, rfl⟩
        · dsimp only; rw [h1]; omega
        · dsimp only; rw [h1]; exact h3
      · exact i
  | cert e r f =>
      dsimp only [Node.step]
      split
      · exact ⟨le, hseen, hdone, i.committed⟩
      · exact i
  | result n f =>
      dsimp only [Node.step]
      split
      · split
        · exact ⟨le, hseen, hdone, i.committed⟩
        · exact ⟨le, hseen, hdone, i.committed⟩
      · exact i
  | publish n => exact ⟨le, hseen, hdone, i.committed⟩
  | rejoin n next =>
      dsimp only [Node.step]
      split
      · by_cases hn : next = true ∧ c.E (n + 1) = c.E n + 1
        · rw [if_pos hn]
          exact ⟨Nat.le_refl _, Or.inr ⟨rfl, hn.2⟩, Or.inr ⟨rfl, hn.2⟩, rfl⟩
        · rw [if_neg hn]
          exact ⟨Nat.le_refl _, Or.inl rfl, Or.inl rfl, rfl⟩
      · exact i
  | restart n =>
      dsimp only [Node.step]
      split
      · rename_i h
        have key : c.E n = s.epoch ∨ (c.E n + 1 = s.epoch ∧ c.E (n + 1) = s.epoch) := by
          have m1 := E_mono ok h.1
          have m2 := E_mono ok h.2
          rcases hdone with hd | ⟨hd, hd'⟩
          · left; rcases hseen with hs | ⟨hs, _⟩ <;> omega
          · rcases Nat.lt_or_ge s.done n with hlt | hge
            · left
              have m3 := E_mono ok (show s.done + 1 ≤ n by omega)
              rcases hseen with hs | ⟨hs, _⟩ <;> omega
            · have : n = s.done := by omega
              rw [this]; exact Or.inr ⟨hd, hd'⟩
        exact ⟨Nat.le_refl _, key, key, rfl⟩
      · exact i

theorem run_inv (gc : Nat) {c : Chain} (ok : c.Ok) (es : List Ev) : Inv c (c.run gc es) := by
  have : ∀ (es : List Ev) (s : Node), Inv c s → Inv c (es.foldl (Node.step gc c) s) := by
    intro es
    induction es with
    | nil => intro s i; exact i
    | cons x l ih => intro s i; exact ih _ (step_inv ok i x)
  exact this es _ (init_inv ok)

/-! ## The check, computed -/

theorem behind_found (gc : Nat) (c : Chain) (s : Node) (e r : Nat) (n : Option Nat) :
    behind gc (s.view c true) e r n = true ↔
      (e = c.E s.done ∧ max (c.R s.done) s.committed + win gc < r) ∨
      (match n with
       | some k => c.E s.done < e ∧ max s.done s.published + 1 < k
       | none => if c.E s.done + 1 = e then max (win gc) 6 < r else c.E s.done < e) := by
  unfold behind Node.view View.exec
  simp only [if_true, Option.getD_some, Bool.or_eq_true, Bool.and_eq_true, beq_iff_eq,
    decide_eq_true_eq, Nat.max_self]
  cases n with
  | some k => simp only [Bool.and_eq_true, decide_eq_true_eq]
  | none =>
      by_cases h : c.E s.done + 1 = e
      · simp only [h, if_true, decide_eq_true_eq]
      · simp only [h, if_false, decide_eq_true_eq]

theorem effective_eq {c : Chain} (ok : c.Ok) {s : Node} (i : Inv c s) (he : c.E s.done = s.epoch) :
    s.committed = c.R s.seen ∧ c.R s.done ≤ c.R s.seen ∧ c.E s.seen = s.epoch := by
  have h1 := E_mono ok i.le
  have hs : c.E s.seen = s.epoch := by
    rcases i.seen with h | ⟨h, _⟩ <;> omega
  refine ⟨?_, ?_, hs⟩
  · rw [i.committed]; unfold Chain.primed; rw [if_pos hs]
  · have := R_mono ok i.le (by omega); omega

/-- **Within the epoch** the alarm is exactly the distance from what the node itself has committed: a
certificate of round `r` of the running epoch, or an output of that round, makes it inactive iff `r` is
more than the window beyond the round of the last output it committed. -/
theorem same_epoch (gc : Nat) {c : Chain} (ok : c.Ok) (es : List Ev) (r : Nat) (n : Option Nat)
    (he : c.E (c.run gc es).done = (c.run gc es).epoch) :
    behind gc ((c.run gc es).view c true) (c.run gc es).epoch r n = true ↔
      c.R (c.run gc es).seen + (gc - 10) < r := by
  have i := run_inv gc ok es
  generalize c.run gc es = s at *
  obtain ⟨h1, h2, _⟩ := effective_eq ok i he
  rw [behind_found, h1]
  have e1 : win gc = gc - 10 := rfl
  rw [e1, Nat.max_eq_right h2]
  constructor
  · rintro (⟨_, h⟩ | h)
    · exact h
    · exfalso
      cases n with
      | some k => have h : _ ∧ _ := h; omega
      | none =>
          dsimp only at h
          rw [if_neg (by omega)] at h
          omega
  · intro h
    exact Or.inl ⟨he.symm, h⟩

/-- **No false alarm within the epoch**: no output the node has itself committed, and no certificate up
to that output's round, makes it inactive. -/
theorem committed_is_safe (gc : Nat) {c : Chain} (ok : c.Ok) (es : List Ev) (n : Nat)
    (he : c.E (c.run gc es).done = (c.run gc es).epoch) (hn : n ≤ (c.run gc es).seen)
    (hE : c.E n = (c.run gc es).epoch) :
    (c.run gc es).step gc c (.result n true) =
      { c.run gc es with published := max (c.run gc es).published n } ∧
    ∀ r ≤ c.R n, (c.run gc es).step gc c (.cert (c.E n) r true) = c.run gc es := by
  have i := run_inv gc ok es
  have key : ∀ r m, r ≤ c.R n →
      behind gc ((c.run gc es).view c true) (c.run gc es).epoch r m = false := by
    intro r m hr
    cases hb : behind gc ((c.run gc es).view c true) (c.run gc es).epoch r m
    · rfl
    · have := (same_epoch gc ok es r m he).mp hb
      obtain ⟨_, _, h3⟩ := effective_eq ok i he
      have := R_mono ok hn (hE.trans h3.symm)
      omega
  constructor
  · dsimp only [Node.step]
    rw [hE, key _ _ (Nat.le_refl _)]
    by_cases hp : (c.run gc es).published < n
    · rw [if_pos hp, if_neg (by simp)]
    · rw [if_neg hp, Nat.max_eq_left (by omega)]
  · intro r hr
    dsimp only [Node.step]
    rw [hE, key _ _ hr, if_neg (by simp)]

/-- **What is not an alarm can be fetched**: if a certificate or output of round `r` of the running
epoch is no alarm, then peers that have committed no further than ten rounds beyond `r` still keep every
round the node has not committed: their garbage collection round is at most the node's own last
committed round. -/
theorem quiet_is_retained (gc : Nat) {c : Chain} (ok : c.Ok) (es : List Ev) (r : Nat) (n : Option Nat)
    (he : c.E (c.run gc es).done = (c.run gc es).epoch) (hgc : 10 < gc)
    (h : behind gc ((c.run gc es).view c true) (c.run gc es).epoch r n = false) (peer : Nat)
    (hp : peer ≤ r + 10) : peer - gc ≤ c.R (c.run gc es).seen := by
  have hn : ¬ c.R (c.run gc es).seen + (gc - 10) < r := by
    intro hlt
    have := (same_epoch gc ok es r n he).mpr hlt
    rw [h] at this; cases this
  omega

/-- **Across epochs, by outputs**: an output of a later epoch is an alarm iff it is more than one beyond
both the last output processed and the last one published. In particular a node that has processed the
output before is safe. -/
theorem later_result (gc : Nat) (c : Chain) (s : Node) (n : Nat)
    (hE : c.E s.done < c.E n) :
    behind gc (s.view c true) (c.E n) (c.R n) (some n) = true ↔
      s.done + 1 < n ∧ s.published + 1 < n := by
  rw [behind_found]
  constructor
  · rintro (⟨h, _⟩ | ⟨_, h⟩)
    · omega
    · omega
  · intro h
    exact Or.inr ⟨hE, by omega⟩

/-- **Across epochs, by certificates**: a certificate of the epoch right after that of the last processed
output is an alarm iff its round is beyond the window (at least 6); one of any later epoch always is; one
of an earlier epoch never is. -/
theorem later_cert (gc : Nat) (c : Chain) (s : Node) (e r : Nat) :
    (e = c.E s.done + 1 → (behind gc (s.view c true) e r none = true ↔ max (gc - 10) 6 < r)) ∧
    (c.E s.done + 1 < e → behind gc (s.view c true) e r none = true) ∧
    (e < c.E s.done → behind gc (s.view c true) e r none = false) := by
  refine ⟨fun h => ?_, fun h => ?_, fun h => ?_⟩
  · rw [behind_found]
    dsimp only
    rw [if_pos h.symm]
    constructor
    · rintro (⟨h', _⟩ | h')
      · omega
      · exact h'
    · intro h'; exact Or.inr h'
  · rw [behind_found]
    dsimp only
    rw [if_neg (by omega)]
    exact Or.inr (by omega)
  · cases hb : behind gc (s.view c true) e r none
    · rfl
    · rw [behind_found] at hb
      dsimp only at hb
      rw [if_neg (by omega)] at hb
      rcases hb with ⟨h', _⟩ | h' <;> omega

/-- **An old message never is an alarm**: nor an output that was published before. -/
theorem old_is_quiet (gc : Nat) {c : Chain} (ok : c.Ok) (s : Node) (n : Nat) (hn : n ≤ s.done) :
    behind gc (s.view c true) (c.E n) (c.R n) (some n) = false := by
  cases hb : behind gc (s.view c true) (c.E n) (c.R n) (some n)
  · rfl
  · rw [behind_found] at hb
    have h1 := E_mono ok hn
    rcases hb with ⟨h, h'⟩ | ⟨h, _⟩
    · have := R_mono ok hn h
      have := Nat.le_max_left (c.R s.done) s.committed
      omega
    · omega

/-- Only an active node is affected, and the only effect is that it goes inactive: in every history a
check changes nothing but the mode and, for an output, the newest one known. -/
theorem effect (gc : Nat) (c : Chain) (s : Node) (e r n : Nat) (f : Bool) :
    (s.active = false → s.step gc c (.cert e r f) = s) ∧
    (s.step gc c (.cert e r f) = s ∨
      s.step gc c (.cert e r f) = { s with active := false }) ∧
    (s.step gc c (.result n f) = { s with active := false } ∨
      s.step gc c (.result n f) = { s with published := max s.published n }) := by
  refine ⟨fun h => ?_, ?_, ?_⟩
  · dsimp only [Node.step]; rw [h, if_neg (by simp)]
  · dsimp only [Node.step]
    split
    · exact Or.inr rfl
    · exact Or.inl rfl
  · dsimp only [Node.step]
    split
    · split
      · exact Or.inl rfl
      · exact Or.inr rfl
    · rw [Nat.max_eq_left (by omega)]; exact Or.inr rfl

/-- A node that is far behind is told by the next certificate that gets through: two epochs or more, or
within the epoch more than `gc` rounds (where peers no longer keep what it lacks). -/
theorem far_is_noticed (gc : Nat) {c : Chain} (ok : c.Ok) (es : List Ev) (e r : Nat)
    (ha : (c.run gc es).active = true)
    (h : (c.run gc es).epoch + 1 < e ∨
      (c.E (c.run gc es).done = (c.run gc es).epoch ∧ e = (c.run gc es).epoch ∧
        c.R (c.run gc es).seen + gc < r)) :
    ((c.run gc es).step gc c (.cert e r true)).active = false := by
  have i := run_inv gc ok es
  have hb : behind gc ((c.run gc es).view c true) e r none = true := by
    rcases h with h | ⟨h1, h2, h3⟩
    · refine (later_cert gc c _ e r).2.1 ?_
      rcases i.done with hd | ⟨hd, _⟩ <;> omega
    · rw [h2, same_epoch gc ok es r none h1]; omega
  dsimp only [Node.step]
  rw [if_pos ⟨ha, hb⟩]

/-! ## Findings -/

/-- A node that processes nothing more is not told by outputs of later epochs, as long as it hears of
every one of them: each is only one beyond the newest it has heard of. -/
theorem outputs_do_not_tell (gc : Nat) {c : Chain} (ok : c.Ok) :
    ∀ (k : Nat) (s : Node), s.active = true → c.E s.done < c.E (s.published + 1) →
    (((List.range' (s.published + 1) k).map (fun n => Ev.result n true)).foldl
        (Node.step gc c) s) = { s with published := s.published + k } := by
  intro k
  induction k with
  | zero => intro s _ _; rfl
  | succ k ih =>
      intro s ha hE
      rw [List.range'_succ, List.map_cons, List.foldl_cons]
      have hb : behind gc (s.view c true) (c.E (s.published + 1)) (c.R (s.published + 1))
          (some (s.published + 1)) = false := by
        cases hb : behind gc (s.view c true) (c.E (s.published + 1)) (c.R (s.published + 1))
            (some (s.published + 1))
        · rfl
        · have := (later_result gc c s _ hE).mp hb; omega
      have e1 : s.step gc c (.result (s.published + 1) true) =
          { s with published := s.published + 1 } := by
        dsimp only [Node.step]
        rw [if_pos (by omega), hb, if_neg (by simp), Nat.max_eq_right (by omega)]
      rw [e1]
      have := ih { s with published := s.published + 1 } ha (by
        show c.E s.done < c.E (s.published + 1 + 1)
        have := E_mono ok (show s.published + 1 ≤ s.published + 1 + 1 by omega)
        omega)
      rw [show s.published + 1 + 1 = (Node.mk s.epoch s.done s.seen s.committed (s.published + 1)
        s.active).published + 1 from rfl]
      rw [this]
      show Node.mk _ _ _ _ (s.published + 1 + k) _ = Node.mk _ _ _ _ (s.published + (k + 1)) _
      rw [show s.published + 1 + k = s.published + (k + 1) by omega]

/-- Twenty outputs in each epoch, one every second round. -/
def c0 : Chain :=
  { E := fun n => (n - 1) / 20, R := fun n => if n = 0 then 0 else 2 * ((n - 1) % 20 + 1) }

theorem c0_ok : c0.Ok where
  zero := by decide
  step := by
    intro n
    show (n + 1 - 1) / 20 = (n - 1) / 20 ∨ (n + 1 - 1) / 20 = (n - 1) / 20 + 1
    omega
  rounds := by
    intro n h
    have h : (n + 1 - 1) / 20 = (n - 1) / 20 := h
    show (if n = 0 then 0 else 2 * ((n - 1) % 20 + 1)) <
      (if n + 1 = 0 then 0 else 2 * ((n + 1 - 1) % 20 + 1))
    rw [if_neg (show ¬ n + 1 = 0 by omega)]
    split
    · omega
    · omega

/-- `k` outputs committed and processed. -/
def live (k : Nat) : List Ev := (List.replicate k [Ev.commit, Ev.process]).flatten

/-- A node lives through an epoch, enters the next, hears certificates and outputs, lags and is told. -/
theorem life_example :
    (c0.run 20 (live 20 ++ [.enter] ++ live 3 ++ [.result 25 true, .cert 1 16 true])).active = true ∧
    (c0.run 20 (live 20 ++ [.enter] ++ live 3 ++ [.result 25 true, .cert 1 17 true])).active = false ∧
    (c0.run 20 (live 20 ++ [.enter] ++ live 3 ++ [.result 29 true])).active = false ∧
    (c0.run 20 (live 20 ++ [.enter] ++ live 3 ++ [.result 29 true, .rejoin 30 false, .commit])).seen =
      31 := by decide +kernel

/-- The state of `life_example` before the checks meets the hypotheses of the theorems: the last
processed output is of the running epoch, two more are committed. -/
theorem hypotheses_met :
    let s := c0.run 20 (live 20 ++ [.enter] ++ live 3 ++ [.commit, .commit])
    s.active = true ∧ c0.E s.done = s.epoch ∧ s.epoch = 1 ∧ s.done = 23 ∧ s.seen = 25 ∧
      c0.E 24 = s.epoch ∧ behind 20 (s.view c0 true) s.epoch 20 none = false ∧
      behind 20 (s.view c0 true) s.epoch 21 none = true ∧
      behind 20 (s.view c0 true) 2 1 (some 42) = true := by decide +kernel

/-- Finding: in a new epoch whose first output the engine has not processed yet, the rounds the node has
itself committed do not count: a certificate just one round beyond the node's last commit makes it
inactive. -/
theorem slow_engine :
    let s := c0.run 20 (live 20 ++ [.enter] ++ List.replicate 6 .commit)
    s.active = true ∧ c0.R s.seen = 12 ∧
      (s.step 20 c0 (.cert 1 13 true)).active = false ∧
      ((s.step 20 c0 .process).step 20 c0 (.cert 1 13 true)).active = true := by decide +kernel

/-- Finding: an output the node itself has committed makes it inactive, if the engine has processed
nothing of the epoch and the output before was not heard of. -/
theorem own_output_alarms :
    let s := c0.run 20 (live 20 ++ [.enter] ++ List.replicate 3 .commit)
    s.active = true ∧ s.seen = 23 ∧ (s.step 20 c0 (.result 22 true)).active = false := by
  decide +kernel

/-- Finding: when the header of the last processed output is not found (or the read fails) a node that
has missed nothing goes inactive at the next certificate, from epoch 2 on. -/
theorem lost_header (gc : Nat) (c : Chain) (s : Node) (ha : s.active = true) (r : Nat)
    (he : 2 ≤ s.epoch) : (s.step gc c (.cert s.epoch r false)).active = false := by
  have hb : behind gc (s.view c false) s.epoch r none = true := by
    unfold behind Node.view View.exec
    simp only [Bool.false_eq_true, if_false, Option.getD_none, Bool.or_eq_true]
    right
    rw [if_neg (by omega)]
    exact decide_eq_true (by omega)
  dsimp only [Node.step]
  rw [if_pos ⟨ha, hb⟩]

/-- Finding: a node that stopped three outputs before the end of epoch 0 hears of all outputs of epoch
1 and stays active; the first certificate of that epoch beyond the window would tell it. -/
theorem stuck_unnoticed :
    let s := c0.run 20 (live 17 ++ (List.range' 1 40).map (fun n => Ev.result n true))
    s.active = true ∧ s.done = 17 ∧ s.published = 40 ∧ c0.E 40 = 1 ∧
      (s.step 20 c0 (.cert 1 11 true)).active = false := by decide +kernel

end Verif.Bhd
