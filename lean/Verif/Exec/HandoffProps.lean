/- C50 on the detailed hand-over: the part that holds, and the two ways in which an output is skipped for good. -/
import Verif.Exec.Handoff

namespace Verif
namespace Handoff

open Pipe

/-- Apart from the flag of the subscriber, the node is in a state of the coarse model; what was broadcast is in the archive. -/
structure Rel (s : St) : Prop where
  coarse : ∃ b : Bool, Pipe.Reach { s.p with done := b } ∧ (s.p.done = false → b = false)
  held : ∀ n, s.held = some n → 1 ≤ n
  saved : ∀ n ∈ s.bc, 1 ≤ n ∧ n ≤ s.p.pack.length

theorem rel_fresh {p : Pipe.St} {b : Bool} (h : Pipe.Reach { p with done := b }) (hb : p.done = false → b = false) :
    Rel (fresh p) := ⟨⟨b, h, hb⟩, fun _ hn => (by cases hn), fun _ hn => (by cases hn)⟩

theorem receive_done (p : Pipe.St) (n : Nat) (b : Bool) :
    ({ p with done := b } : Pipe.St).receive n = { p.receive n with done := b } := by
  unfold Pipe.St.receive
  cases p.pack[n - 1]? with
  | none => rfl
  | some o =>
    dsimp only
    split
    · rfl
    · split <;> rfl

theorem receive_keeps (p : Pipe.St) (n : Nat) : (p.receive n).done = p.done ∧ (p.receive n).pack = p.pack := by
  unfold Pipe.St.receive
  cases p.pack[n - 1]? with
  | none => exact ⟨rfl, rfl⟩
  | some o =>
    dsimp only
    split
    · exact ⟨rfl, rfl⟩
    · split <;> exact ⟨rfl, rfl⟩

theorem rel_push {s : St} (h : Rel s) (hl : s.p.ph = .live) {o : O} (ho : s.p.pack[s.p.fwd]? = some o) {r : List Nat}
    (hr : ∀ n ∈ r, n ∈ s.bc) : Rel (push s (s.p.fwd + 1) o r) := by
  obtain ⟨⟨b, hb, hd⟩, hh, hv⟩ := h
  have hs := hb.step (.leftover 1 (by exact hl))
  have e : ({ s.p with done := b } : Pipe.St).leftover 1
      = if o.close then { ({ s.p with done := b } : Pipe.St).forward (s.p.fwd + 1) o with ph := .closing }
        else { ({ s.p with done := b } : Pipe.St).forward (s.p.fwd + 1) o with done := false } := by
    rw [Pipe.St.leftover]
    dsimp only
    rw [ho]
    dsimp only
    split
    · rfl
    · rfl
  rw [e] at hs
  unfold push
  split
  · rename_i hc
    rw [if_pos hc] at hs
    exact rel_fresh hs hd
  · rename_i hc
    rw [if_neg hc] at hs
    exact ⟨⟨false, hs, fun _ => rfl⟩, hh, fun n hn => hv n (hr n hn)⟩

theorem rel_same {s t : St} (h : Rel s) (hp : t.p = s.p) (hh : t.held = none ∨ t.held = s.held) (hb : ∀ n ∈ t.bc, n ∈ s.bc) :
    Rel t := by
  refine ⟨?_, fun n hn => ?_, fun n hn => ?_⟩
  · rw [hp]; exact h.coarse
  · rcases hh with hh | hh
    · rw [hh] at hn; cases hn
    · rw [hh] at hn; exact h.held n hn
  · rw [hp]; exact h.saved n (hb n hn)

theorem enter_done (p : Pipe.St) (b : Bool) : ({ p with done := b } : Pipe.St).enter = p.enter := rfl
theorem restart_done (p : Pipe.St) (b : Bool) : ({ p with done := b } : Pipe.St).restart = p.restart := rfl
theorem replayOne_done (p : Pipe.St) (b : Bool) (r : Nat) (o : O) :
    ({ p with done := b } : Pipe.St).replayOne r o = { p.replayOne r o with done := b } := by
  unfold Pipe.St.replayOne
  dsimp only
  split <;> rfl
theorem replayOne_keeps (p : Pipe.St) (r : Nat) (o : O) : (p.replayOne r o).done = p.done := by
  unfold Pipe.St.replayOne
  split <;> rfl

theorem rel_step {s t : St} {a : Act} (h : Rel s) (hns : ¬ Skips s a) (hn : next s a = some t) : Rel t := by
  have h0 := h
  obtain ⟨⟨b, hb, hd⟩, hh, hv⟩ := h
  cases a with
  | commit o told =>
    simp only [next] at hn
    split at hn
    · rename_i hc
      cases hn
      have hbf := hd hc.2.2.1
      subst hbf
      have hs := hb.step (.commit o (by exact hc.1) rfl (by exact hc.2.2.2))
      refine ⟨⟨o.close, hs, fun hx => ?_⟩, hh, fun n hn => ?_⟩
      · have : (o.close || !told) = false := hx
        exact (Bool.or_eq_false_iff.1 this).1
      · show 1 ≤ n ∧ n ≤ (s.p.pack ++ [o]).length
        rw [List.length_append, List.length_singleton]
        have hn' : n ∈ (if told then s.bc ++ [s.p.pack.length + 1] else s.bc) := hn
        split at hn'
        · rcases List.mem_append.1 hn' with hx | hx
          · have := hv n hx; omega
          · have := List.mem_singleton.1 hx; omega
        · have := hv n hn'; omega
    · cases hn
  | overflow =>
    simp only [next] at hn
    split at hn
    · cases hn
    · rename_i x r hbc
      cases hn
      exact rel_same h0 rfl (Or.inr rfl) (fun n hx => by rw [hbc]; exact List.mem_cons_of_mem _ hx)
  | take =>
    simp only [next] at hn
    split at hn
    · rename_i hc
      split at hn
      · cases hn
      · rename_i n r hbc
        cases hn
        have hsub : ∀ m ∈ r, m ∈ s.bc := fun m hx => by rw [hbc]; exact List.mem_cons_of_mem _ hx
        have hnb := hv n (by rw [hbc]; exact List.mem_cons_self ..)
        unfold take
        split
        · exact rel_same h0 rfl (Or.inr rfl) hsub
        · split
          · refine ⟨⟨b, hb, hd⟩, fun m hm => ?_, fun m hm => hv m (hsub m hm)⟩
            have : some n = some m := hm
            cases this; omega
          · rename_i h1 h2
            refine ⟨?_, hh, fun m hm => hv m (hsub m hm)⟩
            have hlt : n - 1 < s.p.pack.length := by omega
            have hs := hb.step (.receive n (by exact hc.1) hnb.1)
            rw [receive_done] at hs
            refine ⟨b, ?_, hd⟩
            have e : s.p.receive n = { s.p with ph := .down } := by
              unfold Pipe.St.receive
              rw [List.getElem?_eq_getElem hlt]; dsimp only
              rw [if_neg h1, if_neg h2]
            rw [e] at hs
            exact hs
    · cases hn
  | deliver =>
    simp only [next] at hn
    split at hn
    · cases hn
    · rename_i n hheld
      split at hn
      · rename_i hc
        have hs := hb.step (.receive n (by exact hc.1) (hh n hheld))
        rw [receive_done] at hs
        have hk := receive_keeps s.p n
        split at hn
        · cases hn
          exact rel_fresh hs (by rw [hk.1]; exact hd)
        · cases hn
          refine ⟨⟨b, hs, ?_⟩, fun m hm => (by cases hm), fun m hm => ?_⟩
          · show (s.p.receive n).done = false → b = false
            rw [hk.1]; exact hd
          · show 1 ≤ m ∧ m ≤ (s.p.receive n).pack.length
            rw [hk.2]; exact hv m hm
      · cases hn
  | cancel =>
    simp only [next] at hn
    split at hn
    · cases hn; exact rel_same h0 rfl (Or.inl rfl) (fun _ h => h)
    · cases hn
  | stopped =>
    simp only [next] at hn
    split at hn
    · cases hn; exact rel_same h0 rfl (Or.inr rfl) (fun _ h => h)
    · cases hn
  | one =>
    simp only [next] at hn
    split at hn
    · rename_i hc
      split at hn
      · cases hn
      · rename_i n r hbc
        have hnf : n = s.p.fwd + 1 := by
          by_cases hx : n = s.p.fwd + 1
          · exact hx
          · exact absurd ⟨n, r, hbc, hx⟩ hns
        subst hnf
        rw [show s.p.fwd + 1 - 1 = s.p.fwd from by omega] at hn
        cases ho : s.p.pack[s.p.fwd]? with
        | none => rw [ho] at hn; cases hn
        | some o =>
          rw [ho] at hn
          cases hn
          exact rel_push h0 hc.1 ho (fun m hx => by rw [hbc]; exact List.mem_cons_of_mem _ hx)
    · cases hn
  | oneEnds =>
    simp only [next] at hn
    split at hn
    · cases hn; exact rel_same h0 rfl (Or.inr rfl) (fun _ h => h)
    · cases hn
  | two =>
    simp only [next] at hn
    split at hn
    · rename_i hc
      cases ho : s.p.pack[s.p.fwd]? with
      | none => rw [ho] at hn; cases hn
      | some o =>
        rw [ho] at hn
        cases hn
        exact rel_push h0 hc.1 ho (fun _ h => h)
    · cases hn
  | twoEnds =>
    simp only [next] at hn
    split at hn
    · rename_i hc
      cases hn
      have hs := hb.step (.leftover 0 (by exact hc.1))
      exact rel_fresh (b := false) hs (fun _ => rfl)
    · cases hn
  | exec =>
    simp only [next] at hn
    split at hn
    · cases hn
    · rename_i x q hq
      cases hn
      exact ⟨⟨b, hb.step (.exec x q (by exact hq)), hd⟩, hh, hv⟩
  | persist k =>
    simp only [next] at hn
    cases hn
    exact ⟨⟨b, hb.step (.persist k), hd⟩, hh, hv⟩
  | closed =>
    simp only [next] at hn
    split at hn
    · rename_i hc
      cases hn
      have hs := hb.step (.closed (by exact hc.1) (by exact hc.2))
      rw [enter_done] at hs
      exact rel_fresh (b := false) hs (fun _ => rfl)
    · cases hn
  | replay =>
    simp only [next] at hn
    split at hn
    · rename_i r hr
      cases ho : s.p.pack[r - 1]? with
      | none => rw [ho] at hn; cases hn
      | some o =>
        rw [ho] at hn
        cases hn
        have hs := hb.step (.replay r o (by exact hr) (by exact ho))
        rw [replayOne_done] at hs
        exact rel_fresh hs (by rw [replayOne_keeps]; exact hd)
    · cases hn
  | replayed =>
    simp only [next] at hn
    split at hn
    · rename_i r hr
      split at hn
      · rename_i hc
        cases hn
        have hs := hb.step (.replayed r (by exact hr) (by exact hc.1) (by exact hc.2))
        exact rel_fresh (p := { s.p with ph := .live }) hs hd
      · cases hn
    · cases hn
  | restart =>
    simp only [next] at hn
    cases hn
    have hs := hb.step .restart
    rw [restart_done] at hs
    exact rel_fresh (b := false) hs (fun _ => rfl)

/-- The detailed model refines the coarse one as long as phase 1 of the leftovers skips nothing. -/
theorem good_rel {s : St} (h : Good s) : Rel s := by
  induction h with
  | init => exact rel_fresh (b := false) Pipe.Reach.init (fun _ => rfl)
  | step a _ hns hn ih => exact rel_step ih hns hn

/-- **C50**, the part that holds. As long as phase 1 of the leftovers never forwards an output other than the next one, the
chain is at every moment that of the first `m` outputs of the archive, each once, in order, in its epoch. Missing: phase 1
does not check this (`lost_output`, `lost_output_after_failed_read`). -/
theorem exactly_once_partial {s : St} (h : Good s) :
    ∃ m, m ≤ s.p.pack.length ∧ s.p.chain = expected s.p.pack m ∧ EpochsOk s.p.pack m := by
  obtain ⟨b, hb, _⟩ := (good_rel h).coarse
  have hx := exactly_once hb
  exact hx

/-- **C50**, the part that holds, two nodes. -/
theorem agree_partial {s t : St} (hs : Good s) (ht : Good t) (h : s.p.pack <+: t.p.pack) :
    s.p.chain <+: t.p.chain ∨ t.p.chain <+: s.p.chain := by
  obtain ⟨b, hb, _⟩ := (good_rel hs).coarse
  obtain ⟨c, hc, _⟩ := (good_rel ht).coarse
  have hx := agree hb hc h
  exact hx

/-! ## When phase 1 skips nothing -/

/-- The number of the next output to receive. -/
def expect (s : St) : Nat := match s.held with
  | none => s.p.fwd + 1
  | some n => n + 1

/-- While the channel is read, it holds the outputs that follow, up to the newest (but for the last one, if the subscriber was
aborted before it broadcast it), unless it overflowed. -/
def Window (s : St) : Prop :=
  s.p.ph = .live → s.mode ≠ .two →
    ∃ a k, s.bc = List.range' a k ∧ expect s ≤ a ∧ (s.lag = false → a = expect s) ∧ a + k ≤ s.p.pack.length + 1 ∧
      (s.p.done = false → a + k = s.p.pack.length + 1)

structure SInv (s : St) : Prop where
  rel : Rel s
  window : Window s
  free : s.mode ≠ .live → s.held = none
  next : ∀ n, s.held = some n → n = s.p.fwd + 1

theorem live_fwd {p : Pipe.St} {b : Bool} (h : Pipe.Reach { p with done := b }) (hl : p.ph = .live) : p.fwd ≤ p.pack.length := by
  obtain ⟨m, hc, hf, _⟩ := inv_live (reach_inv h) hl
  have h1 : m + p.q.length ≤ p.pack.length := hc.le
  have h2 : p.fwd = m + p.q.length := hf
  omega

theorem sinv_fresh {p : Pipe.St} (hr : Rel (fresh p)) (h : p.ph = .live → p.fwd = p.pack.length) : SInv (fresh p) := by
  refine ⟨hr, fun hl _ => ⟨p.fwd + 1, 0, rfl, ?_, fun _ => ?_, ?_, fun _ => ?_⟩, fun hm => absurd rfl hm, fun n hn => by cases hn⟩
  · exact Nat.le_refl _
  · rfl
  · show p.fwd + 1 + 0 ≤ p.pack.length + 1
    have := h hl; omega
  · show p.fwd + 1 + 0 = p.pack.length + 1
    have := h hl; omega

theorem push_window {s : St} (h : SInv s) (hl : s.p.ph = .live) {o : O} (ho : s.p.pack[s.p.fwd]? = some o) {r : List Nat}
    (hr : ∀ n ∈ r, n ∈ s.bc) (hm : s.mode ≠ .live)
    (hw : s.mode ≠ .two → ∃ k, r = List.range' (s.p.fwd + 2) k ∧ s.p.fwd + 2 + k ≤ s.p.pack.length + 1 ∧
      (s.p.done = false → s.p.fwd + 2 + k = s.p.pack.length + 1)) : SInv (push s (s.p.fwd + 1) o r) := by
  have hrel := rel_push h.rel hl ho hr
  unfold push at hrel ⊢
  split
  · rename_i hc
    rw [if_pos hc] at hrel
    exact sinv_fresh hrel (fun hx => by cases hx)
  · rename_i hc
    rw [if_neg hc] at hrel
    refine ⟨hrel, fun _ hm2 => ?_, h.free, fun n hn => ?_⟩
    · obtain ⟨k, h1, h2, h3⟩ := hw hm2
      have hh := h.free hm
      have he : expect { s with p := s.p.forward (s.p.fwd + 1) o, bc := r } = s.p.fwd + 2 := by
        unfold expect
        dsimp only
        rw [hh]
        rfl
      exact ⟨s.p.fwd + 2, k, h1, by rw [he]; exact Nat.le_refl _, fun _ => he.symm, h2, h3⟩
    · have hh := h.free hm
      have : s.held = some n := hn
      rw [hh] at this; cases this

theorem sinv_step {s t : St} {a : Act} (h : SInv s) (hd : ¬ Drops s a) (he : ¬ Early s a) (hn : next s a = some t) :
    SInv t ∧ ¬ Skips s a := by
  have hns : ¬ Skips s a := by
    intro hs
    cases a with
    | one =>
      obtain ⟨n, r, hbc, hne⟩ := hs
      simp only [next] at hn
      split at hn
      · rename_i hc
        have hh := h.free (by rw [hc.2.1]; exact fun h => by cases h)
        obtain ⟨x, k, hw, _, hx, _⟩ := h.window hc.1 (by rw [hc.2.1]; exact fun h => by cases h)
        have hx := hx hc.2.2
        unfold expect at hx
        rw [hh] at hx
        cases k with
        | zero => rw [hw] at hbc; cases hbc
        | succ k =>
          rw [hw, List.range'_succ] at hbc
          injection hbc with h1 _
          exact hne (by rw [← h1, hx])
      · cases hn
    | _ => exact hs
  refine ⟨?_, hns⟩
  have hrel := rel_step h.rel hns hn
  cases a with
  | commit o told =>
    simp only [next] at hn
    split at hn
    · rename_i hc
      cases hn
      refine ⟨hrel, fun hl hm => ?_, h.free, h.next⟩
      obtain ⟨x, k, hw, h1, h2, h3, h4⟩ := h.window hc.1 hm
      have h4 := h4 hc.2.2.1
      cases told with
      | false =>
        refine ⟨x, k, hw, h1, h2, ?_, fun hx => ?_⟩
        · show x + k ≤ (s.p.pack ++ [o]).length + 1
          rw [List.length_append]; omega
        · have : (o.close || !false) = false := hx
          rw [Bool.not_false, Bool.or_true] at this; cases this
      | true =>
        refine ⟨x, k + 1, ?_, h1, h2, ?_, fun _ => ?_⟩
        · show (if true then s.bc ++ [s.p.pack.length + 1] else s.bc) = _
          rw [if_pos rfl, List.range'_concat, hw]
          congr 2; omega
        · show x + (k + 1) ≤ (s.p.pack ++ [o]).length + 1
          rw [List.length_append, List.length_singleton]; omega
        · show x + (k + 1) = (s.p.pack ++ [o]).length + 1
          rw [List.length_append, List.length_singleton]; omega
    · cases hn
  | overflow =>
    simp only [next] at hn
    split at hn
    · cases hn
    · rename_i y r hbc
      cases hn
      refine ⟨hrel, fun hl hm => ?_, h.free, h.next⟩
      obtain ⟨x, k, hw, h1, h2, h3, h4⟩ := h.window hl hm
      cases k with
      | zero => rw [hw] at hbc; cases hbc
      | succ k =>
        rw [hw, List.range'_succ] at hbc
        injection hbc with _ hr
        refine ⟨x + 1, k, hr.symm, ?_, fun hx => (by cases hx), ?_, fun hx => ?_⟩
        · exact Nat.le_succ_of_le h1
        · show x + 1 + k ≤ s.p.pack.length + 1
          omega
        · have := h4 hx
          show x + 1 + k = s.p.pack.length + 1
          omega
  | take =>
    simp only [next] at hn
    split at hn
    · rename_i hc
      split at hn
      · cases hn
      · rename_i n r hbc
        cases hn
        obtain ⟨x, k, hw, h1, h2, h3, h4⟩ := h.window hc.1 (by rw [hc.2.1]; exact fun h => by cases h)
        have hex : expect s = s.p.fwd + 1 := by unfold expect; rw [hc.2.2]
        rw [hex] at h1
        cases k with
        | zero => rw [hw] at hbc; cases hbc
        | succ k =>
          rw [hw, List.range'_succ] at hbc
          injection hbc with hxn hr
          subst hxn
          unfold take at hrel ⊢
          rw [if_neg (show ¬ x ≤ s.p.fwd by omega)] at hrel ⊢
          split
          · rename_i hxf
            rw [if_pos hxf] at hrel
            refine ⟨hrel, fun _ _ => ⟨x + 1, k, hr.symm, ?_, fun _ => rfl, ?_, fun hx => ?_⟩, fun hm => absurd hc.2.1 hm, fun m hm => ?_⟩
            · exact Nat.le_refl _
            · show x + 1 + k ≤ s.p.pack.length + 1
              omega
            · have := h4 hx
              show x + 1 + k = s.p.pack.length + 1
              omega
            · have : some x = some m := hm
              cases this; exact hxf
          · rename_i hxf
            rw [if_neg hxf] at hrel
            exact ⟨hrel, fun hl => (by cases hl), h.free, h.next⟩
    · cases hn
  | deliver =>
    simp only [next] at hn
    split at hn
    · cases hn
    · rename_i n hheld
      have hnx := h.next n hheld
      split at hn
      · rename_i hc
        have hk := receive_keeps s.p n
        split at hn
        · rename_i hcl
          cases hn
          exact sinv_fresh hrel (fun hx => by rw [hcl] at hx; cases hx)
        · rename_i hcl
          cases hn
          refine ⟨hrel, fun hl hm => ?_, fun _ => rfl, fun m hm => by cases hm⟩
          obtain ⟨x, k, hw, h1, h2, h3, h4⟩ := h.window hc.1 (by rw [hc.2]; exact fun h => by cases h)
          have hex : expect s = n + 1 := by unfold expect; rw [hheld]
          have hf : (s.p.receive n).fwd = n ∨ ((s.p.receive n).fwd = s.p.fwd ∧ s.p.pack[n - 1]? = none) := by
            unfold Pipe.St.receive
            cases s.p.pack[n - 1]? with
            | none => exact Or.inr ⟨rfl, rfl⟩
            | some o =>
              dsimp only
              rw [if_neg (show ¬ n ≤ s.p.fwd by omega), if_pos hnx]
              exact Or.inl rfl
          rw [hex] at h1 h2
          rcases hf with hf | ⟨_, hnone⟩
          · have hex' : expect { s with p := s.p.receive n, held := none } = n + 1 := by
              unfold expect
              dsimp only
              rw [hf]
            rw [hex']
            refine ⟨x, k, hw, h1, h2, ?_, fun hx => ?_⟩
            · show x + k ≤ (s.p.receive n).pack.length + 1
              rw [hk.2]; exact h3
            · show x + k = (s.p.receive n).pack.length + 1
              rw [hk.2]; exact h4 (by rw [← hk.1]; exact hx)
          · have := List.getElem?_eq_none_iff.1 hnone
            have := h.rel.held n hheld
            omega
      · cases hn
  | cancel =>
    have hhn : s.held = none := by
      cases hx : s.held with
      | none => rfl
      | some n => exact absurd (show Drops s .cancel by unfold Drops; rw [hx]; exact fun h => by cases h) hd
    simp only [next] at hn
    split at hn
    · rename_i hc
      cases hn
      refine ⟨hrel, fun hl hm => ?_, fun _ => rfl, fun m hm => by cases hm⟩
      obtain ⟨x, k, hw, h1, h2, h3, h4⟩ := h.window hc.1 (by rw [hc.2]; exact fun h => by cases h)
      have hex : expect s = s.p.fwd + 1 := by unfold expect; rw [hhn]
      rw [hex] at h1 h2
      exact ⟨x, k, hw, h1, h2, h3, h4⟩
    · cases hn
  | stopped =>
    simp only [next] at hn
    split at hn
    · rename_i hc
      cases hn
      exact ⟨hrel, fun hl hm => h.window hc.1 (by rw [hc.2]; exact fun h => by cases h),
        fun _ => h.free (by rw [hc.2]; exact fun h => by cases h), h.next⟩
    · cases hn
  | one =>
    simp only [next] at hn
    split at hn
    · rename_i hc
      split at hn
      · cases hn
      · rename_i n r hbc
        have hml : s.mode ≠ .live := by rw [hc.2.1]; exact fun h => by cases h
        have hm2 : s.mode ≠ .two := by rw [hc.2.1]; exact fun h => by cases h
        have hnf : n = s.p.fwd + 1 := by
          by_cases hx : n = s.p.fwd + 1
          · exact hx
          · exact absurd ⟨n, r, hbc, hx⟩ hns
        subst hnf
        rw [show s.p.fwd + 1 - 1 = s.p.fwd from by omega] at hn
        cases ho : s.p.pack[s.p.fwd]? with
        | none => rw [ho] at hn; cases hn
        | some o =>
          rw [ho] at hn
          cases hn
          refine push_window h hc.1 ho (fun m hx => by rw [hbc]; exact List.mem_cons_of_mem _ hx) hml (fun _ => ?_)
          obtain ⟨x, k, hw, h1, h2, h3, h4⟩ := h.window hc.1 hm2
          cases k with
          | zero => rw [hw] at hbc; cases hbc
          | succ k =>
            rw [hw, List.range'_succ] at hbc
            injection hbc with hxn hr
            subst hxn
            exact ⟨k, hr.symm, by omega, fun hx => by have := h4 hx; omega⟩
    · cases hn
  | oneEnds =>
    simp only [next] at hn
    split at hn
    · rename_i hc
      cases hn
      exact ⟨hrel, fun _ hm => absurd rfl hm, fun _ => h.free (by rw [hc.2.1]; exact fun h => by cases h), h.next⟩
    · cases hn
  | two =>
    simp only [next] at hn
    split at hn
    · rename_i hc
      cases ho : s.p.pack[s.p.fwd]? with
      | none => rw [ho] at hn; cases hn
      | some o =>
        rw [ho] at hn
        cases hn
        exact push_window h hc.1 ho (fun _ h => h) (by rw [hc.2]; exact fun h => by cases h) (fun hm => absurd hc.2 hm)
    · cases hn
  | twoEnds =>
    simp only [next] at hn
    split at hn
    · rename_i hc
      cases hn
      refine sinv_fresh hrel (fun _ => ?_)
      obtain ⟨b, hb, _⟩ := h.rel.coarse
      have := live_fwd hb hc.1
      have he : ¬ s.p.fwd < s.p.pack.length := he
      show s.p.fwd = s.p.pack.length
      omega
    · cases hn
  | exec =>
    simp only [next] at hn
    split at hn
    · cases hn
    · cases hn
      exact ⟨hrel, h.window, h.free, h.next⟩
  | persist k =>
    simp only [next] at hn
    cases hn
    exact ⟨hrel, h.window, h.free, h.next⟩
  | closed =>
    simp only [next] at hn
    split at hn
    · cases hn
      exact sinv_fresh hrel (fun hx => by cases hx)
    · cases hn
  | replay =>
    simp only [next] at hn
    split at hn
    · rename_i r hr
      cases ho : s.p.pack[r - 1]? with
      | none => rw [ho] at hn; cases hn
      | some o =>
        rw [ho] at hn
        cases hn
        refine sinv_fresh hrel (fun hx => ?_)
        have hne : (s.p.replayOne r o).ph ≠ .live := by
          unfold Pipe.St.replayOne
          split
          · exact fun h => by cases h
          · cases o.close <;> exact fun h => by cases h
        exact absurd hx hne
    · cases hn
  | replayed =>
    simp only [next] at hn
    split at hn
    · rename_i r hr
      split at hn
      · rename_i hc
        cases hn
        refine sinv_fresh hrel (fun _ => ?_)
        obtain ⟨b, hb, _⟩ := h.rel.coarse
        obtain ⟨m, hcore, hp⟩ := reach_inv hb
        unfold PhaseOk at hp
        have hph : ({ s.p with done := b } : Pipe.St).ph = .replay r := hr
        rw [hph] at hp
        have h1 : r = m + s.p.q.length + 1 := hp.1
        have h2 : m + s.p.q.length ≤ s.p.pack.length := hcore.le
        have h3 : s.p.fwd = m + s.p.q.length ∨ s.p.fwd = s.p.pack.length := hp.2.2
        show s.p.fwd = s.p.pack.length
        omega
      · cases hn
    · cases hn
  | restart =>
    simp only [next] at hn
    cases hn
    exact sinv_fresh hrel (fun hx => by cases hx)

theorem smooth_sinv {s : St} (h : Smooth s) : SInv s ∧ Good s := by
  induction h with
  | init => exact ⟨sinv_fresh (rel_fresh (b := false) Pipe.Reach.init (fun _ => rfl)) (fun hx => by cases hx), .init⟩
  | step a _ hd he hn ih =>
    have := sinv_step ih.1 hd he hn
    exact ⟨this.1, ih.2.step a this.2 hn⟩

/-- **C50**, when it is safe. If no wait for room in the channel to the engine is cancelled, and phase 2 of the leftovers always
reaches the end of the archive, phase 1 skips nothing, so that every output is executed exactly once, in order - with
overflowing broadcasts, changes of mode, crashes and restarts at any moment. -/
theorem exactly_once_smooth {s : St} (h : Smooth s) :
    ∃ m, m ≤ s.p.pack.length ∧ s.p.chain = expected s.p.pack m ∧ EpochsOk s.p.pack m :=
  exactly_once_partial (smooth_sinv h).2

/-! ## When it is not -/

def run : St → List Act → Option St
  | s, [] => some s
  | s, a :: as => (next s a).bind (fun t => run t as)

theorem run_reach {s t : St} {as : List Act} (hs : Reach s) (h : run s as = some t) : Reach t := by
  induction as generalizing s with
  | nil => cases h; exact hs
  | cons a as ih =>
    simp only [run] at h
    cases hx : next s a with
    | none => rw [hx] at h; cases h
    | some u => rw [hx] at h; exact ih (hs.step a hx) h

def o1 : O := ⟨0, false, true, 1⟩
def o2 : O := ⟨0, false, true, 2⟩
def o3 : O := ⟨0, false, true, 3⟩

/-- Two outputs are committed; the first has been received and waits for room in the channel to the engine when the node
changes mode. The leftovers start with the second. -/
def skip : List Act := [.replayed, .commit o1 true, .take, .commit o2 true, .cancel, .stopped, .one, .oneEnds, .twoEnds]

/-- ... both outputs are executed or durable; after a restart the node goes on from there. -/
def skipRestart : List Act := skip ++ [.exec, .persist 1, .restart, .replayed, .commit o3 true, .take, .deliver, .exec]

/-- The same after a phase 2 that could not read the archive. -/
def skipRead : List Act := [.replayed, .commit o1 false, .cancel, .stopped, .oneEnds, .twoEnds, .commit o2 true, .cancel, .stopped,
  .one, .exec]

theorem not_expected {pack : List O} {c : List Ex} {e : Ex} (h : pack.head? = some o1) (he : e.num ≠ 1) (hc : c.head? = some e)
    (m : Nat) : c ≠ expected pack m := by
  intro hx
  subst hx
  cases pack with
  | nil => cases h
  | cons x xs =>
    injection h with h
    subst h
    cases m with
    | zero => cases hc
    | succ m =>
      have : (expected (o1 :: xs) (m + 1)).head? = some ⟨1, o1, false⟩ := rfl
      rw [this] at hc
      injection hc with hc
      rw [← hc] at he
      exact he rfl

/-- **Finding.** A change of mode (or the shutdown of the node) while an output waits for room in the channel to the engine loses
it: `select!` drops the wait, the output has left the broadcast channel, and phase 1 of the leftovers forwards what follows
without checking that it follows. Output 2 is executed on the state before output 1, and a restart does not repair it: the
node goes on with output 3 and never executes output 1. -/
theorem lost_output : ∃ s t, Reach s ∧ run init skip = some s ∧ Reach t ∧ run init skipRestart = some t ∧
    t.p.pack = [o1, o2, o3] ∧ t.p.chain = [⟨2, o2, false⟩, ⟨3, o3, false⟩] ∧ t.p.ph = .live ∧
    ∀ m, t.p.chain ≠ expected t.p.pack m := by
  have h1 : (run init skip).isSome = true := by decide +kernel
  have h2 : (run init skipRestart).isSome = true := by decide +kernel
  obtain ⟨s, hs⟩ := Option.isSome_iff_exists.1 h1
  obtain ⟨t, ht⟩ := Option.isSome_iff_exists.1 h2
  have hb : (run init skipRestart).map (fun t => decide (t.p.pack = [o1, o2, o3] ∧
      t.p.chain = [⟨2, o2, false⟩, ⟨3, o3, false⟩] ∧ t.p.ph = .live)) = some true := by decide +kernel
  rw [ht] at hb
  have hb := of_decide_eq_true (Option.some.inj hb)
  refine ⟨s, t, run_reach .init hs, hs, run_reach .init ht, ht, hb.1, hb.2.1, hb.2.2, fun m => ?_⟩
  exact not_expected (e := ⟨2, o2, false⟩) (by rw [hb.1]; rfl) (by decide) (by rw [hb.2.1]; rfl) m

/-- **Finding.** The same happens when phase 2 ends early once (an entry of the archive could not be read) and the node changes mode
again before it has received the next output. -/
theorem lost_output_after_failed_read : ∃ t, Reach t ∧ run init skipRead = some t ∧ t.p.pack = [o1, o2] ∧
    t.p.chain = [⟨2, o2, false⟩] ∧ ∀ m, t.p.chain ≠ expected t.p.pack m := by
  have h2 : (run init skipRead).isSome = true := by decide +kernel
  obtain ⟨t, ht⟩ := Option.isSome_iff_exists.1 h2
  have hb : (run init skipRead).map (fun t => decide (t.p.pack = [o1, o2] ∧ t.p.chain = [⟨2, o2, false⟩])) = some true := by
    decide +kernel
  rw [ht] at hb
  have hb := of_decide_eq_true (Option.some.inj hb)
  refine ⟨t, run_reach .init ht, ht, hb.1, hb.2, fun m => ?_⟩
  exact not_expected (e := ⟨2, o2, false⟩) (by rw [hb.1]; rfl) (by decide) (by rw [hb.2]; rfl) m

/-- Not vacuous: a smooth history with a change of mode in which phase 1 forwards an output, a later one with an overflow, a
boundary and a restart. -/
def smoothRun : List Act := [.replayed, .commit o1 true, .take, .deliver, .commit o2 true, .cancel, .commit o3 false, .stopped, .one,
  .oneEnds, .two, .twoEnds, .exec, .exec, .persist 1, .restart, .replay, .exec, .replay, .exec, .replayed]

def okActs : St → List Act → Bool
  | _, [] => true
  | s, a :: as =>
    (match a with
     | .cancel => decide (s.held = none)
     | .twoEnds => decide (¬ s.p.fwd < s.p.pack.length)
     | _ => true) &&
    (match next s a with
     | none => true
     | some t => okActs t as)

theorem run_smooth {s t : St} {as : List Act} (hs : Smooth s) (hk : okActs s as = true) (h : run s as = some t) : Smooth t := by
  induction as generalizing s with
  | nil => cases h; exact hs
  | cons a as ih =>
    simp only [run] at h
    unfold okActs at hk
    rw [Bool.and_eq_true] at hk
    cases hx : next s a with
    | none => rw [hx] at h; cases h
    | some u =>
      rw [hx] at h hk
      refine ih (hs.step a ?_ ?_ hx) hk.2 h
      · cases a <;> first | exact fun hd => hd | (intro hd; exact hd (of_decide_eq_true hk.1))
      · cases a <;> first | exact fun hd => hd | (have hx2 := of_decide_eq_true hk.1; exact hx2)

theorem smooth_run : ∃ s, Smooth s ∧ s.p.pack = [o1, o2, o3] ∧
    s.p.chain = [⟨1, o1, false⟩, ⟨2, o2, false⟩, ⟨3, o3, false⟩] := by
  have h2 : (run init smoothRun).isSome = true := by decide +kernel
  obtain ⟨t, ht⟩ := Option.isSome_iff_exists.1 h2
  have hk : okActs init smoothRun = true := by decide +kernel
  have hb : (run init smoothRun).map (fun t => decide (t.p.pack = [o1, o2, o3] ∧
      t.p.chain = [⟨1, o1, false⟩, ⟨2, o2, false⟩, ⟨3, o3, false⟩])) = some true := by decide +kernel
  rw [ht] at hb
  have hb := of_decide_eq_true (Option.some.inj hb)
  exact ⟨t, run_smooth .init hk ht, hb.1, hb.2⟩

end Handoff
end Verif
