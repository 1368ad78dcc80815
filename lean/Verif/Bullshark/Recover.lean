import Verif.Bullshark.Process
/-
Recovery from the stored sub-dags and certificates puts a node back into the state it would have
without the restart.
-/
namespace Verif
namespace Bull

variable {U : Header → Prop} {p : Params}

/-- `Pairwise` growth by 2 gives the distance between an element and the last one. -/
theorem leader_gap {log : List SubDag} (h : log.Pairwise (fun a b => a.leaderRound + 2 ≤ b.leaderRound))
    (old new : List SubDag) (he : log = old ++ new) (hne : new ≠ []) (s : SubDag) (hs : s ∈ old) :
    s.leaderRound + 2 * new.length ≤ roundOf log := by
  subst he
  induction new using List.reverseRecOn generalizing s with
  | nil => exact absurd rfl hne
  | append_singleton new z ih =>
    rw [← List.append_assoc] at h ⊢
    rw [roundOf_append]
    simp only [List.length_append, List.length_cons, List.length_nil]
    rcases List.eq_nil_or_concat new with rfl | ⟨t, y, rfl⟩
    · rw [List.pairwise_append] at h
      have := h.2.2 s (by simpa using hs) z (by simp)
      simp; omega
    · rw [List.concat_eq_append] at *
      have h' := h
      rw [List.pairwise_append] at h
      have h1 := ih (by simp) s hs h.1
      rw [← List.append_assoc, roundOf_append] at h1
      have h2 := h.2.2 y (by simp) z (by simp)
      omega

theorem committedOf_append (a b : List SubDag) : committedOf (a ++ b) = committedOf a ++ committedOf b := by
  simp [committedOf]

theorem WfLog.le_roundOf {log : List SubDag} (h : WfLog p U log) {x : Header}
    (hx : x ∈ committedOf log) : x.round ≤ roundOf log := by
  obtain ⟨s, hs, hxs⟩ := List.mem_flatMap.mp hx
  obtain ⟨l, hl, -, -, -, hall⟩ := h.shape s hs
  have h1 := (hall x hxs).2
  have hsr : s.leaderRound = l.round := by simp [SubDag.leaderRound, hl]
  rcases List.eq_nil_or_concat log with rfl | ⟨t, z, rfl⟩
  · simp at hs
  · rw [List.concat_eq_append] at *
    rw [roundOf_append]
    rcases List.mem_append.mp hs with hs | hs
    · have := h.mono
      rw [List.pairwise_append] at this
      have := this.2.2 s hs z (by simp)
      omega
    · simp at hs; subst hs; omega

theorem WfLog.leader_mem {log : List SubDag} (h : WfLog p U log) (hne : log ≠ []) (n : Nat)
    (hn : 1 ≤ n) : ∃ x ∈ committedOf (lastN n log), x.round = roundOf log := by
  rcases List.eq_nil_or_concat log with rfl | ⟨t, z, rfl⟩
  · exact absurd rfl hne
  · rw [List.concat_eq_append] at *
    obtain ⟨l, hl, -⟩ := h.shape z (by simp)
    refine ⟨l, ?_, ?_⟩
    · apply List.mem_flatMap.mpr
      refine ⟨z, ?_, List.mem_of_getLast? hl⟩
      unfold lastN
      have : (t ++ [z]).length - n ≤ t.length := by simp; omega
      rw [List.drop_append_of_le_length this]
      simp
    · rw [roundOf_append]; simp [SubDag.leaderRound, hl]

theorem lastN_suffix (n : Nat) (log : List SubDag) : ∃ old, log = old ++ lastN n log :=
  ⟨log.take (log.length - n), by simp [lastN]⟩

/-- What the last `lcWindow` sub-dags say about the last committed rounds is all that matters above
the garbage collection round. -/
theorem readLastCommitted_eq {log : List SubDag} (h : WfLog p U log) (hw : 1 ≤ p.lcWindow)
    (hgd : p.gcDepth ≤ 2 * p.lcWindow) (a : AuthorityId) :
    max (lcGet (readLastCommitted p log) a) (gcOf p (roundOf log)) =
      max (maxRound (committedOf log) a) (gcOf p (roundOf log)) := by
  have e : lcGet (readLastCommitted p log) a = maxRound (committedOf (lastN p.lcWindow log)) a := by
    unfold readLastCommitted
    rw [lcGet_foldl]
    simp [lcGet, SMap.get?, committedOf]
  rw [e]
  obtain ⟨old, ho⟩ := lastN_suffix p.lcWindow log
  have hold : maxRound (committedOf old) a ≤ gcOf p (roundOf log) := by
    apply maxRound_le
    intro x hx _
    obtain ⟨s, hs, hxs⟩ := List.mem_flatMap.mp hx
    obtain ⟨l, hl, -, -, -, hall⟩ := h.shape s (by rw [ho]; exact List.mem_append_left _ hs)
    have h1 := (hall x hxs).2
    have hsr : s.leaderRound = l.round := by simp [SubDag.leaderRound, hl]
    have hlen : (lastN p.lcWindow log).length = p.lcWindow := by
      have hlt : p.lcWindow < log.length := by
        by_contra hle
        have : lastN p.lcWindow log = log := by
          unfold lastN
          rw [show log.length - p.lcWindow = 0 by omega]; simp
        rw [this] at ho
        have hn : old = [] := List.self_eq_append_left.mp ho
        rw [hn] at hs; simp at hs
      simp [lastN]; omega
    have := leader_gap h.mono old (lastN p.lcWindow log) ho
      (by intro hn; rw [hn] at hlen; simp at hlen; omega) s hs
    unfold gcOf
    omega
  have hmax : maxRound (committedOf log) a =
      max (maxRound (committedOf old) a) (maxRound (committedOf (lastN p.lcWindow log)) a) := by
    rw [← maxRound_append, ← committedOf_append, ← ho]
  omega

theorem foldl_max_le {l : List Nat} {m b : Nat} (hm : m ≤ b) (h : ∀ x ∈ l, x ≤ b) :
    l.foldl max m ≤ b := by
  induction l generalizing m with
  | nil => exact hm
  | cons x xs ih => exact ih (by have := h x (by simp); omega) (fun y hy => h y (by simp [hy]))

theorem acc_le_foldl_max (l : List Nat) (m : Nat) : m ≤ l.foldl max m := by
  induction l generalizing m with
  | nil => exact Nat.le_refl _
  | cons y ys ih => exact Nat.le_trans (Nat.le_max_left m y) (ih _)

theorem le_foldl_max {l : List Nat} {m x : Nat} (h : x = m ∨ x ∈ l) : x ≤ l.foldl max m := by
  induction l generalizing m with
  | nil => simp at h; simp [h]
  | cons y ys ih =>
    rw [List.foldl_cons]
    rcases h with rfl | h
    · exact Nat.le_trans (Nat.le_max_left x y) (acc_le_foldl_max _ _)
    · rcases List.mem_cons.mp h with rfl | h
      · exact Nat.le_trans (Nat.le_max_right m x) (acc_le_foldl_max _ _)
      · exact ih (Or.inr h)

theorem lcUpdate_sorted {lc : List (Nat × Nat)} (h : SMap.Sorted lc) (x : Header) :
    SMap.Sorted (lcUpdate lc x) := by
  unfold lcUpdate; split <;> exact SMap.sorted_insert h

theorem foldl_lcUpdate_sorted (hs : List Header) {lc : List (Nat × Nat)} (h : SMap.Sorted lc) :
    SMap.Sorted (hs.foldl lcUpdate lc) := by
  induction hs generalizing lc with
  | nil => exact h
  | cons x xs ih => exact ih (lcUpdate_sorted h x)

/-- The committed round computed from the recovered map. -/
theorem recovered_round {log : List SubDag} (h : WfLog p U log) (hw : 1 ≤ p.lcWindow) :
    ((readLastCommitted p log).map (·.2)).foldl max 0 = roundOf log := by
  have hsorted : SMap.Sorted (readLastCommitted p log) :=
    foldl_lcUpdate_sorted _ SMap.sorted_nil
  have hget : ∀ a, lcGet (readLastCommitted p log) a = maxRound (committedOf (lastN p.lcWindow log)) a := by
    intro a
    unfold readLastCommitted
    rw [lcGet_foldl]
    simp [lcGet, SMap.get?, committedOf]
  have hsub : ∀ x ∈ committedOf (lastN p.lcWindow log), x ∈ committedOf log := by
    intro x hx
    obtain ⟨old, ho⟩ := lastN_suffix p.lcWindow log
    rw [ho, committedOf_append]
    exact List.mem_append_right _ hx
  apply Nat.le_antisymm
  · apply foldl_max_le (Nat.zero_le _)
    intro r hr
    obtain ⟨⟨a, r'⟩, hm, rfl⟩ := List.mem_map.mp hr
    have := SMap.get?_of_mem hsorted hm
    have h2 := hget a
    simp only [lcGet, this, Option.getD_some] at h2
    simp only
    rw [h2]
    apply maxRound_le
    intro x hx _
    exact h.le_roundOf (hsub x hx)
  · by_cases hne : log = []
    · subst hne; simp [roundOf]
    · obtain ⟨x, hx, hr⟩ := h.leader_mem hne p.lcWindow hw
      have h1 := le_maxRound hx
      rw [← hget] at h1
      unfold lcGet at h1
      cases hg : SMap.get? x.author (readLastCommitted p log) with
      | none =>
        rw [hg] at h1; simp at h1
        omega
      | some r =>
        rw [hg] at h1; simp at h1
        have hm := SMap.mem_of_get? hg
        have := le_foldl_max (l := (readLastCommitted p log).map (·.2)) (m := 0) (x := r)
          (Or.inr (List.mem_map.mpr ⟨_, hm, rfl⟩))
        omega

/-- Specification: the sub-dag with the last final scores is among those recovery reads, if there is
one at all. -/
def FinalInWindow (p : Params) (log : List SubDag) : Prop :=
  (∀ s ∈ log, s.scores.final = false) ∨ ∃ s ∈ lastN p.finalWindow log, s.scores.final = true

theorem tableFromStore_eq {log : List SubDag} (h : FinalInWindow p log) :
    tableFromStore p log = tableOf p log := by
  obtain ⟨old, ho⟩ := lastN_suffix p.finalWindow log
  unfold tableFromStore tableOf
  have hfind : (lastN p.finalWindow log).reverse.find? (fun s => s.scores.final) =
      log.reverse.find? (fun s => s.scores.final) := by
    rcases h with h | ⟨s, hs, hf⟩
    · rw [List.find?_eq_none.mpr, List.find?_eq_none.mpr]
      · intro x hx
        rw [List.mem_reverse] at hx
        simp [h x hx]
      · intro x hx
        rw [List.mem_reverse] at hx
        have : x ∈ log := by rw [ho]; exact List.mem_append_right _ hx
        simp [h x this]
    · conv => rhs; rw [ho, List.reverse_append, List.find?_append]
      cases hx : (lastN p.finalWindow log).reverse.find? (fun s => s.scores.final) with
      | none =>
        rw [List.find?_eq_none] at hx
        exact absurd hf (hx s (List.mem_reverse.mpr hs))
      | some y => simp
  rw [hfind]
  cases log.reverse.find? (fun s => s.scores.final) <;> rfl

/-- Specification: a certificate store as the certificate manager leaves it: certificates of the
epoch, and with a certificate above the horizon its parents. -/
def StoreOk (U : Header → Prop) (gc : Round) (store : List Header) : Prop :=
  (∀ h ∈ store, U h) ∧ ∀ h ∈ store, gc + 1 < h.round → ∀ d ∈ h.parents,
    ∃ q ∈ store, q.round + 1 = h.round ∧ q.digest = d

theorem buildDag_ok (hU : Universe p.committee U) (lc : List (Nat × Nat)) (g : Round)
    (hs : List Header) (dag : Dag) (hh : ∀ h ∈ hs, U h ∧ g < h.round)
    (hd : ∀ h ∈ dag, U h ∧ g < h.round) (hn : dag.Nodup) :
    ∃ dag', buildDag lc g hs dag = .ok dag' ∧ dag'.Nodup ∧
      ∀ x, x ∈ dag' ↔ x ∈ dag ∨ x ∈ hs := by
  induction hs generalizing dag with
  | nil => exact ⟨dag, rfl, hn, by simp⟩
  | cons h hs ih =>
    have hhU := hh h (by simp)
    have hins : tryInsert dag lc g h false =
        .ok (dagInsert dag h, decide (lcGet lc h.author < h.round)) := by
      unfold tryInsert
      rw [if_neg (by omega)]
      simp only [Bool.false_eq_true, if_false]
      rw [hasOther_false hU (fun x hx => (hd x hx).1) hhU.1]
      rfl
    simp only [buildDag, hins]
    have hmem : ∀ x, x ∈ dagInsert dag h ↔ x = h ∨ x ∈ dag :=
      fun x => mem_dagInsert_good hU (fun x hx => (hd x hx).1) hhU.1
    obtain ⟨dag', e1, e2, e3⟩ := ih (dagInsert dag h) (fun x hx => hh x (by simp [hx]))
      (by
        intro x hx
        rcases (hmem x).mp hx with rfl | hx
        · exact hhU
        · exact hd x hx) (dagInsert_nodup hn h)
    refine ⟨dag', e1, e2, fun x => ?_⟩
    rw [e3, hmem, List.mem_cons]
    tauto

/-- Recovery succeeds and restores the state that belongs to the stored sequence. -/
theorem recover_ok (hU : Universe p.committee U) {log : List SubDag} (h : WfLog p U log)
    (hw : 1 ≤ p.lcWindow) (hgd : p.gcDepth ≤ 2 * p.lcWindow) (hf : FinalInWindow p log)
    {store : List Header} (hs : StoreOk U (gcOf p (roundOf log)) store) :
    ∃ st, recover p log store = .ok st ∧ Sync p U log st := by
  unfold recover
  simp only
  rw [recovered_round h hw]
  have hanchor : resolveAnchor p log.getLast? (roundOf log) = .ok (seedOf p log) := by
    rcases List.eq_nil_or_concat log with rfl | ⟨t, z, rfl⟩
    · simp [resolveAnchor, roundOf, seedOf]
    · rw [List.concat_eq_append] at *
      rw [roundOf_append]
      obtain ⟨l, hl, -, h2, -⟩ := h.shape z (by simp)
      have : z.leaderRound = l.round := by simp [SubDag.leaderRound, hl]
      simp only [resolveAnchor, List.getLast?_concat]
      rw [if_pos (by omega)]
      simp [seedOf]
  rw [hanchor]
  simp only
  obtain ⟨dag, e1, e2, e3⟩ := buildDag_ok (p := p) hU (readLastCommitted p log) (gcOf p (roundOf log))
    (store.filter (fun h => decide (gcOf p (roundOf log) < h.round))) []
    (by
      intro x hx
      rw [List.mem_filter] at hx
      exact ⟨hs.1 x hx.1, by simpa using hx.2⟩) (by simp) (by simp)
  rw [e1]
  refine ⟨_, rfl, rfl, rfl, fun a => readLastCommitted_eq h hw hgd a, rfl, rfl,
    tableFromStore_eq hf, ?_⟩
  have hm : ∀ x, x ∈ dag ↔ x ∈ store ∧ gcOf p (roundOf log) < x.round := by
    intro x; rw [e3]; simp
  exact
    { sub := fun x hx => hs.1 x ((hm x).mp hx).1
      above := fun x hx => ((hm x).mp hx).2
      closed := by
        intro x hx hr d hd
        obtain ⟨q, hq, h1, h2⟩ := hs.2 x ((hm x).mp hx).1 hr d hd
        exact ⟨q, (hm q).mpr ⟨hq, by simp only at hr; omega⟩, h1, h2⟩
      nodup := e2 }

end Bull
end Verif
