import Verif.Epoch.RouterMain
/-
Property C103: which votes are lost. Orderly histories lose no vote of the latest record's epoch or of the one after it;
without the condition that no vote comes for a round that has ended, a vote of the next epoch can be lost.
-/
namespace Verif
namespace Vrt

/-- Specification: orderly histories, with the epoch of the latest record the router has seen. Records come one epoch after
the other, each is seen before the next is written; the votes the router takes are for no epoch beyond the one after the
latest record's; no vote comes for a round that has ended. -/
inductive Orderly (cap : Nat) : Nat → St → Prop where
  | first {s : St} (e : Nat) : run cap start [.publish e, .takeRecord] = some s → Orderly cap e s
  | forward {e : Nat} {s t : St} (v : Vote) : Orderly cap e s → step cap s (.forward v) = some t → Orderly cap e t
  | publish {e : Nat} {s t : St} : Orderly cap e s → s.pending = none → step cap s (.publish (e + 1)) = some t →
      Orderly cap e t
  | record {e : Nat} {s t : St} : Orderly cap e s → step cap s .takeRecord = some t → Orderly cap (e + 1) t
  | vote {e : Nat} {s t : St} : Orderly cap e s → (∀ v, s.inbox.head? = some v → v.epoch ≤ e + 1) →
      step cap s .takeVote = some t → Orderly cap e t
  | complete {e : Nat} {s t : St} : Orderly cap e s → step cap s .complete = some t → t.lost = s.lost → Orderly cap e t
  | read {e : Nat} {s t : St} (i : Nat) : Orderly cap e s → step cap s (.read i) = some t → Orderly cap e t
  | finish {e : Nat} {s t : St} (i : Nat) : Orderly cap e s → step cap s (.finish i) = some t → Orderly cap e t

theorem Orderly.reach {cap e : Nat} {s : St} (h : Orderly cap e s) : Reach cap s := by
  induction h with
  | first e hr => exact run_reach .start hr
  | forward v _ hs ih => exact .step _ ih hs
  | publish _ _ hs ih => exact .step _ ih hs
  | record _ hs ih => exact .step _ ih hs
  | vote _ _ hs ih => exact .step _ ih hs
  | complete _ hs _ ih => exact .step _ ih hs
  | read i _ hs ih => exact .step _ ih hs
  | finish i _ hs ih => exact .step _ ih hs

/-- The epochs of the list end in the latest record's, possibly with the next after it. -/
structure Ord (e : Nat) (s : St) : Prop where
  shape : ∃ pre : List Nat, (∀ x ∈ pre, x < e) ∧
    (s.queues.map (·.1) = pre ++ [e] ∨ s.queues.map (·.1) = pre ++ [e, e + 1])
  pending : s.pending = none ∨ s.pending = some (e + 1)
  lost : ∀ x ∈ s.lost, x.1.epoch < e

theorem pushQueue_map (s : St) (c : Chan) :
    (pushQueue s c).queues.map (·.1) =
      (if maxQueues ≤ s.queues.length then (s.queues.map (·.1)).tail else s.queues.map (·.1)) ++ [c.epoch] := by
  unfold pushQueue
  split
  · simp
  · simp

/-- A new entry after the last one. -/
theorem Ord.grow {e : Nat} {s : St} (h : Ord e s) (c : Chan) (hc : c.epoch = e + 1) (hn : e + 1 ∉ s.queues.map (·.1)) :
    ∃ pre : List Nat, (∀ x ∈ pre, x < e) ∧ (pushQueue s c).queues.map (·.1) = pre ++ [e, e + 1] := by
  obtain ⟨pre, hpre, hsh⟩ := h.shape
  rcases hsh with hsh | hsh
  · rw [pushQueue_map, hsh, hc]
    split
    · rename_i hl
      cases pre with
      | nil =>
        have hlen : s.queues.length = 1 := by
          have := congrArg List.length hsh
          simpa using this
        rw [hlen] at hl
        exact absurd hl (by decide)
      | cons p pre =>
        refine ⟨pre, fun x hx => hpre x (List.mem_cons_of_mem _ hx), ?_⟩
        simp
    · exact ⟨pre, hpre, by simp⟩
  · exfalso
    apply hn
    rw [hsh]
    simp

theorem takeRecord_ord {cap e : Nat} {s t : St} (h : Ord e s) (hs : step cap s .takeRecord = some t) : Ord (e + 1) t := by
  dsimp only [step] at hs
  cases hsd : s.sending with
  | some x => rw [hsd] at hs; cases hs
  | none =>
    cases hp : s.pending with
    | none => rw [hsd, hp] at hs; cases hs
    | some e' =>
      have he' : e' = e + 1 := by
        rcases h.pending with h' | h'
        · rw [hp] at h'; cases h'
        · rw [hp] at h'; cases h'; rfl
      subst he'
      rw [hsd, hp] at hs
      dsimp only at hs
      have hlost : ∀ x ∈ s.lost, x.1.epoch < e + 1 := fun x hx => Nat.lt_succ_of_lt (h.lost x hx)
      cases hf : find s.queues (e + 1) with
      | some q =>
        have hq : t.queues = s.queues ∧ t.pending = none ∧ t.lost = s.lost := by
          rw [hf] at hs
          dsimp only at hs
          cases hc : s.chans[q.2]? with
          | none => rw [hc] at hs; cases hs; exact ⟨rfl, rfl, rfl⟩
          | some c =>
            rw [hc] at hs
            dsimp only at hs
            split at hs
            · cases hs; exact ⟨rfl, rfl, rfl⟩
            · cases hs; exact ⟨rfl, rfl, rfl⟩
        obtain ⟨hq1, hq2, hq3⟩ := hq
        obtain ⟨pre, hpre, hsh⟩ := h.shape
        obtain ⟨hm, he⟩ := find_some hf
        have hin : e + 1 ∈ s.queues.map (·.1) := List.mem_map.mpr ⟨q, hm, he⟩
        refine ⟨⟨pre ++ [e], ?_, Or.inl ?_⟩, Or.inl hq2, by rw [hq3]; exact hlost⟩
        · intro x hx
          rw [List.mem_append, List.mem_singleton] at hx
          rcases hx with hx | hx
          · exact Nat.lt_succ_of_lt (hpre x hx)
          · subst hx; exact Nat.lt_succ_self _
        · rw [hq1]
          rcases hsh with hsh | hsh
          · exfalso
            rw [hsh, List.mem_append, List.mem_singleton] at hin
            rcases hin with hin | hin
            · have := hpre _ hin; omega
            · omega
          · rw [hsh]; simp
      | none =>
        rw [hf] at hs
        simp only [Option.some.injEq] at hs
        have h1 : Ord e (St.mk s.queues s.chans none none s.inbox s.handled s.lost) := ⟨h.shape, Or.inl rfl, h.lost⟩
        obtain ⟨pre, hpre, hsh⟩ := h1.grow ⟨e + 1, s.handled.length, [], 0, .taken⟩ rfl (find_none hf)
        subst hs
        refine ⟨⟨pre ++ [e], ?_, Or.inl ?_⟩, Or.inl (pushQueue_frame _ _).2.1, ?_⟩
        · intro x hx
          rw [List.mem_append, List.mem_singleton] at hx
          rcases hx with hx | hx
          · exact Nat.lt_succ_of_lt (hpre x hx)
          · subst hx; exact Nat.lt_succ_self _
        · rw [List.append_assoc]
          exact hsh
        · rw [(pushQueue_frame _ _).2.2.2.2]
          exact hlost

theorem takeVote_ord {cap e : Nat} {s t : St} (h : Ord e s) (hv : ∀ v, s.inbox.head? = some v → v.epoch ≤ e + 1)
    (hs : step cap s .takeVote = some t) : Ord e t := by
  cases hsd : s.sending with
  | some x => rw [(waiting_takes_nothing hsd).1] at hs; cases hs
  | none =>
    cases hi : s.inbox with
    | nil =>
      dsimp only [step] at hs
      rw [hsd, hi] at hs
      cases hs
    | cons v rest =>
      have hve : v.epoch ≤ e + 1 := hv v (by rw [hi]; rfl)
      cases hf : find s.queues v.epoch with
      | some q =>
        rw [vote_with_entry hsd hi hf] at hs
        cases hs
        exact ⟨h.shape, h.pending, h.lost⟩
      | none =>
        have hne := find_none hf
        dsimp only [step] at hs
        rw [hsd, hi] at hs
        dsimp only at hs
        rw [hf] at hs
        simp only [Option.some.injEq] at hs
        subst hs
        unfold noQueue
        dsimp only
        have h1 : Ord e (St.mk s.queues s.chans none s.pending rest s.handled s.lost) := ⟨h.shape, h.pending, h.lost⟩
        obtain ⟨pre, hpre, hsh⟩ := h.shape
        have hlast : ∃ q, s.queues.getLast? = some q ∧ (q.1 = e ∨ q.1 = e + 1) := by
          rcases hsh with hsh | hsh
          · have : (s.queues.map (·.1)).getLast? = some e := by rw [hsh]; simp
            rw [List.getLast?_map] at this
            obtain ⟨q, hq, he⟩ := Option.map_eq_some_iff.mp this
            exact ⟨q, hq, Or.inl he⟩
          · have : (s.queues.map (·.1)).getLast? = some (e + 1) := by rw [hsh]; simp
            rw [List.getLast?_map] at this
            obtain ⟨q, hq, he⟩ := Option.map_eq_some_iff.mp this
            exact ⟨q, hq, Or.inr he⟩
        have hmem_e : e ∈ s.queues.map (·.1) := by
          rcases hsh with hsh | hsh <;> (rw [hsh]; simp)
        have hne_e : v.epoch ≠ e := fun he => hne (by rw [he]; exact hmem_e)
        obtain ⟨q, hql, hqe⟩ := hlast
        split
        · rename_i hin
          unfold inOrder at hin
          rw [hql] at hin
          have hin' : v.epoch = q.1 + 1 := by simpa using hin
          have hv1 : v.epoch = e + 1 := by
            rcases hqe with hqe | hqe <;> omega
          obtain ⟨pre', hpre', hsh'⟩ := h1.grow ⟨v.epoch, s.handled.length, [v], 0, .parked⟩ hv1 (by rw [← hv1]; exact hne)
          refine ⟨⟨pre', hpre', Or.inr hsh'⟩, ?_, ?_⟩
          · show (pushQueue _ _).pending = none ∨ (pushQueue _ _).pending = some (e + 1)
            rw [(pushQueue_frame _ _).2.1]
            exact h.pending
          · show ∀ x ∈ (pushQueue _ _).lost, x.1.epoch < e
            rw [(pushQueue_frame _ _).2.2.2.2]
            exact h.lost
        · rename_i hin
          refine ⟨⟨pre, hpre, hsh⟩, h.pending, ?_⟩
          intro x hx
          change x ∈ s.lost ++ [(v, Why.outOfOrder)] at hx
          rw [List.mem_append, List.mem_singleton] at hx
          rcases hx with hx | hx
          · exact h.lost x hx
          · subst hx
            show v.epoch < e
            have hv1 : v.epoch ≠ e + 1 := by
              intro hv1
              rcases hqe with hqe | hqe
              · apply hin
                unfold inOrder
                rw [hql]
                simp [hv1, hqe]
              · apply hne
                rw [hv1, ← hqe]
                exact List.mem_map.mpr ⟨q, List.mem_of_getLast? hql, rfl⟩
            omega

theorem Orderly.ord {cap e : Nat} {s : St} (h : Orderly cap e s) : Ord e s := by
  induction h with
  | first e hr =>
    have : some (⟨[(e, 0)], [⟨e, 0, [], 0, .taken⟩], none, none, [], [], []⟩ : St) = some _ := hr
    cases this
    exact ⟨⟨[], by simp, Or.inl rfl⟩, Or.inl rfl, by simp⟩
  | forward v _ hs ih =>
    cases hs
    exact ⟨ih.shape, ih.pending, ih.lost⟩
  | publish _ hp hs ih =>
    cases hs
    exact ⟨ih.shape, Or.inr rfl, ih.lost⟩
  | record _ hs ih => exact takeRecord_ord ih hs
  | vote _ hv hs ih => exact takeVote_ord ih hv hs
  | @complete e s t hO hs hl ih =>
    have hq : t.queues = s.queues ∧ t.pending = s.pending := by
      cases hsd : s.sending with
      | none =>
        dsimp only [step] at hs
        rw [hsd] at hs
        cases hs
      | some x =>
        obtain ⟨v, i⟩ := x
        obtain ⟨c, hc, _, h1, h2, h3⟩ := send_outcome hO.reach hsd
        by_cases hd : c.rx = .dropped
        · obtain ⟨u, hu, hul, _⟩ := h1 hd
          rw [hs] at hu
          cases hu
          rw [hul] at hl
          have := congrArg List.length hl
          simp at this
        · dsimp only [step] at hs
          rw [hsd] at hs
          dsimp only at hs
          rw [hc] at hs
          dsimp only at hs
          rw [if_neg hd] at hs
          split at hs
          · cases hs
            exact ⟨rfl, rfl⟩
          · cases hs
    exact ⟨by rw [hq.1]; exact ih.shape, by rw [hq.2]; exact ih.pending, by rw [hl]; exact ih.lost⟩
  | read i _ hs ih =>
    dsimp only [step] at hs
    split at hs
    · split at hs
      · cases hs
        exact ⟨ih.shape, ih.pending, ih.lost⟩
      · cases hs
    · cases hs
  | finish i _ hs ih =>
    dsimp only [step] at hs
    split at hs
    · split at hs
      · cases hs
        exact ⟨ih.shape, ih.pending, ih.lost⟩
      · cases hs
    · cases hs

/-- In an orderly history a lost vote is for an epoch before the latest record's: no vote for that epoch or the next was
ever lost. -/
theorem orderly_loses_only_old {cap e : Nat} {s : St} (h : Orderly cap e s) : ∀ x ∈ s.lost, x.1.epoch < e := h.ord.lost

/-- In an orderly history the latest record's epoch always has its entry, so its votes go to its round. -/
theorem orderly_latest_has_entry {cap e : Nat} {s : St} (h : Orderly cap e s) : ∃ q, find s.queues e = some q := by
  obtain ⟨pre, _, hsh⟩ := h.ord.shape
  have hm : e ∈ s.queues.map (·.1) := by
    rcases hsh with hsh | hsh <;> (rw [hsh]; simp)
  cases hf : find s.queues e with
  | some q => exact ⟨q, rfl⟩
  | none => exact absurd hm (find_none hf)

/-- In an orderly history a vote for the next epoch is never refused: it is sent to the entry of its epoch or opens it. -/
theorem orderly_next_is_kept {cap e : Nat} {s : St} (h : Orderly cap e s) {v : Vote} {rest : List Vote} (hs : s.sending = none)
    (hi : s.inbox = v :: rest) (hv : v.epoch = e + 1) :
    ∃ t, step cap s .takeVote = some t ∧ t.lost = s.lost ∧ ∃ q, find t.queues (e + 1) = some q := by
  have hex : ∃ t, step cap s .takeVote = some t := by
    dsimp only [step]
    rw [hs, hi]
    dsimp only
    split <;> exact ⟨_, rfl⟩
  obtain ⟨t, ht⟩ := hex
  have hO := takeVote_ord h.ord (fun w hw => by rw [hi] at hw; cases hw; omega) ht
  refine ⟨t, ht, ?_⟩
  cases hf : find s.queues v.epoch with
  | some q =>
    rw [vote_with_entry hs hi hf] at ht
    cases ht
    exact ⟨rfl, q, by rw [← hv]; exact hf⟩
  | none =>
    have hne := find_none hf
    obtain ⟨pre, hpre, hsh⟩ := h.ord.shape
    have hsh' : s.queues.map (·.1) = pre ++ [e] := by
      rcases hsh with hsh | hsh
      · exact hsh
      · exfalso
        apply hne
        rw [hsh, hv]
        simp
    obtain ⟨t', ht', hl, _, hlast, _⟩ := vote_opens_entry (cap := cap) hs hi hf (by
      intro q hq
      have : (s.queues.map (·.1)).getLast? = some e := by rw [hsh']; simp
      rw [List.getLast?_map, hq] at this
      simp only [Option.map_some, Option.some.injEq] at this
      rw [this, hv])
    rw [ht] at ht'
    cases ht'
    refine ⟨hl, ?_⟩
    have hm := List.mem_of_getLast? hlast
    cases hf' : find t.queues (e + 1) with
    | some q => exact ⟨q, rfl⟩
    | none => exact absurd (List.mem_map.mpr ⟨_, hm, hv⟩) (find_none hf')

/-! ### Histories of the code -/

/-- A next epoch's vote that comes before the record is kept for the round: epoch 5's record, a vote for 6, record 6. -/
theorem early_vote_kept :
    ∃ s c, run 10000 start [.publish 5, .takeRecord, .forward ⟨6, 1⟩, .takeVote, .publish 6, .takeRecord] = some s ∧
      s.chans[1]? = some c ∧ c.epoch = 6 ∧ c.rx = .taken ∧ c.pushed = [⟨6, 1⟩] ∧ c.read = 0 ∧ s.lost = [] := by
  refine ⟨_, _, rfl, rfl, rfl, rfl, rfl, rfl, rfl⟩

/-- The same as an orderly history: the hypotheses of the theorems above are met, with a late vote for an old epoch lost. -/
theorem orderly_example :
    ∃ s, Orderly 10000 6 s ∧ s.lost = [(⟨3, 2⟩, Why.outOfOrder)] ∧ s.queues.map (·.1) = [5, 6] := by
  refine ⟨_, .record (.publish (.vote (.forward ⟨3, 2⟩ (.vote (.forward ⟨6, 1⟩ (.first 5 rfl) rfl) ?_ rfl) rfl) ?_ rfl)
    rfl rfl) rfl, rfl, rfl⟩
  · intro v hv
    cases hv
    decide
  · intro v hv
    cases hv
    decide

/-- A late vote for a round that has ended removes the entry of its epoch; if that was the last of the list, the next
epoch's first vote is lost, and the round that its record then starts does not have it. The list held the round of the
epoch before, ended too. -/
theorem lost_after_close :
    ∃ s c, run 10000 start [.publish 5, .takeRecord, .finish 0, .publish 6, .takeRecord, .finish 1,
        .forward ⟨6, 1⟩, .takeVote, .complete, .forward ⟨7, 2⟩, .takeVote, .publish 7, .takeRecord] = some s ∧
      s.lost = [(⟨6, 1⟩, Why.closed), (⟨7, 2⟩, Why.outOfOrder)] ∧ s.queues.map (·.1) = [5, 7] ∧
      s.chans[2]? = some c ∧ c.epoch = 7 ∧ c.rx = .taken ∧ c.pushed = [] := by
  refine ⟨_, _, rfl, rfl, rfl, rfl, rfl, rfl, rfl⟩

/-- Two records written before the router looks: the first gets no round. -/
theorem overtaken_record_has_no_round :
    ∃ s, run 10000 start [.publish 5, .publish 6, .takeRecord] = some s ∧ s.chans.map (·.epoch) = [6] ∧ s.pending = none ∧
      step 10000 s .takeRecord = none := by
  refine ⟨_, rfl, rfl, rfl, rfl⟩

/-- A record written again after its round gave up starts no round, since the entry is still there. -/
theorem rewritten_record_has_no_round :
    ∃ s, run 10000 start [.publish 5, .takeRecord, .finish 0, .publish 5, .takeRecord] = some s ∧
      s.chans.map (·.rx) = [Rx.dropped] := by
  refine ⟨_, rfl, rfl⟩

/-- The router stuck on a full channel of an epoch whose record has not come can be reached, with as many votes for that
epoch as the channel holds and one more (a channel of two here). -/
theorem stuck_reachable :
    ∃ s, run 2 start [.forward ⟨6, 1⟩, .takeVote, .forward ⟨6, 2⟩, .takeVote, .complete, .forward ⟨6, 3⟩, .takeVote,
      .publish 6] = some s ∧ Stuck 2 s := by
  refine ⟨_, rfl, ⟨6, 3⟩, 0, ⟨6, 0, [⟨6, 1⟩, ⟨6, 2⟩], 0, .parked⟩, rfl, rfl, rfl, ?_⟩
  decide

end Vrt
end Verif
