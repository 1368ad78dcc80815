import Verif.Epoch.RouterInv
/-
Property C103: what becomes of every epoch vote that the gossip handler forwards.
-/
namespace Verif
namespace Vrt

/-- Specification: the votes forwarded in a history. -/
def forwarded : List Ev → List Vote
  | [] => []
  | .forward v :: es => v :: forwarded es
  | _ :: es => forwarded es

/-- Specification: the vote that the router holds. -/
def inHand (s : St) : List Vote :=
  match s.sending with
  | some (v, _) => [v]
  | none => []

theorem pushQueue_frame (s : St) (c : Chan) : (pushQueue s c).sending = s.sending ∧ (pushQueue s c).pending = s.pending ∧
    (pushQueue s c).inbox = s.inbox ∧ (pushQueue s c).handled = s.handled ∧ (pushQueue s c).lost = s.lost := by
  unfold pushQueue
  split <;> exact ⟨rfl, rfl, rfl, rfl, rfl⟩

theorem noQueue_handled (s : St) (v : Vote) : (noQueue s v).handled = s.handled ++ [v] ∧ (noQueue s v).sending = s.sending ∧
    (noQueue s v).inbox = s.inbox := by
  unfold noQueue
  split
  · exact ⟨rfl, (pushQueue_frame _ _).1, (pushQueue_frame _ _).2.2.1⟩
  · exact ⟨rfl, rfl, rfl⟩

/-- All votes ever forwarded to a router in this state, in order. -/
def total (s : St) : List Vote := s.handled ++ inHand s ++ s.inbox

theorem step_total {cap : Nat} {s t : St} (v : Ev) (hs : step cap s v = some t) :
    total t = total s ++ forwarded [v] := by
  cases v with
  | forward w =>
    simp only [step, Option.some.injEq] at hs
    subst hs
    simp [total, inHand, forwarded]
  | publish e =>
    simp only [step, Option.some.injEq] at hs
    subst hs
    simp [total, inHand, forwarded]
  | takeRecord =>
    dsimp only [step] at hs
    cases hsd : s.sending with
    | some x => rw [hsd] at hs; cases hs
    | none =>
      cases hp : s.pending with
      | none => rw [hsd, hp] at hs; cases hs
      | some e =>
        rw [hsd, hp] at hs
        dsimp only at hs
        have hf : t.handled = s.handled ∧ t.sending = none ∧ t.inbox = s.inbox := by
          cases hf : find s.queues e with
          | some q =>
            rw [hf] at hs
            dsimp only at hs
            cases hc : s.chans[q.2]? with
            | none =>
              rw [hc] at hs
              cases hs
              exact ⟨rfl, rfl, rfl⟩
            | some c =>
              rw [hc] at hs
              dsimp only at hs
              split at hs
              · cases hs
                exact ⟨rfl, rfl, rfl⟩
              · cases hs
                exact ⟨rfl, rfl, rfl⟩
          | none =>
            rw [hf] at hs
            simp only [Option.some.injEq] at hs
            subst hs
            exact ⟨(pushQueue_frame _ _).2.2.2.1, (pushQueue_frame _ _).1, (pushQueue_frame _ _).2.2.1⟩
        simp [total, inHand, forwarded, hf, hsd]
  | takeVote =>
    dsimp only [step] at hs
    cases hsd : s.sending with
    | some x => rw [hsd] at hs; cases hs
    | none =>
      cases hi : s.inbox with
      | nil => rw [hsd, hi] at hs; cases hs
      | cons w rest =>
        rw [hsd, hi] at hs
        dsimp only at hs
        cases hf : find s.queues w.epoch with
        | some q =>
          rw [hf] at hs
          cases hs
          simp [total, inHand, forwarded, hsd, hi]
        | none =>
          rw [hf] at hs
          simp only [Option.some.injEq] at hs
          subst hs
          simp [total, inHand, forwarded, hsd, hi, noQueue_handled]
  | complete =>
    dsimp only [step] at hs
    cases hsd : s.sending with
    | none => rw [hsd] at hs; cases hs
    | some vi =>
      obtain ⟨w, i⟩ := vi
      rw [hsd] at hs
      dsimp only at hs
      cases hc : s.chans[i]? with
      | none => rw [hc] at hs; cases hs
      | some c =>
        rw [hc] at hs
        dsimp only at hs
        split at hs
        · cases hs
          simp [total, inHand, forwarded, hsd]
        · split at hs
          · cases hs
            simp [total, inHand, forwarded, hsd, setChan]
          · cases hs
  | read i =>
    dsimp only [step] at hs
    cases hc : s.chans[i]? with
    | none => rw [hc] at hs; cases hs
    | some c =>
      rw [hc] at hs
      dsimp only at hs
      split at hs
      · cases hs
        simp [total, inHand, forwarded, setChan]
      · cases hs
  | finish i =>
    dsimp only [step] at hs
    cases hc : s.chans[i]? with
    | none => rw [hc] at hs; cases hs
    | some c =>
      rw [hc] at hs
      dsimp only at hs
      split at hs
      · cases hs
        simp [total, inHand, forwarded, setChan]
      · cases hs

theorem forwarded_cons (v : Ev) (es : List Ev) : forwarded (v :: es) = forwarded [v] ++ forwarded es := by
  cases v <;> rfl

theorem run_cons {cap : Nat} {s t : St} {v : Ev} {es : List Ev} (h : run cap s (v :: es) = some t) :
    ∃ u, step cap s v = some u ∧ run cap u es = some t := by
  rw [run] at h
  cases hu : step cap s v with
  | none => rw [hu] at h; cases h
  | some u => rw [hu] at h; exact ⟨u, rfl, h⟩

theorem run_total {cap : Nat} {es : List Ev} : ∀ {s t : St}, run cap s es = some t → total t = total s ++ forwarded es := by
  induction es with
  | nil => intro s t h; cases h; simp [forwarded]
  | cons v es ih =>
    intro s t h
    obtain ⟨u, hu, ht⟩ := run_cons h
    rw [ih ht, step_total v hu, forwarded_cons v es, List.append_assoc]

theorem run_reach {cap : Nat} {es : List Ev} : ∀ {s t : St}, Reach cap s → run cap s es = some t → Reach cap t := by
  induction es with
  | nil => intro s t h h'; cases h'; exact h
  | cons v es ih =>
    intro s t h h'
    obtain ⟨u, hu, ht⟩ := run_cons h'
    exact ih (.step v h hu) ht

/-! ### Nothing is invented, duplicated or reordered -/

/-- Votes are dealt with in the order they were forwarded: those dealt with, the one in hand and those waiting are exactly
the forwarded ones. -/
theorem votes_in_order {cap : Nat} {es : List Ev} {s : St} (h : run cap start es = some s) :
    s.handled ++ inHand s ++ s.inbox = forwarded es := by
  have := run_total h
  exact this

/-- A round of an epoch is given only votes of that epoch, in the order forwarded, each at most as often as forwarded:
they are a subsequence of the votes of the epoch that were forwarded; and it reads a beginning of them. -/
theorem round_gets_own_votes {cap : Nat} {es : List Ev} {s : St} (h : run cap start es = some s) {i : Nat} {c : Chan}
    (hc : s.chans[i]? = some c) :
    c.pushed.Sublist ((forwarded es).filter fun v => v.epoch == c.epoch) ∧ c.read ≤ c.pushed.length := by
  have hk := (reach_inv (run_reach .start h)).ok i c hc
  refine ⟨?_, hk.read⟩
  rw [← votes_in_order h, List.append_assoc, List.filter_append]
  refine (hk.pre.sublist.trans ?_).trans (List.sublist_append_left _ _)
  unfold votesOf
  exact (List.drop_sublist _ _).filter _

/-- Two rounds never share a vote: how often a vote was dealt with is how often it was put into some channel plus how
often it was lost. -/
def delivered (s : St) (v : Vote) : Nat := (s.chans.map fun c => c.pushed.count v).sum

def lostCount (s : St) (v : Vote) : Nat := (s.lost.map (·.1)).count v

theorem sum_set_same {f : Chan → Nat} : ∀ (l : List Chan) (i : Nat) (c d : Chan), l[i]? = some c → f d = f c →
    ((l.set i d).map f).sum = (l.map f).sum
  | [], _, _, _, h, _ => by cases h
  | x :: l, 0, c, d, h, e => by
    simp only [List.getElem?_cons_zero, Option.some.injEq] at h
    subst h
    simp [e]
  | x :: l, i + 1, c, d, h, e => by
    have := sum_set_same (f := f) l i c d (by simpa using h) e
    rw [List.set_cons_succ, List.map_cons, List.sum_cons, List.map_cons, List.sum_cons, this]

theorem sum_set_add {f : Chan → Nat} (k : Nat) : ∀ (l : List Chan) (i : Nat) (c d : Chan), l[i]? = some c → f d = f c + k →
    ((l.set i d).map f).sum = (l.map f).sum + k
  | [], _, _, _, h, _ => by cases h
  | x :: l, 0, c, d, h, e => by
    simp only [List.getElem?_cons_zero, Option.some.injEq] at h
    subst h
    simp [e]
    omega
  | x :: l, i + 1, c, d, h, e => by
    have := sum_set_add (f := f) k l i c d (by simpa using h) e
    rw [List.set_cons_succ, List.map_cons, List.sum_cons, List.map_cons, List.sum_cons, this]
    omega

theorem dropEntry_sum (chans : List Chan) (i : Nat) (v : Vote) :
    ((dropEntry chans i).map fun c => c.pushed.count v).sum = (chans.map fun c => c.pushed.count v).sum := by
  unfold dropEntry
  cases hc : chans[i]? with
  | none => rfl
  | some c =>
    dsimp only
    split
    · exact sum_set_same (f := fun c : Chan => c.pushed.count v) chans i c _ hc rfl
    · rfl

theorem setChan_delivered {s : St} {i : Nat} {c : Chan} (d : Chan) (v : Vote) (hc : s.chans[i]? = some c)
    (hd : d.pushed = c.pushed) : delivered (setChan s i d) v = delivered s v :=
  sum_set_same (f := fun c : Chan => c.pushed.count v) s.chans i c d hc (by rw [hd])

theorem pushQueue_delivered (s : St) (c : Chan) (v : Vote) :
    delivered (pushQueue s c) v = delivered s v + c.pushed.count v := by
  unfold pushQueue delivered
  split
  · cases s.queues.head? with
    | none => simp
    | some q => simp [dropEntry_sum]
  · simp

theorem count_snoc (l : List Vote) (w v : Vote) : (l ++ [w]).count v = l.count v + [w].count v := List.count_append

theorem step_count {cap : Nat} {s t : St} (w : Ev) (v : Vote) (hs : step cap s w = some t)
    (h : s.handled.count v = delivered s v + lostCount s v) : t.handled.count v = delivered t v + lostCount t v := by
  cases w with
  | forward x => cases hs; exact h
  | publish e => cases hs; exact h
  | takeRecord =>
    dsimp only [step] at hs
    cases hsd : s.sending with
    | some x => rw [hsd] at hs; cases hs
    | none =>
      cases hp : s.pending with
      | none => rw [hsd, hp] at hs; cases hs
      | some e =>
        rw [hsd, hp] at hs
        dsimp only at hs
        cases hf : find s.queues e with
        | some q =>
          rw [hf] at hs
          dsimp only at hs
          cases hc : s.chans[q.2]? with
          | none => rw [hc] at hs; cases hs; exact h
          | some c =>
            rw [hc] at hs
            dsimp only at hs
            split at hs
            · cases hs
              exact h.trans (congrArg (· + lostCount s v) (setChan_delivered (s := s) { c with rx := .taken } v hc rfl).symm)
            · cases hs; exact h
        | none =>
          rw [hf] at hs
          simp only [Option.some.injEq] at hs
          subst hs
          rw [pushQueue_delivered]
          unfold lostCount
          rw [(pushQueue_frame _ _).2.2.2.1, (pushQueue_frame _ _).2.2.2.2]
          exact h
  | takeVote =>
    dsimp only [step] at hs
    cases hsd : s.sending with
    | some x => rw [hsd] at hs; cases hs
    | none =>
      cases hi : s.inbox with
      | nil => rw [hsd, hi] at hs; cases hs
      | cons w rest =>
        rw [hsd, hi] at hs
        dsimp only at hs
        cases hf : find s.queues w.epoch with
        | some q => rw [hf] at hs; cases hs; exact h
        | none =>
          rw [hf] at hs
          simp only [Option.some.injEq] at hs
          subst hs
          rw [(noQueue_handled _ _).1, count_snoc]
          unfold noQueue
          split
          · have e := pushQueue_delivered (St.mk s.queues s.chans none s.pending rest s.handled s.lost)
              ⟨w.epoch, s.handled.length, [w], 0, .parked⟩ v
            have e2 := (pushQueue_frame (St.mk s.queues s.chans none s.pending rest s.handled s.lost)
              ⟨w.epoch, s.handled.length, [w], 0, .parked⟩).2.2.2.2
            unfold delivered at e ⊢
            unfold lostCount at h ⊢
            dsimp only at e e2 ⊢
            rw [e, e2, h]
            unfold delivered
            omega
          · unfold lostCount delivered at *
            dsimp only
            rw [List.map_append, List.count_append, h]
            simp only [List.map_cons, List.map_nil]
            omega
  | complete =>
    dsimp only [step] at hs
    cases hsd : s.sending with
    | none => rw [hsd] at hs; cases hs
    | some vi =>
      obtain ⟨w, i⟩ := vi
      rw [hsd] at hs
      dsimp only at hs
      cases hc : s.chans[i]? with
      | none => rw [hc] at hs; cases hs
      | some c =>
        rw [hc] at hs
        dsimp only at hs
        split at hs
        · cases hs
          unfold lostCount delivered at *
          dsimp only
          rw [List.map_append, List.count_append, List.count_append, h]
          simp only [List.map_cons, List.map_nil]
          omega
        · split at hs
          · cases hs
            unfold lostCount delivered setChan at *
            dsimp only
            rw [sum_set_add (f := fun c : Chan => c.pushed.count v) ([w].count v) s.chans i c _ hc
              (by show (c.pushed ++ [w]).count v = _; exact List.count_append), List.count_append, h]
            omega
          · cases hs
  | read i =>
    dsimp only [step] at hs
    cases hc : s.chans[i]? with
    | none => rw [hc] at hs; cases hs
    | some c =>
      rw [hc] at hs
      dsimp only at hs
      split at hs
      · cases hs
        exact h.trans (congrArg (· + lostCount s v) (setChan_delivered (s := s) { c with read := c.read + 1 } v hc rfl).symm)
      · cases hs
  | finish i =>
    dsimp only [step] at hs
    cases hc : s.chans[i]? with
    | none => rw [hc] at hs; cases hs
    | some c =>
      rw [hc] at hs
      dsimp only at hs
      split at hs
      · cases hs
        exact h.trans (congrArg (· + lostCount s v) (setChan_delivered (s := s) { c with rx := .dropped } v hc rfl).symm)
      · cases hs

/-- Every vote dealt with went into one channel or was lost, and each only once. -/
theorem delivered_or_lost {cap : Nat} {s : St} (h : Reach cap s) (v : Vote) :
    s.handled.count v = delivered s v + lostCount s v := by
  induction h with
  | start => rfl
  | step w _ hs ih => exact step_count w v hs ih

/-! ### The list -/

/-- At most five epochs have an entry, no epoch has two. -/
theorem at_most_five {cap : Nat} {s : St} (h : Reach cap s) :
    s.queues.length ≤ 5 ∧ (s.queues.map (·.1)).Nodup :=
  ⟨(reach_inv h).len, (reach_inv h).epochs⟩

/-- As long as the entry of an epoch is there and its round has not ended, the channel has all votes of the epoch dealt
with since the entry was made, also those that came before the record. -/
theorem open_entry_gets_all {cap : Nat} {s : St} (h : Reach cap s) {q : Nat × Nat} (hq : q ∈ s.queues) :
    ∃ c, s.chans[q.2]? = some c ∧ c.epoch = q.1 ∧
      (c.rx ≠ .dropped → c.pushed = (s.handled.drop c.born).filter fun v => v.epoch == q.1) := by
  obtain ⟨c, hc, he⟩ := (reach_inv h).idx q hq
  refine ⟨c, hc, he, fun hr => ?_⟩
  have := (reach_inv h).all q hq c hc hr
  rw [he] at this
  exact this

/-! ### The fate of one vote -/

/-- With an entry, the router sends to its channel. -/
theorem vote_with_entry {cap : Nat} {s : St} {v : Vote} {rest : List Vote} (hs : s.sending = none) (hi : s.inbox = v :: rest)
    {q : Nat × Nat} (hq : find s.queues v.epoch = some q) :
    step cap s .takeVote = some { s with inbox := rest, sending := some (v, q.2) } := by
  dsimp only [step]
  rw [hs, hi]
  dsimp only
  rw [hq]

/-- Without one, and with an empty list or the epoch after the last: a new channel has the vote. -/
theorem vote_opens_entry {cap : Nat} {s : St} {v : Vote} {rest : List Vote} (hs : s.sending = none) (hi : s.inbox = v :: rest)
    (hq : find s.queues v.epoch = none) (ho : ∀ q, s.queues.getLast? = some q → v.epoch = q.1 + 1) :
    ∃ t, step cap s .takeVote = some t ∧ t.lost = s.lost ∧ t.handled = s.handled ++ [v] ∧
      t.queues.getLast? = some (v.epoch, s.chans.length) ∧
      t.chans[s.chans.length]? = some ⟨v.epoch, s.handled.length, [v], 0, .parked⟩ := by
  have hin : inOrder s.queues v.epoch = true := by
    unfold inOrder
    cases hl : s.queues.getLast? with
    | none => rfl
    | some q => simp [ho q hl]
  refine ⟨noQueue { s with inbox := rest } v, ?_, ?_, (noQueue_handled _ _).1, ?_, ?_⟩
  · dsimp only [step]
    rw [hs, hi]
    dsimp only
    rw [hq, ← hs]
  · unfold noQueue
    rw [if_pos hin]
    exact (pushQueue_frame _ _).2.2.2.2
  · unfold noQueue
    rw [if_pos hin]
    unfold pushQueue
    split <;> simp
  · unfold noQueue
    rw [if_pos hin]
    unfold pushQueue
    split
    · dsimp only
      cases s.queues.head? with
      | none => simp
      | some q =>
        show (dropEntry s.chans q.2 ++ [_])[s.chans.length]? = _
        rw [List.getElem?_append_right (by rw [dropEntry_length]; exact Nat.le_refl _), dropEntry_length]
        simp
    · simp

/-- Otherwise it is lost, for good. -/
theorem vote_out_of_order {cap : Nat} {s : St} {v : Vote} {rest : List Vote} (hs : s.sending = none) (hi : s.inbox = v :: rest)
    (hq : find s.queues v.epoch = none) {q : Nat × Nat} (hl : s.queues.getLast? = some q) (hne : v.epoch ≠ q.1 + 1) :
    step cap s .takeVote =
      some { s with inbox := rest, handled := s.handled ++ [v], lost := s.lost ++ [(v, .outOfOrder)] } := by
  have hin : inOrder s.queues v.epoch = false := by
    unfold inOrder
    rw [hl]
    simpa using hne
  dsimp only [step]
  rw [hs, hi]
  dsimp only
  rw [hq]
  unfold noQueue
  dsimp only
  rw [hin, if_neg (by decide)]

/-- The send completes: into the channel when its round has not ended and there is room; the vote is lost and the entry
removed when it has ended; otherwise the router waits. -/
theorem send_outcome {cap : Nat} {s : St} (h : Reach cap s) {v : Vote} {i : Nat} (hs : s.sending = some (v, i)) :
    ∃ c, s.chans[i]? = some c ∧ c.epoch = v.epoch ∧
      (c.rx = .dropped → ∃ t, step cap s .complete = some t ∧ t.lost = s.lost ++ [(v, .closed)] ∧ t.chans = s.chans ∧
        t.sending = none ∧ find t.queues v.epoch = none ∧ (∀ q ∈ s.queues, q.1 ≠ v.epoch → q ∈ t.queues)) ∧
      (c.rx ≠ .dropped → c.pushed.length - c.read < cap → ∃ t, step cap s .complete = some t ∧ t.lost = s.lost ∧
        t.sending = none ∧ t.queues = s.queues ∧ t.chans[i]? = some { c with pushed := c.pushed ++ [v] }) ∧
      (c.rx ≠ .dropped → cap ≤ c.pushed.length - c.read → step cap s .complete = none) := by
  have hI := reach_inv h
  have hmem := hI.sending v i hs
  obtain ⟨c, hc, he⟩ := hI.idx _ hmem
  change s.chans[i]? = some c at hc
  refine ⟨c, hc, he, ?_, ?_, ?_⟩
  · intro hd
    refine ⟨{ s with sending := none, queues := s.queues.filter fun q => q.2 != i, handled := s.handled ++ [v],
                     lost := s.lost ++ [(v, .closed)] }, ?_, rfl, rfl, rfl, ?_, ?_⟩
    · dsimp only [step]
      rw [hs]
      dsimp only
      rw [hc]
      dsimp only
      rw [if_pos hd]
    · unfold find
      rw [List.find?_eq_none]
      intro q hq hqe
      rw [List.mem_filter] at hq
      have hqe' : q.1 = v.epoch := by simpa using hqe
      have := List.inj_on_of_nodup_map hI.epochs hq.1 hmem hqe'
      subst this
      simp at hq
    · intro q hq hne
      rw [List.mem_filter]
      refine ⟨hq, ?_⟩
      have : q.2 ≠ i := by
        intro e
        have := hI.sameEntry hq hmem e
        rw [this] at hne
        exact hne rfl
      simpa using this
  · intro hd hcap
    refine ⟨{ setChan s i { c with pushed := c.pushed ++ [v] } with sending := none, handled := s.handled ++ [v] }, ?_,
      rfl, rfl, rfl, ?_⟩
    · dsimp only [step]
      rw [hs]
      dsimp only
      rw [hc]
      dsimp only
      rw [if_neg hd, if_pos hcap]
    · show (s.chans.set i _)[i]? = _
      rw [set_get s.chans i i c _ hc, if_pos rfl]
  · intro hd hcap
    dsimp only [step]
    rw [hs]
    dsimp only
    rw [hc]
    dsimp only
    rw [if_neg hd, if_neg (by omega)]

/-! ### Waiting -/

/-- While the router waits to send it takes neither votes nor records. -/
theorem waiting_takes_nothing {cap : Nat} {s : St} {x : Vote × Nat} (hs : s.sending = some x) :
    step cap s .takeVote = none ∧ step cap s .takeRecord = none := by
  dsimp only [step]
  rw [hs]
  exact ⟨rfl, rfl⟩

/-- It never has to wait as long as fewer than `cap` votes of each epoch have been forwarded. -/
theorem never_waits {cap : Nat} {es : List Ev} {s : St} (h : run cap start es = some s)
    (hf : ∀ e, ((forwarded es).filter fun v => v.epoch == e).length ≤ cap) {x : Vote × Nat} (hs : s.sending = some x) :
    ∃ t, step cap s .complete = some t := by
  obtain ⟨v, i⟩ := x
  obtain ⟨c, hc, he, h1, h2, -⟩ := send_outcome (run_reach .start h) hs
  by_cases hd : c.rx = .dropped
  · obtain ⟨t, ht, _⟩ := h1 hd
    exact ⟨t, ht⟩
  · have hroom : c.pushed.length < cap := by
      have hk := (reach_inv (run_reach .start h)).ok i c hc
      have hl : c.pushed.length + 1 ≤ ((forwarded es).filter fun w => w.epoch == v.epoch).length := by
        rw [← votes_in_order h, List.append_assoc, List.filter_append, List.length_append]
        have hp := hk.pre.length_le
        unfold votesOf at hp
        have hp2 : ((s.handled.drop c.born).filter fun w => w.epoch == c.epoch).length ≤
            (s.handled.filter fun w => w.epoch == c.epoch).length := ((List.drop_sublist _ _).filter _).length_le
        have hin : inHand s = [v] := by unfold inHand; rw [hs]
        rw [hin, List.filter_append, List.length_append]
        rw [he] at hp hp2
        simp only [List.filter_cons, List.filter_nil, beq_self_eq_true, if_true, List.length_cons, List.length_nil]
        omega
      have := hf v.epoch
      omega
    obtain ⟨t, ht, _⟩ := h2 hd (by omega)
    exact ⟨t, ht⟩

/-- The router stuck on a channel whose round was never started. -/
def Stuck (cap : Nat) (s : St) : Prop :=
  ∃ v i c, s.sending = some (v, i) ∧ s.chans[i]? = some c ∧ c.rx = .parked ∧ cap ≤ c.pushed.length - c.read

theorem stuck_step {cap : Nat} {s t : St} (w : Ev) (h : Stuck cap s) (hs : step cap s w = some t) :
    Stuck cap t ∧ t.handled = s.handled ∧ t.queues = s.queues := by
  obtain ⟨v, i, c, hsd, hc, hp, hl⟩ := h
  cases w with
  | forward x => cases hs; exact ⟨⟨v, i, c, hsd, hc, hp, hl⟩, rfl, rfl⟩
  | publish e => cases hs; exact ⟨⟨v, i, c, hsd, hc, hp, hl⟩, rfl, rfl⟩
  | takeRecord => rw [(waiting_takes_nothing hsd).2] at hs; cases hs
  | takeVote => rw [(waiting_takes_nothing hsd).1] at hs; cases hs
  | complete =>
    dsimp only [step] at hs
    rw [hsd] at hs
    dsimp only at hs
    rw [hc] at hs
    dsimp only at hs
    rw [if_neg (by rw [hp]; decide), if_neg (by omega)] at hs
    cases hs
  | read j =>
    dsimp only [step] at hs
    cases hd : s.chans[j]? with
    | none => rw [hd] at hs; cases hs
    | some d =>
      rw [hd] at hs
      dsimp only at hs
      split at hs
      · rename_i hcond
        cases hs
        refine ⟨⟨v, i, c, hsd, ?_, hp, hl⟩, rfl, rfl⟩
        show (s.chans.set j _)[i]? = some c
        rw [set_get s.chans j i d _ hd]
        by_cases hij : i = j
        · subst hij
          rw [hc] at hd
          cases hd
          rw [hp] at hcond
          cases hcond.1
        · rw [if_neg hij]
          exact hc
      · cases hs
  | finish j =>
    dsimp only [step] at hs
    cases hd : s.chans[j]? with
    | none => rw [hd] at hs; cases hs
    | some d =>
      rw [hd] at hs
      dsimp only at hs
      split at hs
      · rename_i hcond
        cases hs
        refine ⟨⟨v, i, c, hsd, ?_, hp, hl⟩, rfl, rfl⟩
        show (s.chans.set j _)[i]? = some c
        rw [set_get s.chans j i d _ hd]
        by_cases hij : i = j
        · subst hij
          rw [hc] at hd
          cases hd
          rw [hp] at hcond
          cases hcond
        · rw [if_neg hij]
          exact hc
      · cases hs

/-- A channel filled before its record came stops the router for ever: it deals with no vote and no record any more,
whatever happens. -/
theorem stuck_for_ever {cap : Nat} {es : List Ev} : ∀ {s t : St}, Stuck cap s → run cap s es = some t →
    Stuck cap t ∧ t.handled = s.handled ∧ t.queues = s.queues := by
  induction es with
  | nil => intro s t h h'; cases h'; exact ⟨h, rfl, rfl⟩
  | cons w es ih =>
    intro s t h h'
    obtain ⟨u, hu, ht⟩ := run_cons h'
    obtain ⟨h1, h2, h3⟩ := stuck_step w h hu
    obtain ⟨h4, h5, h6⟩ := ih h1 ht
    exact ⟨h4, h5.trans h2, h6.trans h3⟩

/-! ### The start of a round -/

/-- The record of an epoch without an entry: a round with a fresh channel. -/
theorem record_fresh {cap : Nat} {s : St} {e : Nat} (hs : s.sending = none) (hp : s.pending = some e)
    (hq : find s.queues e = none) :
    ∃ t, step cap s .takeRecord = some t ∧ t.pending = none ∧
      t.chans[s.chans.length]? = some ⟨e, s.handled.length, [], 0, .taken⟩ ∧
      t.queues.getLast? = some (e, s.chans.length) := by
  refine ⟨pushQueue { s with pending := none } ⟨e, s.handled.length, [], 0, .taken⟩, ?_, (pushQueue_frame _ _).2.1, ?_, ?_⟩
  · dsimp only [step]
    rw [hs, hp]
    dsimp only
    rw [hq, ← hs]
  · unfold pushQueue
    split
    · dsimp only
      cases s.queues.head? with
      | none => simp
      | some q =>
        show (dropEntry s.chans q.2 ++ [_])[s.chans.length]? = _
        rw [List.getElem?_append_right (by rw [dropEntry_length]; exact Nat.le_refl _), dropEntry_length]
        simp
    · simp
  · unfold pushQueue
    split <;> simp

/-- The record of an epoch whose votes came first: the round starts with all of them unread. -/
theorem record_takes_parked {cap : Nat} {s : St} (h : Reach cap s) {e : Nat} (hs : s.sending = none)
    (hp : s.pending = some e) {q : Nat × Nat} (hq : find s.queues e = some q) {c : Chan} (hc : s.chans[q.2]? = some c)
    (hk : c.rx = .parked) :
    step cap s .takeRecord = some (setChan { s with pending := none } q.2 { c with rx := .taken }) ∧ c.read = 0 ∧
      c.epoch = e ∧ c.pushed = (s.handled.drop c.born).filter fun v => v.epoch == e := by
  obtain ⟨hm, he⟩ := find_some hq
  have h1 := (reach_inv h).parked q.2 c hc hk
  obtain ⟨c', hc', hce⟩ := (reach_inv h).idx q hm
  rw [hc] at hc'
  cases hc'
  refine ⟨?_, h1.2, hce.trans he, ?_⟩
  · dsimp only [step]
    rw [hs, hp]
    dsimp only
    rw [hq]
    dsimp only
    rw [hc]
    dsimp only
    rw [if_pos hk, ← hs]
  · have := (reach_inv h).all q hm c hc (by rw [hk]; decide)
    rw [hce, he] at this
    exact this

/-- The record of an epoch whose round is running or has ended with its entry left: no round. -/
theorem record_again {cap : Nat} {s : St} {e : Nat} (hs : s.sending = none) (hp : s.pending = some e) {q : Nat × Nat}
    (hq : find s.queues e = some q) {c : Chan} (hc : s.chans[q.2]? = some c) (hk : c.rx ≠ .parked) :
    step cap s .takeRecord = some { s with pending := none } := by
  dsimp only [step]
  rw [hs, hp]
  dsimp only
  rw [hq]
  dsimp only
  rw [hc]
  dsimp only
  rw [if_neg hk]

end Vrt
end Verif
