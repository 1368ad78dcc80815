import Mathlib.Tactic.Common

/-!
# The per-ExEx notification channel

`crates/exex/src/manager.rs`: `ExExHandle` (40-106), the default capacity (36), `resolve_exex_channel_capacity` (492-498).

The tokio bounded `mpsc` channel is modelled by the list of queued values, its capacity and a closed
flag; `try_send` is `Ok` when there is room, `Full` when there is none and `Closed` after the
receiver was dropped.  Notifications are an arbitrary type `α`; the `Lagged { missed }` marker is a
constructor of its own.
-/

namespace Verif.Exex

/-- `TnExExNotification` (notification.rs 73-145), with every variant but `Lagged` abstracted to
`α`.  -/
inductive Note (α : Type) where
  | item (a : α)
  | lagged (missed : Nat)
  deriving DecidableEq, Repr

/-- `u64::MAX`. -/
def U64MAX : Nat := 2 ^ 64 - 1

/-- `u64::saturating_add(1)` (manager.rs 79, 92). -/
def satSucc (n : Nat) : Nat := min (n + 1) U64MAX

/-- `resolve_exex_channel_capacity` (manager.rs 492-498): a zero capacity is raised to one. -/
def resolveCapacity (c : Nat) : Nat := if c = 0 then 1 else c

/-- One `ExExHandle` (manager.rs 40-52) with its channel.  `chan` is the queue (oldest first),
`closed` says the receiver was dropped, `got` lists what the ExEx has received so far (the receiving
end of the channel, `TnExExContext::next_notification`, context.rs 125-127). -/
structure Handle (α : Type) where
  cap : Nat
  chan : List (Note α) := []
  dropped : Nat := 0
  closed : Bool := false
  got : List (Note α) := []
  deriving DecidableEq, Repr

/-- Outcome of `mpsc::Sender::try_send`. -/
inductive TrySend where
  | ok | full | closed
  deriving DecidableEq, Repr

/-- What `try_send` answers in this state (tokio bounded channel). -/
def Handle.answer {α : Type} (h : Handle α) : TrySend :=
  if h.closed then .closed else if h.chan.length < h.cap then .ok else .full

/-- The queue after a successful `try_send`. -/
def Handle.push {α : Type} (h : Handle α) (n : Note α) : Handle α :=
  { h with chan := h.chan ++ [n] }

/-- The second half of `ExExHandle::send` (manager.rs 89-104): offer the notification itself. -/
def Handle.offer {α : Type} (h : Handle α) (n : Note α) : Handle α :=
  match h.answer with
  | .ok => h.push n
  | .full => { h with dropped := satSucc h.dropped }
  | .closed => h

/-- `ExExHandle::send` (manager.rs 64-105). -/
def Handle.send {α : Type} (h : Handle α) (n : Note α) : Handle α :=
  if h.dropped > 0 then
    match h.answer with
    | .ok => ({ h.push (.lagged h.dropped) with dropped := 0 } : Handle α).offer n
    | .full => { h with dropped := satSucc h.dropped }
    | .closed => h
  else h.offer n

/-- `mpsc::Receiver::recv` when a value is queued (context.rs 125-127); nothing happens on an empty
queue. -/
def Handle.recv {α : Type} (h : Handle α) : Handle α :=
  match h.chan with
  | [] => h
  | n :: r => { h with chan := r, got := h.got ++ [n] }

/-- The ExEx drops its context: the receiver closes and the queued values are gone. -/
def Handle.close {α : Type} (h : Handle α) : Handle α := { h with closed := true, chan := [] }

/-- What can happen to one channel. -/
inductive Op (α : Type) where
  | send (n : Note α)
  | recv
  | close
  deriving DecidableEq, Repr

/-- One step. -/
def Handle.step {α : Type} (h : Handle α) : Op α → Handle α
  | .send n => h.send n
  | .recv => h.recv
  | .close => h.close

/-- A schedule. -/
def Handle.run {α : Type} (h : Handle α) (ops : List (Op α)) : Handle α :=
  ops.foldl Handle.step h

/-- The notifications a schedule hands to the channel, in order. -/
def sentBy {α : Type} : List (Op α) → List (Note α)
  | [] => []
  | .send n :: r => n :: sentBy r
  | _ :: r => sentBy r

/-- The handle of a freshly launched ExEx (`ExExHandle::new`, manager.rs 55-57; channel built in
`crates/node/src/manager/node.rs` 789-790). -/
def Handle.fresh {α : Type} (capacity : Nat) : Handle α := { cap := resolveCapacity capacity }

/-! ### Specification -/

/-- How one value on the receiving side accounts for what was handed to the channel: a value that
was passed on, or a marker that stands for a run of dropped values. -/
inductive Entry (α : Type) where
  | passed (n : Note α)
  | gap (lost : List (Note α))

/-- What the receiver sees for an entry: the value itself, or `Lagged` with the number of lost
values (clamped at `u64::MAX`). -/
def Entry.seen {α : Type} : Entry α → Note α
  | .passed n => n
  | .gap lost => .lagged (min lost.length U64MAX)

/-- What had been handed to the channel for an entry. -/
def Entry.sent {α : Type} : Entry α → List (Note α)
  | .passed n => [n]
  | .gap lost => lost

/-- A gap entry stands for at least one lost value. -/
def Entry.Real {α : Type} : Entry α → Prop
  | .passed _ => True
  | .gap lost => lost ≠ []

/-- `seen` is an honest account of `sent`, with `tail` the values dropped after the last one on the
receiving side: reading the entries in order gives exactly the values handed in, none missing, none
reordered, none invented, and every run of missing values stands where a `Lagged` with its length
stands. -/
def Accounts {α : Type} (seen sent : List (Note α)) (tail : List (Note α)) : Prop :=
  ∃ es : List (Entry α), (∀ e ∈ es, e.Real) ∧ es.map Entry.seen = seen ∧
    es.flatMap Entry.sent ++ tail = sent

/-! ### Proofs -/

theorem send_closed {α : Type} {h : Handle α} (hc : h.closed = true) (n : Note α) :
    h.send n = h := by
  have ha : h.answer = .closed := by unfold Handle.answer; rw [if_pos hc]
  unfold Handle.send Handle.offer
  rw [ha]; dsimp only
  split <;> rfl

/-- The invariant: what was received and what is queued, together with the `dropped` counter,
account for everything handed in. -/
def Inv {α : Type} (h : Handle α) (sent : List (Note α)) : Prop :=
  h.closed = false ∧ ∃ tail : List (Note α),
    h.dropped = min tail.length U64MAX ∧ Accounts (h.got ++ h.chan) sent tail

theorem satSucc_min (k : Nat) : satSucc (min k U64MAX) = min (k + 1) U64MAX := by
  unfold satSucc; omega

theorem inv_drop {α : Type} {h : Handle α} {sent : List (Note α)} (hi : Inv h sent)
    (n : Note α) : Inv { h with dropped := satSucc h.dropped } (sent ++ [n]) := by
  obtain ⟨hc, tail, hd, es, hr, hs, hf⟩ := hi
  refine ⟨hc, tail ++ [n], ?_, es, hr, hs, ?_⟩
  · simp only [List.length_append, List.length_cons, List.length_nil]
    rw [hd]; exact satSucc_min _
  · rw [← List.append_assoc, hf]

theorem inv_push {α : Type} {h : Handle α} {sent : List (Note α)} (hi : Inv h sent)
    (h0 : h.dropped = 0) (n : Note α) : Inv (h.push n) (sent ++ [n]) := by
  obtain ⟨hc, tail, hd, es, hr, hs, hf⟩ := hi
  have htail : tail = [] := by
    rw [h0] at hd
    have : tail.length = 0 := by unfold U64MAX at hd; omega
    exact List.length_eq_zero_iff.mp this
  subst htail
  refine ⟨hc, [], ?_, es ++ [.passed n], ?_, ?_, ?_⟩
  · change h.dropped = _; rw [h0]; simp
  · intro e he
    rcases List.mem_append.mp he with he | he
    · exact hr e he
    · rw [List.mem_singleton.mp he]; trivial
  · rw [List.map_append, hs]; change _ = h.got ++ (h.chan ++ [n]); simp [Entry.seen]
  · rw [List.flatMap_append, List.append_nil]
    rw [List.append_nil] at hf
    rw [hf]; rfl

theorem inv_mark {α : Type} {h : Handle α} {sent : List (Note α)} (hi : Inv h sent)
    (h0 : h.dropped > 0) :
    Inv ({ h.push (.lagged h.dropped) with dropped := 0 } : Handle α) sent := by
  obtain ⟨hc, tail, hd, es, hr, hs, hf⟩ := hi
  refine ⟨hc, [], by simp, es ++ [.gap tail], ?_, ?_, ?_⟩
  · intro e he
    rcases List.mem_append.mp he with he | he
    · exact hr e he
    · rw [List.mem_singleton.mp he]
      intro ht
      rw [ht] at hd
      simp at hd; omega
  · rw [List.map_append, hs]
    change _ = h.got ++ (h.chan ++ [Note.lagged h.dropped])
    rw [hd]; simp [Entry.seen]
  · rw [List.flatMap_append, List.append_nil]
    simpa [Entry.sent] using hf

theorem inv_offer {α : Type} {h : Handle α} {sent : List (Note α)} (hi : Inv h sent)
    (h0 : h.dropped = 0) (n : Note α) : Inv (h.offer n) (sent ++ [n]) := by
  unfold Handle.offer
  cases ha : h.answer with
  | ok => exact inv_push hi h0 n
  | full => exact inv_drop hi n
  | closed =>
    exfalso
    unfold Handle.answer at ha
    rw [if_neg (by rw [hi.1]; decide)] at ha
    split at ha <;> cases ha

theorem inv_send {α : Type} {h : Handle α} {sent : List (Note α)} (hi : Inv h sent)
    (n : Note α) : Inv (h.send n) (sent ++ [n]) := by
  unfold Handle.send
  split
  · next h0 =>
    cases ha : h.answer with
    | ok => exact inv_offer (inv_mark hi h0) rfl n
    | full => exact inv_drop hi n
    | closed =>
      exfalso
      unfold Handle.answer at ha
      rw [if_neg (by rw [hi.1]; decide)] at ha
      split at ha <;> cases ha
  · next h0 => exact inv_offer hi (by omega) n

theorem inv_recv {α : Type} {h : Handle α} {sent : List (Note α)} (hi : Inv h sent) :
    Inv h.recv sent := by
  obtain ⟨hc, tail, hd, es, hr, hs, hf⟩ := hi
  unfold Handle.recv
  split
  · exact ⟨hc, tail, hd, es, hr, hs, hf⟩
  · next n r hch =>
    refine ⟨hc, tail, hd, es, hr, ?_, hf⟩
    rw [hs, hch]; simp

theorem inv_run {α : Type} (ops : List (Op α)) (hno : Op.close ∉ ops) :
    ∀ {h : Handle α} {sent : List (Note α)}, Inv h sent → Inv (h.run ops) (sent ++ sentBy ops) := by
  induction ops with
  | nil => intro h sent hi; simpa [Handle.run, sentBy] using hi
  | cons o r ih =>
    intro h sent hi
    have hr : Op.close ∉ r := fun hm => hno (List.mem_cons_of_mem _ hm)
    change Inv ((h.step o).run r) _
    cases o with
    | send n =>
      have := ih hr (inv_send hi n)
      simp only [List.append_assoc, List.cons_append, List.nil_append] at this
      exact this
    | recv => exact ih hr (inv_recv hi)
    | close => exact absurd (List.mem_cons_self) hno

/-- **C66 (nothing is lost silently).**  For every capacity, every sequence of notifications and
every interleaving of sends with receives, what the ExEx has received, followed by what is still
queued for it, is an honest account of everything the manager handed to its channel: in order, with
no value invented or repeated, and with every run of dropped values replaced — at its place — by one
`Lagged` carrying its length.  Only the values dropped after the last queued one are not yet shown,
and their number is exactly the counter that the next marker will carry. -/
theorem delivery_accounts {α : Type} (capacity : Nat) (ops : List (Op α))
    (hno : Op.close ∉ ops) :
    ∃ tail : List (Note α),
      ((Handle.fresh capacity : Handle α).run ops).dropped = min tail.length U64MAX ∧
      Accounts (((Handle.fresh capacity : Handle α).run ops).got ++
        ((Handle.fresh capacity : Handle α).run ops).chan) (sentBy ops) tail := by
  have h0 : Inv (Handle.fresh capacity : Handle α) [] :=
    ⟨rfl, [], rfl, [], by simp, rfl, rfl⟩
  have := inv_run ops hno h0
  rw [List.nil_append] at this
  exact this.2

/-- **C66 (complete when it keeps up).**  If the ExEx never lets its channel overflow — no value was
dropped and no marker delivered — then it has received, or has queued, exactly what was handed in. -/
theorem no_marker_means_complete {α : Type} (capacity : Nat) (ops : List (Op α))
    (hno : Op.close ∉ ops)
    (hd : ((Handle.fresh capacity : Handle α).run ops).dropped = 0)
    (hm : ∀ n ∈ ((Handle.fresh capacity : Handle α).run ops).got ++
        ((Handle.fresh capacity : Handle α).run ops).chan, ∃ a : α, n = .item a) :
    ((Handle.fresh capacity : Handle α).run ops).got ++
      ((Handle.fresh capacity : Handle α).run ops).chan = sentBy ops := by
  obtain ⟨tail, ht, es, hr, hs, hf⟩ := delivery_accounts capacity ops hno
  have htail : tail = [] := by
    rw [hd] at ht
    have : tail.length = 0 := by unfold U64MAX at ht; omega
    exact List.length_eq_zero_iff.mp this
  rw [htail, List.append_nil] at hf
  rw [← hs] at hm
  rw [← hs, ← hf]
  clear hs hf hr
  induction es with
  | nil => rfl
  | cons e es ih =>
    have he := hm e.seen (by simp)
    have := ih (fun n hn => hm n (by simp only [List.map_cons, List.mem_cons]; right; exact hn))
    cases e with
    | passed n => simp only [List.map_cons, List.flatMap_cons, Entry.seen, Entry.sent, this]; rfl
    | gap l => obtain ⟨a, ha⟩ := he; simp [Entry.seen] at ha

theorem cap_send {α : Type} (h : Handle α) (n : Note α) : (h.send n).cap = h.cap := by
  unfold Handle.send Handle.offer Handle.push
  split
  · split
    · split <;> rfl
    · rfl
    · rfl
  · split <;> rfl

theorem bound_push {α : Type} (h : Handle α) (n : Note α) (ha : h.answer = .ok) :
    (h.push n).chan.length ≤ h.cap := by
  unfold Handle.answer at ha
  split at ha
  · cases ha
  · split at ha
    · next hl => simp only [Handle.push, List.length_append, List.length_cons, List.length_nil]; omega
    · cases ha

theorem bound_offer {α : Type} (h : Handle α) (n : Note α) (hb : h.chan.length ≤ h.cap) :
    (h.offer n).chan.length ≤ h.cap := by
  unfold Handle.offer
  split
  · next ha => exact bound_push h n ha
  · exact hb
  · exact hb

theorem bound_send {α : Type} (h : Handle α) (n : Note α) (hb : h.chan.length ≤ h.cap) :
    (h.send n).chan.length ≤ h.cap := by
  unfold Handle.send
  split
  · split
    · next ha =>
      exact bound_offer ({ h.push (.lagged h.dropped) with dropped := 0 } : Handle α) n
        (bound_push h _ ha)
    · exact hb
    · exact hb
  · exact bound_offer h n hb

/-- **C66 (a slow ExEx costs a bounded amount of memory).**  However slow the ExEx is, its channel
never holds more than its capacity. -/
theorem queue_bounded {α : Type} (capacity : Nat) (ops : List (Op α)) :
    ((Handle.fresh capacity : Handle α).run ops).chan.length ≤ max 1 capacity := by
  have key : ∀ (ops : List (Op α)) (h : Handle α), h.chan.length ≤ h.cap →
      (h.run ops).chan.length ≤ h.cap := by
    intro ops
    induction ops with
    | nil => intro h hb; exact hb
    | cons o r ih =>
      intro h hb
      change ((h.step o).run r).chan.length ≤ _
      cases o with
      | send n =>
        have := ih (h.send n) (by rw [cap_send]; exact bound_send h n hb)
        rw [cap_send] at this; exact this
      | recv =>
        have hc : h.recv.cap = h.cap := by unfold Handle.recv; split <;> rfl
        have hl : h.recv.chan.length ≤ h.cap := by
          unfold Handle.recv; split
          · exact hb
          · next hch => rw [hch] at hb; simp at hb; dsimp only; omega
        have := ih h.recv (by rw [hc]; exact hl)
        rw [hc] at this; exact this
      | close => exact ih h.close (Nat.zero_le _)
  have := key ops (Handle.fresh capacity) (Nat.zero_le _)
  have hcap : (Handle.fresh capacity : Handle α).cap ≤ max 1 capacity := by
    unfold Handle.fresh resolveCapacity; dsimp only; split <;> omega
  exact Nat.le_trans this hcap

/-- **C66 (catching up, capacity at least two).**  Whatever happened before, once the ExEx has
emptied its channel the next notification reaches it: right after the marker for the gap if there
was one. -/
theorem drained_then_delivered {α : Type} (h : Handle α) (n : Note α)
    (hcl : h.closed = false) (hcap : 2 ≤ h.cap) (hempty : h.chan = []) :
    (h.send n).dropped = 0 ∧
      (h.send n).chan = (if h.dropped > 0 then [.lagged h.dropped, n] else [n]) := by
  have ha : h.answer = .ok := by
    unfold Handle.answer
    rw [if_neg (by rw [hcl]; decide), if_pos (by rw [hempty]; simp; omega)]
  unfold Handle.send
  by_cases h0 : h.dropped > 0
  · rw [if_pos h0, if_pos h0, ha]; dsimp only
    have hb : ({ h.push (.lagged h.dropped) with dropped := 0 } : Handle α).answer = .ok := by
      unfold Handle.answer Handle.push; dsimp only
      rw [if_neg (by rw [hcl]; decide), if_pos (by rw [hempty]; simp; omega)]
    unfold Handle.offer
    rw [hb]; dsimp only [Handle.push]
    rw [hempty]; exact ⟨rfl, rfl⟩
  · rw [if_neg h0, if_neg h0]
    unfold Handle.offer
    rw [ha]; dsimp only [Handle.push]
    rw [hempty]
    exact ⟨by omega, rfl⟩

/-- The state in which a capacity-one channel is stuck. -/
def Stuck {α : Type} (h : Handle α) : Prop := h.cap = 1 ∧ h.dropped > 0

theorem stuck_send {α : Type} {h : Handle α} (hs : Stuck h) (n : Note α) :
    Stuck (h.send n) ∧ ∃ more : List (Note α),
      (h.send n).got ++ (h.send n).chan = h.got ++ h.chan ++ more ∧
      ∀ m ∈ more, ∃ k : Nat, m = .lagged k := by
  obtain ⟨hc, hd⟩ := hs
  unfold Handle.send
  rw [if_pos hd]
  cases ha : h.answer with
  | ok =>
    dsimp only
    have hlen : h.chan = [] ∧ h.closed = false := by
      unfold Handle.answer at ha
      split at ha
      · cases ha
      · next hcl =>
        split at ha
        · next hl => exact ⟨List.length_eq_zero_iff.mp (by omega), by simpa using hcl⟩
        · cases ha
    have hb : ({ h.push (.lagged h.dropped) with dropped := 0 } : Handle α).answer = .full := by
      unfold Handle.answer Handle.push; dsimp only
      rw [if_neg (by rw [hlen.2]; decide), if_neg (by rw [hlen.1, hc]; simp)]
    unfold Handle.offer
    rw [hb]; dsimp only
    refine ⟨⟨hc, by change satSucc 0 > 0; decide⟩, [.lagged h.dropped], ?_, ?_⟩
    · simp [Handle.push]
    · intro m hm; exact ⟨_, List.mem_singleton.mp hm⟩
  | full =>
    exact ⟨⟨hc, by change satSucc h.dropped > 0; unfold satSucc U64MAX; omega⟩, [], by simp, by simp⟩
  | closed => exact ⟨⟨hc, hd⟩, [], by simp, by simp⟩

/-- **C66 (finding: a capacity-one channel never recovers).**  `resolve_exex_channel_capacity` maps
the capacity 0 to 1.  With capacity one, after a single overflow the marker takes the only slot and
the notification behind it is dropped again: in every later schedule — even one in which the ExEx
drains its channel before each send — everything that is newly delivered is a `Lagged` marker, and
no notification ever reaches that ExEx again. -/
theorem capacity_one_never_recovers {α : Type} (h : Handle α) (hcap : h.cap = 1)
    (hd : h.dropped > 0) (ops : List (Op α)) (hno : Op.close ∉ ops) :
    ∃ more : List (Note α),
      (h.run ops).got ++ (h.run ops).chan = h.got ++ h.chan ++ more ∧
      ∀ m ∈ more, ∃ k : Nat, m = .lagged k := by
  have key : ∀ (ops : List (Op α)) (h : Handle α), Op.close ∉ ops → Stuck h →
      ∃ more : List (Note α),
        (h.run ops).got ++ (h.run ops).chan = h.got ++ h.chan ++ more ∧
        ∀ m ∈ more, ∃ k : Nat, m = .lagged k := by
    intro ops
    induction ops with
    | nil => intro h _ _; exact ⟨[], by simp [Handle.run], by simp⟩
    | cons o r ih =>
      intro h hno hs
      have hr : Op.close ∉ r := fun hm => hno (List.mem_cons_of_mem _ hm)
      cases o with
      | send n =>
        obtain ⟨hs', m1, he1, hm1⟩ := stuck_send hs n
        obtain ⟨m2, he2, hm2⟩ := ih (h.send n) hr hs'
        refine ⟨m1 ++ m2, ?_, ?_⟩
        · change ((h.send n).run r).got ++ ((h.send n).run r).chan = _
          rw [he2, he1]; simp
        · intro m hm
          rcases List.mem_append.mp hm with hm | hm
          · exact hm1 m hm
          · exact hm2 m hm
      | recv =>
        have hs' : Stuck h.recv := by
          unfold Handle.recv; split
          · exact hs
          · exact hs
        obtain ⟨m2, he2, hm2⟩ := ih h.recv hr hs'
        refine ⟨m2, ?_, hm2⟩
        change ((h.recv).run r).got ++ ((h.recv).run r).chan = _
        rw [he2]
        have : h.recv.got ++ h.recv.chan = h.got ++ h.chan := by
          unfold Handle.recv; split
          · rfl
          · next hch => rw [hch]; simp
        rw [this]
      | close => exact absurd List.mem_cons_self hno
  exact key ops h hno ⟨hcap, hd⟩

/-- A dropped receiver costs nothing: sends to a closed channel change nothing. -/
theorem closed_channel_inert {α : Type} (h : Handle α) (ns : List (Note α)) (hc : h.closed = true) :
    h.run (ns.map Op.send) = h := by
  induction ns with
  | nil => rfl
  | cons n r ih =>
    change (h.send n).run _ = h
    rw [send_closed hc]; exact ih

/-! ### Examples -/

/-- Capacity two: three sends overflow by one; after draining, the marker and the next value. -/
example : ((Handle.fresh 2 : Handle Nat).run
    [.send (.item 1), .send (.item 2), .send (.item 3), .recv, .recv, .send (.item 4),
     .recv, .recv]).got = [.item 1, .item 2, .lagged 1, .item 4] := by decide

/-- Capacity zero is raised to one; after the overflow only markers arrive although the ExEx drains
the channel before every send. -/
example : ((Handle.fresh 0 : Handle Nat).run
    [.send (.item 1), .send (.item 2), .recv, .send (.item 3), .recv, .send (.item 4), .recv,
     .send (.item 5), .recv]).got = [.item 1, .lagged 1, .lagged 1, .lagged 1] := by decide

end Verif.Exex
