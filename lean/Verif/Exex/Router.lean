import Verif.Exex.Channel
import Mathlib.Data.List.Induction

/-!
# The ExEx manager's router

`crates/exex/src/manager.rs`: `Router` (273-440), `canon_gap` (506-518).

Certificates and consensus outputs are numbers (their content does not matter here); an executed
chain is the pair of its first and last block number, or nothing for reth's empty chain.
-/

namespace Verif.Exex

/-- The content of a notification other than `Lagged` (notification.rs 73-145). -/
inductive Content where
  | cert (c : Nat)
  | output (o : Nat)
  | chain (first last : Nat)
  deriving DecidableEq, Repr

/-- A source item that may be a broadcast-lag report (`BroadcastStreamRecvError::Lagged`). -/
inductive Bcast where
  | ok (x : Nat)
  | lagged (missed : Nat)
  deriving DecidableEq, Repr

/-- `RouterEvent` without `Closed` (manager.rs 255-266), plus what the ExExes themselves do: `recv i`
is a receive by ExEx `i`, `close i` its end.  A canonical notification is `none` for an empty chain;
the degraded `Reorg` arm behaves like a commit of its new side (335-362). -/
inductive Ev where
  | cert (b : Bcast)
  | output (b : Bcast)
  | canon (c : Option (Nat × Nat))
  | finished (idx height : Nat)
  | recv (idx : Nat)
  | close (idx : Nat)
  deriving DecidableEq, Repr

/-- `Router` (manager.rs 273-277).  The per-ExEx finished heights sit next to the channels. -/
structure Router where
  handles : List (Handle Content)
  heights : List (Option Nat)
  lastTip : Option Nat := none
  published : Option Nat := none
  deriving DecidableEq, Repr

/-- `canon_gap` (manager.rs 506-518): the number of skipped blocks, if any. -/
def canonGap (lastTip : Option Nat) (first : Nat) : Option Nat :=
  match lastTip with
  | some prev => if first > prev + 1 then some (first - prev - 1) else none
  | none => none

/-- The new `last_tip` (manager.rs 516). -/
def canonTip (lastTip : Option Nat) (tip : Nat) : Option Nat :=
  some (match lastTip with
    | some p => max p tip
    | none => tip)

/-- `deliver_broadcast` (manager.rs 319-332). -/
def bcastNote (mk : Nat → Content) : Bcast → Note Content
  | .ok x => .item (mk x)
  | .lagged k => .lagged k

/-- The notifications an event makes the router fan out (`Router::handle`, 281-308;
`handle_canon_commit`, 368-394). -/
def notesOf (lastTip : Option Nat) : Ev → List (Note Content)
  | .cert b => [bcastNote .cert b]
  | .output b => [bcastNote .output b]
  | .canon none => []
  | .canon (some (first, last)) =>
    match canonGap lastTip first with
    | some missed => [.lagged missed, .item (.chain first last)]
    | none => [.item (.chain first last)]
  | _ => []

/-- `last_canon_tip` after an event. -/
def tipAfter (lastTip : Option Nat) : Ev → Option Nat
  | .canon (some (_, last)) => canonTip lastTip last
  | _ => lastTip

/-- `fan_out` (manager.rs 311-315) of several notifications. -/
def fanOut (hs : List (Handle Content)) (ns : List (Note Content)) : List (Handle Content) :=
  hs.map (fun h => ns.foldl Handle.send h)

/-- `recompute_min` (manager.rs 423-439): `None` as soon as one height is `None`. -/
def minHeight : Option Nat → List (Option Nat) → Option (Option Nat)
  | acc, [] => some acc
  | _, none :: _ => none
  | acc, some h :: r => minHeight (some (match acc with
      | none => h
      | some a => min a h)) r

/-- `Router::handle` (manager.rs 281-308) and the ExExes' own steps. -/
def Router.step (r : Router) (e : Ev) : Router :=
  match e with
  | .finished idx height =>
    { r with
      heights := r.heights.set idx (some height)
      published := (minHeight none (r.heights.set idx (some height))).join }
  | .recv idx => { r with handles := r.handles.modify idx Handle.recv }
  | .close idx => { r with handles := r.handles.modify idx Handle.close }
  | e =>
    { r with
      handles := fanOut r.handles (notesOf r.lastTip e)
      lastTip := tipAfter r.lastTip e }

/-- A run. -/
def Router.run (r : Router) (evs : List Ev) : Router := evs.foldl Router.step r

/-- The manager at start (`TnExExManager::new`, 133-160) with the given channel capacities. -/
def Router.start (capacities : List Nat) : Router :=
  { handles := capacities.map Handle.fresh, heights := capacities.map (fun _ => none) }

/-! ### Specification -/

/-- Is this event the business of ExEx `i`?  Everything is, except what other ExExes do. -/
def concerns (i : Nat) : Ev → Bool
  | .finished .. => false
  | .recv j => decide (j = i)
  | .close j => decide (j = i)
  | _ => true

/-- The heights ExEx `i` reported, in order. -/
def reports (i : Nat) (evs : List Ev) : List Nat :=
  evs.filterMap (fun e => match e with
    | .finished j h => if j = i then some h else none
    | _ => none)

/-- The last height ExEx `i` reported. -/
def lastReport (i : Nat) (evs : List Ev) : Option Nat := (reports i evs).getLast?

/-! ### Isolation -/

theorem foldl_send_map (hs : List (Handle Content)) (ns : List (Note Content)) (i : Nat) :
    (fanOut hs ns)[i]? = (hs[i]?).map (fun h => ns.foldl Handle.send h) := by
  unfold fanOut; rw [List.getElem?_map]

theorem modify_getElem? {β : Type} (l : List β) (f : β → β) (i j : Nat) :
    (l.modify j f)[i]? = if j = i then (l[i]?).map f else l[i]? := by
  rw [List.getElem?_modify]
  split <;> simp

/-- What ExEx `i`'s channel and the tip tracker do on one event. -/
theorem step_view (r : Router) (e : Ev) (i : Nat) :
    (r.step e).lastTip = tipAfter r.lastTip e ∧
    (r.step e).handles[i]? = (match e with
      | .recv j => if j = i then (r.handles[i]?).map Handle.recv else r.handles[i]?
      | .close j => if j = i then (r.handles[i]?).map Handle.close else r.handles[i]?
      | .finished _ _ => r.handles[i]?
      | e => (r.handles[i]?).map (fun h => (notesOf r.lastTip e).foldl Handle.send h)) := by
  cases e with
  | cert b => exact ⟨rfl, foldl_send_map _ _ _⟩
  | output b => exact ⟨rfl, foldl_send_map _ _ _⟩
  | canon c => exact ⟨rfl, foldl_send_map _ _ _⟩
  | finished j h => exact ⟨rfl, rfl⟩
  | recv j => exact ⟨rfl, modify_getElem? _ _ _ _⟩
  | close j => exact ⟨rfl, modify_getElem? _ _ _ _⟩

theorem filter_view (evs : List Ev) (i : Nat) :
    ∀ r r' : Router, r.lastTip = r'.lastTip → r.handles[i]? = r'.handles[i]? →
      (r.run evs).lastTip = (r'.run (evs.filter (concerns i))).lastTip ∧
      (r.run evs).handles[i]? = (r'.run (evs.filter (concerns i))).handles[i]? := by
  induction evs with
  | nil => intro r r' h1 h2; exact ⟨h1, h2⟩
  | cons e es ih =>
    intro r r' h1 h2
    obtain ⟨v1, v2⟩ := step_view r e i
    obtain ⟨w1, w2⟩ := step_view r' e i
    by_cases hc : concerns i e = true
    · rw [List.filter_cons_of_pos hc]
      apply ih (r.step e) (r'.step e)
      · rw [v1, w1, h1]
      · rw [v2, w2, h1, h2]
    · rw [List.filter_cons_of_neg hc]
      apply ih (r.step e) r'
      · rw [v1]
        cases e <;> simp_all [concerns, tipAfter]
      · rw [v2]
        cases e <;> simp_all [concerns]

/-- **C66 (ExExes are isolated from each other).**  What ExEx `i` has received and has queued depends
only on the manager's inputs and on its own receives: two runs of the manager that differ only in
what the other ExExes do — how slowly they read, whether they are gone, what heights they report —
leave its channel in the same state. -/
theorem exexes_isolated (r : Router) (i : Nat) (evs evs' : List Ev)
    (h : evs.filter (concerns i) = evs'.filter (concerns i)) :
    (r.run evs).handles[i]? = (r.run evs').handles[i]? := by
  rw [(filter_view evs i r r rfl rfl).2, h, ← (filter_view evs' i r r rfl rfl).2]

/-- The channel operations ExEx `i` sees on one event. -/
def opsOf (i : Nat) (t : Option Nat) : Ev → List (Op Content)
  | .recv j => if j = i then [.recv] else []
  | .close j => if j = i then [.close] else []
  | e => (notesOf t e).map Op.send

/-- The channel operations ExEx `i` sees in a run that starts with tip tracker `t`. -/
def opsFor (i : Nat) : Option Nat → List Ev → List (Op Content)
  | _, [] => []
  | t, e :: r => opsOf i t e ++ opsFor i (tipAfter t e) r

theorem foldl_send_run {α : Type} (ns : List (Note α)) (h : Handle α) :
    ns.foldl Handle.send h = h.run (ns.map Op.send) := by
  induction ns generalizing h with
  | nil => rfl
  | cons n r ih => exact ih (h.send n)

theorem run_append {α : Type} (h : Handle α) (a b : List (Op α)) :
    h.run (a ++ b) = (h.run a).run b := List.foldl_append

/-- The router is, for every single ExEx, the channel run of `Channel.lean`: all the theorems about
one channel apply to each ExEx of the manager. -/
theorem handle_run (evs : List Ev) (i : Nat) :
    ∀ r : Router, (r.run evs).handles[i]? = (r.handles[i]?).map (·.run (opsFor i r.lastTip evs)) := by
  induction evs with
  | nil => intro r; cases h : r.handles[i]? <;> simp [Router.run, opsFor, Handle.run, h]
  | cons e es ih =>
    intro r
    obtain ⟨v1, v2⟩ := step_view r e i
    change ((r.step e).run es).handles[i]? = _
    rw [ih (r.step e), v1, v2, opsFor]
    generalize opsFor i (tipAfter r.lastTip e) es = rest
    cases hh : r.handles[i]? with
    | none => cases e <;> simp
    | some h =>
      cases e with
      | cert b => simp [run_append, foldl_send_run, opsOf]
      | output b => simp [run_append, foldl_send_run, opsOf]
      | canon c => simp [run_append, foldl_send_run, opsOf]
      | finished j k => simp [notesOf, opsOf]
      | recv j =>
        by_cases hj : j = i
        · simp [hj, opsOf]; rfl
        · simp [hj, opsOf]
      | close j =>
        by_cases hj : j = i
        · simp [hj, opsOf]; rfl
        · simp [hj, opsOf]

/-- The notifications fanned out in a run that starts with tip tracker `t`: the same list for every
ExEx. -/
def fanned : Option Nat → List Ev → List (Note Content)
  | _, [] => []
  | t, e :: r => notesOf t e ++ fanned (tipAfter t e) r

theorem sentBy_append {α : Type} (a b : List (Op α)) : sentBy (a ++ b) = sentBy a ++ sentBy b := by
  induction a with
  | nil => rfl
  | cons o r ih => cases o <;> simp [sentBy, ih]

theorem sentBy_map {α : Type} (ns : List (Note α)) : sentBy (ns.map Op.send) = ns := by
  induction ns with
  | nil => rfl
  | cons n r ih => simp [sentBy, ih]

theorem sentBy_opsFor (evs : List Ev) (i : Nat) :
    ∀ t : Option Nat, sentBy (opsFor i t evs) = fanned t evs := by
  induction evs with
  | nil => intro t; rfl
  | cons e es ih =>
    intro t
    rw [opsFor, fanned, sentBy_append, ih]
    cases e with
    | recv j => by_cases hj : j = i <;> simp [hj, sentBy, notesOf, opsOf]
    | close j => by_cases hj : j = i <;> simp [hj, sentBy, notesOf, opsOf]
    | cert b => simp [sentBy_map, opsOf]
    | output b => simp [sentBy_map, opsOf]
    | canon c => simp [sentBy_map, opsOf]
    | finished j k => simp [sentBy_map, opsOf]

theorem close_opsFor (evs : List Ev) (i : Nat) (hno : Ev.close i ∉ evs) :
    ∀ t : Option Nat, Op.close ∉ opsFor i t evs := by
  induction evs with
  | nil => intro t h; simp [opsFor] at h
  | cons e es ih =>
    intro t h
    rw [opsFor] at h
    rcases List.mem_append.mp h with h | h
    · cases e with
      | recv j => by_cases hj : j = i <;> simp [hj, opsOf] at h
      | close j =>
        by_cases hj : j = i
        · subst hj; exact hno List.mem_cons_self
        · simp [hj, opsOf] at h
      | cert b => simp [opsOf] at h
      | output b => simp [opsOf] at h
      | canon c => simp [opsOf] at h
      | finished j k => simp [opsOf] at h
    · exact ih (fun hm => hno (List.mem_cons_of_mem _ hm)) _ h

/-- **C66 for the whole manager.**  For every number of ExExes, all capacities and every sequence of
inputs, receives and departures: what a (living) ExEx has received, followed by what is queued for
it, accounts for everything the manager fanned out — the same list for all of them. -/
theorem manager_delivery_accounts (capacities : List Nat) (evs : List Ev) (i : Nat)
    (h : Handle Content) (hi : ((Router.start capacities).run evs).handles[i]? = some h)
    (hno : Ev.close i ∉ evs) :
    ∃ tail : List (Note Content), h.dropped = min tail.length U64MAX ∧
      Accounts (h.got ++ h.chan) (fanned none evs) tail := by
  have hr := handle_run evs i (Router.start capacities)
  rw [hi] at hr
  have hstart : (Router.start capacities).handles[i]? = (capacities[i]?).map Handle.fresh := by
    unfold Router.start; exact List.getElem?_map ..
  rw [hstart] at hr
  cases hc : capacities[i]? with
  | none => rw [hc] at hr; cases hr
  | some c =>
    rw [hc] at hr
    have hh : h = (Handle.fresh c : Handle Content).run (opsFor i none evs) := by
      simpa [Router.start] using hr
    have := delivery_accounts c (opsFor i none evs) (close_opsFor evs i hno none)
    rw [sentBy_opsFor] at this
    rw [hh]; exact this

/-- What a notification says was missed. -/
def missedBy : Note Content → Nat
  | .item _ => 0
  | .lagged k => k

/-- What the broadcast channels of certificates and outputs reported as skipped. -/
def skipped : List Ev → Nat
  | [] => 0
  | .cert (.lagged k) :: r => k + skipped r
  | .output (.lagged k) :: r => k + skipped r
  | _ :: r => skipped r

/-- The highest block delivered so far. -/
def highest : Option Nat → List Ev → Option Nat
  | t, [] => t
  | t, .canon (some (_, last)) :: r => highest (some (match t with | none => last | some p => max p last)) r
  | t, _ :: r => highest t r

/-- Blocks that no canonical notification brought: between the highest block delivered and the first of the next chain. -/
def missingBlocks : Option Nat → List Ev → Nat
  | _, [] => 0
  | t, .canon (some (first, last)) :: r =>
    (match t with | none => 0 | some p => first - (p + 1)) + missingBlocks (highest t [.canon (some (first, last))]) r
  | t, _ :: r => missingBlocks t r

/-- **C66 (losses before the fan-out are reported in full).**  The markers the manager fans out report exactly what the broadcast channels
skipped and the blocks missing between canonical notifications, no more and no less. -/
theorem losses_reported (evs : List Ev) : ∀ t : Option Nat,
    ((fanned t evs).map missedBy).sum = skipped evs + missingBlocks t evs := by
  induction evs with
  | nil => intro t; rfl
  | cons e es ih =>
    intro t
    rw [fanned, List.map_append, List.sum_append, ih]
    cases e with
    | cert b => cases b <;> simp [notesOf, bcastNote, missedBy, skipped, missingBlocks, tipAfter] <;> omega
    | output b => cases b <;> simp [notesOf, bcastNote, missedBy, skipped, missingBlocks, tipAfter] <;> omega
    | finished j k => simp [notesOf, skipped, missingBlocks, tipAfter]
    | recv j => simp [notesOf, skipped, missingBlocks, tipAfter]
    | close j => simp [notesOf, skipped, missingBlocks, tipAfter]
    | canon c =>
      cases c with
      | none => simp [notesOf, skipped, missingBlocks, tipAfter]
      | some c =>
        obtain ⟨first, last⟩ := c
        cases t with
        | none => simp [notesOf, canonGap, missedBy, skipped, missingBlocks, tipAfter, canonTip, highest]
        | some p =>
          by_cases h : first > p + 1
          · simp only [notesOf, canonGap, if_pos h, skipped, missingBlocks, tipAfter, canonTip, highest]
            simp only [List.map_cons, List.map_nil, missedBy, List.sum_cons, List.sum_nil]
            omega
          · simp only [notesOf, canonGap, if_neg h, skipped, missingBlocks, tipAfter, canonTip, highest]
            simp only [List.map_cons, List.map_nil, missedBy, List.sum_cons, List.sum_nil]
            omega

example : ((fanned none [.cert (.lagged 3), .canon (some (5, 6)), .canon (some (9, 9))]).map missedBy).sum = 5 := rfl

/-! ### Finished heights -/

theorem minHeight_acc (l : List (Option Nat)) :
    ∀ a : Nat, (∀ o ∈ l, ∃ h : Nat, o = some h) →
      ∃ m : Nat, minHeight (some a) l = some (some m) ∧ m ≤ a ∧ (∀ h : Nat, some h ∈ l → m ≤ h) ∧
        (m = a ∨ some m ∈ l) := by
  induction l with
  | nil => intro a _; exact ⟨a, rfl, Nat.le_refl _, by simp, Or.inl rfl⟩
  | cons o r ih =>
    intro a hall
    obtain ⟨h, rfl⟩ := hall o (by simp)
    obtain ⟨m, hm, hle, hmin, hin⟩ := ih (min a h) (fun o ho => hall o (by simp [ho]))
    refine ⟨m, hm, by omega, ?_, ?_⟩
    · intro k hk
      rcases List.mem_cons.mp hk with hk | hk
      · cases hk; omega
      · exact hmin k hk
    · rcases hin with hin | hin
      · rcases Nat.le_total a h with hh | hh
        · left; rw [hin]; omega
        · right; rw [hin, Nat.min_eq_right hh]; simp
      · right; simp [hin]

theorem minHeight_none_mem (l : List (Option Nat)) :
    ∀ acc : Option Nat, none ∈ l → minHeight acc l = none := by
  induction l with
  | nil => intro _ h; simp at h
  | cons o r ih =>
    intro acc h
    cases o with
    | none => rfl
    | some k =>
      rcases List.mem_cons.mp h with h | h
      · cases h
      · exact ih _ h

/-- The meaning of the published floor over a list of latest reports. -/
theorem minHeight_spec (l : List (Option Nat)) (m : Nat) :
    (minHeight none l).join = some m ↔
      (∀ o ∈ l, ∃ h : Nat, o = some h ∧ m ≤ h) ∧ some m ∈ l := by
  by_cases hn : none ∈ l
  · rw [minHeight_none_mem l none hn]
    constructor
    · intro h; cases h
    · rintro ⟨h, _⟩; obtain ⟨k, hk, _⟩ := h none hn; cases hk
  · have hall : ∀ o ∈ l, ∃ h : Nat, o = some h := by
      intro o ho
      cases o with
      | none => exact absurd ho hn
      | some k => exact ⟨k, rfl⟩
    cases l with
    | nil => simp [minHeight]
    | cons o r =>
      obtain ⟨a, rfl⟩ := hall o (by simp)
      obtain ⟨k, hk, hle, hmin, hin⟩ := minHeight_acc r a (fun o ho => hall o (by simp [ho]))
      have hmh : (minHeight none (some a :: r)).join = some k := by
        rw [minHeight, hk]; rfl
      rw [hmh]
      have hall' : ∀ o ∈ some a :: r, ∃ h : Nat, o = some h ∧ k ≤ h := by
        intro o ho
        obtain ⟨h, rfl⟩ := hall o ho
        refine ⟨h, rfl, ?_⟩
        rcases List.mem_cons.mp ho with ho | ho
        · cases ho; exact hle
        · exact hmin h ho
      have hmem : some k ∈ some a :: r := by
        rcases hin with hin | hin
        · rw [hin]; simp
        · simp [hin]
      constructor
      · intro h; cases h; exact ⟨hall', hmem⟩
      · rintro ⟨h1, h2⟩
        obtain ⟨x, hx, hx'⟩ := h1 _ hmem
        obtain ⟨y, hy, hy'⟩ := hall' _ h2
        cases hx; cases hy
        congr 1; omega

theorem lastReport_snoc (i : Nat) (evs : List Ev) (e : Ev) :
    lastReport i (evs ++ [e]) = (match e with
      | .finished j h => if j = i then some h else lastReport i evs
      | _ => lastReport i evs) := by
  unfold lastReport reports
  rw [List.filterMap_append]
  cases e with
  | finished j h => by_cases hj : j = i <;> simp [hj]
  | cert b => simp
  | output b => simp
  | canon c => simp
  | recv j => simp
  | close j => simp

/-- The heights recorded after a run are the last reports; the published floor is computed from
them. -/
theorem heights_run (capacities : List Nat) (evs : List Ev) :
    ((Router.start capacities).run evs).heights =
        (List.range capacities.length).map (fun i => lastReport i evs) ∧
    (((Router.start capacities).run evs).published =
        (minHeight none ((Router.start capacities).run evs).heights).join) := by
  induction evs using List.reverseRecOn with
  | nil =>
    constructor
    · change capacities.map (fun _ => none) = _
      apply List.ext_getElem?
      intro i
      simp only [List.getElem?_map]
      by_cases hi : i < capacities.length
      · rw [List.getElem?_range hi, List.getElem?_eq_getElem hi]; rfl
      · rw [List.getElem?_eq_none (by simpa using hi),
          List.getElem?_eq_none (by simpa using hi)]; rfl
    · change none = (minHeight none (capacities.map (fun _ => none))).join
      cases capacities with
      | nil => rfl
      | cons c r => rfl
  | append_singleton evs e ih =>
    obtain ⟨ih1, ih2⟩ := ih
    have hrun : (Router.start capacities).run (evs ++ [e]) =
        ((Router.start capacities).run evs).step e := List.foldl_append
    rw [hrun]
    generalize hr : (Router.start capacities).run evs = r at ih1 ih2 ⊢
    cases e with
    | finished j h =>
      refine ⟨?_, rfl⟩
      change r.heights.set j (some h) = _
      rw [ih1]
      apply List.ext_getElem?
      intro i
      rw [List.getElem?_set]
      simp only [List.length_map, List.length_range, List.getElem?_map]
      by_cases hi : i < capacities.length
      · rw [List.getElem?_range hi]
        simp only [Option.map_some, lastReport_snoc]
        by_cases hj : j = i
        · subst hj; simp [hi]
        · simp [hj]
      · by_cases hj : j = i
        · subst hj; rw [if_pos rfl, if_neg hi, List.getElem?_eq_none (by simpa using hi)]; rfl
        · rw [if_neg hj, List.getElem?_eq_none (by simpa using hi)]; rfl
    | cert b => simp only [lastReport_snoc]; exact ⟨ih1, ih2⟩
    | output b => simp only [lastReport_snoc]; exact ⟨ih1, ih2⟩
    | canon c => simp only [lastReport_snoc]; exact ⟨ih1, ih2⟩
    | recv j => simp only [lastReport_snoc]; exact ⟨ih1, ih2⟩
    | close j => simp only [lastReport_snoc]; exact ⟨ih1, ih2⟩

/-- **C68 (the published floor).**  After any history of the manager, `min_finished_height` is
`Some m` exactly when every registered ExEx has reported, `m` is at most the latest report of each
of them, and `m` is the latest report of one of them. -/
theorem floor_exact (capacities : List Nat) (evs : List Ev) (m : Nat) :
    ((Router.start capacities).run evs).published = some m ↔
      (∀ i < capacities.length, ∃ h : Nat, lastReport i evs = some h ∧ m ≤ h) ∧
      ∃ i < capacities.length, lastReport i evs = some m := by
  obtain ⟨h1, h2⟩ := heights_run capacities evs
  rw [h2, minHeight_spec, h1]
  simp only [List.mem_map, List.mem_range]
  constructor
  · rintro ⟨ha, hb⟩
    exact ⟨fun i hi => ha _ ⟨i, hi, rfl⟩, hb⟩
  · rintro ⟨ha, hb⟩
    refine ⟨?_, hb⟩
    rintro o ⟨i, hi, rfl⟩
    exact ha i hi

theorem lastReport_mem (i : Nat) (evs : List Ev) (h : Nat) (hl : lastReport i evs = some h) :
    Ev.finished i h ∈ evs := by
  induction evs using List.reverseRecOn with
  | nil => cases hl
  | append_singleton evs e ih =>
    rw [lastReport_snoc] at hl
    cases e with
    | finished j k =>
      dsimp only at hl
      by_cases hj : j = i
      · rw [if_pos hj] at hl; cases hl; subst hj; simp
      · rw [if_neg hj] at hl; simp [ih hl]
    | cert b => simp [ih hl]
    | output b => simp [ih hl]
    | canon c => simp [ih hl]
    | recv j => simp [ih hl]
    | close j => simp [ih hl]

/-- **C68 (safe to prune below the floor).**  If every ExEx reports only heights it has durably
processed — `durable i` bounds every report of ExEx `i` that reached the manager; reports lost on a
full event channel simply do not occur in `evs` — then the floor never exceeds what any ExEx has
durably processed, and there is no floor while one ExEx is silent. -/
theorem floor_safe (capacities : List Nat) (evs : List Ev) (durable : Nat → Nat)
    (hrep : ∀ (i h : Nat), Ev.finished i h ∈ evs → h ≤ durable i) (m : Nat)
    (hm : ((Router.start capacities).run evs).published = some m) :
    ∀ i < capacities.length, m ≤ durable i ∧ ∃ h : Nat, Ev.finished i h ∈ evs := by
  intro i hi
  obtain ⟨h1, _⟩ := (floor_exact capacities evs m).mp hm
  obtain ⟨h, hl, hle⟩ := h1 i hi
  have hmem := lastReport_mem i evs h hl
  exact ⟨Nat.le_trans hle (hrep i h hmem), h, hmem⟩

/-- **C68 (the floor never moves back for honest reporters).**  If each ExEx reports non-decreasing
heights, then along every history the floor, once set, is never withdrawn and never decreases. -/
theorem floor_monotone (capacities : List Nat) (evs more : List Ev)
    (hmono : ∀ i : Nat, (reports i (evs ++ more)).Pairwise (· ≤ ·))
    (m : Nat) (hm : ((Router.start capacities).run evs).published = some m) :
    ∃ m' : Nat, ((Router.start capacities).run (evs ++ more)).published = some m' ∧ m ≤ m' := by
  obtain ⟨h1, i0, hi0, _⟩ := (floor_exact capacities evs m).mp hm
  have hord : ∀ i h k : Nat, lastReport i evs = some h → lastReport i (evs ++ more) = some k →
      h ≤ k := by
    intro i h k hh hk
    have hsp : reports i (evs ++ more) = reports i evs ++ reports i more := by
      unfold reports; exact List.filterMap_append
    have hp := hmono i
    unfold lastReport at hh hk
    rw [hsp] at hp hk
    rw [List.getLast?_append] at hk
    cases hr : (reports i more).getLast? with
    | none => rw [hr, Option.none_or, hh] at hk; cases hk; exact Nat.le_refl _
    | some x =>
      rw [hr, Option.some_or] at hk; cases hk
      exact (List.pairwise_append.mp hp).2.2 h (List.mem_of_getLast? hh) k
        (List.mem_of_getLast? hr)
  have hkeep : ∀ (i h : Nat) (p q : List Ev), lastReport i p = some h →
      ∃ k : Nat, lastReport i (p ++ q) = some k := by
    intro i h p q hp
    induction q using List.reverseRecOn with
    | nil => exact ⟨h, by simpa using hp⟩
    | append_singleton q e ih =>
      obtain ⟨k, hk⟩ := ih
      rw [← List.append_assoc, lastReport_snoc]
      cases e with
      | finished j x =>
        by_cases hj : j = i
        · exact ⟨x, by simp [hj]⟩
        · exact ⟨k, by simp [hj, hk]⟩
      | cert b => exact ⟨k, hk⟩
      | output b => exact ⟨k, hk⟩
      | canon c => exact ⟨k, hk⟩
      | recv j => exact ⟨k, hk⟩
      | close j => exact ⟨k, hk⟩
  obtain ⟨e1, e2⟩ := heights_run capacities (evs ++ more)
  have hall : ∀ o ∈ ((Router.start capacities).run (evs ++ more)).heights,
      ∃ h : Nat, o = some h ∧ m ≤ h := by
    intro o ho
    rw [e1] at ho
    obtain ⟨i, hi, rfl⟩ := List.mem_map.mp ho
    obtain ⟨h, hl, hle⟩ := h1 i (List.mem_range.mp hi)
    obtain ⟨k, hk⟩ := hkeep i h evs more hl
    exact ⟨k, hk, Nat.le_trans hle (hord i h k hl hk)⟩
  generalize hl : ((Router.start capacities).run (evs ++ more)).heights = l at hall e1 e2
  have hne : l ≠ [] := by
    intro hnil
    rw [hnil] at e1
    have := congrArg List.length e1
    simp at this; omega
  cases l with
  | nil => exact absurd rfl hne
  | cons o r =>
    obtain ⟨a, rfl, ha⟩ := hall o (by simp)
    obtain ⟨k, hk, hle, hmin, hin⟩ := minHeight_acc r a
      (fun o ho => by obtain ⟨h, hh, _⟩ := hall o (by simp [ho]); exact ⟨h, hh⟩)
    refine ⟨k, ?_, ?_⟩
    · rw [e2, minHeight, hk]; rfl
    · rcases hin with hin | hin
      · omega
      · obtain ⟨x, hx, hx'⟩ := hall (some k) (by simp [hin])
        cases hx; exact hx'

/-! ### Examples -/

/-- Two ExExes: no floor until both have reported, then the smaller of the latest reports. -/
example : ((Router.start [4, 4]).run [.finished 0 7]).published = none ∧
    ((Router.start [4, 4]).run [.finished 0 7, .finished 1 5, .finished 1 6]).published = some 6 := by
  decide

/-- A slow ExEx (capacity 1, never reads) next to one that keeps up. -/
example :
    (((Router.start [1, 4]).run [.canon (some (1, 2)), .recv 1, .canon (some (3, 3)), .recv 1,
      .canon (some (6, 7)), .recv 1, .recv 1]).handles[1]?).map (·.got) =
    some [.item (.chain 1 2), .item (.chain 3 3), .lagged 2, .item (.chain 6 7)] := by decide

end Verif.Exex
