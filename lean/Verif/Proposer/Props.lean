import Verif.Proposer.Safety
/-
C08: an honest proposer never hands out two headers for one round of one epoch.
C09: batches of own headers that consensus skipped are proposed again; no acknowledged batch is lost.
-/
namespace Verif
namespace Proposer

open Layered

/-! ## C08 -/

/-- Any two headers ever handed to the certifier for one epoch and round are the same header, across any
number of restarts, crashes at any point, and epochs. -/
theorem proposal_once {mb : Nat} {n : Node} (h : Reachable mb n) {a b : Header} (ha : a ∈ n.sent)
    (hb : b ∈ n.sent) (he : a.epoch = b.epoch) (hr : a.round = b.round) : a = b :=
  (reachable_inv h).ok.once a ha b hb he hr

/-- In one run of the proposer the rounds handed out (for the current epoch) never go down. `out` is
newest first. -/
theorem rounds_never_decrease {mb : Nat} {n : Node} (h : Reachable mb n) {r : Run} (hr : n.run = some r) :
    r.out.Pairwise (fun newer older => newer.epoch = n.epoch → older.epoch = n.epoch →
      older.round ≤ newer.round) := by
  refine List.Pairwise.imp ?_ ((reachable_inv h).run r hr).outOrder
  intro a b hab ha hb
  rcases hab ha hb with h1 | ⟨_, h1 | h1⟩
  · omega
  · omega
  · rw [h1]; exact Nat.le_refl _

/-- The round a proposer will propose next is not below any header ever handed out in the epoch (by
this run or an earlier one), and if the round is that of a header handed out, that very header is the one
stored, hence proposed again. -/
theorem next_not_below_sent {mb : Nat} {n : Node} (h : Reachable mb n) {r : Run} (hr : n.run = some r)
    {s : Header} (hs : s ∈ n.sent) (he : s.epoch = n.epoch) :
    s.round ≤ nextRound r ∧ (s.round = nextRound r → n.stored = some s) := by
  have hi := reachable_inv h
  obtain ⟨w, h1, h2⟩ := hi.ok.covered hs he
  have hwm := Guard.get_mem h1
  have hwe : w.epoch = n.epoch := by
    have := hi.ok.stored_epoch h1
    rcases h2 with h2 | h2 <;> omega
  have hb := (hi.run r hr).bound w hwm hwe
  have hle : s.round ≤ w.round := by
    rcases h2 with h2 | ⟨_, h2 | h2⟩
    · omega
    · omega
    · rw [h2]; exact Nat.le_refl _
  refine ⟨by unfold nextRound; omega, fun heq => ?_⟩
  have : s = w := by
    refine Guard.le_eq h2 (by omega) ?_
    unfold nextRound at heq
    omega
  rw [this]; exact h1

/-- The header protecting a sent one survives a crash at any moment: after the restart a header of the
same epoch at the same or a later round is read, and it is the sent header if the round is the same. -/
theorem proposal_survives_crash {mb : Nat} {n : Node} (h : Reachable mb n) {s : Header} (hs : s ∈ n.sent)
    (he : s.epoch = n.epoch) :
    ∃ w, (Guard.db (Guard.db n.disk0 n.evs).disk []).get lastProposedTable lastProposalKey = some w ∧
      w.epoch = s.epoch ∧ (s.round < w.round ∨ w = s) := by
  have hi := (reachable_inv h).ok.crash (e' := n.epoch) (Nat.le_refl _)
  obtain ⟨w, h1, h2⟩ := hi.covered hs he
  have hwe : w.epoch ≤ n.epoch := hi.stored_epoch h1
  refine ⟨w, h1, ?_, ?_⟩
  · rcases h2 with h2 | h2 <;> omega
  · rcases h2 with h2 | ⟨_, h2 | h2⟩
    · omega
    · exact .inl h2
    · exact .inr h2.symm

/-! ## C09: the requeue -/

/-- The digests of a payload. -/
def payloadKeys (h : Header) : List Nat := h.payload.map (·.1)

theorem erase_filter (k : Nat) (m : List (Nat × Header)) (hs : SMap.Sorted m) :
    SMap.erase k m = m.filter (fun p => decide (p.1 ≠ k)) := by
  induction m with
  | nil => rfl
  | cons p m ih =>
    obtain ⟨k', v⟩ := p
    have hs' : SMap.Sorted m := by
      unfold SMap.Sorted at hs ⊢; simp only [List.map_cons, List.pairwise_cons] at hs; exact hs.2
    have hlt : ∀ x ∈ m, k' < x.1 := by
      intro x hx
      unfold SMap.Sorted at hs; simp only [List.map_cons, List.pairwise_cons] at hs
      exact hs.1 x.1 (List.mem_map_of_mem hx)
    have ih := ih hs'
    unfold SMap.erase
    by_cases hk : k = k'
    · subst hk
      have : m.filter (fun p => decide (p.1 ≠ k)) = m := by
        rw [List.filter_eq_self]
        intro x hx
        have := hlt x hx
        exact decide_eq_true (by omega)
      rw [if_pos rfl, List.filter_cons_of_neg (by simp), this]
    · rw [if_neg hk, ih, List.filter_cons_of_pos (by simpa using fun h => hk h.symm)]

theorem sorted_filter (m : List (Nat × Header)) (q : Nat × Header → Bool) (hs : SMap.Sorted m) :
    SMap.Sorted (m.filter q) := by
  unfold SMap.Sorted at hs ⊢
  exact List.Pairwise.sublist (List.Sublist.map _ List.filter_sublist) hs

theorem erase_all (ks : List Nat) : ∀ (m : List (Nat × Header)), SMap.Sorted m →
    ks.foldl (fun m r => SMap.erase r m) m = m.filter (fun p => decide (p.1 ∉ ks)) := by
  induction ks with
  | nil =>
    intro m _
    symm
    simp only [List.foldl_nil]
    rw [List.filter_eq_self]
    intro x _
    exact decide_eq_true (by simp)
  | cons k ks ih =>
    intro m hs
    have hse : SMap.Sorted (SMap.erase k m) := by rw [erase_filter k m hs]; exact sorted_filter _ _ hs
    show ks.foldl _ (SMap.erase k m) = _
    rw [ih _ hse, erase_filter k m hs, List.filter_filter]
    congr 1
    funext p
    simp only [List.mem_cons, not_or, ne_eq]
    by_cases h1 : p.1 = k <;> by_cases h2 : p.1 ∈ ks <;> simp [h1, h2]

theorem takeWhile_filter (b : Nat) (m : List (Nat × Header)) (hs : SMap.Sorted m) :
    m.takeWhile (fun p => decide (p.1 ≤ b)) = m.filter (fun p => decide (p.1 ≤ b)) := by
  induction m with
  | nil => rfl
  | cons p m ih =>
    have hs' : SMap.Sorted m := by
      unfold SMap.Sorted at hs ⊢; simp only [List.map_cons, List.pairwise_cons] at hs; exact hs.2
    have hlt : ∀ x ∈ m, p.1 < x.1 := by
      intro x hx
      unfold SMap.Sorted at hs; simp only [List.map_cons, List.pairwise_cons] at hs
      exact hs.1 x.1 (List.mem_map_of_mem hx)
    by_cases hp : p.1 ≤ b
    · rw [List.takeWhile_cons_of_pos (by simpa using hp), List.filter_cons_of_pos (by simpa using hp), ih hs']
    · rw [List.takeWhile_cons_of_neg (by simpa using hp), List.filter_cons_of_neg (by simpa using hp)]
      symm
      rw [List.filter_eq_nil_iff]
      intro x hx
      have := hlt x hx
      simp; omega

/-- The highest committed round. -/
def maxRound (rounds : List Round) : Round := rounds.foldl max 0

theorem le_maxRound_aux (l : List Nat) : ∀ a, a ≤ l.foldl max a ∧ ∀ x ∈ l, x ≤ l.foldl max a := by
  induction l with
  | nil => intro a; exact ⟨Nat.le_refl _, fun x hx => by cases hx⟩
  | cons y l ih =>
    intro a
    obtain ⟨h1, h2⟩ := ih (max a y)
    refine ⟨by simp only [List.foldl_cons]; omega, ?_⟩
    intro x hx
    simp only [List.foldl_cons]
    rcases List.mem_cons.mp hx with rfl | hx
    · omega
    · exact h2 x hx

theorem le_maxRound {rounds : List Round} {x : Round} (h : x ∈ rounds) : x ≤ maxRound rounds :=
  (le_maxRound_aux rounds 0).2 x h

theorem maxRound_mem {rounds : List Round} (h : maxRound rounds ≠ 0) : maxRound rounds ∈ rounds := by
  have : ∀ (l : List Nat) a, l.foldl max a = a ∨ l.foldl max a ∈ l := by
    intro l
    induction l with
    | nil => intro a; exact .inl rfl
    | cons y l ih =>
      intro a
      simp only [List.foldl_cons]
      rcases ih (max a y) with h | h
      · rw [h]
        by_cases hay : a ≤ y
        · exact .inr (by rw [Nat.max_eq_right hay]; exact List.mem_cons_self ..)
        · exact .inl (Nat.max_eq_left (by omega))
      · exact .inr (List.mem_cons_of_mem _ h)
  rcases this rounds 0 with h' | h'
  · exact absurd h' h
  · exact h'

/-- The outstanding headers that have no hope any more: not committed, and not above the highest committed
own round. -/
def skipped (proposed : List (Round × Header)) (rounds : List Round) : List (Round × Header) :=
  proposed.filter (fun p => decide (p.1 ∉ rounds ∧ p.1 ≤ maxRound rounds))

/-- Exactly what a commit report does: the digests of the skipped headers are put before the
waiting ones, oldest header first and in the order they had in the header; exactly the headers above the
highest committed own round stay outstanding; nothing else changes. -/
theorem requeue_exact (r : Run) (rounds : List Round) (hs : SMap.Sorted r.proposed) :
    (processCommitted r rounds).digests =
      (skipped r.proposed rounds).flatMap (fun p => p.2.payload) ++ r.digests ∧
    (processCommitted r rounds).proposed = r.proposed.filter (fun p => decide (maxRound rounds < p.1)) ∧
    (processCommitted r rounds).task = r.task ∧ (processCommitted r rounds).round = r.round ∧
    (processCommitted r rounds).parents = r.parents := by
  have hleft : removeCommitted r.proposed rounds = r.proposed.filter (fun p => decide (p.1 ∉ rounds)) :=
    erase_all rounds r.proposed hs
  have hsl : SMap.Sorted (removeCommitted r.proposed rounds) := by
    rw [hleft]; exact sorted_filter _ _ hs
  have hre : (removeCommitted r.proposed rounds).takeWhile (fun p => decide (p.1 ≤ rounds.foldl max 0)) =
      skipped r.proposed rounds := by
    rw [takeWhile_filter _ _ hsl, hleft, List.filter_filter]
    unfold skipped maxRound
    congr 1
    funext p
    by_cases h1 : p.1 ∈ rounds <;> by_cases h2 : p.1 ≤ rounds.foldl max 0 <;> simp [h1, h2]
  have hkeep : ∀ p : Round × Header, maxRound rounds < p.1 → p.1 ∉ rounds := by
    intro p hp hm
    have := le_maxRound hm
    omega
  unfold processCommitted
  dsimp only
  split
  · rename_i hnil
    rw [hre] at hnil
    refine ⟨by rw [hnil]; rfl, ?_, rfl, rfl, rfl⟩
    show removeCommitted r.proposed rounds = _
    rw [hleft]
    apply List.filter_congr
    intro p hp
    rw [decide_eq_decide]
    constructor
    · intro h1
      by_contra h2
      have : p ∈ skipped r.proposed rounds := by
        unfold skipped; rw [List.mem_filter]; exact ⟨hp, decide_eq_true ⟨h1, by omega⟩⟩
      rw [hnil] at this; cases this
    · exact hkeep p
  · refine ⟨by rw [hre], ?_, rfl, rfl, rfl⟩
    show List.foldl _ (removeCommitted r.proposed rounds) _ = _
    rw [hre]
    have : (skipped r.proposed rounds).foldl (fun m p => SMap.erase p.1 m) (removeCommitted r.proposed rounds)
        = ((skipped r.proposed rounds).map (·.1)).foldl (fun m k => SMap.erase k m)
          (removeCommitted r.proposed rounds) := by
      rw [List.foldl_map]
    rw [this, erase_all _ _ hsl, hleft, List.filter_filter]
    apply List.filter_congr
    intro p hp
    rw [Bool.and_eq_decide, decide_eq_decide]
    simp only [decide_eq_true_eq]
    constructor
    · rintro ⟨h1, h2⟩
      by_contra h3
      refine h1 (List.mem_map.mpr ⟨p, ?_, rfl⟩)
      unfold skipped; rw [List.mem_filter]; exact ⟨hp, decide_eq_true ⟨h2, by omega⟩⟩
    · intro h1
      refine ⟨?_, hkeep p h1⟩
      intro hm
      obtain ⟨q, hq, hqe⟩ := List.mem_map.mp hm
      unfold skipped at hq; rw [List.mem_filter] at hq
      have := (of_decide_eq_true hq.2).2
      omega

/-- A committed round takes its header off the outstanding ones, and only that. -/
theorem committed_counted (r : Run) (rounds : List Round) (p : Round × Header) (hp : p ∈ r.proposed)
    (hr : p.1 ∈ rounds) (d : Nat) (hd : d ∈ payloadKeys p.2) :
    d ∈ (processCommitted r rounds).committed := by
  have : (processCommitted r rounds).committed = r.committed ++
      (r.proposed.filter (fun p => decide (p.1 ∈ rounds))).flatMap (fun p => p.2.payload.map (·.1)) := by
    unfold processCommitted; dsimp only; split <;> rfl
  rw [this]
  refine List.mem_append_right _ (List.mem_flatMap.mpr ⟨p, ?_, hd⟩)
  exact List.mem_filter.mpr ⟨hp, decide_eq_true hr⟩

/-! ## C09: nothing acknowledged is lost -/

theorem imInsert_keys (m : List (Nat × Nat)) (p : Nat × Nat) (d : Nat) :
    d ∈ (imInsert m p).map (·.1) ↔ d = p.1 ∨ d ∈ m.map (·.1) := by
  have hmap : (m.map (fun q => if q.1 = p.1 then (q.1, p.2) else q)).map (·.1) = m.map (·.1) := by
    rw [List.map_map]
    apply List.map_congr_left
    intro q _
    simp only [Function.comp]
    split <;> rfl
  unfold imInsert
  split
  · rename_i h
    rw [hmap]
    constructor
    · exact .inr
    · rintro (rfl | h')
      · exact h
      · exact h'
  · simp only [List.map_append, List.mem_append, List.map_cons, List.map_nil, List.mem_singleton]
    exact Or.comm

theorem indexMap_keys (l : List (Nat × Nat)) (d : Nat) :
    d ∈ (indexMap l).map (·.1) ↔ d ∈ l.map (·.1) := by
  have : ∀ (l m : List (Nat × Nat)), d ∈ (l.foldl imInsert m).map (·.1) ↔
      d ∈ l.map (·.1) ∨ d ∈ m.map (·.1) := by
    intro l
    induction l with
    | nil => intro m; simp
    | cons p l ih =>
      intro m
      simp only [List.foldl_cons]
      rw [ih, imInsert_keys]
      simp only [List.map_cons, List.mem_cons]
      tauto
  have := this l []
  unfold indexMap
  rw [this]; simp

/-- Where an acknowledged digest can be: waiting, in the header being proposed, in an outstanding header
of the epoch, or in a committed header. -/
def Kept (e : Epoch) (r : Run) (d : Nat) : Prop :=
  d ∈ r.digests.map (·.1) ∨
  (∃ t, r.task = some t ∧ t.header.epoch = e ∧ d ∈ payloadKeys t.header) ∨
  (∃ p ∈ r.proposed, p.2.epoch = e ∧ d ∈ payloadKeys p.2) ∨
  d ∈ r.committed

/-- Facts about the outstanding headers needed for conservation. -/
structure RunOk2 (n : Node) (r : Run) : Prop where
  sorted : SMap.Sorted r.proposed
  keys : ∀ p ∈ r.proposed, p.2.round = p.1
  recorded : ∀ p ∈ r.proposed, p.2 ∈ recsOf n
  taskRec : ∀ h, r.task = some (.done h) → Top n h
  kept : ∀ d ∈ r.acked, Kept n.epoch r d

theorem Kept.task_congr {e : Epoch} {r r' : Run} {d : Nat} (hk : Kept e r d) (h1 : r'.digests = r.digests)
    (h2 : ∀ t, r.task = some t → ∃ t', r'.task = some t' ∧ t'.header = t.header)
    (h3 : r'.proposed = r.proposed) (h4 : r'.committed = r.committed) : Kept e r' d := by
  rcases hk with h | ⟨t, ht, he, hd⟩ | h | h
  · exact .inl (by rw [h1]; exact h)
  · obtain ⟨t', ht', hh⟩ := h2 t ht
    exact .inr (.inl ⟨t', ht', by rw [hh]; exact he, by rw [hh]; exact hd⟩)
  · exact .inr (.inr (.inl (by rw [h3]; exact h)))
  · exact .inr (.inr (.inr (by rw [h4]; exact h)))

theorem step_inv2 {mb : Nat} {n n' : Node} {a : Act} (hi : Inv n)
    (hk : ∀ r, n.run = some r → RunOk2 n r) (hs : Step mb n a n') :
    ∀ r, n'.run = some r → RunOk2 n' r := by
  cases hs with
  | start readOk pr genesis hr =>
    intro r hr'
    cases hr'
    refine ⟨SMap.sorted_nil, ?_, ?_, ?_, ?_⟩
    · intro p hp; cases hp
    · intro p hp; cases hp
    · intro h hh; cases hh
    · intro d hd; cases hd
  | digest r d hr =>
    intro r' hr'
    cases hr'
    have h := hk r hr
    refine ⟨h.sorted, h.keys, h.recorded, h.taskRec, ?_⟩
    intro x hx
    rcases List.mem_cons.mp hx with rfl | hx
    · exact .inl (by simp)
    · rcases h.kept x hx with h1 | h1
      · refine .inl ?_
        show x ∈ (r.digests ++ [d]).map (·.1)
        rw [List.map_append]; exact List.mem_append_left _ h1
      · exact .inr h1
  | parents r ps round hr =>
    intro r' hr'
    cases hr'
    have h := hk r hr
    have hsame : (processParents r ps round).task = r.task ∧ (processParents r ps round).proposed = r.proposed ∧
        (processParents r ps round).digests = r.digests ∧ (processParents r ps round).acked = r.acked ∧
        (processParents r ps round).committed = r.committed := by
      unfold processParents; split
      · exact ⟨rfl, rfl, rfl, rfl, rfl⟩
      · split <;> exact ⟨rfl, rfl, rfl, rfl, rfl⟩
    obtain ⟨h1, h2, h3, h4, h5⟩ := hsame
    refine ⟨by rw [h2]; exact h.sorted, by rw [h2]; exact h.keys, by rw [h2]; exact h.recorded,
      by rw [h1]; exact h.taskRec, ?_⟩
    rw [h4]
    intro d hd
    exact (h.kept d hd).task_congr h3 (fun t ht => ⟨t, by rw [h1]; exact ht, rfl⟩) h2 h5
  | committed r rounds hr =>
    intro r' hr'
    cases hr'
    have h := hk r hr
    obtain ⟨h1, h2, h3, _, _⟩ := requeue_exact r rounds h.sorted
    have hack : (processCommitted r rounds).acked = r.acked := by
      unfold processCommitted; dsimp only; split <;> rfl
    have hcom : ∀ d ∈ r.committed, d ∈ (processCommitted r rounds).committed := by
      intro d hd
      unfold processCommitted; dsimp only; split <;> exact List.mem_append_left _ hd
    refine ⟨by rw [h2]; exact sorted_filter _ _ h.sorted, ?_, ?_, by rw [h3]; exact h.taskRec, ?_⟩
    · intro p hp; rw [h2] at hp; exact h.keys p (List.mem_filter.mp hp).1
    · intro p hp; rw [h2] at hp; exact h.recorded p (List.mem_filter.mp hp).1
    · rw [hack]
      intro d hd
      rcases h.kept d hd with h4 | ⟨t, ht, he, hd'⟩ | ⟨p, hp, he, hd'⟩ | h4
      · refine .inl ?_
        rw [h1, List.map_append]; exact List.mem_append_right _ h4
      · exact .inr (.inl ⟨t, by rw [h3]; exact ht, he, hd'⟩)
      · by_cases hc : p.1 ∈ rounds
        · exact .inr (.inr (.inr (committed_counted r rounds p hp hc d hd')))
        · by_cases hm : maxRound rounds < p.1
          · refine .inr (.inr (.inl ⟨p, ?_, he, hd'⟩))
            rw [h2]; exact List.mem_filter.mpr ⟨hp, decide_eq_true hm⟩
          · refine .inl ?_
            rw [h1, List.map_append]
            refine List.mem_append_left _ ?_
            obtain ⟨x, hx, hxd⟩ := List.mem_map.mp hd'
            refine List.mem_map.mpr ⟨x, List.mem_flatMap.mpr ⟨p, ?_, hx⟩, hxd⟩
            exact List.mem_filter.mpr ⟨hp, decide_eq_true ⟨hc, by omega⟩⟩
      · exact .inr (.inr (.inr (hcom d h4)))
  | reuse r h hr ht hp hst hround he =>
    intro r' hr'
    cases hr'
    have hh := hk r hr
    refine ⟨hh.sorted, hh.keys, hh.recorded, fun h' h'' => (by cases h''), ?_⟩
    intro d hd
    exact (hh.kept d hd).task_congr rfl (fun t ht' => by rw [ht] at ht'; cases ht') rfl rfl
  | fresh r h hr ht hp hst hround he hau hpay hpar =>
    intro r' hr'
    cases hr'
    have hh := hk r hr
    refine ⟨hh.sorted, hh.keys, hh.recorded, fun h' h'' => (by cases h''), ?_⟩
    intro d hd
    rcases hh.kept d hd with h4 | ⟨t, ht', _⟩ | h4 | h4
    · rw [← List.take_append_drop mb r.digests, List.map_append, List.mem_append] at h4
      rcases h4 with h4 | h4
      · refine .inr (.inl ⟨_, rfl, he, ?_⟩)
        show d ∈ h.payload.map (·.1)
        rw [hpay, indexMap_keys]; exact h4
      · exact .inl h4
    · rw [ht] at ht'; cases ht'
    · exact .inr (.inr (.inl h4))
    · exact .inr (.inr (.inr h4))
  | again r h hr ht hst =>
    intro r' hr'
    cases hr'
    have hh := hk r hr
    refine ⟨hh.sorted, hh.keys, hh.recorded, fun h' h'' => (by cases h''), ?_⟩
    intro d hd
    exact (hh.kept d hd).task_congr rfl (fun t ht' => by rw [ht] at ht'; cases ht') rfl rfl
  | store r h hr ht hsup =>
    intro r' hr'
    cases hr'
    have hh := hk r hr
    refine ⟨hh.sorted, hh.keys, ?_, fun h' h'' => (by cases h''), ?_⟩
    · intro p hp
      have := hh.recorded p hp
      show p.2 ∈ Guard.recs _ _ _ (written _)
      rw [written_append, Guard.recs_append]
      exact List.mem_append_left _ this
    · intro d hd
      exact (hh.kept d hd).task_congr rfl
        (fun t ht' => by rw [ht] at ht'; cases ht'; exact ⟨_, rfl, rfl⟩) rfl rfl
  | skipStore r h hr ht hsup =>
    intro r' hr'
    cases hr'
    have hh := hk r hr
    refine ⟨hh.sorted, hh.keys, hh.recorded, fun h' h'' => (by cases h''), ?_⟩
    intro d hd
    exact (hh.kept d hd).task_congr rfl
      (fun t ht' => by rw [ht] at ht'; cases ht'; exact ⟨_, rfl, rfl⟩) rfl rfl
  | persisted r h b hr ht hack =>
    intro r' hr'
    cases hr'
    have hh := hk r hr
    refine ⟨hh.sorted, hh.keys, hh.recorded, fun h' h'' => (by cases h''), ?_⟩
    intro d hd
    exact (hh.kept d hd).task_congr rfl
      (fun t ht' => by rw [ht] at ht'; cases ht'; exact ⟨_, rfl, rfl⟩) rfl rfl
  | send r h hr ht =>
    intro r' hr'
    cases hr'
    have hh := hk r hr
    have htop := ((hi.run r hr).task _ ht).1
    refine ⟨hh.sorted, hh.keys, hh.recorded, fun h' h'' => (by cases h''; exact htop), ?_⟩
    intro d hd
    exact (hh.kept d hd).task_congr rfl
      (fun t ht' => by rw [ht] at ht'; cases ht'; exact ⟨_, rfl, rfl⟩) rfl rfl
  | result r h hr ht =>
    intro r' hr'
    cases hr'
    have hh := hk r hr
    have htop := hh.taskRec h ht
    refine ⟨SMap.sorted_insert hh.sorted, ?_, ?_, fun h' h'' => (by cases h''), ?_⟩
    · rintro ⟨x, w⟩ hp
      rcases (SMap.mem_insert hh.sorted).mp hp with ⟨h1, h2⟩ | ⟨_, h2⟩
      · show w.round = x; rw [h1, h2]
      · exact hh.keys _ h2
    · rintro ⟨x, w⟩ hp
      rcases (SMap.mem_insert hh.sorted).mp hp with ⟨h1, h2⟩ | ⟨_, h2⟩
      · show w ∈ recsOf n; rw [h2]; exact htop.1
      · exact hh.recorded _ h2
    · intro d hd
      have hnew : (h.round, h) ∈ SMap.insert h.round h r.proposed :=
        (SMap.mem_insert hh.sorted).mpr (.inl ⟨rfl, rfl⟩)
      rcases hh.kept d hd with h4 | ⟨t, ht', he, hd'⟩ | ⟨p, hp, he, hd'⟩ | h4
      · exact .inl h4
      · rw [ht] at ht'; cases ht'
        exact .inr (.inr (.inl ⟨(h.round, h), hnew, he, hd'⟩))
      · obtain ⟨x, w⟩ := p
        by_cases hx : x = h.round
        · have hwr : w.round = x := hh.keys _ hp
          have hwm : w ∈ recsOf n := hh.recorded _ hp
          have hwe : w.epoch = n.epoch := he
          have : w = h := by
            rcases htop.2 w hwm hwe with h5 | ⟨h5, h6 | h6⟩
            · have := hi.ok.hist.epochs h htop.1
              omega
            · omega
            · exact h6
          exact .inr (.inr (.inl ⟨(h.round, h), hnew, by rw [← this]; exact he, by rw [← this]; exact hd'⟩))
        · exact .inr (.inr (.inl ⟨(x, w), (SMap.mem_insert hh.sorted).mpr (.inr ⟨hx, hp⟩), he, hd'⟩))
      · exact .inr (.inr (.inr h4))
  | stop => intro r hr; cases hr
  | env x hx =>
    intro r hr
    have hh := hk r hr
    have hrec : recsOf { n with evs := n.evs ++ [x] } = recsOf n := Guard.recs_foreign hx _ _
    exact ⟨hh.sorted, hh.keys, fun p hp => by rw [hrec]; exact hh.recorded p hp,
      fun h h' => (hh.taskRec h h').congr hrec rfl, hh.kept⟩
  | nextEpoch e he => intro r hr; cases hr
  | crash e he => intro r hr; cases hr

theorem reachable_inv2 {mb : Nat} {n : Node} (h : Reachable mb n) :
    ∀ r, n.run = some r → RunOk2 n r := by
  induction h with
  | init self e => intro r hr; cases hr
  | step hp ha hs ih => exact step_inv2 (reachable_inv hp) ih hs

/-- No batch digest whose receipt a running proposer acknowledged is lost while it runs: it is waiting,
or in the header being proposed, or in an outstanding header, or in a header reported committed. -/
theorem acked_never_lost {mb : Nat} {n : Node} (h : Reachable mb n) {r : Run} (hr : n.run = some r)
    {d : Nat} (hd : d ∈ r.acked) :
    d ∈ r.digests.map (·.1) ∨
    (∃ t, r.task = some t ∧ d ∈ t.header.payload.map (·.1)) ∨
    (∃ p ∈ r.proposed, d ∈ p.2.payload.map (·.1)) ∨
    d ∈ r.committed := by
  rcases (reachable_inv2 h r hr).kept d hd with h1 | ⟨t, h1, _, h2⟩ | ⟨p, h1, _, h2⟩ | h1
  · exact .inl h1
  · exact .inr (.inl ⟨t, h1, h2⟩)
  · exact .inr (.inr (.inl ⟨p, h1, h2⟩))
  · exact .inr (.inr (.inr h1))

/-- The precondition of `requeue_exact` holds in every reachable state: outstanding headers are kept by
ascending round. -/
theorem outstanding_sorted {mb : Nat} {n : Node} (h : Reachable mb n) {r : Run} (hr : n.run = some r) :
    SMap.Sorted r.proposed ∧ ∀ p ∈ r.proposed, p.2.round = p.1 :=
  ⟨(reachable_inv2 h r hr).sorted, (reachable_inv2 h r hr).keys⟩

end Proposer
end Verif
