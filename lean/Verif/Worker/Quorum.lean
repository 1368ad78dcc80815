import Verif.Worker.Fetch
import Verif.Committee.Props
/-
Model of the acceptance of batches: `crates/consensus/worker/src/quorum_waiter.rs` (the acknowledgements a
worker collects for its own batch) and `crates/batch-validator/src/validator.rs` (`validate_batch`).
-/
namespace Verif
namespace Worker
open Exec (Batch)

/-! ## The quorum waiter -/

/-- Outcome of one `report_batch` request: accepted, `RPCError` (explicit rejection), any other error. -/
inductive Report
  | ok
  | rpcError
  | other
deriving DecidableEq, Repr

/-- Outcome of the attempts to deliver the batch to one peer: `Ok`, `WaiterError::Rejected`,
`WaiterError::Network`. -/
inductive Answer
  | ack
  | rejected
  | network
deriving DecidableEq, Repr

/-- `MAX_BATCH_REPORT_ATTEMPTS`, quorum_waiter.rs:16. -/
def maxReports : Nat := 3

/-- `QuorumWaiter::waiter`, quorum_waiter.rs:83-117, with `n` attempts left. -/
def waiter : Nat → List Report → Answer
  | 0, _ => .network
  | _ + 1, [] => .network
  | _ + 1, .ok :: _ => .ack
  | _ + 1, .rpcError :: _ => .rejected
  | n + 1, .other :: rest => waiter n rest

/-- `QuorumWaiterError`, the cases this function produces by itself (a dropped channel is `network` here). -/
inductive QErr
  | quorumRejected
  | antiQuorum
  | timeout
deriving DecidableEq, Repr

/-- The counters of `verify_batch`, quorum_waiter.rs:148-170, and the peers that have not answered. -/
structure QS where
  total : Nat
  available : Nat
  rejected : Nat
  waiting : List AuthorityId
deriving DecidableEq, Repr

/-- `Committee::others_keys_except`, by identifier. -/
def others (c : Committee) (me : AuthorityId) : List AuthorityId :=
  (c.authorities.map (·.id)).filter (fun i => i != me)

/-- Counters at the start, quorum_waiter.rs:143-176. -/
def QS.start (c : Committee) (me : AuthorityId) : QS :=
  { total := 1, available := c.power (others c me), rejected := 0, waiting := others c me }

/-- `max_rejected_stake`, quorum_waiter.rs:178. -/
def maxRejected (c : Committee) (me : AuthorityId) : Nat :=
  (QS.start c me).available + (QS.start c me).total - c.quorumThreshold

/-- The counters after one answer, quorum_waiter.rs:195-231. -/
def QS.answer (c : Committee) (s : QS) (i : AuthorityId) (a : Answer) : QS :=
  let v := c.votingPowerById i
  let s := { s with available := s.available - v, waiting := s.waiting.erase i }
  match a with
  | .ack => { s with total := s.total + v }
  | .rejected => { s with rejected := s.rejected + v }
  | .network => s

/-- The loop of `verify_batch`, quorum_waiter.rs:192-255, over the answers in the order in which they arrive.
No answer left while peers are waiting: the outer timeout ends it. An answer of someone who was not asked, or
asked and answered already, does not exist (there is one channel per peer) and is skipped. -/
def verifyLoop (c : Committee) (maxRej : Nat) : QS → List (AuthorityId × Answer) → Except QErr Unit
  | s, [] => if s.waiting.isEmpty then .error .antiQuorum else .error .timeout
  | s, (i, a) :: rest =>
    if s.waiting.isEmpty then .error .antiQuorum
    else if ! s.waiting.contains i then verifyLoop c maxRej s rest
    else
      let s' := s.answer c i a
      if a = .ack ∧ c.quorumThreshold ≤ s'.total then .ok ()
      else if maxRej < s'.rejected then .error .quorumRejected
      else if s'.total + s'.available < c.quorumThreshold then .error .antiQuorum
      else verifyLoop c maxRej s' rest

/-- `verify_batch`, quorum_waiter.rs:120-270. -/
def verifyBatch (c : Committee) (me : AuthorityId) (answers : List (AuthorityId × Answer)) :
    Except QErr Unit :=
  verifyLoop c (maxRejected c me) (QS.start c me) answers

/-! ### Specification -/

/-- Counters and sets belong together: the other members are divided into those that accepted, rejected,
failed and have not answered. -/
structure QInv (c : Committee) (me : AuthorityId) (evs : List (AuthorityId × Answer)) (s : QS)
    (acked rej failed : List AuthorityId) : Prop where
  perm : (acked ++ rej ++ failed ++ s.waiting).Perm (others c me)
  total : s.total = 1 + acked.length
  available : s.available = s.waiting.length
  rejected : s.rejected = rej.length
  ack : ∀ i ∈ acked, (i, Answer.ack) ∈ evs
  rej : ∀ i ∈ rej, (i, Answer.rejected) ∈ evs
  failed : ∀ i ∈ failed, (i, Answer.network) ∈ evs

theorem others_nodup {c : Committee} (h : c.WF) (me : AuthorityId) : (others c me).Nodup :=
  h.idsNodup.filter _

theorem others_mem {c : Committee} {me i : AuthorityId} : i ∈ others c me ↔ i ∈ c.Members ∧ i ≠ me := by
  simp [others, Committee.Members]

theorem power_members {c : Committee} (l : List AuthorityId) (h : ∀ i ∈ l, i ∈ c.Members) :
    c.power l = l.length := by
  induction l with
  | nil => rfl
  | cons a l ih =>
    have := ih (fun i hi => h i (List.mem_cons_of_mem _ hi))
    simp only [Committee.power, List.map_cons, List.sum_cons, List.length_cons] at this ⊢
    rw [Committee.votingPowerById_eq, if_pos (h a (List.mem_cons_self ..)), this]
    omega

theorem others_length {c : Committee} (h : c.WF) {me : AuthorityId} (hs : me ∈ c.Members) :
    (others c me).length + 1 = c.size := by
  have hm : me ∈ c.authorities.map (·.id) := by simpa [Committee.Members] using hs
  have : (others c me) = (c.authorities.map (·.id)).erase me := by
    rw [List.Nodup.erase_eq_filter h.idsNodup]; rfl
  rw [this, List.length_erase_of_mem hm, List.length_map]
  have : 0 < c.authorities.length := by
    cases hc : c.authorities with
    | nil => rw [hc] at hm; cases hm
    | cons a l => simp
  unfold Committee.size
  omega

theorem QInv.start {c : Committee} (h : c.WF) (me : AuthorityId) (evs : List (AuthorityId × Answer)) :
    QInv c me evs (QS.start c me) [] [] [] :=
  ⟨by simp [QS.start], rfl, power_members _ (fun i hi => (others_mem.mp hi).1), rfl,
    fun _ h => (by cases h), fun _ h => (by cases h), fun _ h => (by cases h)⟩

theorem perm_move {A B w : List Nat} {i : Nat} (h : i ∈ w) : (A ++ [i] ++ B ++ w.erase i).Perm (A ++ B ++ w) := by
  have h1 : (i :: w.erase i).Perm w := (List.perm_cons_erase h).symm
  have h2 : (A ++ [i] ++ B ++ w.erase i).Perm (A ++ B ++ (i :: w.erase i)) := by
    rw [List.append_assoc, List.append_assoc, List.append_assoc]
    refine List.Perm.append_left A ?_
    rw [List.singleton_append]
    exact List.perm_middle.symm
  exact h2.trans (List.Perm.append_left _ h1)

theorem QInv.answer {c : Committee} (hc : c.WF) {me : AuthorityId} {evs : List (AuthorityId × Answer)} {s : QS}
    {acked rej failed : List AuthorityId} (h : QInv c me evs s acked rej failed) {i : AuthorityId} {a : Answer}
    (hi : i ∈ s.waiting) (ha : (i, a) ∈ evs) :
    ∃ acked' rej' failed', QInv c me evs (s.answer c i a) acked' rej' failed' := by
  have hmem : i ∈ others c me := h.perm.subset (List.mem_append.mpr (.inr hi))
  have hv : c.votingPowerById i = 1 := by
    rw [Committee.votingPowerById_eq, if_pos (others_mem.mp hmem).1]
  have hlen : (s.waiting.erase i).length = s.waiting.length - 1 := List.length_erase_of_mem hi
  have happ : ∀ {P : Nat → Prop} {l : List Nat}, (∀ j ∈ l, P j) → P i → ∀ j ∈ l ++ [i], P j := by
    intro P l h1 h2 j hj
    rcases List.mem_append.mp hj with hj | hj
    · exact h1 j hj
    · rw [List.mem_singleton.mp hj]; exact h2
  cases a with
  | ack =>
    refine ⟨acked ++ [i], rej, failed, ?_, ?_, ?_, h.rejected, happ h.ack ha, h.rej, h.failed⟩
    · have := perm_move (A := acked) (B := rej ++ failed) hi
      simp only [QS.answer]
      refine List.Perm.trans ?_ h.perm
      simpa [List.append_assoc] using this
    · simp only [QS.answer, hv, h.total, List.length_append, List.length_singleton]; omega
    · simp only [QS.answer, hv, h.available, hlen]
  | rejected =>
    refine ⟨acked, rej ++ [i], failed, ?_, h.total, ?_, ?_, h.ack, happ h.rej ha, h.failed⟩
    · have := perm_move (A := acked ++ rej) (B := failed) hi
      simp only [QS.answer]
      refine List.Perm.trans ?_ h.perm
      simpa [List.append_assoc] using this
    · simp only [QS.answer, hv, h.available, hlen]
    · simp only [QS.answer, hv, h.rejected, List.length_append, List.length_singleton]
  | network =>
    refine ⟨acked, rej, failed ++ [i], ?_, h.total, ?_, h.rejected, h.ack, h.rej, happ h.failed ha⟩
    · have := perm_move (A := acked ++ rej ++ failed) (B := []) hi
      simp only [QS.answer]
      refine List.Perm.trans ?_ h.perm
      simpa [List.append_assoc] using this
    · simp only [QS.answer, hv, h.available, hlen]

/-- What each result of `verify_batch` says about the answers. -/
def Outcome (c : Committee) (me : AuthorityId) (evs : List (AuthorityId × Answer)) : Except QErr Unit → Prop
  | .ok _ => ∃ acked : List AuthorityId, (me :: acked).Nodup ∧ (∀ i ∈ acked, i ∈ c.Members ∧ (i, Answer.ack) ∈ evs) ∧
      c.reachedQuorum (c.power (me :: acked)) = true
  | .error .quorumRejected => ∃ rej : List AuthorityId, rej.Nodup ∧
      (∀ i ∈ rej, i ∈ c.Members ∧ (i, Answer.rejected) ∈ evs) ∧ c.size < c.quorumThreshold + c.power rej
  | .error .antiQuorum => ∃ no : List AuthorityId, no.Nodup ∧
      (∀ i ∈ no, i ∈ c.Members ∧ ((i, Answer.rejected) ∈ evs ∨ (i, Answer.network) ∈ evs)) ∧
      c.size < c.quorumThreshold + c.power no
  | .error .timeout => ∃ i ∈ c.Members, i ≠ me ∧ ∀ a, (i, a) ∉ evs

theorem QInv.outcome {c : Committee} (hc : c.WF) {me : AuthorityId} (hs : me ∈ c.Members) :
    ∀ (rest : List (AuthorityId × Answer)) (pre : List (AuthorityId × Answer)) (s : QS)
      (acked rej failed : List AuthorityId),
      QInv c me (pre ++ rest) s acked rej failed → s.total < c.quorumThreshold →
      (∀ i ∈ s.waiting, ∀ a, (i, a) ∉ pre) →
      Outcome c me (pre ++ rest) (verifyLoop c (maxRejected c me) s rest) := by
  have hlen := others_length hc hs
  have hnd := others_nodup hc me
  have hstart : (QS.start c me).available = (others c me).length :=
    power_members _ (fun i hi => (others_mem.mp hi).1)
  have hq : c.quorumThreshold ≤ c.size := (Committee.thresholds_exact c hc).2.2
  have hmaxr : maxRejected c me = c.size - c.quorumThreshold := by
    unfold maxRejected
    rw [hstart]
    show (others c me).length + 1 - c.quorumThreshold = _
    omega
  -- facts from the invariant
  have facts : ∀ {evs s acked rej failed}, QInv c me evs s acked rej failed →
      acked.length + rej.length + failed.length + s.waiting.length = (others c me).length ∧
      (acked ++ rej ++ failed ++ s.waiting).Nodup ∧ ∀ i ∈ acked ++ rej ++ failed ++ s.waiting, i ∈ c.Members ∧ i ≠ me := by
    intro evs s acked rej failed h
    refine ⟨?_, h.perm.nodup_iff.mpr hnd, fun i hi => others_mem.mp (h.perm.subset hi)⟩
    have := h.perm.length_eq
    simp only [List.length_append] at this
    omega
  have anti : ∀ {evs s acked rej failed}, QInv c me evs s acked rej failed →
      s.total + s.available < c.quorumThreshold → Outcome c me evs (.error .antiQuorum) := by
    intro evs s acked rej failed h hlt
    obtain ⟨f1, f2, f3⟩ := facts h
    refine ⟨rej ++ failed, ?_, ?_, ?_⟩
    · refine f2.sublist ?_
      rw [List.append_assoc, List.append_assoc]
      refine List.Sublist.trans ?_ (List.sublist_append_right acked _)
      rw [← List.append_assoc]
      exact List.sublist_append_left _ _
    · intro i hi
      refine ⟨(f3 i ?_).1, ?_⟩
      · simp only [List.mem_append] at hi ⊢; tauto
      · rcases List.mem_append.mp hi with hi | hi
        · exact .inl (h.rej i hi)
        · exact .inr (h.failed i hi)
    · rw [power_members _ (fun i hi => (f3 i (by simp only [List.mem_append] at hi ⊢; tauto)).1), List.length_append]
      have := h.total
      have := h.available
      omega
  intro rest
  induction rest with
  | nil =>
    intro pre s acked rej failed h htot hw
    rw [verifyLoop]
    split
    next he =>
      refine anti h ?_
      have := h.available
      rw [isEmpty_nil he] at this
      simp at this
      omega
    next he =>
      cases hwt : s.waiting with
      | nil => rw [hwt] at he; simp at he
      | cons i t =>
        have hi : i ∈ s.waiting := by rw [hwt]; exact List.mem_cons_self ..
        have := (facts h).2.2 i (List.mem_append.mpr (.inr hi))
        refine ⟨i, this.1, this.2, fun a => ?_⟩
        rw [List.append_nil]
        exact hw i hi a
  | cons x rest ih =>
    intro pre s acked rej failed h htot hw
    obtain ⟨i, a⟩ := x
    rw [verifyLoop]
    split
    next he =>
      refine anti h ?_
      have := h.available
      rw [isEmpty_nil he] at this
      simp at this
      omega
    split
    next hni =>
      have hni : i ∉ s.waiting := by simpa using hni
      have := ih (pre ++ [(i, a)]) s acked rej failed (by rw [List.append_assoc]; exact h) htot (by
        intro j hj b hb
        rcases List.mem_append.mp hb with hb | hb
        · exact hw j hj b hb
        · have := (Prod.mk.inj (List.mem_singleton.mp hb)).1
          exact hni (this ▸ hj))
      rw [List.append_assoc] at this
      exact this
    next hi =>
      have hi : i ∈ s.waiting := by simpa using hi
      obtain ⟨acked', rej', failed', h'⟩ := h.answer hc hi
        (show (i, a) ∈ pre ++ (i, a) :: rest from List.mem_append.mpr (.inr (List.mem_cons_self ..)))
      obtain ⟨f1, f2, f3⟩ := facts h'
      have h'tot := h'.total
      have h'rej := h'.rejected
      have hwn : s.waiting.Nodup :=
        (h.perm.nodup_iff.mpr hnd).sublist (List.sublist_append_right _ _)
      dsimp only
      split
      next hok =>
        refine ⟨acked', ?_, ?_, ?_⟩
        · refine List.nodup_cons.mpr ⟨fun hh => (f3 me (by simp [hh])).2 rfl, f2.sublist ?_⟩
          rw [List.append_assoc, List.append_assoc]
          exact List.sublist_append_left _ _
        · intro j hj
          exact ⟨(f3 j (by simp [hj])).1, h'.ack j hj⟩
        · rw [power_members]
          · simp only [Committee.reachedQuorum, decide_eq_true_eq, List.length_cons]
            have := hok.2
            omega
          · intro j hj
            rcases List.mem_cons.mp hj with rfl | hj
            · exact hs
            · exact (f3 j (by simp [hj])).1
      next hno =>
      split
      next hr =>
        refine ⟨rej', ?_, ?_, ?_⟩
        · refine f2.sublist ?_
          rw [List.append_assoc, List.append_assoc]
          refine List.Sublist.trans ?_ (List.sublist_append_right acked' _)
          exact List.sublist_append_left _ _
        · intro j hj
          exact ⟨(f3 j (by simp [hj])).1, h'.rej j hj⟩
        · rw [power_members _ (fun j hj => (f3 j (by simp [hj])).1)]
          omega
      next hr =>
      split
      next ha => exact anti h' ha
      next ha =>
        have htot' : (s.answer c i a).total < c.quorumThreshold := by
          cases a with
          | ack =>
            have : ¬ c.quorumThreshold ≤ (s.answer c i .ack).total := fun hh => hno ⟨rfl, hh⟩
            omega
          | rejected => exact htot
          | network => exact htot
        have hw' : (s.answer c i a).waiting = s.waiting.erase i := by cases a <;> rfl
        have := ih (pre ++ [(i, a)]) (s.answer c i a) acked' rej' failed'
          (by rw [List.append_assoc]; exact h') htot' (by
            intro j hj b hb
            rw [hw', hwn.mem_erase_iff] at hj
            rcases List.mem_append.mp hb with hb | hb
            · exact hw j hj.2 b hb
            · exact hj.1 (Prod.mk.inj (List.mem_singleton.mp hb)).1)
        rw [List.append_assoc] at this
        exact this

/-- **C44 (a).** What the result of waiting for acknowledgements of a batch means, whatever the peers answer and in
whatever order. Success: the worker and distinct members that accepted the batch together hold a quorum.
`QuorumRejected`: so much power explicitly rejected the batch that the rest of the committee is short of a quorum.
`AntiQuorum`: the same counting those that could not be reached. `Timeout`: some member has not answered. -/
theorem quorum_outcome {c : Committee} (hc : c.WF) {me : AuthorityId} (hs : me ∈ c.Members)
    (evs : List (AuthorityId × Answer)) : Outcome c me evs (verifyBatch c me evs) := by
  have hthr : 1 < c.quorumThreshold := by
    have := hc.two
    unfold Committee.quorumThreshold
    omega
  exact QInv.outcome hc hs evs [] (QS.start c me) [] [] [] (QInv.start hc me _) hthr
    (fun _ _ _ h => by cases h)

/-- **C44 (b).** The converse: when every other member has answered once, the batch is accepted exactly if the
accepting members and the worker hold a quorum. -/
theorem quorum_iff {c : Committee} (hc : c.WF) {me : AuthorityId} (hs : me ∈ c.Members)
    {evs : List (AuthorityId × Answer)} (hev : (evs.map (·.1)).Perm (others c me)) :
    verifyBatch c me evs = .ok () ↔
      c.reachedQuorum (c.power (me :: (evs.filter (fun e => e.2 = .ack)).map (·.1))) = true := by
  have hnd : (evs.map (·.1)).Nodup := hev.nodup_iff.mpr (others_nodup hc me)
  have hfun : ∀ {i a b}, (i, a) ∈ evs → (i, b) ∈ evs → a = b := by
    intro i a b ha hb
    have := List.inj_on_of_nodup_map hnd ha hb rfl
    exact (Prod.mk.inj this).2
  have hmem : ∀ i ∈ evs.map (·.1), i ∈ c.Members ∧ i ≠ me := fun i hi => others_mem.mp (hev.subset hi)
  have hackN : ((evs.filter (fun e => e.2 = .ack)).map (·.1)).Nodup :=
    hnd.sublist (List.Sublist.map _ List.filter_sublist)
  have hpow : c.power (me :: (evs.filter (fun e => e.2 = .ack)).map (·.1)) =
      (evs.filter (fun e => e.2 = .ack)).length + 1 := by
    rw [power_members]
    · simp
    · intro i hi
      rcases List.mem_cons.mp hi with rfl | hi
      · exact hs
      · obtain ⟨e, he, rfl⟩ := List.mem_map.mp hi
        exact (hmem _ (List.mem_map_of_mem (List.mem_filter.mp he).1)).1
  have hout := quorum_outcome hc hs evs
  have hlen := others_length hc hs
  have hevl : evs.length + 1 = c.size := by
    have := hev.length_eq
    rw [List.length_map] at this
    omega
  -- if enough accept, no set of refusals can be large
  have hno : ∀ no : List AuthorityId, no.Nodup →
      (∀ i ∈ no, i ∈ c.Members ∧ ((i, Answer.rejected) ∈ evs ∨ (i, Answer.network) ∈ evs)) →
      c.power no + (evs.filter (fun e => e.2 = .ack)).length + 1 ≤ c.size := by
    intro no hn h
    rw [power_members _ (fun i hi => (h i hi).1)]
    have hsub : ((no ++ (evs.filter (fun e => e.2 = .ack)).map (·.1))).Nodup := by
      rw [List.nodup_append]
      refine ⟨hn, hackN, ?_⟩
      intro i hi j hj hij
      subst hij
      obtain ⟨e, he, hei⟩ := List.mem_map.mp hj
      obtain ⟨h1, h2⟩ := List.mem_filter.mp he
      obtain ⟨k, a⟩ := e
      dsimp only at hei
      subst hei
      have h2 : a = .ack := by simpa using h2
      subst h2
      rcases (h k hi).2 with h3 | h3
      · cases hfun h1 h3
      · cases hfun h1 h3
    have := nodup_len hsub (b := evs.map (·.1)) (by
      intro i hi
      rcases List.mem_append.mp hi with hi | hi
      · rcases (h i hi).2 with h3 | h3
        · exact List.mem_map_of_mem h3
        · exact List.mem_map_of_mem h3
      · obtain ⟨e, he, rfl⟩ := List.mem_map.mp hi
        exact List.mem_map_of_mem (List.mem_filter.mp he).1)
    simp only [List.length_append, List.length_map] at this
    omega
  constructor
  · intro h
    rw [h] at hout
    obtain ⟨acked, h1, h2, h3⟩ := hout
    simp only [Committee.reachedQuorum, decide_eq_true_eq] at h3 ⊢
    rw [hpow]
    rw [power_members _ (by
      intro i hi
      rcases List.mem_cons.mp hi with rfl | hi
      · exact hs
      · exact (h2 i hi).1), List.length_cons] at h3
    have := nodup_len (List.nodup_cons.mp h1).2 (b := (evs.filter (fun e => e.2 = .ack)).map (·.1)) (by
      intro i hi
      exact List.mem_map.mpr ⟨(i, .ack), List.mem_filter.mpr ⟨(h2 i hi).2, by simp⟩, rfl⟩)
    rw [List.length_map] at this
    omega
  · intro h
    simp only [Committee.reachedQuorum, decide_eq_true_eq, hpow] at h
    revert hout
    cases verifyBatch c me evs with
    | ok u => intro _; rfl
    | error e =>
      intro hout
      cases e with
      | quorumRejected =>
        obtain ⟨rej, h1, h2, h3⟩ := hout
        have := hno rej h1 (fun i hi => ⟨(h2 i hi).1, .inl (h2 i hi).2⟩)
        omega
      | antiQuorum =>
        obtain ⟨no, h1, h2, h3⟩ := hout
        have := hno no h1 h2
        omega
      | timeout =>
        obtain ⟨i, h1, h2, h3⟩ := hout
        have hi : i ∈ evs.map (·.1) := hev.symm.subset (others_mem.mpr ⟨h1, h2⟩)
        obtain ⟨e, he, rfl⟩ := List.mem_map.mp hi
        exact absurd he (h3 e.2)

/-- A committee of one never gets a batch accepted: there is no peer to answer, and the loop reports
`AntiQuorum` although the worker's own power is a quorum. (Committees of one are rejected when loaded.) -/
theorem single_member_antiquorum (c : Committee) (me : AuthorityId) (h : others c me = [])
    (evs : List (AuthorityId × Answer)) : verifyBatch c me evs = .error .antiQuorum := by
  unfold verifyBatch
  cases evs with
  | nil => rw [verifyLoop]; simp [QS.start, h]
  | cons e evs => obtain ⟨i, a⟩ := e; rw [verifyLoop]; simp [QS.start, h]

/-- Retries: a peer is counted as accepting only if one of the first three requests was accepted and none before
it was explicitly rejected. -/
theorem waiter_ack (n : Nat) : ∀ (rs : List Report), waiter n rs = .ack ↔
    ∃ k, k < n ∧ rs[k]? = some .ok ∧ ∀ j < k, rs[j]? = some .other := by
  induction n with
  | zero => intro rs; simp [waiter]
  | succ n ih =>
    intro rs
    match rs with
    | [] => simp [waiter]
    | .ok :: rest =>
      simp only [waiter, true_iff]
      exact ⟨0, by omega, rfl, fun j hj => by omega⟩
    | .rpcError :: rest =>
      simp only [waiter]
      constructor
      · intro h; cases h
      · rintro ⟨k, h1, h2, h3⟩
        cases k with
        | zero => cases h2
        | succ k => have := h3 0 (by omega); cases this
    | .other :: rest =>
      simp only [waiter]
      rw [ih]
      constructor
      · rintro ⟨k, h1, h2, h3⟩
        refine ⟨k + 1, by omega, by simpa using h2, fun j hj => ?_⟩
        cases j with
        | zero => rfl
        | succ j => simpa using h3 j (by omega)
      · rintro ⟨k, h1, h2, h3⟩
        cases k with
        | zero => cases h2
        | succ k => exact ⟨k, by omega, by simpa using h2, fun j hj => by simpa using h3 (j + 1) (by omega)⟩

-- non-vacuity: two acknowledgements suffice for the member 10 of `four`, in any order; two rejections end it
example : verifyBatch Committee.four 10 [(30, .rejected), (40, .ack), (20, .ack)] = .ok () := by decide
example : verifyBatch Committee.four 10 [(30, .rejected), (40, .rejected), (20, .ack)] = .error .quorumRejected := by
  decide
example : verifyBatch Committee.four 10 [(30, .network), (40, .rejected), (20, .ack)] = .error .antiQuorum := by
  decide
example : verifyBatch Committee.four 10 [(40, .ack)] = .error .timeout := by decide

/-! ## Batch validation -/

/-- What validation reads of a decoded transaction: EIP-2718 type and gas limit. -/
structure Tx where
  ty : Nat
  gasLimit : Nat
deriving DecidableEq, Repr

/-- `BatchValidationError`. -/
inductive BatchErr
  | invalidDigest
  | invalidWorkerId
  | invalidEpoch
  | emptyBatch
  | tooManyBytes
  | recoverTransaction
  | invalidTxType
  | gasOverflow
  | tooMuchGas
  | invalidBaseFee
deriving DecidableEq, Repr

/-- `BatchValidator`, validator.rs:19-36: the worker's id, the epoch and the base fee of this worker in the
epoch; and the functions it calls: `recover_signed_transaction` and the digest. -/
structure Validator where
  workerId : Nat
  epoch : Epoch
  baseFee : Nat
  decode : List Nat → Option Tx
  digest : Batch → Nat

/-- `max_batch_gas` and `max_batch_size`, types/src/worker/sealed_batch.rs:215-224. -/
def maxBatchGas : Nat := 30000000
def maxBatchSize : Nat := 1000000

/-- `batch_allowlisted_tx_type`, types/src/lib.rs:82-84: legacy (0), EIP-2930 (1), EIP-1559 (2). -/
def allowedType (t : Tx) : Bool := t.ty == 0 || t.ty == 1 || t.ty == 2

/-- `decode_transactions`, validator.rs:144-153. -/
def decodeAll (dec : List Nat → Option Tx) : List (List Nat) → Option (List Tx)
  | [] => some []
  | t :: ts =>
    match dec t, decodeAll dec ts with
    | some x, some xs => some (x :: xs)
    | _, _ => none

/-- The checked sum of the gas limits, validator.rs:168-171. -/
def gasSum : Nat → List Tx → Option Nat
  | acc, [] => some acc
  | acc, t :: ts => if acc + t.gasLimit < 2 ^ 64 then gasSum (acc + t.gasLimit) ts else none

/-- `validate_batch`, validator.rs:42-83. -/
def Validator.validate (v : Validator) (b : Batch) (d : Nat) : Except BatchErr Unit :=
  if d ≠ v.digest b then .error .invalidDigest
  else if b.workerId ≠ v.workerId then .error .invalidWorkerId
  else if b.epoch ≠ v.epoch then .error .invalidEpoch
  else if b.txs.isEmpty then .error .emptyBatch
  else if maxBatchSize < (b.txs.map List.length).sum then .error .tooManyBytes
  else
    match decodeAll v.decode b.txs with
    | none => .error .recoverTransaction
    | some txs =>
      if ! txs.all allowedType then .error .invalidTxType
      else
        match gasSum 0 txs with
        | none => .error .gasOverflow
        | some g =>
          if maxBatchGas < g then .error .tooMuchGas
          else if b.baseFee ≠ v.baseFee then .error .invalidBaseFee
          else .ok ()

/-- What it means for a batch to be acceptable in an epoch. -/
structure Acceptable (v : Validator) (b : Batch) (d : Nat) (txs : List Tx) : Prop where
  digest : d = v.digest b
  worker : b.workerId = v.workerId
  epoch : b.epoch = v.epoch
  nonempty : b.txs ≠ []
  bytes : (b.txs.map List.length).sum ≤ maxBatchSize
  decoded : b.txs.map v.decode = txs.map some
  types : ∀ t ∈ txs, t.ty = 0 ∨ t.ty = 1 ∨ t.ty = 2
  gas : (txs.map (·.gasLimit)).sum ≤ maxBatchGas
  fee : b.baseFee = v.baseFee

theorem decodeAll_iff (dec : List Nat → Option Tx) (l : List (List Nat)) : ∀ txs,
    decodeAll dec l = some txs ↔ l.map dec = txs.map some := by
  induction l with
  | nil => intro txs; cases txs <;> simp [decodeAll]
  | cons t ts ih =>
    intro txs
    rw [decodeAll]
    cases hd : dec t with
    | none => cases txs <;> simp [hd]
    | some x =>
      cases hr : decodeAll dec ts with
      | none =>
        constructor
        · intro h; cases h
        · intro h
          cases txs with
          | nil => simp at h
          | cons y ys =>
            simp only [List.map_cons, hd, List.cons.injEq] at h
            rw [(ih ys).mpr h.2] at hr; cases hr
      | some xs =>
        have h1 := (ih xs).mp hr
        simp only [List.map_cons, hd, Option.some.injEq]
        constructor
        · intro h; subst h; simp [h1]
        · intro h
          cases txs with
          | nil => simp at h
          | cons y ys =>
            simp only [List.map_cons, List.cons.injEq, Option.some.injEq] at h
            have := (ih ys).mpr h.2
            rw [hr] at this
            cases this
            rw [h.1]

theorem gasSum_iff (txs : List Tx) : ∀ acc g, acc < 2 ^ 64 →
    (gasSum acc txs = some g ↔ g = acc + (txs.map (·.gasLimit)).sum ∧ g < 2 ^ 64) := by
  induction txs with
  | nil => intro acc g h; simp [gasSum]; omega
  | cons t ts ih =>
    intro acc g h
    rw [gasSum]
    split
    next hlt =>
      rw [ih _ _ hlt]
      simp only [List.map_cons, List.sum_cons]
      omega
    next hge =>
      simp only [List.map_cons, List.sum_cons]
      constructor
      · intro h; cases h
      · intro h; omega

/-- **C44 (c).** A batch is accepted exactly if it is sealed with its digest, is for this worker and epoch with
the epoch's base fee, has at least one and at most 1,000,000 bytes of transactions, all of which decode, are
legacy, EIP-2930 or EIP-1559, and whose gas limits add up (without wrapping) to at most 30,000,000. -/
theorem validate_iff (v : Validator) (b : Batch) (d : Nat) :
    v.validate b d = .ok () ↔ ∃ txs, Acceptable v b d txs := by
  constructor
  · intro h
    unfold Validator.validate at h
    split at h
    · cases h
    split at h
    · cases h
    split at h
    · cases h
    split at h
    · cases h
    split at h
    · cases h
    next h1 h2 h3 h4 h5 =>
    cases hd : decodeAll v.decode b.txs with
    | none => rw [hd] at h; cases h
    | some txs =>
      rw [hd] at h
      dsimp only at h
      split at h
      · cases h
      next ht =>
      cases hg : gasSum 0 txs with
      | none => rw [hg] at h; cases h
      | some g =>
        rw [hg] at h
        dsimp only at h
        split at h
        · cases h
        split at h
        · cases h
        next h6 h7 =>
        have hg := (gasSum_iff txs 0 g (by omega)).mp hg
        refine ⟨txs, by simpa using h1, by simpa using h2, by simpa using h3, ?_, by omega,
          (decodeAll_iff _ _ _).mp hd, ?_, by omega, by simpa using h7⟩
        · intro he; rw [he] at h4; simp at h4
        · intro t hmem
          simp only [Bool.not_eq_true', Bool.not_eq_false, List.all_eq_true] at ht
          have := ht t hmem
          simp only [allowedType, Bool.or_eq_true, beq_iff_eq] at this
          omega
  · rintro ⟨txs, h⟩
    unfold Validator.validate
    have hne : ¬ b.txs.isEmpty = true := fun he => h.nonempty (isEmpty_nil he)
    rw [if_neg (by simpa using h.digest), if_neg (by simpa using h.worker), if_neg (by simpa using h.epoch),
      if_neg hne, if_neg (by have := h.bytes; omega), (decodeAll_iff _ _ _).mpr h.decoded]
    dsimp only
    have hgas := h.gas
    have hg : gasSum 0 txs = some (txs.map (·.gasLimit)).sum :=
      (gasSum_iff txs 0 _ (by omega)).mpr ⟨by omega, by unfold maxBatchGas at hgas; omega⟩
    rw [hg]
    dsimp only
    rw [if_neg, if_neg (by omega), if_neg (by simpa using h.fee)]
    simp only [Bool.not_eq_true', Bool.not_eq_false, List.all_eq_true]
    intro t ht
    have := h.types t ht
    simp only [allowedType, Bool.or_eq_true, beq_iff_eq]
    omega

/-- Two members with the same worker, epoch, base fee, decoding and digest accept the same batches: the verdict
is a function of these alone. -/
theorem validate_agrees (v w : Validator) (h : v.workerId = w.workerId ∧ v.epoch = w.epoch ∧ v.baseFee = w.baseFee ∧
    v.decode = w.decode ∧ v.digest = w.digest) (b : Batch) (d : Nat) : v.validate b d = w.validate b d := by
  obtain ⟨v1, v2, v3, v4, v5⟩ := v
  obtain ⟨w1, w2, w3, w4, w5⟩ := w
  obtain ⟨rfl, rfl, rfl, rfl, rfl⟩ := h
  rfl

def exValidator : Validator :=
  { workerId := 0, epoch := 3, baseFee := 7, decode := fun l => l.head?.map (fun t => ⟨t, 21000⟩), digest := fun _ => 5 }

example : exValidator.validate { txs := [[2, 1], [0]], epoch := 3 } 5 = .ok () := by decide
example : exValidator.validate { txs := [[2, 1], [3]], epoch := 3 } 5 = .error .invalidTxType := by decide
example : exValidator.validate { txs := [[2, 1], []], epoch := 3 } 5 = .error .recoverTransaction := by decide

end Worker
end Verif
