import Verif.Voting.Safety
import Verif.Storage.LayeredReads
import Verif.Committee.Props
/-
Voting: what every vote that leaves a node satisfies (C06, C07).
-/
namespace Verif
namespace Voting

open Layered

/-! ### Specification of a checked header -/

/-- Specification: what a header must satisfy for a vote, given what the node saw (`ctx`). -/
structure Checked (c : Committee) (ctx : Ctx) (h : Header) : Prop where
  epoch : h.epoch = c.epoch
  author : h.author ∈ c.Members
  parentsBound : h.parents.length ≤ c.size
  payloadBound : h.payload.length ≤ 10
  workers : ∀ p ∈ h.payload, p.2 = 0
  roundPos : 1 ≤ h.round
  roundBound : h.round ≤ ctx.committedRound + ctx.gcDepth
  sentBound : ctx.numSent ≤ c.size
  seed : ctx.seedOk = true
  execution : ctx.execOk = true
  /-- the certificates looked at are exactly the header's parents … -/
  parentsFound : ctx.parents.map (·.digest) = h.parents
  /-- … of this epoch, the round before, and not younger … -/
  parentsPrevious : ∀ p ∈ ctx.parents,
    p.epoch = h.epoch ∧ p.round + 1 = h.round ∧ p.createdAt ≤ h.createdAt
  /-- … by distinct authors … -/
  parentsDistinct : (ctx.parents.map (·.author)).Nodup
  /-- … that together form a quorum. -/
  parentsQuorum : c.reachedQuorum (c.power (ctx.parents.map (·.author))) = true
  batches : ctx.batchesOk = true
  time : h.createdAt ≤ ctx.now + ctx.drift

theorem checkParents_iff {c : Committee} {h : Header} {ps : List Header} {seen : List Nat}
    {k s : Nat} : checkParents c h ps seen k = some s ↔
    (∀ p ∈ ps, p.epoch = h.epoch ∧ p.round + 1 = h.round ∧ p.createdAt ≤ h.createdAt) ∧
    (ps.map (·.author)).Nodup ∧ (∀ p ∈ ps, p.author ∉ seen) ∧
    s = k + c.power (ps.map (·.author)) := by
  induction ps generalizing seen k with
  | nil => simp [checkParents, Committee.power, eq_comm]
  | cons p ps ih =>
    unfold checkParents
    by_cases h1 : p.epoch = h.epoch
    · by_cases h2 : p.round + 1 = h.round
      · by_cases h3 : h.createdAt < p.createdAt
        · simp [h1, h2, h3]
        · by_cases h4 : p.author ∈ seen
          · simp [h1, h2, h3, h4]
          · simp only [h1, h2, h3, h4, ne_eq, not_true_eq_false, if_false, ih, List.mem_cons, not_or,
              List.map_cons, List.nodup_cons, List.mem_map, Committee.power, List.sum_cons,
              forall_eq_or_imp, not_exists, not_and]
            constructor
            · rintro ⟨a, b, cc, d⟩
              exact ⟨⟨⟨trivial, trivial, by omega⟩, a⟩, ⟨fun x hx he => (cc x hx).1 he, b⟩,
                ⟨not_false, fun x hx => (cc x hx).2⟩, by omega⟩
            · rintro ⟨⟨-, a⟩, ⟨e, b⟩, ⟨-, cc⟩, d⟩
              exact ⟨a, b, fun x hx => ⟨fun he => e x hx he, cc x hx⟩, by omega⟩
      · simp [h1, h2]
    · simp [h1]

/-- C07 (a): the checks the node makes are exactly the specification. -/
theorem checks_exact (c : Committee) (ctx : Ctx) (h : Header) :
    innerChecks c ctx h = true ↔ Checked c ctx h := by
  have hval : h.validate c = .ok () ↔ h.epoch = c.epoch ∧ h.parents.length ≤ c.size ∧
      h.payload.length ≤ 10 ∧ h.author ∈ c.Members ∧ ∀ p ∈ h.payload, p.2 = 0 := by
    have hm : ((c.authority h.author).isNone = true) ↔ h.author ∉ c.Members := by
      rw [← Committee.authority_eq_none, Option.isNone_iff_eq_none]
    unfold Header.validate maxHeaderNumOfBatches
    by_cases h1 : h.epoch = c.epoch
    · by_cases h2 : c.size < h.parents.length
      · simp [h1, h2]
      · by_cases h3 : 10 < h.payload.length
        · simp [h1, h2, h3]
        · by_cases h4 : h.author ∈ c.Members
          · have h4' : (c.authority h.author).isNone = false := by
              cases hn : (c.authority h.author).isNone
              · rfl
              · exact absurd h4 (hm.mp hn)
            rw [if_neg (by simpa using h1), if_neg h2, if_neg h3, if_neg (by simp [h4'])]
            by_cases h5 : h.payload.any (fun p => decide (1 ≤ p.2)) = true
            · rw [if_pos h5]
              rw [List.any_eq_true] at h5
              obtain ⟨x, hx, hx1⟩ := h5
              have hx1 : 1 ≤ x.2 := by simpa using hx1
              constructor
              · intro hh; cases hh
              · rintro ⟨-, -, -, -, hw⟩
                have := hw x hx
                omega
            · rw [if_neg h5]
              rw [List.any_eq_true] at h5
              refine ⟨fun _ => ⟨h1, by omega, by omega, h4, fun p hp => ?_⟩, fun _ => rfl⟩
              by_contra hne
              exact h5 ⟨p, hp, by simp; omega⟩
          · rw [if_neg (by simpa using h1), if_neg h2, if_neg h3, if_pos (hm.mpr h4)]
            simp [h4]
    · simp [h1]
  have hrest : innerChecks c ctx h = true ↔ h.validate c = .ok () ∧ h.round ≠ 0 ∧
      ¬ ctx.committedRound + ctx.gcDepth < h.round ∧ ¬ c.size < ctx.numSent ∧ ctx.seedOk = true ∧
      ctx.execOk = true ∧ ctx.parents.map (·.digest) = h.parents ∧
      (∃ s, checkParents c h ctx.parents [] 0 = some s ∧ ¬ s < c.quorumThreshold) ∧
      ctx.batchesOk = true ∧ ¬ (ctx.now < h.createdAt ∧ ctx.drift < h.createdAt - ctx.now) := by
    unfold innerChecks
    cases hv : h.validate c with
    | error e => simp
    | ok u =>
      dsimp only
      by_cases h1 : h.round = 0
      · simp [h1]
      rw [if_neg h1]
      by_cases h2 : ctx.committedRound + ctx.gcDepth < h.round
      · simp [h2]
      rw [if_neg h2]
      by_cases h3 : c.size < ctx.numSent
      · simp [h3]
      rw [if_neg h3]
      by_cases h4 : ctx.seedOk = true
      · by_cases h5 : ctx.execOk = true
        · by_cases h6 : ctx.parents.map (·.digest) = h.parents
          · simp only [h4, h5, h6, Bool.not_true, Bool.false_eq_true, if_false, ne_eq,
              not_true_eq_false]
            cases hc : checkParents c h ctx.parents [] 0 with
            | none => simp
            | some s =>
              dsimp only
              by_cases h7 : s < c.quorumThreshold
              · simp [h7]
              · rw [if_neg h7]
                by_cases h8 : ctx.batchesOk = true
                · by_cases h9 : ctx.now < h.createdAt ∧ ctx.drift < h.createdAt - ctx.now
                  · rw [h8, if_pos h9]; simp [h9]
                  · rw [h8, if_neg h9]
                    simp only [Bool.not_true, Bool.false_eq_true, if_false, true_iff]
                    exact ⟨trivial, h1, h2, h3, trivial, trivial, trivial, ⟨s, rfl, h7⟩, trivial, h9⟩
                · simp [h8]
          · simp [h4, h5, h6]
        · simp [h4, h5]
      · simp [h4]
  rw [hrest, hval]
  constructor
  · rintro ⟨⟨a1, a2, a3, a4, a5⟩, b1, b2, b3, b4, b5, b6, ⟨s, b7, b8⟩, b9, b10⟩
    obtain ⟨p1, p2, -, p4⟩ := checkParents_iff.mp b7
    exact { epoch := a1, author := a4, parentsBound := a2, payloadBound := a3, workers := a5,
            roundPos := by omega, roundBound := by omega, sentBound := by omega, seed := b4,
            execution := b5, parentsFound := b6, parentsPrevious := p1, parentsDistinct := p2,
            parentsQuorum := by
              unfold Committee.reachedQuorum; simp only [decide_eq_true_eq]; omega
            batches := b9, time := by omega }
  · intro hc
    refine ⟨⟨hc.epoch, hc.parentsBound, hc.payloadBound, hc.author, hc.workers⟩,
      by have := hc.roundPos; omega, by have := hc.roundBound; omega, by have := hc.sentBound; omega,
      hc.seed, hc.execution, hc.parentsFound, ⟨_, checkParents_iff.mpr
        ⟨hc.parentsPrevious, hc.parentsDistinct, by simp, rfl⟩, ?_⟩, hc.batches, ?_⟩
    · have := hc.parentsQuorum
      unfold Committee.reachedQuorum at this
      simp only [decide_eq_true_eq] at this
      omega
    · have := hc.time; omega

/-- C07 (b): a request is looked at only if the requesting peer is the header's author and the author is
a member of the current committee. -/
theorem request_from_author (c : Committee) (peer : Nat) (h : Header) :
    peerOk c peer h = true ↔ peer = h.author ∧ h.author ∈ c.Members := by
  unfold peerOk
  cases ha : c.authority h.author with
  | none =>
    rw [Committee.authority_eq_none] at ha
    simp [ha]
  | some a =>
    have hm : h.author ∈ c.Members := by rw [← Committee.authority_isSome, ha]; rfl
    have hid : a.id = h.author := by
      have := List.find?_some ha
      simpa using this
    simp [hm, hid]

/-! ### The votes of a reachable node -/

/-- Everything approved passed the checks with what was seen then. -/
theorem approved_checked {H : Headers} {C : Nat → Committee} {n : Node} (hr : Reachable H C n) :
    ∀ h ctx e, (h, ctx, e) ∈ n.approved → innerChecks (C e) ctx h = true := by
  induction hr with
  | start e => intro h ctx e hm; cases hm
  | step _ hs ih =>
    cases hs with
    | innerFresh a h ctx hl hck hd =>
      intro h' ctx' e' hm
      rcases List.mem_cons.mp hm with heq | hm
      · cases heq; exact hck
      · exact ih _ _ _ hm
    | _ => exact ih

/-- C07: every vote that leaves a node is for a header that passed all checks of the committee
of the header's epoch. -/
theorem vote_checked {H : Headers} {C : Nat → Committee} (hC : ∀ e, (C e).epoch = e) {n : Node}
    (hr : Reachable H C n) (v : CastVote) (hv : v ∈ n.sent) :
    ∃ h ctx, castOf h = v ∧ H.ok h ∧ Checked (C v.epoch) ctx h ∧ (h, ctx, v.epoch) ∈ n.approved := by
  obtain ⟨h, ctx, e, hm, hc, hok⟩ := (inv_reachable hC hr).sentHeader v hv
  have hck := (checks_exact _ _ _).mp (approved_checked hr _ _ _ hm)
  have : e = v.epoch := by rw [← hC e, ← hck.epoch, ← hc]; rfl
  subst this
  exact ⟨h, ctx, hc, hok, hck, hm⟩

/-- C06 (a): over every history of requests, time-outs, database failures, restarts and crashes, two votes
for the same author, epoch and round are the same vote. -/
theorem vote_once {H : Headers} {C : Nat → Committee} (hC : ∀ e, (C e).epoch = e) {n : Node}
    (hr : Reachable H C n) (v v' : CastVote) (hv : v ∈ n.sent) (hv' : v' ∈ n.sent)
    (ho : v.origin = v'.origin) (he : v.epoch = v'.epoch) (hrd : v.round = v'.round) : v = v' :=
  (inv_reachable hC hr).once v hv v' hv' ho he hrd

/-- C06 (b): whenever a vote is newly decided (as opposed to sent again), it is for a higher (epoch, round)
than every vote that ever left the node for that author. -/
theorem vote_ascending {H : Headers} {C : Nat → Committee} (hC : ∀ e, (C e).epoch = e) {n n' : Node}
    (hr : Reachable H C n) (hs : Step H C n n') (h : Header) (ctx : Ctx) (e : Nat)
    (hnew : n'.approved = (h, ctx, e) :: n.approved) (v : CastVote) (hv : v ∈ n.sent)
    (ho : v.origin = h.author) : v.epoch < h.epoch ∨ (v.epoch = h.epoch ∧ v.round < h.round) := by
  have hi := inv_reachable hC hr
  have hne : ∀ x : List (Header × Ctx × Nat), x ≠ (h, ctx, e) :: x := fun x hx => by
    have := congrArg List.length hx; simp at this
  cases hs with
  | innerFresh a h' ctx' hl hck hd =>
    have heq : h' = h ∧ ctx' = ctx ∧ n.epoch = e := by simpa using hnew
    obtain ⟨rfl, rfl, rfl⟩ := heq
    have ha : h'.author = a := (hi.slowOk a _ hl).1
    have hep : h'.epoch = n.epoch := by rw [innerChecks_epoch hck, hC]
    have hle := hi.sentEpoch v hv
    by_cases hve : v.epoch = n.epoch
    · obtain ⟨w, h1, h2⟩ := hi.covered hv hve
      rw [ho, ha] at h1
      have h3 := decision_cases.2 hd w h1
      have h2' : v.epoch < w.epoch ∨ (v.epoch = w.epoch ∧ (v.round < w.round ∨ v.info = w)) := h2
      rcases h2' with h2' | ⟨h2', h2'' | h2''⟩
      · left; rcases h3 with h3 | h3 <;> omega
      · rcases h3 with h3 | h3
        · left; omega
        · right; omega
      · have e1 : w.epoch = v.epoch := by rw [← h2'']; rfl
        have e2 : w.round = v.round := by rw [← h2'']; rfl
        rcases h3 with h3 | h3
        · left; omega
        · right; omega
    · left; omega
  | _ => exact absurd hnew (hne _)

/-- C06 (c): the record that stops a second vote survives a crash at any point: whatever the node
reads after the crash is the record of a vote sent for that author, or a later one. -/
theorem vote_survives_crash {H : Headers} {C : Nat → Committee} (hC : ∀ e, (C e).epoch = e)
    {n : Node} (hr : Reachable H C n) (v : CastVote) (hv : v ∈ n.sent) (he : v.epoch = n.epoch) :
    ∃ w, n.db.crash.get votesTable v.origin = some w ∧
      (v.epoch < w.epoch ∨ (v.epoch = w.epoch ∧ (v.round < w.round ∨
        (v.round = w.round ∧ v.digest = w.digest)))) := by
  obtain ⟨w, h1, h2⟩ := (inv_reachable hC hr).coveredDisk hv he
  refine ⟨w, ?_, ?_⟩
  · have hf : n.db.full = true := by
      exact exec_full true n.disk0 n.evs
    unfold DB.get DB.crash openDb
    simp [hf, h1]
  · rcases h2 with h2 | ⟨h2, h3 | h3⟩
    · exact .inl h2
    · exact .inr ⟨h2, .inl h3⟩
    · refine .inr ⟨h2, .inr ?_⟩
      rw [← h3]; exact ⟨rfl, rfl⟩

/-! ### Answers match requests -/

/-- What the cache of the last answer holds for an author is about that author's header. -/
theorem cache_matches {H : Headers} {C : Nat → Committee} (hC : ∀ e, (C e).epoch = e) {n : Node}
    (hr : Reachable H C n) : ∀ a l v, n.cache a = some l → l.resp = some (.vote v) →
      v.origin = a ∧ v.digest = l.digest ∧ ∃ h, H.ok h ∧ castOf h = v := by
  induction hr with
  | start e => intro a l v hc; cases hc
  | @step n n' hrn hs ih =>
    have hi := inv_reachable hC hrn
    have hcons : ∀ (h : Header) (ps : List Nat) (c' : Option Last) (r : CacheRes),
        consultCache (n.cache h.author) h ps = (c', r) → ∀ a l v,
        setAt n.cache h.author c' a = some l → l.resp = some (.vote v) →
        v.origin = a ∧ v.digest = l.digest ∧ ∃ h, H.ok h ∧ castOf h = v := by
      intro h ps c' r hc a l v hs hv
      rcases setAt_some hs with ⟨rfl, h2⟩ | ⟨-, h2⟩
      · unfold consultCache at hc
        cases hcache : n.cache h.author with
        | none => rw [hcache] at hc; cases hc; cases h2
        | some l0 =>
          rw [hcache] at hc
          dsimp only at hc
          split at hc
          · split at hc <;> (repeat' split at hc) <;> cases hc <;> cases h2 <;> simp_all
          · split at hc <;> cases hc
            · cases h2; cases hv
            · cases h2
      · exact ih a l v h2 hv
    cases hs with
    | lockRun h ps c' hok peer hm hl hc => exact hcons h ps c' _ hc
    | lockReply h ps c' r hok peer hm hl hc => exact hcons h ps c' _ hc
    | lockReject h ps c' hok peer hm hl hc => exact hcons h ps c' _ hc
    | innerAnswer a h r hl hr =>
      intro a' l v hs hv
      rcases setAt_some hs with ⟨rfl, h2⟩ | ⟨-, h2⟩
      · cases h2; cases hv; exact absurd rfl (hr v)
      · exact ih a' l v h2 hv
    | persistDone a h b hl hack =>
      intro a' l v hs hv
      rcases setAt_some hs with ⟨rfl, h2⟩ | ⟨-, h2⟩
      · cases h2; cases hv
        have := hi.slowOk _ _ hl
        exact ⟨this.1, rfl, h, this.2.1, rfl⟩
      · exact ih a' l v h2 hv
    | persistFail a h b hl hack =>
      intro a' l v hs hv
      rcases setAt_some hs with ⟨rfl, h2⟩ | ⟨-, h2⟩
      · cases h2; cases hv
      · exact ih a' l v h2 hv
    | restartPrimary => intro a l v hc; cases hc
    | nextEpoch => intro a l v hc; cases hc
    | crash => intro a l v hc; cases hc
    | _ => exact ih

/-- C06 (d): a vote answered out of the cache is the vote for the header asked about. -/
theorem cached_reply_matches {H : Headers} {C : Nat → Committee} (hC : ∀ e, (C e).epoch = e)
    {n : Node} (hr : Reachable H C n) (h : Header) (hok : H.ok h) (ps : List Nat)
    (c' : Option Last) (v : CastVote)
    (hc : consultCache (n.cache h.author) h ps = (c', .reply (.vote v))) : v = castOf h := by
  unfold consultCache at hc
  cases hcache : n.cache h.author with
  | none => rw [hcache] at hc; cases hc
  | some l =>
    rw [hcache] at hc
    dsimp only at hc
    split at hc
    · rename_i hd
      have key : l.resp = some (.vote v) := by
        split at hc <;> (repeat' split at hc) <;> cases hc
        assumption
      obtain ⟨-, h2, x, h3, h4⟩ := cache_matches hC hr _ _ _ hcache key
      have hxd : x.digest = h.digest := by rw [← hd, ← h2, ← h4]; rfl
      have := H.inj h3 hok hxd
      subst this; exact h4.symm
    · split at hc <;> cases hc

/-! ### Non-vacuity: a vote, a crash, a second header for the same round -/

namespace Example

open Committee in
/-- The committee of `four` in every epoch. -/
def comm (e : Nat) : Committee := { four with epoch := e }

/-- Two headers of author 10 for round 1 of epoch 1. -/
def h1 : Header := { author := 10, round := 1, epoch := 1, createdAt := 5, parents := [2, 3, 4], digest := 100 }
/-- The equivocating one. -/
def h2 : Header := { h1 with createdAt := 6, digest := 101 }

/-- What the node sees: the genesis certificates of three members. -/
def ctx : Ctx :=
  { committedRound := 0, gcDepth := 50, seedOk := true, execOk := true, batchesOk := true, now := 5,
    drift := 1,
    parents := [{ author := 20, round := 0, epoch := 1, digest := 2 },
                { author := 30, round := 0, epoch := 1, digest := 3 },
                { author := 40, round := 0, epoch := 1, digest := 4 }] }

/-- The headers of the example. -/
def hdrs : Headers where
  ok h := h = h1 ∨ h = h2
  inj := by
    rintro a b (rfl | rfl) (rfl | rfl) h
    · rfl
    · exact absurd h (by decide)
    · exact absurd h (by decide)
    · rfl

/-- The node after voting for `h1`. -/
def voted : Node :=
  { epoch := 1, disk0 := fun _ _ => none,
    evs := [.write (.ins votesTable 10 (infoOf h1)), .persist, .run true, .run true],
    slow := setAt (setAt (setAt (fun _ => none) 10 (some (.inner h1))) 10 (some (.persist h1 0))) 10 none,
    cache := setAt (setAt (fun _ => none) 10 none) 10 (some ⟨1, 1, 100, some (.vote (castOf h1))⟩),
    sent := [castOf h1], approved := [(h1, ctx, 1)] }

theorem voted_reachable : Reachable hdrs comm voted := by
  refine .step (.step (.step (.step (.step (.start 1) (.lockRun _ h1 [] none (.inl rfl) 10 (by decide)
    rfl rfl)) (.innerFresh _ 10 h1 ctx rfl (by decide) rfl)) (.env _ (.run true) trivial))
    (.env _ (.run true) trivial)) (.persistDone _ 10 h1 0 rfl ?_)
  exact List.mem_singleton.mpr rfl

/-- The node after a crash, asked for a vote on `h2`. -/
def asked : Node :=
  { epoch := 1, disk0 := voted.db.disk,
    slow := setAt (fun _ => none) 10 (some (.inner h2)), cache := setAt (fun _ => none) 10 none,
    sent := [castOf h1], approved := [(h1, ctx, 1)] }

theorem asked_reachable : Reachable hdrs comm asked :=
  .step (.step voted_reachable (.crash _ 1 (Nat.le_refl _)))
    (.lockRun _ h2 [] none (.inr rfl) 10 (by decide) rfl rfl)

/-- The header passes all checks, and is refused because of the record read from the disk. -/
theorem second_refused : innerChecks (comm 1) ctx h2 = true ∧
    decision (asked.stored 10) h2 = .refuse := by
  constructor
  · decide
  · rfl

/-- …while the first header is voted for again on the fast path. -/
example : ∃ w, asked.stored h1.author = some w ∧ w.digest = h1.digest := ⟨infoOf h1, rfl, rfl⟩

end Example

end Voting
end Verif
