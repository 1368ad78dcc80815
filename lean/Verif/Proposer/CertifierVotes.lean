import Verif.Proposer.Certifier
import Mathlib.Tactic.Common
/-
Model of `request_vote`, `crates/consensus/primary/src/certifier.rs:124-252`: one vote request to one peer,
repeated until it is answered, refused or cancelled.
-/
namespace Verif.Crt

open Verif

/-- What one round of the loop sees (certifier.rs:168-204): a vote, a list of parents the peer misses, an
error the peer returned (`NetworkError::RPCError`), any other network error, or the cancel signal. -/
inductive Reply where
  | vote (v : Vote)
  | missing (ds : List Digest)
  | rpcError
  | netError
  | cancelled
deriving DecidableEq, Repr

/-- The ways `request_vote` fails. -/
inductive VoteErr where
  | missingCertificates
  | network
  | canceled
  | unexpectedVote
  | invalidEpoch
  | invalidRound
  | unknownAuthority
deriving DecidableEq, Repr

/-- The parents sent along (certifier.rs:143-165): those requested, among the header's parents, that are in
the certificate store; `none` if they are not as many as requested. Certificates are represented by their
digest. -/
def parentsFor (store : Digest → Bool) (h : Header) (missing : Option (List Digest)) : Option (List Digest) :=
  match missing with
  | none => some []
  | some ds =>
    let ps := (ds.filter (fun d => decide (d ∈ h.parents))).filter store
    if ps.length = ds.length then some ps else none

/-- The pause after attempt `n`, in milliseconds (certifier.rs:209-217). -/
def pause : Nat → Nat
  | 1 => 0
  | 2 => 100
  | 3 => 500
  | 4 => 1000
  | 5 => 2000
  | 6 => 5000
  | _ => 10000

/-- The checks on the vote received, certifier.rs:222-250. -/
def checkVote (c : Committee) (h : Header) (peer : AuthorityId) (v : Vote) : Except VoteErr Vote :=
  if ¬ (v.headerDigest = h.digest ∧ v.origin = h.author ∧ v.author = peer) then .error .unexpectedVote
  else if h.epoch ≠ v.epoch then .error .invalidEpoch
  else if h.round ≠ v.round then .error .invalidRound
  else if v.epoch ≠ c.epoch then .error .invalidEpoch
  else if c.votingPowerById v.author = 0 then .error .unknownAuthority
  else .ok v

/-- The loop: requests sent (with the attempt number and the parents attached) and the result; no result
while replies are awaited (certifier.rs:133-219). `attempt` is the number of the next attempt. -/
def request (c : Committee) (store : Digest → Bool) (h : Header) (peer : AuthorityId) :
    Nat → Option (List Digest) → List Reply → List (Nat × List Digest) × Option (Except VoteErr Vote)
  | attempt, missing, rs =>
    match parentsFor store h missing with
    | none => ([], some (.error .missingCertificates))
    | some ps =>
      match rs with
      | [] => ([(attempt, ps)], none)
      | .vote v :: _ => ([(attempt, ps)], some (checkVote c h peer v))
      | .rpcError :: _ => ([(attempt, ps)], some (.error .network))
      | .cancelled :: _ => ([(attempt, ps)], some (.error .canceled))
      | .missing ds :: rs =>
        let r := request c store h peer (attempt + 1) (some ds) rs
        ((attempt, ps) :: r.1, r.2)
      | .netError :: rs =>
        let r := request c store h peer (attempt + 1) none rs
        ((attempt, ps) :: r.1, r.2)

/-- `request_vote` from the start. -/
def requestVote (c : Committee) (store : Digest → Bool) (h : Header) (peer : AuthorityId) (rs : List Reply) :
    List (Nat × List Digest) × Option (Except VoteErr Vote) := request c store h peer 1 none rs

theorem checkVote_ok {c : Committee} {h : Header} {peer : AuthorityId} {v w : Vote}
    (hc : checkVote c h peer v = .ok w) : w = v ∧ v.headerDigest = h.digest ∧ v.origin = h.author ∧
      v.author = peer ∧ v.epoch = h.epoch ∧ v.round = h.round ∧ v.epoch = c.epoch ∧
      (c.authority peer).isSome := by
  unfold checkVote at hc
  split at hc
  · cases hc
  · rename_i h1
    split at hc
    · cases hc
    · rename_i h2
      split at hc
      · cases hc
      · rename_i h3
        split at hc
        · cases hc
        · rename_i h4
          split at hc
          · cases hc
          · rename_i h5
            cases hc
            have h1 := not_not.mp h1
            refine ⟨rfl, h1.1, h1.2.1, h1.2.2, (not_not.mp h2).symm, (not_not.mp h3).symm, not_not.mp h4, ?_⟩
            rw [← h1.2.2]
            unfold Committee.votingPowerById at h5
            cases ha : c.authority v.author with
            | none => rw [ha] at h5; simp at h5
            | some a => rfl

theorem request_vote_mem {c : Committee} {store : Digest → Bool} {h : Header} {peer : AuthorityId} {n : Nat}
    {m : Option (List Digest)} {rs : List Reply} {w : Vote}
    (hr : (request c store h peer n m rs).2 = some (.ok w)) :
    ∃ v, Reply.vote v ∈ rs ∧ checkVote c h peer v = .ok w := by
  induction rs generalizing n m with
  | nil =>
    unfold request at hr
    split at hr
    · cases hr
    · cases hr
  | cons r rs ih =>
    unfold request at hr
    split at hr
    · cases hr
    · cases r with
      | vote v => exact ⟨v, List.mem_cons_self, Option.some.inj hr⟩
      | rpcError => cases hr
      | cancelled => cases hr
      | missing ds =>
        obtain ⟨v, h1, h2⟩ := ih hr
        exact ⟨v, List.mem_cons_of_mem _ h1, h2⟩
      | netError =>
        obtain ⟨v, h1, h2⟩ := ih hr
        exact ⟨v, List.mem_cons_of_mem _ h1, h2⟩

/-- C98 (l): a vote that a request yields was sent by the peer and is for the header, its author, round and
epoch, in the peer's own name, and the peer is a committee member. -/
theorem vote_checked {c : Committee} {store : Digest → Bool} {h : Header} {peer : AuthorityId}
    {rs : List Reply} {v : Vote} (hr : (requestVote c store h peer rs).2 = some (.ok v)) :
    Reply.vote v ∈ rs ∧ v.headerDigest = h.digest ∧ v.origin = h.author ∧ v.author = peer ∧
      v.round = h.round ∧ v.epoch = h.epoch ∧ h.epoch = c.epoch ∧ (c.authority peer).isSome := by
  obtain ⟨u, h1, h2⟩ := request_vote_mem hr
  have := checkVote_ok h2
  obtain ⟨rfl, h3, h4, h5, h6, h7, h8, h9⟩ := this
  exact ⟨h1, h3, h4, h5, h7, h6, h6 ▸ h8, h9⟩

/-- The parents attached to a request answer the peer's list completely and are stored parents of the
header. -/
theorem parentsFor_spec {store : Digest → Bool} {h : Header} {m : Option (List Digest)} {ps : List Digest}
    (hp : parentsFor store h m = some ps) :
    (m = none ∧ ps = []) ∨ (m = some ps ∧ ∀ d ∈ ps, d ∈ h.parents ∧ store d = true) := by
  unfold parentsFor at hp
  cases m with
  | none => cases hp; exact .inl ⟨rfl, rfl⟩
  | some ds =>
    simp only at hp
    split at hp
    · rename_i hl
      cases hp
      have h1 : ((ds.filter (fun d => decide (d ∈ h.parents))).filter store).Sublist ds :=
        List.filter_sublist.trans List.filter_sublist
      have h2 := h1.eq_of_length hl
      refine .inr ⟨congrArg some h2.symm, ?_⟩
      intro d hd
      have h3 := List.mem_filter.mp hd
      exact ⟨by simpa using (List.mem_filter.mp h3.1).2, h3.2⟩
    · cases hp

/-- C98 (m): whatever the peer answers, only certificates that are parents of the header are ever sent to
it, and only when it asked for exactly these in its previous answer. -/
theorem only_parents_sent {c : Committee} {store : Digest → Bool} {h : Header} {peer : AuthorityId} {n : Nat}
    {m : Option (List Digest)} {rs : List Reply} {k : Nat} {ps : List Digest}
    (hk : (k, ps) ∈ (request c store h peer n m rs).1) :
    ps = [] ∨ ((Reply.missing ps ∈ rs ∨ m = some ps) ∧ ∀ d ∈ ps, d ∈ h.parents ∧ store d = true) := by
  induction rs generalizing n m with
  | nil =>
    unfold request at hk
    cases hp : parentsFor store h m with
    | none => rw [hp] at hk; cases hk
    | some qs =>
      rw [hp] at hk
      cases List.mem_singleton.mp hk
      rcases parentsFor_spec hp with ⟨-, e⟩ | ⟨e, h2⟩
      · exact .inl e
      · exact .inr ⟨.inr e, h2⟩
  | cons r rs ih =>
    unfold request at hk
    cases hp : parentsFor store h m with
    | none => rw [hp] at hk; cases hk
    | some qs =>
      rw [hp] at hk
      have base : (k, ps) = (n, qs) → ps = [] ∨
          ((Reply.missing ps ∈ r :: rs ∨ m = some ps) ∧ ∀ d ∈ ps, d ∈ h.parents ∧ store d = true) := by
        intro e
        cases e
        rcases parentsFor_spec hp with ⟨-, e⟩ | ⟨e, h2⟩
        · exact .inl e
        · exact .inr ⟨.inr e, h2⟩
      cases r with
      | vote v => exact base (List.mem_singleton.mp hk)
      | rpcError => exact base (List.mem_singleton.mp hk)
      | cancelled => exact base (List.mem_singleton.mp hk)
      | missing ds =>
        rcases List.mem_cons.mp hk with hk | hk
        · exact base hk
        · rcases ih hk with e | ⟨e | e, h2⟩
          · exact .inl e
          · exact .inr ⟨.inl (List.mem_cons_of_mem _ e), h2⟩
          · cases e; exact .inr ⟨.inl List.mem_cons_self, h2⟩
      | netError =>
        rcases List.mem_cons.mp hk with hk | hk
        · exact base hk
        · rcases ih hk with e | ⟨e | e, h2⟩
          · exact .inl e
          · exact .inr ⟨.inl (List.mem_cons_of_mem _ e), h2⟩
          · cases e

/-- C98 (n): transient network errors never end a request: after any number of them it is sent once more,
without parents, and still open. -/
theorem retries_forever {c : Committee} {store : Digest → Bool} {h : Header} {peer : AuthorityId} (k : Nat) :
    requestVote c store h peer (List.replicate k .netError) =
      ((List.range (k + 1)).map (fun i => (i + 1, [])), none) := by
  have key : ∀ (k n : Nat), request c store h peer n none (List.replicate k .netError) =
      ((List.range (k + 1)).map (fun i => (n + i, [])), none) := by
    intro k
    induction k with
    | zero =>
      intro n
      show request c store h peer n none [] = _
      unfold request
      simp [parentsFor]
    | succ k ih =>
      intro n
      rw [List.replicate_succ]
      unfold request
      simp only [parentsFor, ih]
      refine Prod.ext ?_ rfl
      show (n, []) :: _ = _
      conv_rhs => rw [List.range_succ_eq_map, List.map_cons, List.map_map]
      refine congrArg₂ List.cons (by simp) (List.map_congr_left ?_)
      intro i _
      simp only [Function.comp, Prod.mk.injEq, and_true]
      omega
  have := key k 1
  unfold requestVote
  rw [this]
  refine Prod.ext (List.map_congr_left ?_) rfl
  intro i _
  simp only [Prod.mk.injEq, and_true]; omega

/-- C98 (o): pauses never get shorter and are at most ten seconds; the first retry is immediate. -/
theorem pause_monotone : pause 1 = 0 ∧ (∀ n, 1 ≤ n → pause n ≤ pause (n + 1)) ∧ (∀ n, pause n ≤ 10000) ∧
    ∀ n, 7 ≤ n → pause n = 10000 := by
  have big : ∀ n, 7 ≤ n → pause n = 10000 := by
    intro n hn
    unfold pause
    split <;> omega
  refine ⟨rfl, ?_, ?_, big⟩
  · intro n hn
    by_cases h : 7 ≤ n
    · rw [big n h, big (n + 1) (by omega)]
    · have : n = 1 ∨ n = 2 ∨ n = 3 ∨ n = 4 ∨ n = 5 ∨ n = 6 := by omega
      rcases this with rfl | rfl | rfl | rfl | rfl | rfl <;> decide
  · intro n
    unfold pause
    split <;> omega

/-- C98 (p): a peer that asks for anything but stored parents of the header ends the request with an error
and receives nothing. -/
theorem stranger_parents_refused {c : Committee} {store : Digest → Bool} {h : Header} {peer : AuthorityId}
    {ds : List Digest} {rs : List Reply} {d : Digest} (hd : d ∈ ds) (hn : d ∉ h.parents ∨ store d = false) :
    requestVote c store h peer (.missing ds :: rs) = ([(1, [])], some (.error .missingCertificates)) := by
  have hp : parentsFor store h (some ds) = none := by
    cases hp : parentsFor store h (some ds) with
    | none => rfl
    | some ps =>
      rcases parentsFor_spec hp with ⟨e, -⟩ | ⟨e, h2⟩
      · cases e
      · cases e
        have := h2 d hd
        rcases hn with hn | hn
        · exact absurd this.1 hn
        · rw [hn] at this; exact absurd this.2 (by decide)
  have h2 : request c store h peer 2 (some ds) rs = ([], some (.error .missingCertificates)) := by
    unfold request
    rw [hp]
  unfold requestVote request
  simp only [parentsFor] at h2 ⊢
  rw [h2]

end Verif.Crt
