import Verif.Voting.Props
import Verif.Proposer.Props
import Verif.Cert.Props
import Verif.Bullshark.Props
/-
C05: at most one certificate per author, round and epoch — the voting node (`Voting`), the proposer
(`Proposer`), the quorum arithmetic (`Committee`) and certificate verification (`Certificate`) put together; and
the properties of certificates that the consensus proofs (`Bull`) start from, derived instead of assumed.
-/
namespace Verif
namespace System

/-- A committee in some epoch with at most `f` faulty members, and the state every other member has
reached by some moment, as voter and as proposer. Faulty members have no state: nothing is assumed about
what they send. `H` are the headers that exist (digests identify them). -/
structure World where
  c : Committee
  C : Epoch → Committee
  F : Finset AuthorityId
  H : Voting.Headers
  maxBatches : Nat
  V : AuthorityId → Voting.Node
  P : AuthorityId → Proposer.Node
  wf : c.WF
  epochs : ∀ e, (C e).epoch = e
  here : C c.epoch = c
  faulty : F.card ≤ c.maxFaults
  voter : ∀ i ∈ c.Members, i ∉ F → Voting.Reachable H C (V i)
  proposer : ∀ i ∈ c.Members, i ∉ F → Proposer.Reachable maxBatches (P i)
  proposerHeaders : ∀ i ∈ c.Members, i ∉ F → ∀ h ∈ (P i).sent, H.ok h

variable (w : World)

/-- What an honest member has signed with its vote key: own headers, which its certifier votes for when
the proposer hands them out (`Certifier::propose_header`, certifier.rs:258-281), and votes for headers of others. -/
def World.signed (i : AuthorityId) (h : Header) : Prop :=
  (h.author = i ∧ h ∈ (w.P i).sent) ∨ (h.author ≠ i ∧ Voting.castOf h ∈ (w.V i).sent)

/-- A header for which a certificate can exist: distinct members with a quorum of voting power, of which
the honest ones have signed it. -/
def World.Certified (h : Header) : Prop :=
  w.H.ok h ∧ ∃ signers : List AuthorityId, signers.Nodup ∧
    w.c.reachedQuorum (w.c.power signers) = true ∧
    ∀ x ∈ signers, x ∈ w.c.Members → x ∉ w.F → w.signed x h

/-- The signature scheme does not let anyone sign for an honest member: if the aggregate signature this
certificate arrived with verifies against keys among which is an honest member's, that member has signed a header
with this digest. (A statement about the certificates that are presented, not about every bit string, so
that it can hold at one moment and the members can go on signing.) -/
def World.NotForged (B : Bls) (cert : Certificate) : Prop :=
  ∀ s, cert.state = .unverified s → ∀ pks, B.verifyAgg s cert.header.digest pks = true →
    ∀ a ∈ w.c.authorities, a.id ∉ w.F → a.key ∈ pks →
      ∃ h, w.H.ok h ∧ h.digest = cert.header.digest ∧ w.signed a.id h

variable {w}

/-- An honest member signs at most one header per author, epoch and round. -/
theorem signed_once {i : AuthorityId} (hi : i ∈ w.c.Members) (hf : i ∉ w.F) {a b : Header}
    (ha : w.H.ok a) (hb : w.H.ok b) (sa : w.signed i a) (sb : w.signed i b)
    (hauth : a.author = b.author) (he : a.epoch = b.epoch) (hr : a.round = b.round) : a = b := by
  rcases sa with ⟨h1, h2⟩ | ⟨h1, h2⟩
  · rcases sb with ⟨_, h4⟩ | ⟨h3, _⟩
    · exact Proposer.proposal_once (w.proposer i hi hf) h2 h4 he hr
    · exact absurd (hauth.symm.trans h1) h3
  · rcases sb with ⟨h3, _⟩ | ⟨_, h4⟩
    · exact absurd (hauth.trans h3) h1
    · have := Voting.vote_once w.epochs (w.voter i hi hf) _ _ h2 h4 hauth he hr
      exact w.H.inj ha hb (congrArg Voting.CastVote.digest this)

/-- **C05.** Two certified headers of one author for one round of one epoch are the same header. -/
theorem certified_unique {a b : Header} (ha : w.Certified a) (hb : w.Certified b)
    (hauth : a.author = b.author) (he : a.epoch = b.epoch) (hr : a.round = b.round) : a = b := by
  obtain ⟨oka, A, ndA, qA, sA⟩ := ha
  obtain ⟨okb, B, ndB, qB, sB⟩ := hb
  obtain ⟨x, xA, xB, xM, xF⟩ := w.c.quorums_share_honest w.wf A B ndA ndB qA qB w.F w.faulty
  exact signed_once xM xF oka okb (sA x xA xM xF) (sB x xB xM xF) hauth he hr

theorem blsKeys_ids {c : Committee} (hc : c.WF) {pks : List Key} (hs : pks.Sublist c.blsKeys) :
    ∃ ids : List AuthorityId, ids.Nodup ∧ c.power ids = pks.length ∧
      ∀ x ∈ ids, ∃ a ∈ c.authorities, a.id = x ∧ a.key ∈ pks := by
  obtain ⟨as, h1, h2⟩ := List.sublist_map_iff.mp hs
  refine ⟨as.map (·.id), ?_, ?_, ?_⟩
  · exact List.Nodup.sublist (List.Sublist.map _ h1) hc.idsNodup
  · rw [h2, List.length_map]
    have : ∀ l : List Authority, (∀ a ∈ l, a ∈ c.authorities) → c.power (l.map (·.id)) = l.length := by
      intro l
      induction l with
      | nil => intro _; rfl
      | cons a l ih =>
        intro hl
        have ha : a.id ∈ c.Members := Committee.mem_members.mpr ⟨a, hl a (List.mem_cons_self ..), rfl⟩
        have := ih (fun x hx => hl x (List.mem_cons_of_mem _ hx))
        simp only [Committee.power, List.map_cons, List.sum_cons, List.length_cons] at this ⊢
        rw [Committee.votingPowerById_eq, if_pos ha, this]
        omega
    exact this as (fun a ha => h1.subset ha)
  · intro x hx
    obtain ⟨a, ha, rfl⟩ := List.mem_map.mp hx
    exact ⟨a, h1.subset ha, rfl, by rw [h2]; exact List.mem_map_of_mem ha⟩

/-- What certificate verification establishes (quorum of distinct keys under a verifying aggregate
signature) makes the header certified. -/
theorem certified_of_keys {h : Header} (hok : w.H.ok h) {pks : List Key}
    (hs : pks.Sublist w.c.blsKeys) (hq : w.c.quorumThreshold ≤ pks.length)
    (hB : ∀ a ∈ w.c.authorities, a.id ∉ w.F → a.key ∈ pks →
      ∃ h', w.H.ok h' ∧ h'.digest = h.digest ∧ w.signed a.id h') : w.Certified h := by
  obtain ⟨ids, h1, h2, h3⟩ := blsKeys_ids w.wf hs
  refine ⟨hok, ids, h1, ?_, ?_⟩
  · simp only [Committee.reachedQuorum, decide_eq_true_eq]; omega
  · intro x hx _ hxF
    obtain ⟨a, ha, rfl, hk⟩ := h3 x hx
    obtain ⟨h', hok', hd, hsig⟩ := hB a ha hxF hk
    rw [w.H.inj hok hok' hd.symm]
    exact hsig

/-- A certificate accepted by `validate_and_verify` (other than genesis) is for a certified header. -/
theorem verified_certified {B : Bls} (g : Nat → Nat → Nat) {cert out : Certificate}
    (hB : w.NotForged B cert) (hok : w.H.ok cert.header) (s : Nat) (hst : cert.state = .unverified s)
    (hng : cert.isGenesis g w.c = false) (h : cert.validateAndVerify B g w.c = .ok out) :
    w.Certified cert.header := by
  obtain ⟨-, -, -, pks, h1, -, h3, h4⟩ := Certificate.validateAndVerify_sound B g cert out w.c w.wf s hst hng h
  exact certified_of_keys hok h1 h3 (hB s hst pks h4)

/-- **C05 for certificates.** Two certificates of one author for one round that a node accepts, at
any times, from any senders, carry the same header. -/
theorem certificates_unique {B : Bls} (g : Nat → Nat → Nat) {a b a' b' : Certificate}
    (fa : w.NotForged B a) (fb : w.NotForged B b) (oka : w.H.ok a.header) (okb : w.H.ok b.header) (s t : Nat) (ha : a.state = .unverified s)
    (hb : b.state = .unverified t) (nga : a.isGenesis g w.c = false) (ngb : b.isGenesis g w.c = false)
    (va : a.validateAndVerify B g w.c = .ok a') (vb : b.validateAndVerify B g w.c = .ok b')
    (hauth : a.header.author = b.header.author) (hr : a.header.round = b.header.round) :
    a.header = b.header := by
  have ea := (Certificate.validateAndVerify_sound B g a a' w.c w.wf s ha nga va).1
  have eb := (Certificate.validateAndVerify_sound B g b b' w.c w.wf t hb ngb vb).1
  exact certified_unique (verified_certified g fa oka s ha nga va) (verified_certified g fb okb t hb ngb vb)
    hauth (ea.trans eb.symm) hr

/-- Every certified header was voted for by an honest member other than its author. -/
theorem honest_voter {h : Header} (hc : w.Certified h) :
    ∃ i, i ∈ w.c.Members ∧ i ∉ w.F ∧ i ≠ h.author ∧ Voting.castOf h ∈ (w.V i).sent := by
  obtain ⟨ok, A, nd, q, s⟩ := hc
  have htwo := w.wf.two
  simp only [Committee.reachedQuorum, decide_eq_true_eq, Committee.power_eq_card nd] at q
  have hf := w.faulty
  have hcard : ¬ (A.toFinset ∩ w.c.Members) ⊆ insert h.author w.F := by
    intro hs
    have h1 := Finset.card_le_card hs
    have h2 := Finset.card_insert_le h.author w.F
    unfold Committee.quorumThreshold at q
    unfold Committee.maxFaults at hf
    omega
  obtain ⟨x, hx, hn⟩ := Finset.not_subset.mp hcard
  simp only [Finset.mem_inter, List.mem_toFinset] at hx
  simp only [Finset.mem_insert, not_or] at hn
  refine ⟨x, hx.2, hn.2, hn.1, ?_⟩
  rcases s x hx.1 hx.2 hn.2 with ⟨h1, _⟩ | ⟨_, h2⟩
  · exact absurd h1.symm hn.1
  · exact h2

/-- …so it passed all the checks of the voting handler, with parents the voter had in its certificate
store. -/
theorem certified_checked {h : Header} (hc : w.Certified h) :
    ∃ i ctx, i ∈ w.c.Members ∧ i ∉ w.F ∧ (h, ctx, h.epoch) ∈ (w.V i).approved ∧
      Voting.Checked (w.C h.epoch) ctx h := by
  obtain ⟨i, hi, hf, -, hv⟩ := honest_voter hc
  obtain ⟨h', ctx, h1, h2, h3, h4⟩ := Voting.vote_checked w.epochs (w.voter i hi hf) _ hv
  have : h' = h := w.H.inj h2 hc.1 (congrArg Voting.CastVote.digest h1)
  subst this
  exact ⟨i, ctx, hi, hf, h4, h3⟩

/-- Honest voters only find certified headers in their certificate stores (rounds above genesis). -/
def StoresCertified (w : World) : Prop :=
  ∀ i ∈ w.c.Members, i ∉ w.F → ∀ h ctx, (h, ctx, w.c.epoch) ∈ (w.V i).approved → 2 ≤ h.round →
    ∀ p ∈ ctx.parents, w.Certified p

/-- The certified headers of the epoch are what the consensus proofs assume of certificates. -/
theorem certified_universe (hst : StoresCertified w) :
    Bull.Universe w.c (fun h => h.epoch = w.c.epoch ∧ w.Certified h) where
  digestInj ha hb h := w.H.inj ha.2.1 hb.2.1 h
  unique ha hb h1 h2 := certified_unique ha.2 hb.2 h1 (ha.1.trans hb.1.symm) h2
  quorum := by
    intro x hx hr
    obtain ⟨i, ctx, hi, hf, hap, hck⟩ := certified_checked hx.2
    rw [hx.1] at hap hck
    rw [w.here] at hck
    refine ⟨ctx.parents, ?_, hck.parentsDistinct, hck.parentsQuorum⟩
    intro q hq
    obtain ⟨h1, h2, _⟩ := hck.parentsPrevious q hq
    refine ⟨⟨h1.trans hx.1, hst i hi hf x ctx hap hr q hq⟩, h2, ?_⟩
    rw [← hck.parentsFound]
    exact List.mem_map_of_mem hq
  roundPos := by
    intro x hx
    obtain ⟨i, ctx, _, _, _, hck⟩ := certified_checked hx.2
    exact hck.roundPos
  member := by
    intro x hx
    obtain ⟨i, ctx, _, _, _, hck⟩ := certified_checked hx.2
    rw [hx.1, w.here] at hck
    exact Committee.isAuthority_iff.mpr hck.author

/-- **Agreement, end to end.** In a committee with at most `f` faulty members, honest members voting and
proposing as modelled, any two nodes of the epoch have emitted sequences one of which is a prefix of
the other. -/
theorem agreement (hst : StoresCertified w) {p : Bull.Params} (hp : p.committee = w.c)
    (hgc : 1 ≤ p.gcDepth) (hwin : 1 ≤ p.lcWindow) (hgcw : p.gcDepth ≤ 2 * p.lcWindow)
    (hseed : p.seedActive = true) {n1 n2 : Bull.Node}
    (h1 : Bull.Reachable p (fun h => h.epoch = w.c.epoch ∧ w.Certified h) n1)
    (h2 : Bull.Reachable p (fun h => h.epoch = w.c.epoch ∧ w.Certified h) n2) :
    n1.log <+: n2.log ∨ n2.log <+: n1.log :=
  Bull.agreement ⟨by rw [hp]; exact w.wf, by rw [hp]; exact certified_universe hst, hgc, hwin, hgcw⟩
    hseed h1 h2

/-! ### A world in which a header is certified -/
namespace Example

open Voting.Example (comm hdrs voted voted_reachable)

/-- The header voted for in `Voting.Example`. -/
abbrev h1 : Header := Voting.Example.h1

theorem proposed : ∃ n, Proposer.Reachable 10 n ∧ n.sent = [h1] := by
  have other : ∀ {n n' : Proposer.Node}, Proposer.Reachable 10 n → Proposer.Step 10 n .other n' →
    Proposer.Reachable 10 n' := fun h s => h.step (a := .other) trivial s
  have s := Proposer.Reachable.init (maxBatches := 10) 10 1
  have s := s.step (a := .start true) rfl (.start _ true 0 [2, 3, 4] rfl)
  have s := other s (.fresh _ _ h1 rfl rfl (by decide) (by intro w hw; cases hw) rfl rfl rfl
    rfl (fun d => Iff.rfl))
  have s := other s (.store _ _ h1 rfl rfl rfl)
  have s := other s (.env _ (.run true) trivial)
  have s := other s (.env _ (.run true) trivial)
  have s := other s (.persisted _ _ h1 0 rfl rfl (List.mem_singleton.mpr rfl))
  have s := other s (.send _ _ h1 rfl rfl)
  exact ⟨_, s, rfl⟩

/-- Member 40 is faulty, 10 has proposed a header, 20 and 30 have voted for it. -/
theorem certified_example : ∃ w : World, w.F = {40} ∧ w.c = Committee.four ∧ w.Certified h1 ∧
    StoresCertified w := by
  obtain ⟨p, hp, hsent⟩ := proposed
  refine ⟨{ c := Committee.four, C := comm, F := {40}, H := hdrs, maxBatches := 10,
            V := fun _ => voted, P := fun _ => p,
            wf := Committee.four_wf, epochs := fun _ => rfl, here := rfl, faulty := by decide,
            voter := fun _ _ _ => voted_reachable, proposer := fun _ _ _ => hp,
            proposerHeaders := ?_ }, rfl, rfl, ⟨.inl rfl, [10, 20, 30], by decide, ?_, ?_⟩, ?_⟩
  · intro i _ _ h hh
    rw [hsent] at hh
    exact .inl (List.mem_singleton.mp hh)
  · show Committee.four.reachedQuorum (Committee.four.power [10, 20, 30]) = true
    decide
  · intro x hx _ _
    simp only [List.mem_cons, List.not_mem_nil, or_false] at hx
    rcases hx with rfl | rfl | rfl
    · exact .inl ⟨rfl, by show h1 ∈ p.sent; rw [hsent]; exact List.mem_singleton.mpr rfl⟩
    · exact .inr ⟨by decide, List.mem_singleton.mpr rfl⟩
    · exact .inr ⟨by decide, List.mem_singleton.mpr rfl⟩
  · intro i _ _ h ctx hm hr
    have : (h, ctx, 1) = (h1, Voting.Example.ctx, 1) := List.mem_singleton.mp hm
    cases this
    exact absurd hr (by decide)

end Example

end System
end Verif
