import Verif.System.Certified
import Verif.Sync.Fetch
/-
The whole committee as one transition system: voters (`Voting`), proposers (`Proposer`), certificate acceptance (`Certificate`,
`VotesAgg`, `Fetch`) and consensus (`Bull`) of every honest member, stepping in any interleaving, with the faulty members
sending anything. The assumption `StoresCertified` of `System.agreement` is derived here.
-/
namespace Verif
namespace Joint

open System

/-- What does not change: the committees, the faulty members, the headers that exist, the signature scheme,
the configuration. `acyclic`: digests cannot form a cycle. `genesis`: the digests of the genesis headers
are those of headers without parents (certificate.rs:47-58). -/
structure Setting where
  c : Committee
  C : Epoch → Committee
  F : Finset AuthorityId
  H : Voting.Headers
  maxBatches : Nat
  B : Bls
  g : AuthorityId → Epoch → Digest
  interval : Nat
  rank : Digest → Nat
  p : Bull.Params
  wf : c.WF
  epochs : ∀ e, (C e).epoch = e
  here : C c.epoch = c
  faulty : F.card ≤ c.maxFaults
  acyclic : ∀ {x y}, H.ok x → H.ok y → x.digest ∈ y.parents → rank x.digest < rank y.digest
  genesis : ∀ a ∈ c.authorities, ∃ h, H.ok h ∧ h.digest = g a.id c.epoch ∧ h.parents = []
  committee : p.committee = c
  gcPos : 1 ≤ p.gcDepth
  window : 1 ≤ p.lcWindow
  gcWindow : p.gcDepth ≤ 2 * p.lcWindow
  seed : p.seedActive = true

/-- The state of the honest members: voter, proposer, the headers of the certificates of the epoch ever
put into the certificate store, consensus. Ghost: all states consensus ever was in at any honest
member. -/
structure State where
  V : AuthorityId → Voting.Node
  P : AuthorityId → Proposer.Node
  S : AuthorityId → List Header
  N : AuthorityId → Bull.Node
  past : List Bull.Node

variable (G : Setting)

/-- The members that follow the program. -/
def Setting.Honest (i : AuthorityId) : Prop := i ∈ G.c.Members ∧ i ∉ G.F

/-- Member `i` has signed header `h` (see `World.signed`). -/
def State.signed (s : State) (i : AuthorityId) (h : Header) : Prop :=
  (h.author = i ∧ h ∈ (s.P i).sent) ∨ (h.author ≠ i ∧ Voting.castOf h ∈ (s.V i).sent)

/-- Nobody has forged an honest member's share in the aggregate signature `sg` over `d` (see
`World.NotForged`). -/
def NotForged (s : State) (sg : Sig) (d : Digest) : Prop :=
  ∀ pks, G.B.verifyAgg sg d pks = true → ∀ a ∈ G.c.authorities, a.id ∉ G.F → a.key ∈ pks →
    ∃ h, G.H.ok h ∧ h.digest = d ∧ s.signed a.id h

/-- Nobody has forged an honest member's vote. -/
def VoteNotForged (s : State) (v : Vote) : Prop :=
  ∀ a ∈ G.c.authorities, a.id = v.author → a.id ∉ G.F →
    G.B.verify v.signature v.headerDigest a.key = true →
    ∃ h, G.H.ok h ∧ h.digest = v.headerDigest ∧ s.signed a.id h

/-- Headers are put into member `i`'s store. -/
def State.store (s : State) (i : AuthorityId) (hs : List Header) : State :=
  { s with S := Voting.setAt s.S i (hs ++ s.S i) }

/-- One step of one honest member. -/
inductive Step : State → State → Prop
  /-- The voter moves. When it approves a header of the epoch the parents it looks at are those it
  finds in its store, or (first round) the genesis certificates (header_validator.rs:40-67). -/
  | vote (s : State) (i : AuthorityId) (n : Voting.Node) (hi : G.Honest i)
      (hs : Voting.Step G.H G.C (s.V i) n)
      (hp : ∀ h ctx, n.approved = (h, ctx, G.c.epoch) :: (s.V i).approved →
        (2 ≤ h.round → ∀ p ∈ ctx.parents, p ∈ s.S i) ∧ (h.round = 1 → ∀ p ∈ ctx.parents, G.H.ok p)) :
      Step s { s with V := Voting.setAt s.V i n }
  /-- The proposer moves. -/
  | propose (s : State) (i : AuthorityId) (a : Proposer.Act) (n : Proposer.Node) (hi : G.Honest i)
      (ha : a.Assumed (s.P i)) (hs : Proposer.Step G.maxBatches (s.P i) a n)
      (hh : ∀ h ∈ n.sent, G.H.ok h) :
      Step s { s with P := Voting.setAt s.P i n }
  /-- A certificate from a peer is verified and stored (`process_peer_certificate`,
  cert_validator.rs:72-110; certificates sent along with a vote request). -/
  | peer (s : State) (i : AuthorityId) (cert out : Certificate) (sg : Sig) (hi : G.Honest i)
      (hok : G.H.ok cert.header) (hst : cert.state = .unverified sg)
      (hf : NotForged G s sg cert.header.digest) (hng : cert.isGenesis G.g G.c = false)
      (hv : cert.validateAndVerify G.B G.g G.c = .ok out) :
      Step s (s.store i [cert.header])
  /-- A gossiped certificate is verified and stored (`process_gossip`, handler.rs:304-345). -/
  | gossip (s : State) (i : AuthorityId) (cert out : Certificate) (hi : G.Honest i)
      (hok : G.H.ok cert.header)
      (hf : ∀ sg, cert.aggregatedSignature = some sg → NotForged G s sg cert.header.digest)
      (he : cert.header.epoch = G.c.epoch) (hv : cert.verifyCert G.B G.c.blsKeys = .ok out) :
      Step s (s.store i [cert.header])
  /-- The own certificate is assembled from votes and stored (certifier.rs:278-350). -/
  | own (s : State) (i : AuthorityId) (h : Header) (vs : List Vote) (v : Vote) (cert : Certificate)
      (hi : G.Honest i) (hok : G.H.ok h) (he : h.epoch = G.c.epoch)
      (hf : ∀ x ∈ vs ++ [v], VoteNotForged G s x)
      (hv : (VotesAgg.append G.B (VotesAgg.run G.B G.c h {} vs).1 v G.c h).2 = .ok (some cert)) :
      Step s (s.store i [cert.header])
  /-- Certificates fetched in bulk (`process_fetched_certificates_in_parallel`); the certificate manager
  stores some of them. Genesis certificates among them are left out of `S`. -/
  | fetched (s : State) (i : AuthorityId) (gc : Nat → Round) (certs outs kept : List Certificate)
      (hi : G.Honest i) (hok : ∀ x ∈ certs, G.H.ok x.header)
      (hf : ∀ x ∈ certs, ∃ sg, x.state = .unverified sg ∧ NotForged G s sg x.header.digest)
      (hv : Fetch.verifyCollection G.B G.g G.c G.interval gc certs = .ok outs)
      (hk : ∀ x ∈ kept, x ∈ outs ∧ x.isGenesis G.g G.c = false) :
      Step s (s.store i (kept.map (·.header)))
  /-- Consensus processes a stored certificate. -/
  | deliver (s : State) (i : AuthorityId) (agg : Header → Sig) (h : Header) (o : Bull.Outcome) (st' : Bull.State)
      (subs : List Bull.SubDag) (hi : G.Honest i) (hs : h ∈ s.S i)
      (hp : Bull.processCertificate G.p agg (s.N i).st h = .ok (o, st', subs)) :
      Step s { s with N := Voting.setAt s.N i ⟨st', (s.N i).log ++ subs⟩,
                      past := ⟨st', (s.N i).log ++ subs⟩ :: s.past }
  /-- Consensus starts again: from a prefix of a sequence that it or another member had emitted, and from
  the certificate store. -/
  | restart (s : State) (i : AuthorityId) (m : Bull.Node) (log : List Bull.SubDag)
      (store : List Header) (st : Bull.State) (hi : G.Honest i) (hm : m ∈ s.past)
      (hl : log <+: m.log) (hst : Bull.StoreOk (fun h => h ∈ s.S i) (Bull.gcOf G.p (Bull.roundOf log)) store)
      (hfin : Bull.FinalInWindow G.p log) (hr : Bull.recover G.p log store = .ok st) :
      Step s { s with N := Voting.setAt s.N i ⟨st, log⟩, past := ⟨st, log⟩ :: s.past }

/-- The states reached from empty databases. -/
inductive Reach : State → Prop
  | init (ev ep : AuthorityId → Epoch) (st : Bull.State) (hst : Bull.recover G.p [] [] = .ok st) :
      Reach { V := fun i => { epoch := ev i, disk0 := fun _ _ => none },
              P := fun i => { self := i, epoch := ep i, disk0 := fun _ _ => none },
              S := fun _ => [], N := fun _ => ⟨st, []⟩, past := [⟨st, []⟩] }
  | step {s s' : State} : Reach s → Step G s s' → Reach s'

variable {G}

/-! ### The reached states are worlds -/

theorem setAt_cases {β : Type} (f : AuthorityId → β) (i : AuthorityId) (v : β) (Q : AuthorityId → β → Prop)
    (hi : Q i v) (ho : ∀ j, Q j (f j)) (j : AuthorityId) : Q j (Voting.setAt f i v j) := by
  unfold Voting.setAt
  split
  · rename_i h; rw [h]; exact hi
  · exact ho j

theorem Reach.parts {s : State} (h : Reach G s) :
    (∀ i, Voting.Reachable G.H G.C (s.V i)) ∧ (∀ i, Proposer.Reachable G.maxBatches (s.P i)) ∧
    (∀ i, ∀ h ∈ (s.P i).sent, G.H.ok h) := by
  induction h with
  | init ev ep st hst =>
    exact ⟨fun i => .start _, fun i => .init _ _, fun i h hh => by cases hh⟩
  | step _ hs ih =>
    obtain ⟨h1, h2, h3⟩ := ih
    cases hs with
    | vote i n hi hs hp =>
      exact ⟨setAt_cases _ i n (fun _ x => Voting.Reachable G.H G.C x) ((h1 i).step hs) h1, h2, h3⟩
    | propose i a n hi ha hs hh =>
      exact ⟨h1, setAt_cases _ i n (fun _ x => Proposer.Reachable G.maxBatches x) ((h2 i).step ha hs) h2,
        setAt_cases _ i n (fun _ x => ∀ h ∈ x.sent, G.H.ok h) hh h3⟩
    | peer | gossip | own | fetched | deliver | restart => exact ⟨h1, h2, h3⟩

/-- A reached state as a `World`. -/
def world (s : State) (h : Reach G s) : World where
  c := G.c
  C := G.C
  F := G.F
  H := G.H
  maxBatches := G.maxBatches
  V := s.V
  P := s.P
  wf := G.wf
  epochs := G.epochs
  here := G.here
  faulty := G.faulty
  voter := fun i _ _ => h.parts.1 i
  proposer := fun i _ _ => h.parts.2.1 i
  proposerHeaders := fun i _ _ => h.parts.2.2 i

/-- A header of the epoch for which a certificate can exist at this moment. -/
def Cert (G : Setting) (s : State) (h : Header) : Prop :=
  h.epoch = G.c.epoch ∧ G.H.ok h ∧ ∃ signers : List AuthorityId, signers.Nodup ∧
    G.c.reachedQuorum (G.c.power signers) = true ∧
    ∀ x ∈ signers, x ∈ G.c.Members → x ∉ G.F → s.signed x h

theorem cert_iff {s : State} (hr : Reach G s) (h : Header) :
    Cert G s h ↔ h.epoch = (world s hr).c.epoch ∧ (world s hr).Certified h := Iff.rfl

/-! ### Signatures are not taken back -/

theorem voting_mono {H : Voting.Headers} {C : Epoch → Committee} {n n' : Voting.Node}
    (h : Voting.Step H C n n') : (∀ v ∈ n.sent, v ∈ n'.sent) ∧
    (n'.approved = n.approved ∨ ∃ h ctx, n'.approved = (h, ctx, n.epoch) :: n.approved) := by
  cases h with
  | lockReply h ps c' r hok peer hm hl hc =>
    refine ⟨?_, .inl rfl⟩
    intro v hv
    cases r <;> first | exact hv | exact List.mem_cons_of_mem _ hv
  | innerFresh a h ctx => exact ⟨fun v hv => hv, .inr ⟨h, ctx, rfl⟩⟩
  | _ => exact ⟨fun v hv => (by first | exact hv | exact List.mem_cons_of_mem _ hv), .inl rfl⟩

theorem proposer_mono {mb : Nat} {n n' : Proposer.Node} {a : Proposer.Act} (h : Proposer.Step mb n a n') :
    ∀ x ∈ n.sent, x ∈ n'.sent := by
  cases h <;> intro v hv <;> first | exact hv | exact List.mem_cons_of_mem _ hv

theorem signed_mono {s s' : State} (h : Step G s s') {i : AuthorityId} {x : Header}
    (hx : s.signed i x) : s'.signed i x := by
  cases h with
  | vote j n hi hs hp =>
    rcases hx with h | ⟨h1, h2⟩
    · exact .inl h
    · exact .inr ⟨h1, setAt_cases s.V j n (fun k y => k = i → Voting.castOf x ∈ y.sent)
        (fun e => by subst e; exact (voting_mono hs).1 _ h2) (fun k e => by subst e; exact h2) i rfl⟩
  | propose j a n hi ha hs hh =>
    rcases hx with ⟨h1, h2⟩ | h
    · exact .inl ⟨h1, setAt_cases s.P j n (fun k y => k = i → x ∈ y.sent)
        (fun e => by subst e; exact proposer_mono hs _ h2) (fun k e => by subst e; exact h2) i rfl⟩
    · exact .inr h
  | peer | gossip | own | fetched | deliver | restart => exact hx

theorem cert_mono {s s' : State} (h : Step G s s') {x : Header} (hx : Cert G s x) : Cert G s' x := by
  obtain ⟨h1, h2, A, h3, h4, h5⟩ := hx
  exact ⟨h1, h2, A, h3, h4, fun y hy hm hf => signed_mono h (h5 y hy hm hf)⟩

/-! ### Only certified headers are stored -/

/-- The invariant: stored headers are certified; approved headers have certified parents (genesis headers in
the first round). -/
structure Inv (G : Setting) (s : State) : Prop where
  stored : ∀ i, ∀ h ∈ s.S i, Cert G s h
  approved : ∀ i, ∀ h ctx, (h, ctx, G.c.epoch) ∈ (s.V i).approved →
    (2 ≤ h.round → ∀ p ∈ ctx.parents, Cert G s p) ∧ (h.round = 1 → ∀ p ∈ ctx.parents, G.H.ok p)

theorem cert_of_keys {s : State} (hr : Reach G s) {h : Header} (he : h.epoch = G.c.epoch)
    (hok : G.H.ok h) {pks : List Key} (hs : pks.Sublist G.c.blsKeys)
    (hq : G.c.quorumThreshold ≤ pks.length)
    (hB : ∀ a ∈ G.c.authorities, a.id ∉ G.F → a.key ∈ pks →
      ∃ h', G.H.ok h' ∧ h'.digest = h.digest ∧ s.signed a.id h') : Cert G s h :=
  (cert_iff hr h).mpr ⟨he, certified_of_keys (w := world s hr) hok hs hq hB⟩

theorem cert_of_verified {s : State} (hr : Reach G s) {cert out : Certificate} {sg : Sig}
    (hok : G.H.ok cert.header) (hst : cert.state = .unverified sg)
    (hf : NotForged G s sg cert.header.digest) (hng : cert.isGenesis G.g G.c = false)
    (hv : cert.validateAndVerify G.B G.g G.c = .ok out) : Cert G s cert.header := by
  obtain ⟨he, -, -, pks, h1, -, h3, h4⟩ :=
    Certificate.validateAndVerify_sound G.B G.g cert out G.c G.wf sg hst hng hv
  exact cert_of_keys hr he hok h1 h3 (hf pks h4)

/-- A parent named by a certified header is certified (above the first round), given the invariant. -/
theorem parent_cert {s : State} (hr : Reach G s) (hI : Inv G s) {x y : Header} (hy : Cert G s y)
    (hx : G.H.ok x) (hd : x.digest ∈ y.parents) (hround : x.round ≠ 0) : Cert G s x := by
  obtain ⟨i, ctx, hi, hf, hap, hck⟩ := certified_checked (w := world s hr) hy.2
  have he : y.epoch = G.c.epoch := hy.1
  rw [he] at hap hck
  have hinv := hI.approved i y ctx hap
  have hpar := hck.parentsFound
  rw [← hpar] at hd
  obtain ⟨p, hp, hpd⟩ := List.mem_map.mp hd
  have hprev := hck.parentsPrevious p hp
  have hpos := hck.roundPos
  by_cases h1 : y.round = 1
  · have : p = x := G.H.inj (hinv.2 h1 p hp) hx hpd
    subst this
    omega
  · have hc := hinv.1 (by omega) p hp
    have : p = x := G.H.inj hc.2.1 hx hpd
    subst this
    exact hc

theorem isGenesis_digest {g : AuthorityId → Epoch → Digest} {x : Certificate} {c : Committee}
    (h : x.isGenesis g c = true) : ∃ a ∈ c.authorities, x.header.digest = g a.id c.epoch ∧ x.header.round = 0 := by
  unfold Certificate.isGenesis at h
  obtain ⟨a, ha, hb⟩ := List.any_eq_true.mp h
  simp only [Bool.and_eq_true, beq_iff_eq] at hb
  exact ⟨a, ha, hb.1.1.1, hb.1.1.2⟩

/-- Every certificate of a batch that bulk verification accepts is genesis or certified. -/
theorem batch_cert {s : State} (hr : Reach G s) (hI : Inv G s) {gc : Nat → Round}
    {certs outs : List Certificate} (hok : ∀ x ∈ certs, G.H.ok x.header)
    (hf : ∀ x ∈ certs, ∃ sg, x.state = .unverified sg ∧ NotForged G s sg x.header.digest)
    (hv : Fetch.verifyCollection G.B G.g G.c G.interval gc certs = .ok outs) :
    ∀ x ∈ certs, x.isGenesis G.g G.c = true ∨ Cert G s x.header := by
  have hcov := Fetch.accepted_covered G.rank
    (fun x hx y hy h => G.acyclic (hok x hx) (hok y hy) h) hv
  have direct : ∀ x ∈ certs, (∃ out, x.validateAndVerify G.B G.g G.c = .ok out) →
      x.isGenesis G.g G.c = true ∨ Cert G s x.header := by
    intro x hx hD
    obtain ⟨out, ho⟩ := hD
    obtain ⟨sg, h1, h2⟩ := hf x hx
    cases hg : x.isGenesis G.g G.c with
    | true => exact .inl rfl
    | false => exact .inr (cert_of_verified hr (hok x hx) h1 h2 hg ho)
  intro x hx
  have := hcov x hx
  induction this with
  | direct hx' hD => exact direct _ hx' hD
  | @parent x y hy hxm hd ih =>
    by_cases h0 : x.header.round = 0
    · -- round 0 is always checked directly
      obtain ⟨hlen, hall⟩ := Fetch.collection_ok hv
      obtain ⟨i, hlt, hxi⟩ := List.getElem_of_mem hxm
      have hxi' : certs[i]? = some x := by rw [List.getElem?_eq_getElem hlt, hxi]
      have hyi : outs[i]? = some (outs[i]'(by omega)) := List.getElem?_eq_getElem (by omega)
      have hm : Fetch.isMultipleOf x.header.round G.interval = true := by
        unfold Fetch.isMultipleOf; rw [h0]; split <;> simp
      have hdir := (hall i x _ hxi' hyi).1 (by simp [Fetch.requiresDirect, hm])
      unfold Fetch.verifyDirect at hdir
      split at hdir
      · cases hdir
      · split at hdir
        · cases hdir
        · rename_i out ho
          exact direct x hxm ⟨out, ho⟩
    · rcases ih hy.mem with hg | hc
      · -- genesis headers have no parents
        obtain ⟨a, ha, hdg, -⟩ := isGenesis_digest hg
        obtain ⟨gh, hg1, hg2, hg3⟩ := G.genesis a ha
        have : y.header = gh := G.H.inj (hok y hy.mem) hg1 (hdg.trans hg2.symm)
        rw [this, hg3] at hd
        cases hd
      · exact .inr (parent_cert hr hI hc (hok x hxm) hd h0)

theorem validateAndVerify_header {B : Bls} {g : AuthorityId → Epoch → Digest} {x y : Certificate} {c : Committee}
    (h : x.validateAndVerify B g c = .ok y) : y.header = x.header := by
  unfold Certificate.validateAndVerify at h
  split at h
  · cases h
  · split at h
    · cases h; rfl
    · split at h
      · cases h
      · dsimp only at h
        split at h
        · cases h
        · unfold Certificate.verifySignature at h
          split at h
          · cases h; rfl
          · cases h; rfl
          · cases h; rfl
          · cases h
          · split at h
            · cases h; rfl
            · cases h

theorem outs_headers {B : Bls} {g : AuthorityId → Epoch → Digest} {c : Committee} {interval : Nat}
    {gc : Nat → Round} {certs outs : List Certificate}
    (h : Fetch.verifyCollection B g c interval gc certs = .ok outs) :
    ∀ y ∈ outs, ∃ x ∈ certs, x.header = y.header := by
  intro y hy
  obtain ⟨hlen, hall⟩ := Fetch.collection_ok h
  obtain ⟨i, hlt, hyi⟩ := List.getElem_of_mem hy
  have hxi : certs[i]? = some (certs[i]'(by omega)) := List.getElem?_eq_getElem (by omega)
  have hyi' : outs[i]? = some y := by rw [List.getElem?_eq_getElem hlt, hyi]
  refine ⟨_, List.getElem_mem (by omega : i < certs.length), ?_⟩
  obtain ⟨h1, h2⟩ := hall i _ y hxi hyi'
  cases hd : Fetch.requiresDirect interval (Fetch.allParents certs) certs[i] with
  | true =>
    have := h1 hd
    unfold Fetch.verifyDirect at this
    split at this
    · cases this
    · split at this
      · cases this
      · rename_i out ho
        cases this
        exact (validateAndVerify_header ho).symm
  | false =>
    obtain ⟨s, -, rfl⟩ := h2 hd
    rfl

theorem isGenesis_header {g : AuthorityId → Epoch → Digest} {x y : Certificate} {c : Committee}
    (h : x.header = y.header) : x.isGenesis g c = y.isGenesis g c := by
  unfold Certificate.isGenesis; rw [h]

theorem firstVotes_sub (vs : List Vote) : ∀ x ∈ VotesAgg.firstVotes vs, x ∈ vs := by
  induction vs using List.reverseRecOn with
  | nil => intro x hx; exact hx
  | append_singleton vs v ih =>
    intro x hx
    rw [VotesAgg.firstVotes_append] at hx
    split at hx
    · exact List.mem_append_left _ (ih x hx)
    · rcases List.mem_append.mp hx with hx | hx
      · exact List.mem_append_left _ (ih x hx)
      · exact List.mem_append_right _ hx

theorem cert_of_votes {s : State} (hr : Reach G s) {h : Header} {vs : List Vote} {v : Vote}
    {cert : Certificate} (hok : G.H.ok h) (he : h.epoch = G.c.epoch)
    (hf : ∀ x ∈ vs ++ [v], VoteNotForged G s x)
    (hv : (VotesAgg.append G.B (VotesAgg.run G.B G.c h {} vs).1 v G.c h).2 = .ok (some cert)) :
    Cert G s cert.header := by
  obtain ⟨-, -, h3, h4, -, -, -, h8⟩ := VotesAgg.append_cert_sound G.B G.c G.wf h vs v cert hv
  rw [h8]
  have hcount : ∀ x ∈ VotesAgg.counted G.B G.c h (vs ++ [v]), x ∈ vs ++ [v] ∧
      x.headerDigest = h.digest ∧
      ∃ a, G.c.authority x.author = some a ∧ G.B.verify x.signature h.digest a.key = true := by
    intro x hx
    obtain ⟨h1, h2⟩ := List.mem_filter.mp hx
    refine ⟨firstVotes_sub _ x h1, ?_⟩
    unfold VotesAgg.Counts at h2
    rw [Bool.and_eq_true] at h2
    refine ⟨by simpa using h2.1, ?_⟩
    cases ha : G.c.authority x.author with
    | none => rw [ha] at h2; simp at h2
    | some a => rw [ha] at h2; exact ⟨a, rfl, h2.2⟩
  have hauth : ∀ x a, G.c.authority x = some a → a ∈ G.c.authorities ∧ a.id = x := by
    intro x a ha
    exact ⟨List.mem_of_find?_eq_some ha, by simpa using List.find?_some ha⟩
  refine ⟨he, hok, (VotesAgg.counted G.B G.c h (vs ++ [v])).map (·.author), h3, ?_, ?_⟩
  · simp only [Committee.reachedQuorum, decide_eq_true_eq]
    rw [Committee.power_eq_card h3]
    have hsub : ((VotesAgg.counted G.B G.c h (vs ++ [v])).map (·.author)).toFinset ∩ G.c.Members =
        ((VotesAgg.counted G.B G.c h (vs ++ [v])).map (·.author)).toFinset := by
      rw [Finset.inter_eq_left]
      intro y hy
      obtain ⟨x, hx, rfl⟩ := List.mem_map.mp (List.mem_toFinset.mp hy)
      obtain ⟨-, -, a, ha, -⟩ := hcount x hx
      exact Committee.mem_members.mpr ⟨a, (hauth _ _ ha).1, (hauth _ _ ha).2⟩
    rw [hsub, List.toFinset_card_of_nodup h3, List.length_map]
    exact h4
  · intro y hy hm hF
    obtain ⟨x, hx, rfl⟩ := List.mem_map.mp hy
    obtain ⟨hmem, hd, a, ha, hver⟩ := hcount x hx
    obtain ⟨ha1, ha2⟩ := hauth _ _ ha
    obtain ⟨h', hok', hd', hs'⟩ := hf x hmem a ha1 ha2 (by rw [ha2]; exact hF) (by rw [hd]; exact hver)
    rw [G.H.inj hok hok' (hd.symm.trans hd'.symm), ← ha2]
    exact hs'

theorem stored_of {s : State} (hI : Inv G s) {i : AuthorityId} {hs : List Header}
    (h : ∀ x ∈ hs, Cert G s x) : ∀ j, ∀ x ∈ (s.store i hs).S j, Cert G s x := by
  intro j x hx
  unfold State.store Voting.setAt at hx
  dsimp only at hx
  split at hx
  · rcases List.mem_append.mp hx with hx | hx
    · exact h x hx
    · exact hI.stored i x hx
  · exact hI.stored j x hx

/-- In every reached state, only certified headers are stored and voted upon. -/
theorem Reach.inv {s : State} (h : Reach G s) : Inv G s := by
  induction h with
  | init ev ep st hst =>
    exact ⟨fun i h hh => (by cases hh), fun i h ctx hh => (by cases hh)⟩
  | @step s s' hr hs ih =>
    have mono := @cert_mono G s s' hs
    have keep : (∀ i, ∀ h ctx, (h, ctx, G.c.epoch) ∈ (s.V i).approved →
        (2 ≤ h.round → ∀ p ∈ ctx.parents, Cert G s' p) ∧ (h.round = 1 → ∀ p ∈ ctx.parents, G.H.ok p)) :=
      fun i h ctx hm => ⟨fun h2 p hp => mono ((ih.approved i h ctx hm).1 h2 p hp), (ih.approved i h ctx hm).2⟩
    cases hs with
    | vote i n hi hst hp =>
      refine ⟨fun j h hh => mono (ih.stored j h hh), ?_⟩
      intro j
      refine setAt_cases s.V i n (fun j y => ∀ h ctx, (h, ctx, G.c.epoch) ∈ y.approved →
        (2 ≤ h.round → ∀ p ∈ ctx.parents, Cert G _ p) ∧ (h.round = 1 → ∀ p ∈ ctx.parents, G.H.ok p)) ?_ keep j
      intro h ctx hm
      rcases (voting_mono hst).2 with ha | ⟨h0, ctx0, ha⟩
      · rw [ha] at hm; exact keep i h ctx hm
      · rw [ha] at hm
        rcases List.mem_cons.mp hm with he | hm
        · have e1 : h = h0 := congrArg (·.1) he
          have e2 : ctx = ctx0 := congrArg (·.2.1) he
          have e3 : G.c.epoch = (s.V i).epoch := congrArg (·.2.2) he
          subst e1 e2
          rw [← e3] at ha
          obtain ⟨p1, p2⟩ := hp h ctx ha
          exact ⟨fun h2 p hpp => mono (ih.stored i p (p1 h2 p hpp)), p2⟩
        · exact keep i h ctx hm
    | propose i a n hi ha hst hh =>
      exact ⟨fun j h hh => mono (ih.stored j h hh), keep⟩
    | peer i cert out sg hi hok hst hf hng hv =>
      exact ⟨stored_of ih (fun x hx => by
        rw [List.mem_singleton.mp hx]; exact cert_of_verified hr hok hst hf hng hv), keep⟩
    | gossip i cert out hi hok hf he hv =>
      obtain ⟨pks, sg, h1, -, h3, h4, h5, -⟩ :=
        Certificate.verifyCert_sound G.B cert out _ G.wf.keysSorted.nodup hv
      have hq : G.c.quorumThreshold ≤ pks.length := by
        rw [← Committee.quorumThresholdOf_eq]; simpa [Committee.size, Committee.blsKeys] using h3
      exact ⟨stored_of ih (fun x hx => by
        rw [List.mem_singleton.mp hx]; exact cert_of_keys hr he hok h1 hq (hf sg h4 pks h5)), keep⟩
    | own i h vs v cert hi hok he hf hv =>
      exact ⟨stored_of ih (fun x hx => by
        rw [List.mem_singleton.mp hx]; exact cert_of_votes hr hok he hf hv), keep⟩
    | fetched i gc certs outs kept hi hok hf hv hk =>
      refine ⟨stored_of ih ?_, keep⟩
      intro x hx
      obtain ⟨y, hy, rfl⟩ := List.mem_map.mp hx
      obtain ⟨h1, h2⟩ := hk y hy
      obtain ⟨z, hz, hzy⟩ := outs_headers hv y h1
      rcases batch_cert hr ih hok hf hv z hz with hg | hc
      · rw [isGenesis_header hzy, h2] at hg; cases hg
      · rw [← hzy]; exact hc
    | deliver i agg h o st' subs hi hs hp => exact ⟨ih.stored, keep⟩
    | restart i m log store st hi hm hl hst hfin hr => exact ⟨ih.stored, keep⟩

/-- The assumption of `System.agreement` holds in every reached state. -/
theorem stores_certified {s : State} (h : Reach G s) : StoresCertified (world s h) := by
  intro i hi hf x ctx hm hr p hp
  exact ((h.inv.approved i x ctx hm).1 hr p hp).2

/-- Every certificate any honest member ever stored is one of a set with at most one per author and
round, a quorum of parents each, by committee members (what the consensus proofs need). -/
theorem certs {s : State} (h : Reach G s) : Bull.Universe G.c (Cert G s) :=
  certified_universe (stores_certified h)

/-- No honest member, by whatever path (gossip, requests, own assembly, bulk fetch), ever stores
two different headers of one author for one round; neither do two honest members. -/
theorem stored_unique {s : State} (h : Reach G s) {i j : AuthorityId} {a b : Header}
    (ha : a ∈ s.S i) (hb : b ∈ s.S j) (h1 : a.author = b.author) (h2 : a.round = b.round) : a = b :=
  (certs h).unique (h.inv.stored i a ha) (h.inv.stored j b hb) h1 h2

/-! ### Consensus -/

theorem bull_mono {p : Bull.Params} {U U' : Header → Prop} (h : ∀ x, U x → U' x) {n : Bull.Node}
    (hn : Bull.Reachable p U n) : Bull.Reachable p U' n := by
  induction hn with
  | start hst => exact .start hst
  | deliver _ hu hp ih => exact .deliver ih (h _ hu) hp
  | restart _ hl hst hf hr ih => exact .restart ih hl ⟨fun x hx => h x (hst.1 x hx), hst.2⟩ hf hr

theorem Reach.bull {s : State} (h : Reach G s) :
    (∀ i, s.N i ∈ s.past) ∧ ∀ n ∈ s.past, Bull.Reachable G.p (Cert G s) n := by
  induction h with
  | init ev ep st hst =>
    exact ⟨fun i => List.mem_singleton.mpr rfl, fun n hn => by
      rw [List.mem_singleton.mp hn]; exact .start hst⟩
  | @step s s' hr hs ih =>
    have mono := @cert_mono G s s' hs
    have keep : ∀ n ∈ s.past, Bull.Reachable G.p (Cert G s') n :=
      fun n hn => bull_mono (fun _ => mono) (ih.2 n hn)
    cases hs with
    | deliver i agg h o st' subs hi hst hp =>
      refine ⟨fun j => setAt_cases s.N i _ (fun _ y => y ∈ _ :: s.past) (List.mem_cons_self ..)
        (fun k => List.mem_cons_of_mem _ (ih.1 k)) j, ?_⟩
      intro n hn
      rcases List.mem_cons.mp hn with rfl | hn
      · exact .deliver (keep _ (ih.1 i)) (hr.inv.stored i h hst) hp
      · exact keep n hn
    | restart i m log store st hi hm hl hst hfin hrec =>
      refine ⟨fun j => setAt_cases s.N i _ (fun _ y => y ∈ _ :: s.past) (List.mem_cons_self ..)
        (fun k => List.mem_cons_of_mem _ (ih.1 k)) j, ?_⟩
      intro n hn
      rcases List.mem_cons.mp hn with rfl | hn
      · exact .restart (keep m hm) hl ⟨fun x hx => hr.inv.stored i x (hst.1 x hx), hst.2⟩ hfin hrec
      · exact keep n hn
    | vote | propose | peer | gossip | own | fetched => exact ⟨ih.1, keep⟩

theorem setup {s : State} (h : Reach G s) : Bull.Setup G.p (Cert G s) :=
  ⟨by rw [G.committee]; exact G.wf, by rw [G.committee]; exact certs h, G.gcPos, G.window, G.gcWindow⟩

/-- **Agreement of the whole system.** Take any execution of the committee: at most `f` members faulty and doing
anything, the honest ones voting, proposing, verifying, storing, crashing and restarting in any
interleaving. The sequences of sub-dags any two honest members had emitted at any two moments are one
a prefix of the other. -/
theorem agreement {s : State} (h : Reach G s) {m n : Bull.Node} (hm : m ∈ s.past) (hn : n ∈ s.past) :
    m.log <+: n.log ∨ n.log <+: m.log :=
  Bull.agreement (setup h) G.seed (h.bull.2 m hm) (h.bull.2 n hn)

/-- …in particular what they have emitted now. -/
theorem agreement_now {s : State} (h : Reach G s) (i j : AuthorityId) :
    (s.N i).log <+: (s.N j).log ∨ (s.N j).log <+: (s.N i).log :=
  agreement h (h.bull.1 i) (h.bull.1 j)

end Joint
end Verif
