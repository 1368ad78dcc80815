import Verif.Cert.Lemmas
/-
C02 (certificate assembly and verification), C03 (vote aggregation), C04 (parent aggregation).
-/
namespace Verif
open Committee

/-! ## C02 – certificates -/
namespace Certificate

/-- C02 (a): assembly from a vote map succeeds exactly if every voter's key belongs to the committee,
the voters reach the quorum threshold and the signatures aggregate. -/
theorem newInternal_ok_iff (B : Bls) (c : Committee) (hc : c.WF) (h : Header)
    (votes : List (Nat × Nat)) (hs : SMap.Sorted votes) :
    (∃ cert, newInternal B c h votes true = .ok cert) ↔
      (∀ v ∈ votes, v.1 ∈ c.blsKeys) ∧ c.quorumThreshold ≤ votes.length ∧
        (B.aggregate (votes.map (·.2))).isSome := by
  obtain ⟨-, h2, h3⟩ := walk_spec (i := 0) hc.keysSorted hs
  unfold newInternal blsKeys
  simp only [Bool.true_and]
  split
  · rename_i hne
    constructor
    · simp
    · rintro ⟨hall, -⟩; exact absurd (h2.mpr hall) hne
  · rename_i hne
    have hrest : (walk c.authorities 0 votes).2.2 = [] := by simpa using hne
    obtain ⟨-, h5⟩ := h3 hrest
    rw [h5]
    simp only [List.length_map, decide_eq_true_eq]
    have hall := h2.mp hrest
    split
    · rename_i hlt
      constructor
      · simp
      · rintro ⟨-, h, -⟩; omega
    · rename_i hlt
      have hq : 1 ≤ c.quorumThreshold := by unfold quorumThreshold; omega
      have hne : votes.map (·.2) ≠ [] := by
        intro h0
        have : votes.length = 0 := by simpa using congrArg List.length h0
        omega
      rw [if_neg hne]
      cases hagg : B.aggregate (votes.map (·.2)) with
      | none => simp
      | some s => simp only [if_true, Except.ok.injEq, exists_eq', Option.isSome_some, and_true,
          true_iff]; exact ⟨hall, by omega⟩

/-- C02 (b): the signers read back from an assembled certificate are exactly the voters, in
committee order, and the weight a verifier computes is their number. The header is the one
voted on. -/
theorem newInternal_signers (B : Bls) (c : Committee) (hc : c.WF) (h : Header)
    (votes : List (Nat × Nat)) (hs : SMap.Sorted votes) (check : Bool) (cert : Certificate)
    (hok : newInternal B c h votes check = .ok cert) :
    cert.signedBy c.blsKeys = (votes.length, votes.map (·.1)) ∧ cert.header = h := by
  obtain ⟨-, h2, h3⟩ := walk_spec (i := 0) hc.keysSorted hs
  unfold newInternal at hok
  simp only at hok
  split at hok
  · cases hok
  · rename_i hne
    have hrest : (walk c.authorities 0 votes).2.2 = [] := by simpa using hne
    obtain ⟨h4, h5⟩ := h3 hrest
    split at hok
    · cases hok
    · split at hok
      · cases hok
      · cases hok
        refine ⟨?_, rfl⟩
        simp only [signedBy, blsKeys, h4, List.length_map]

/-- C02 (c): a vote by a key outside the committee makes assembly fail as unknown authority. -/
theorem newInternal_unknown (B : Bls) (c : Committee) (hc : c.WF) (h : Header)
    (votes : List (Nat × Nat)) (hs : SMap.Sorted votes) (check : Bool)
    (v : Nat × Nat) (hv : v ∈ votes) (hnot : v.1 ∉ c.blsKeys) :
    newInternal B c h votes check = .error .unknownAuthority := by
  obtain ⟨-, h2, -⟩ := walk_spec (i := 0) hc.keysSorted hs
  unfold newInternal
  simp only
  rw [if_pos]
  intro h0
  exact hnot (h2.mp h0 v hv)

/-- Specification: the keys of the committee members among a list of voter identifiers. -/
def VoterKeys (c : Committee) (ids : List Nat) : Finset Nat :=
  ((c.authorities.filter (fun a => a.id ∈ ids)).map (·.key)).toFinset

theorem voteMap_keys {c : Committee} (hc : c.WF) (votes : List (Nat × Nat)) (k : Nat) :
    k ∈ (SMap.ofList (votes.filterMap
        (fun v => (c.authority v.1).map (fun a => (a.key, v.2))))).map (·.1) ↔
      k ∈ VoterKeys c (votes.map (·.1)) := by
  rw [SMap.mem_keys_ofList]
  simp only [VoterKeys, List.mem_toFinset, List.mem_map, List.mem_filterMap, List.mem_filter,
    decide_eq_true_eq, Option.map_eq_some_iff]
  constructor
  · rintro ⟨p, ⟨v, hv, a, ha, hp⟩, rfl⟩
    have h1 := List.find?_some ha
    have h2 := List.mem_of_find?_eq_some ha
    refine ⟨a, ⟨h2, v, hv, ?_⟩, by rw [← hp]⟩
    simp at h1; exact h1.symm
  · rintro ⟨a, ⟨ha, v, hv, hva⟩, rfl⟩
    refine ⟨(a.key, v.2), ⟨v, hv, a, ?_, rfl⟩, rfl⟩
    unfold Committee.authority
    cases hf : c.authorities.find? (fun b => b.id == v.1) with
    | none =>
      rw [List.find?_eq_none] at hf
      exact absurd hva.symm (by simpa using hf a ha)
    | some b =>
      have h1 := List.find?_some hf
      have h2 := List.mem_of_find?_eq_some hf
      simp at h1
      have : b = a := List.inj_on_of_nodup_map hc.idsNodup h2 ha (by omega)
      rw [this]

/-- C02 (d): for votes given by authority identifier (repeated or by strangers), an assembled
certificate lists each signer once, the signers are exactly the committee members among the
voters, and they reach the quorum threshold. -/
theorem newUnverified_sound (B : Bls) (c : Committee) (hc : c.WF) (h : Header)
    (votes : List (Nat × Nat)) (cert : Certificate)
    (hok : newUnverified B c h votes = .ok cert) :
    (cert.signedBy c.blsKeys).2.Nodup ∧
    (cert.signedBy c.blsKeys).2.toFinset = VoterKeys c (votes.map (·.1)) ∧
    c.quorumThreshold ≤ (VoterKeys c (votes.map (·.1))).card ∧
    (cert.signedBy c.blsKeys).1 = (VoterKeys c (votes.map (·.1))).card ∧
    cert.header = h := by
  unfold newUnverified at hok
  have hsort := SMap.sorted_ofList (votes.filterMap
        (fun v => (c.authority v.1).map (fun a => (a.key, v.2))))
  obtain ⟨hsg, hh⟩ := newInternal_signers B c hc h _ hsort _ _ hok
  obtain ⟨-, hq, -⟩ := (newInternal_ok_iff B c hc h _ hsort).mp ⟨_, hok⟩
  have hkeys := voteMap_keys hc votes
  set m := SMap.ofList (votes.filterMap
        (fun v => (c.authority v.1).map (fun a => (a.key, v.2))))
  have hnd : (m.map (·.1)).Nodup := hsort.imp (fun h => Nat.ne_of_lt h)
  have hset : (m.map (·.1)).toFinset = VoterKeys c (votes.map (·.1)) := by
    ext k; rw [List.mem_toFinset]; exact hkeys k
  have hcard : (VoterKeys c (votes.map (·.1))).card = m.length := by
    rw [← hset, List.toFinset_card_of_nodup hnd, List.length_map]
  rw [hsg]
  exact ⟨hnd, hset, by omega, by omega, hh⟩

/-- C02 (e): a certificate received from anyone (any bitmap, any claimed verification state) passes
`verify_cert` only if distinct keys of the committee reaching the quorum threshold verify the
aggregate signature over its digest; the claimed state has no influence. -/
theorem verifyCert_sound (B : Bls) (cert out : Certificate) (keys : List Nat)
    (hk : keys.Nodup) (hok : cert.verifyCert B keys = .ok out) :
    ∃ pks s, pks.Sublist keys ∧ pks.Nodup ∧ quorumThresholdOf keys.length ≤ pks.length ∧
      cert.aggregatedSignature = some s ∧ B.verifyAgg s cert.header.digest pks = true ∧
      out = { cert with state := .verifiedDirectly s } := by
  unfold verifyCert validateReceived at hok
  cases hs : cert.aggregatedSignature with
  | none => rw [hs] at hok; simp [bind, Except.bind] at hok
  | some s =>
    rw [hs] at hok
    simp only [bind, Except.bind] at hok
    split at hok
    · cases hok
    · rename_i hq
      unfold verifySignature at hok
      simp only at hok
      split at hok
      · rename_i hv
        cases hok
        simp only [signedBy] at hq hv
        refine ⟨_, s, signedKeys_sublist keys 0 cert.bitmap,
          (signedKeys_sublist keys 0 cert.bitmap).nodup hk, by omega, rfl, hv, rfl⟩
      · cases hok

/-- C02 (f): `validate_and_verify` of a certificate in the unverified state, not a genesis
certificate, likewise implies a quorum of distinct committee keys under a verified aggregate
signature, plus a well-formed header of the right epoch by a committee member. -/
theorem validateAndVerify_sound (B : Bls) (g : Nat → Nat → Nat) (cert out : Certificate)
    (c : Committee) (hc : c.WF) (s : Nat) (hst : cert.state = .unverified s)
    (hng : cert.isGenesis g c = false)
    (hok : cert.validateAndVerify B g c = .ok out) :
    cert.header.epoch = c.epoch ∧ cert.header.author ∈ c.Members ∧
    cert.header.parents.length ≤ c.size ∧
    ∃ pks, pks.Sublist c.blsKeys ∧ pks.Nodup ∧ c.quorumThreshold ≤ pks.length ∧
      B.verifyAgg s cert.header.digest pks = true := by
  unfold validateAndVerify at hok
  rw [hng] at hok
  simp only [Bool.and_false, Bool.false_eq_true, if_false] at hok
  split at hok
  · cases hok
  · rename_i he
    cases hval : cert.header.validate c with
    | error e => rw [hval] at hok; simp at hok
    | ok u =>
      rw [hval] at hok
      simp only at hok
      split at hok
      · cases hok
      · rename_i hq
        unfold verifySignature at hok
        rw [hst] at hok
        simp only at hok
        split at hok
        · rename_i hv
          simp only [signedBy] at hq hv
          unfold Header.validate at hval
          split at hval
          · cases hval
          split at hval
          · cases hval
          split at hval
          · cases hval
          split at hval
          · cases hval
          rename_i h1 h2 h3 h4
          refine ⟨by simpa using he, ?_, by omega, _,
            signedKeys_sublist c.blsKeys 0 cert.bitmap, ?_, by omega, hv⟩
          · rw [← authority_isSome]; cases hx : c.authority cert.header.author <;> simp_all
          · exact (signedKeys_sublist c.blsKeys 0 cert.bitmap).nodup
              (hc.keysSorted.imp (fun h => Nat.ne_of_lt h))
        · cases hok

/-- C02 (g), completeness: if single signatures that verify always aggregate to one that verifies
under the same keys in the same order, every certificate assembled from valid votes of a quorum
passes `verify_cert` at every node with the same committee. -/
theorem assembled_verifies (B : Bls) (c : Committee) (hc : c.WF) (h : Header)
    (votes : List (Nat × Nat)) (hs : SMap.Sorted votes) (cert : Certificate)
    (hbls : ∀ (ps : List (Nat × Nat)) (d s : Nat), (∀ p ∈ ps, B.verify p.2 d p.1 = true) →
      B.aggregate (ps.map (·.2)) = some s → B.verifyAgg s d (ps.map (·.1)) = true)
    (hvalid : ∀ v ∈ votes, B.verify v.2 h.digest v.1 = true)
    (hok : newInternal B c h votes true = .ok cert) :
    ∃ out, cert.verifyCert B c.blsKeys = .ok out ∧ out.isVerified = true := by
  obtain ⟨hsg, hh⟩ := newInternal_signers B c hc h votes hs true cert hok
  obtain ⟨hall, hq, hagg⟩ := (newInternal_ok_iff B c hc h votes hs).mp ⟨_, hok⟩
  obtain ⟨s, hsome⟩ := Option.isSome_iff_exists.mp hagg
  obtain ⟨-, h2, h3⟩ := walk_spec (i := 0) hc.keysSorted hs
  have hst : cert.state = .unverified s := by
    unfold newInternal at hok
    simp only at hok
    split at hok
    · cases hok
    · rename_i hne
      have hrest : (walk c.authorities 0 votes).2.2 = [] := by simpa using hne
      obtain ⟨h4, h5⟩ := h3 hrest
      rw [h5] at hok
      split at hok
      · cases hok
      · have hq1 : 1 ≤ c.quorumThreshold := by unfold quorumThreshold; omega
        have hne : votes.map (·.2) ≠ [] := by
          intro h0
          have : votes.length = 0 := by simpa using congrArg List.length h0
          omega
        rw [if_neg hne, hsome] at hok
        cases hok; rfl
  have hagg' : cert.aggregatedSignature = some s := by simp [aggregatedSignature, hst]
  have hsg' : signedKeys c.blsKeys 0 cert.bitmap = votes.map (·.1) := by
    have := congrArg Prod.snd hsg; simpa [signedBy] using this
  have hv : B.verifyAgg s cert.header.digest (votes.map (·.1)) = true := by
    rw [hh]; exact hbls votes h.digest s hvalid hsome
  refine ⟨{ cert with state := .verifiedDirectly s }, ?_, rfl⟩
  have hlen : c.blsKeys.length = c.size := by simp [blsKeys, size]
  unfold verifyCert validateReceived
  rw [hagg']
  simp only [bind, Except.bind, signedBy, verifySignature, hsg', List.length_map, hlen,
    quorumThresholdOf_eq]
  rw [if_neg (by omega), if_pos hv]

-- Non-vacuity: three of four members sign; a stranger's key fails; two of four are too few.
/-- toy signature scheme for examples: a signature is valid if it equals digest + key; the aggregate
is the sum. -/
def toyBls : Bls where
  verify s d k := s == d + k
  aggregate l := some l.sum
  verifyAgg s d ks := s == (ks.map (d + ·)).sum

def toyHeader : Header := { author := 10, round := 3, epoch := 1, digest := 100 }

example : (match newInternal toyBls four toyHeader [(1, 101), (2, 102), (4, 104)] true with
    | .ok cert => cert.bitmap == [0, 1, 3] && cert.signedBy four.blsKeys == (3, [1, 2, 4]) &&
        (match cert.verifyCert toyBls four.blsKeys with | .ok c => c.isVerified | _ => false)
    | .error _ => false) = true := by decide
example : newInternal toyBls four toyHeader [(1, 101), (2, 102)] true = .error .requiresQuorum := by
  decide
example : newInternal toyBls four toyHeader [(1, 101), (2, 102), (7, 107)] true
    = .error .unknownAuthority := by decide
example : SMap.Sorted [(1, 101), (2, 102), (4, 104)] := by simp [SMap.Sorted]
-- the toy scheme meets the hypothesis of `assembled_verifies`
example : ∀ (ps : List (Nat × Nat)) (d s : Nat), (∀ p ∈ ps, toyBls.verify p.2 d p.1 = true) →
      toyBls.aggregate (ps.map (·.2)) = some s → toyBls.verifyAgg s d (ps.map (·.1)) = true := by
  intro ps d s hv hs
  simp only [toyBls, Option.some.injEq, beq_iff_eq] at *
  subst hs
  induction ps with
  | nil => rfl
  | cons p ps ih =>
    simp only [List.map_cons, List.sum_cons]
    rw [hv p (by simp), ih (fun q hq => hv q (by simp [hq]))]

end Certificate

/-! ## C03 – vote aggregation -/
namespace VotesAgg

/-- Specification: the first vote of each author, in order of arrival. -/
def firstVotes (vs : List Vote) : List Vote :=
  vs.foldl (fun acc v => if v.author ∈ acc.map (·.author) then acc else acc ++ [v]) []

/-- Specification: a vote that may be counted for header `h`: it names the header's digest, its
author is in the committee and its signature over the digest verifies under the author's key. -/
def Counts (B : Bls) (c : Committee) (h : Header) (v : Vote) : Bool :=
  v.headerDigest == h.digest &&
    (match c.authority v.author with
      | some a => B.verify v.signature h.digest a.key
      | none => false)

/-- Specification: the votes that count among `vs`: the first of each author, if valid. -/
def counted (B : Bls) (c : Committee) (h : Header) (vs : List Vote) : List Vote :=
  (firstVotes vs).filter (Counts B c h)

theorem firstVotes_append (vs : List Vote) (v : Vote) :
    firstVotes (vs ++ [v]) =
      if v.author ∈ (firstVotes vs).map (·.author) then firstVotes vs else firstVotes vs ++ [v] := by
  simp [firstVotes, List.foldl_append]

theorem mem_firstVotes_author (vs : List Vote) (a : Nat) :
    a ∈ (firstVotes vs).map (·.author) ↔ a ∈ vs.map (·.author) := by
  induction vs using List.reverseRecOn with
  | nil => simp [firstVotes]
  | append_singleton vs v ih =>
    rw [firstVotes_append]
    split
    · rename_i hm
      rw [ih]; simp only [List.map_append, List.mem_append]
      constructor
      · exact Or.inl
      · rintro (h | h)
        · exact h
        · simp at h; subst h; exact ih.mp hm
    · simp only [List.map_append, List.mem_append, ih]

theorem firstVotes_nodup (vs : List Vote) : ((firstVotes vs).map (·.author)).Nodup := by
  induction vs using List.reverseRecOn with
  | nil => simp [firstVotes]
  | append_singleton vs v ih =>
    rw [firstVotes_append]
    split
    · exact ih
    · rename_i hm
      rw [List.map_append, List.nodup_append]
      refine ⟨ih, by simp, ?_⟩
      intro x hx y hy hxy
      simp at hy
      subst hxy; subst hy; exact hm hx

theorem run_append (B : Bls) (c : Committee) (h : Header) (st : VotesAgg) (vs : List Vote)
    (v : Vote) : (run B c h st (vs ++ [v])).1 = (append B (run B c h st vs).1 v c h).1 := by
  induction vs generalizing st with
  | nil => rfl
  | cons x xs ih => simpa [run] using ih _

/-- Invariant linking the aggregator state with the specification. -/
theorem run_inv (B : Bls) (c : Committee) (h : Header) (vs : List Vote) :
    let st := (run B c h {} vs).1
    (∀ a, a ∈ st.seen ↔ a ∈ (firstVotes vs).map (·.author)) ∧
    st.verified = (counted B c h vs).map (fun v => (v.author, v.signature)) ∧
    st.weight = (counted B c h vs).length := by
  induction vs using List.reverseRecOn with
  | nil => simp [run, firstVotes, counted]
  | append_singleton vs v ih =>
    rw [run_append]
    generalize (run B c h {} vs).1 = st at ih
    obtain ⟨h1, h2, h3⟩ := ih
    unfold append
    by_cases hseen : v.author ∈ st.seen
    · rw [if_pos hseen]
      have hf : firstVotes (vs ++ [v]) = firstVotes vs := by
        rw [firstVotes_append, if_pos ((h1 _).mp hseen)]
      simp only [counted, hf]
      exact ⟨h1, h2, h3⟩
    · rw [if_neg hseen]
      have hnew : v.author ∉ (firstVotes vs).map (·.author) := fun hh => hseen ((h1 _).mpr hh)
      have hf : firstVotes (vs ++ [v]) = firstVotes vs ++ [v] := by
        rw [firstVotes_append, if_neg hnew]
      have hseen' : ∀ a, a ∈ v.author :: st.seen ↔
          a ∈ (firstVotes (vs ++ [v])).map (·.author) := by
        intro a; rw [hf]
        simp only [List.mem_cons, h1, List.map_append, List.mem_append, List.map_cons, List.map_nil,
          List.not_mem_nil, or_false]
        exact Or.comm
      have hcnt : counted B c h (vs ++ [v]) =
          counted B c h vs ++ (if Counts B c h v then [v] else []) := by
        simp only [counted, hf, List.filter_append, List.filter_cons, List.filter_nil]
      simp only
      by_cases hd : v.headerDigest = h.digest
      · rw [if_neg (by simpa using hd)]
        cases ha : c.authority v.author with
        | none =>
          have : Counts B c h v = false := by simp [Counts, ha]
          simp only [hcnt, this]
          exact ⟨hseen', by simpa using h2, by simpa using h3⟩
        | some a =>
          simp only
          by_cases hsig : B.verify v.signature v.headerDigest a.key = false
          · rw [if_pos hsig]
            have : Counts B c h v = false := by simp [Counts, ha, ← hd, hsig]
            simp only [hcnt, this]
            exact ⟨hseen', by simpa using h2, by simpa using h3⟩
          · rw [if_neg hsig]
            have hC : Counts B c h v = true := by
              simp only [Bool.not_eq_false] at hsig
              rw [hd] at hsig
              simp [Counts, ha, hd, hsig]
            have hp : c.votingPowerById v.author = 1 := by simp [Committee.votingPowerById, ha]
            have goal' : ∀ st' : VotesAgg, st'.seen = v.author :: st.seen →
                st'.verified = st.verified ++ [(v.author, v.signature)] →
                st'.weight = st.weight + c.votingPowerById v.author →
                (∀ a, a ∈ st'.seen ↔ a ∈ (firstVotes (vs ++ [v])).map (·.author)) ∧
                st'.verified = (counted B c h (vs ++ [v])).map (fun v => (v.author, v.signature)) ∧
                st'.weight = (counted B c h (vs ++ [v])).length := by
              intro st' e1 e2 e3
              refine ⟨by rw [e1]; exact hseen', ?_, ?_⟩
              · rw [e2, hcnt, hC, h2]; simp
              · rw [e3, hcnt, hC, h3, hp]; simp
            split
            · split
              · exact goal' _ rfl rfl rfl
              · split <;> exact goal' _ rfl rfl rfl
            · exact goal' _ rfl rfl rfl
      · rw [if_pos hd]
        have : Counts B c h v = false := by simp [Counts, hd]
        simp only [hcnt, this]
        exact ⟨hseen', by simpa using h2, by simpa using h3⟩

/-- The keys of the authors of the counted votes. -/
def countedKeys (B : Bls) (c : Committee) (h : Header) (vs : List Vote) : Finset Nat :=
  Certificate.VoterKeys c ((counted B c h vs).map (·.author))

/-- C03 (a): whatever votes `vs` came before, the vote `v` yields a certificate only if `v` is the
first vote of its author and counts, the counted votes including `v` come from distinct members
reaching the quorum threshold, and the certificate's signers are exactly these members; the
certificate is for the header voted on. -/
theorem append_cert_sound (B : Bls) (c : Committee) (hc : c.WF) (h : Header) (vs : List Vote)
    (v : Vote) (cert : Certificate)
    (hok : (append B (run B c h {} vs).1 v c h).2 = .ok (some cert)) :
    v.author ∉ vs.map (·.author) ∧ Counts B c h v = true ∧
    ((counted B c h (vs ++ [v])).map (·.author)).Nodup ∧
    c.quorumThreshold ≤ (counted B c h (vs ++ [v])).length ∧
    (cert.signedBy c.blsKeys).2.toFinset = countedKeys B c h (vs ++ [v]) ∧
    (cert.signedBy c.blsKeys).2.Nodup ∧
    c.quorumThreshold ≤ (cert.signedBy c.blsKeys).1 ∧
    cert.header = h := by
  have hinv := run_inv B c h vs
  have hinv' := run_inv B c h (vs ++ [v])
  rw [run_append] at hinv'
  generalize (run B c h {} vs).1 = st at hinv hinv' hok
  obtain ⟨h1, h2, h3⟩ := hinv
  obtain ⟨-, h2', h3'⟩ := hinv'
  have hnd : ((counted B c h (vs ++ [v])).map (·.author)).Nodup :=
    (firstVotes_nodup (vs ++ [v])).sublist (List.filter_sublist.map _)
  unfold append at hok h2' h3'
  by_cases hseen : v.author ∈ st.seen
  · rw [if_pos hseen] at hok; simp at hok
  · rw [if_neg hseen] at hok h2' h3'
    simp only at hok h2' h3'
    by_cases hd : v.headerDigest = h.digest
    · rw [if_neg (by simpa using hd)] at hok h2' h3'
      cases ha : c.authority v.author with
      | none => rw [ha] at hok; simp at hok
      | some a =>
        rw [ha] at hok h2' h3'
        simp only at hok h2' h3'
        by_cases hsig : B.verify v.signature v.headerDigest a.key = false
        · rw [if_pos hsig] at hok; simp at hok
        · rw [if_neg hsig] at hok h2' h3'
          split at hok
          · rename_i hq
            rw [if_pos hq] at h2' h3'
            split at hok
            · simp at hok
            · rename_i cert' hnew
              rw [hnew] at h2' h3'
              simp only at h2' h3'
              split at hok
              · simp at hok
              · rename_i s hs
                rw [hs] at h2' h3'
                simp only at h2' h3' hok
                cases hok
                obtain ⟨g1, g2, g3, g4, g5⟩ := Certificate.newUnverified_sound B c hc h _ cert' hnew
                rw [h2', List.map_map] at g2 g3 g4
                refine ⟨fun hm => hseen ((h1 _).mpr ((mem_firstVotes_author vs _).mpr hm)), ?_, hnd,
                  by rw [← h3']; exact hq, ?_, g1, ?_, g5⟩
                · simp only [Bool.not_eq_false] at hsig
                  rw [hd] at hsig
                  simp [Counts, ha, hd, hsig]
                · exact g2
                · exact Nat.le_trans g3 (Nat.le_of_eq g4.symm)
          · simp at hok
    · rw [if_pos hd] at hok; simp at hok

/-- C03 (b): the converse. When `v` is the first vote of its author, counts, and completes (or
extends) a quorum, and aggregation succeeds, a verified certificate is returned at once. -/
theorem append_cert_complete (B : Bls) (c : Committee) (hc : c.WF) (h : Header) (vs : List Vote)
    (v : Vote) (hagg : ∀ l, (B.aggregate l).isSome)
    (hnew : v.author ∉ vs.map (·.author)) (hcount : Counts B c h v = true)
    (hq : c.quorumThreshold ≤ (counted B c h (vs ++ [v])).length) :
    ∃ cert, (append B (run B c h {} vs).1 v c h).2 = .ok (some cert) ∧ cert.isVerified = true := by
  have hinv := run_inv B c h vs
  generalize (run B c h {} vs).1 = st at hinv
  obtain ⟨h1, h2, h3⟩ := hinv
  have hseen : v.author ∉ st.seen := fun hm => hnew ((mem_firstVotes_author vs _).mp ((h1 _).mp hm))
  have hf : firstVotes (vs ++ [v]) = firstVotes vs ++ [v] := by
    rw [firstVotes_append, if_neg (fun hm => hnew ((mem_firstVotes_author vs _).mp hm))]
  have hcnt : counted B c h (vs ++ [v]) = counted B c h vs ++ [v] := by
    simp only [counted, hf, List.filter_append, List.filter_cons, List.filter_nil, hcount, if_true]
  have hnd : ((counted B c h (vs ++ [v])).map (·.author)).Nodup :=
    (firstVotes_nodup (vs ++ [v])).sublist (List.filter_sublist.map _)
  have hcount' := hcount
  unfold Counts at hcount
  simp only [Bool.and_eq_true, beq_iff_eq] at hcount
  obtain ⟨hd, hm⟩ := hcount
  cases ha : c.authority v.author with
  | none => rw [ha] at hm; simp at hm
  | some a =>
    rw [ha] at hm
    simp only at hm
    have hp : c.votingPowerById v.author = 1 := by simp [Committee.votingPowerById, ha]
    -- the certificate can be assembled
    have hver : st.verified ++ [(v.author, v.signature)] =
        (counted B c h (vs ++ [v])).map (fun v => (v.author, v.signature)) := by
      rw [hcnt, h2]; simp
    have hmem : ∀ x ∈ counted B c h (vs ++ [v]), x.author ∈ c.Members := by
      intro x hx
      have := (List.mem_filter.mp hx).2
      unfold Counts at this
      simp only [Bool.and_eq_true] at this
      rw [← authority_isSome]
      cases hxa : c.authority x.author with
      | none => rw [hxa] at this; simp at this
      | some _ => rfl
    obtain ⟨cert, hcert⟩ : ∃ cert, Certificate.newUnverified B c h
        (st.verified ++ [(v.author, v.signature)]) = .ok cert := by
      rw [hver]
      unfold Certificate.newUnverified
      set votes := (counted B c h (vs ++ [v])).map (fun v => (v.author, v.signature)) with hvotes
      have hsort := SMap.sorted_ofList (votes.filterMap
        (fun v => (c.authority v.1).map (fun a => (a.key, v.2))))
      rw [Certificate.newInternal_ok_iff B c hc h _ hsort]
      have hkeys := Certificate.voteMap_keys hc votes
      refine ⟨?_, ?_, hagg _⟩
      · intro p hp
        have := (hkeys p.1).mp (List.mem_map.mpr ⟨p, hp, rfl⟩)
        simp only [Certificate.VoterKeys, List.mem_toFinset, List.mem_map, List.mem_filter] at this
        obtain ⟨a, ⟨ha, -⟩, hk⟩ := this
        exact List.mem_map.mpr ⟨a, ha, hk⟩
      · set m := SMap.ofList (votes.filterMap
          (fun v => (c.authority v.1).map (fun a => (a.key, v.2)))) with hmdef
        have hmnd : (m.map (·.1)).Nodup := hsort.imp (fun h => Nat.ne_of_lt h)
        have hset : (m.map (·.1)).toFinset = Certificate.VoterKeys c (votes.map (·.1)) := by
          ext k; rw [List.mem_toFinset]; exact hkeys k
        have hlen : m.length = (Certificate.VoterKeys c (votes.map (·.1))).card := by
          rw [← hset, List.toFinset_card_of_nodup hmnd, List.length_map]
        rw [hlen]
        -- the voters' keys are as many as the voters
        have hids : votes.map (·.1) = (counted B c h (vs ++ [v])).map (·.author) := by
          rw [hvotes, List.map_map]; rfl
        have hkn : ((c.authorities.filter
            (fun a => a.id ∈ votes.map (·.1))).map (·.key)).Nodup :=
          (hc.keysSorted.imp (fun h => Nat.ne_of_lt h)).sublist (List.filter_sublist.map _)
        have hin : ((c.authorities.filter
            (fun a => a.id ∈ votes.map (·.1))).map (·.id)).Nodup :=
          hc.idsNodup.sublist (List.filter_sublist.map _)
        have hcard : (Certificate.VoterKeys c (votes.map (·.1))).card =
            (counted B c h (vs ++ [v])).length := by
          unfold Certificate.VoterKeys
          rw [List.toFinset_card_of_nodup hkn, List.length_map]
          rw [← List.length_map (f := (·.id)), ← List.toFinset_card_of_nodup hin]
          rw [← List.length_map (f := (·.author)) (as := counted B c h (vs ++ [v])),
            ← List.toFinset_card_of_nodup hnd]
          congr 1
          ext x
          rw [List.mem_toFinset, List.mem_toFinset, hids]
          simp only [List.mem_map, List.mem_filter, decide_eq_true_eq]
          constructor
          · rintro ⟨a, ⟨-, y, hy, hya⟩, rfl⟩; exact ⟨y, hy, hya⟩
          · rintro ⟨y, hy, rfl⟩
            obtain ⟨a, ha, hid⟩ := mem_members.mp (hmem y hy)
            exact ⟨a, ⟨ha, y, hy, hid.symm⟩, hid⟩
        omega
    have hstate : ∃ s, cert.aggregatedSignature = some s := by
      unfold Certificate.newUnverified Certificate.newInternal at hcert
      simp only at hcert
      split at hcert
      · cases hcert
      split at hcert
      · cases hcert
      split at hcert
      · cases hcert
      · cases hcert; simp [Certificate.aggregatedSignature]
    obtain ⟨s, hs⟩ := hstate
    refine ⟨{ cert with state := .verifiedDirectly s }, ?_, rfl⟩
    unfold append
    rw [if_neg hseen]
    simp only
    rw [if_neg (by simpa using hd), ha]
    simp only
    rw [if_neg (by rw [hd, hm]; simp)]
    rw [if_pos (by rw [h3, hp]; rw [hcnt] at hq; simpa using hq), hcert]
    simp only [hs]

/-- C03 (c): a second vote of an author, whatever it contains and whatever the first one was, is
rejected and changes nothing. -/
theorem append_repeat_rejected (B : Bls) (c : Committee) (h : Header) (vs : List Vote) (v : Vote)
    (hrep : v.author ∈ vs.map (·.author)) :
    append B (run B c h {} vs).1 v c h = ((run B c h {} vs).1, .error .authorityReuse) := by
  obtain ⟨h1, -, -⟩ := run_inv B c h vs
  unfold append
  rw [if_pos ((h1 _).mpr ((mem_firstVotes_author vs _).mpr hrep))]

-- Non-vacuity: a repeat, a stranger, a wrong digest, a bad signature, then a quorum.
open Certificate in
example :
    let vs : List Vote := [⟨100, 3, 1, 10, 10, 102⟩, ⟨100, 3, 1, 10, 10, 102⟩,
      ⟨100, 3, 1, 10, 99, 102⟩, ⟨100, 3, 1, 10, 40, 103⟩]
    let r := append toyBls (run toyBls four toyHeader {} vs).1 ⟨100, 3, 1, 10, 20, 104⟩ four toyHeader
    (match r.2 with | .ok (some cert) => cert.signedBy four.blsKeys == (3, [2, 3, 4]) | _ => false) = true
    ∧ (run toyBls four toyHeader {} vs).1.weight = 2 := by decide

end VotesAgg

/-! ## C04 – parent aggregation -/
namespace CertsAgg

/-- Specification: the first certificate of each author, in order of arrival. -/
def firsts (xs : List (Nat × Nat)) : List (Nat × Nat) :=
  xs.foldl (fun acc x => if x.1 ∈ acc.map (·.1) then acc else acc ++ [x]) []

/-- All certificates in the released groups, in order. -/
def released (out : List (Option (List (Nat × Nat)))) : List (Nat × Nat) :=
  (out.map (fun o => o.getD [])).flatten

theorem firsts_append (xs : List (Nat × Nat)) (x : Nat × Nat) :
    firsts (xs ++ [x]) = if x.1 ∈ (firsts xs).map (·.1) then firsts xs else firsts xs ++ [x] := by
  rw [firsts, List.foldl_append]; rfl

theorem run_append (c : Committee) (st : CertsAgg) (xs : List (Nat × Nat)) (x : Nat × Nat) :
    run c st (xs ++ [x]) = ((append (run c st xs).1 x c).1,
      (run c st xs).2 ++ [(append (run c st xs).1 x c).2]) := by
  induction xs generalizing st with
  | nil => rfl
  | cons y ys ih => simp only [List.cons_append, run, ih]

theorem firsts_nodup (xs : List (Nat × Nat)) : ((firsts xs).map (·.1)).Nodup := by
  induction xs using List.reverseRecOn with
  | nil => simp [firsts]
  | append_singleton vs v ih =>
    rw [firsts_append]
    split
    · exact ih
    · rename_i hm
      rw [List.map_append, List.nodup_append]
      refine ⟨ih, by simp, ?_⟩
      intro x hx y hy hxy
      simp at hy
      subst hxy; subst hy; exact hm hx

theorem run_inv (c : Committee) (xs : List (Nat × Nat)) :
    (∀ a, a ∈ (run c {} xs).1.seen ↔ a ∈ (firsts xs).map (·.1)) ∧
    (run c {} xs).1.weight = c.power ((firsts xs).map (·.1)) ∧
    released (run c {} xs).2 ++ (run c {} xs).1.certificates = firsts xs ∧
    (if c.quorumThreshold ≤ c.power ((firsts xs).map (·.1)) then
      (run c {} xs).1.certificates = [] else released (run c {} xs).2 = []) := by
  induction xs using List.reverseRecOn with
  | nil => simp [run, firsts, released, Committee.power, quorumThreshold]
  | append_singleton xs x ih =>
    obtain ⟨h1, h2, h3, h4⟩ := ih
    rw [run_append]
    simp only
    generalize (run c {} xs).1 = st at *
    generalize (run c {} xs).2 = out at *
    have hrel : ∀ o, released (out ++ [o]) = released out ++ o.getD [] := by
      intro o; simp [released]
    unfold append
    by_cases hseen : x.1 ∈ st.seen
    · have hf : firsts (xs ++ [x]) = firsts xs := by
        rw [firsts_append, if_pos ((h1 _).mp hseen)]
      rw [if_pos hseen, hf]
      refine ⟨h1, h2, ?_, ?_⟩
      · simp only [hrel]; simpa using h3
      · simp only [hrel]; simpa using h4
    · have hf : firsts (xs ++ [x]) = firsts xs ++ [x] := by
        rw [firsts_append, if_neg (fun hh => hseen ((h1 _).mpr hh))]
      have hpow : c.power ((firsts (xs ++ [x])).map (·.1)) =
          c.power ((firsts xs).map (·.1)) + c.votingPowerById x.1 := by
        rw [hf]; simp [Committee.power]
      rw [if_neg hseen]
      have hs : ∀ a, a ∈ x.1 :: st.seen ↔ a ∈ (firsts (xs ++ [x])).map (·.1) := by
        intro a; rw [hf]
        simp only [List.mem_cons, h1, List.map_append, List.mem_append, List.map_cons, List.map_nil,
          List.not_mem_nil, or_false]
        exact Or.comm
      by_cases hq : c.quorumThreshold ≤ st.weight + c.votingPowerById x.1
      · rw [if_pos hq]
        refine ⟨hs, by rw [hpow, ← h2], ?_, ?_⟩
        · simp only [hrel, Option.getD_some, List.append_nil]
          rw [hf, ← h3, List.append_assoc]
        · rw [if_pos (by rw [hpow, ← h2]; exact hq)]
      · rw [if_neg hq]
        refine ⟨hs, by rw [hpow, ← h2], ?_, ?_⟩
        · simp only [hrel, Option.getD_none, List.append_nil]
          rw [hf, ← h3, List.append_assoc]
        · rw [if_neg (by rw [hpow, ← h2]; exact hq)]
          simp only [hrel, Option.getD_none, List.append_nil]
          rw [if_neg (by rw [← h2]; omega)] at h4
          exact h4

/-- C04 (a): nothing is released while the authors seen do not reach a quorum; once they do, every
first certificate of every author has been released exactly once, in order of arrival. -/
theorem released_exact (c : Committee) (xs : List (Nat × Nat)) :
    released (run c {} xs).2 =
      if c.quorumThreshold ≤ c.power ((firsts xs).map (·.1)) then firsts xs else [] := by
  obtain ⟨-, -, h3, h4⟩ := run_inv c xs
  split
  · rename_i hq; rw [if_pos hq] at h4; rw [h4] at h3; simpa using h3
  · rename_i hq; rw [if_neg hq] at h4; exact h4

/-- C04 (b): the reaction to one more certificate: nothing for a repeated author or below quorum, all
certificates so far if it completes the quorum, itself alone afterwards. -/
theorem append_exact (c : Committee) (xs : List (Nat × Nat)) (x : Nat × Nat) :
    (append (run c {} xs).1 x c).2 =
      if x.1 ∈ (firsts xs).map (·.1) then none
      else if c.quorumThreshold ≤ c.power ((firsts xs).map (·.1)) then some [x]
      else if c.quorumThreshold ≤ c.power ((firsts xs ++ [x]).map (·.1)) then some (firsts xs ++ [x])
      else none := by
  obtain ⟨h1, h2, h3, h4⟩ := run_inv c xs
  generalize (run c {} xs).1 = st at *
  generalize (run c {} xs).2 = out at *
  have hpow : c.power ((firsts xs ++ [x]).map (·.1)) =
      c.power ((firsts xs).map (·.1)) + c.votingPowerById x.1 := by
    simp [Committee.power]
  unfold append
  by_cases hseen : x.1 ∈ st.seen
  · rw [if_pos hseen, if_pos ((h1 _).mp hseen)]
  · rw [if_neg hseen, if_neg (fun hh => hseen ((h1 _).mpr hh))]
    rw [hpow, ← h2] at *
    by_cases hq0 : c.quorumThreshold ≤ st.weight
    · rw [if_pos hq0] at h4
      rw [if_pos (by simp only; omega), if_pos hq0, h4]; rfl
    · rw [if_neg hq0] at h4
      rw [h4] at h3
      by_cases hq : c.quorumThreshold ≤ st.weight + c.votingPowerById x.1
      · rw [if_pos hq, if_neg hq0, if_pos hq]
        rw [← h3]; rfl
      · rw [if_neg hq, if_neg hq0, if_neg hq]

/-- C04 (c): no author is released twice. -/
theorem released_nodup (c : Committee) (xs : List (Nat × Nat)) :
    ((released (run c {} xs).2).map (·.1)).Nodup := by
  rw [released_exact]
  split
  · exact firsts_nodup xs
  · simp

example : (run four {} [(10, 1), (20, 2), (10, 3), (30, 4), (40, 5)]).2 =
    [none, none, none, some [(10, 1), (20, 2), (30, 4)], some [(40, 5)]] := by decide

end CertsAgg

namespace CertsAggMgr

/-- Feeding certificates (round, certificate) to the manager. -/
def run (c : Committee) (m : CertsAggMgr) (xs : List (Nat × (Nat × Nat))) : CertsAggMgr :=
  xs.foldl (fun m x => m.appendCertificate x.1 x.2 c) m

/-- C04 (d): rounds do not influence each other: the messages sent to the proposer for round `r` are
those of a single aggregator fed with the certificates of round `r` only. -/
theorem rounds_independent (c : Committee) (xs : List (Nat × (Nat × Nat))) (r : Nat) :
    ((run c {} xs).sent.filter (fun m => m.2 == r)).map (·.1) =
      (CertsAgg.run c {} ((xs.filter (fun x => x.1 == r)).map (·.2))).2.filterMap id := by
  suffices h : ((run c {} xs).sent.filter (fun m => m.2 == r)).map (·.1) =
      (CertsAgg.run c {} ((xs.filter (fun x => x.1 == r)).map (·.2))).2.filterMap id ∧
      (SMap.get? r (run c {} xs).aggregators).getD {} =
        (CertsAgg.run c {} ((xs.filter (fun x => x.1 == r)).map (·.2))).1 from h.1
  induction xs using List.reverseRecOn with
  | nil => exact ⟨rfl, rfl⟩
  | append_singleton xs x ih =>
    obtain ⟨h1, h2⟩ := ih
    have hr : run c {} (xs ++ [x]) = (run c {} xs).appendCertificate x.1 x.2 c := by
      simp [run, List.foldl_append]
    rw [hr]
    generalize run c {} xs = m at *
    rw [List.filter_append, List.map_append]
    by_cases hx : x.1 = r
    · have : ([x].filter (fun x => x.1 == r)).map (·.2) = [x.2] := by simp [hx]
      rw [this, CertsAgg.run_append, ← h2]
      subst hx
      simp only [appendCertificate, SMap.get?_insert, if_true, Option.getD_some, and_true]
      rw [List.filterMap_append, ← h1]
      cases ((SMap.get? x.1 m.aggregators).getD {}).append x.2 c |>.2 with
      | none => simp
      | some ps => simp
    · have : ([x].filter (fun x => x.1 == r)).map (·.2) = [] := by simp [hx]
      rw [this, List.append_nil]
      simp only [appendCertificate, SMap.get?_insert]
      rw [if_neg (fun h => hx h.symm)]
      refine ⟨?_, h2⟩
      rw [← h1]
      cases ((SMap.get? x.1 m.aggregators).getD {}).append x.2 c |>.2 with
      | none => simp
      | some ps => simp [hx]

/-- What reaches the manager: a certificate of a round, or a garbage collection. -/
inductive In where
  | cert (round : Nat) (cert : Nat × Nat)
  | gc (gcRound : Nat)
deriving DecidableEq, Repr

/-- One of them handled. -/
def stepIn (c : Committee) (m : CertsAggMgr) : In → CertsAggMgr
  | .cert r x => m.appendCertificate r x c
  | .gc g => m.garbageCollect g

/-- All handled in order. -/
def runIn (c : Committee) (m : CertsAggMgr) (xs : List In) : CertsAggMgr := xs.foldl (stepIn c) m

/-- The certificates of round `r` among them. -/
def certsOf (r : Nat) : List In → List (Nat × Nat)
  | [] => []
  | .cert r' x :: xs => if r' = r then x :: certsOf r xs else certsOf r xs
  | .gc _ :: xs => certsOf r xs

theorem certsOf_append (r : Nat) (a b : List In) : certsOf r (a ++ b) = certsOf r a ++ certsOf r b := by
  induction a with
  | nil => rfl
  | cons x a ih =>
    cases x with
    | cert r' x =>
      show (if r' = r then x :: certsOf r (a ++ b) else certsOf r (a ++ b)) =
        (if r' = r then x :: certsOf r a else certsOf r a) ++ certsOf r b
      rw [ih]; split <;> simp
    | gc g => exact ih

theorem get?_filter (m : List (Nat × CertsAgg)) (g r : Nat) :
    SMap.get? r (m.filter (fun p => decide (g < p.1))) = if g < r then SMap.get? r m else none := by
  induction m with
  | nil => simp [SMap.get?]
  | cons p m ih =>
    obtain ⟨k, v⟩ := p
    by_cases hg : g < k
    · rw [List.filter_cons_of_pos (by simpa using hg)]
      unfold SMap.get?
      by_cases hk : r = k
      · subst hk; simp [hg]
      · rw [if_neg hk, if_neg hk]; exact ih
    · rw [List.filter_cons_of_neg (by simpa using hg), ih]
      conv_rhs => unfold SMap.get?
      by_cases hr : g < r
      · rw [if_pos hr, if_pos hr, if_neg (by omega)]
      · rw [if_neg hr, if_neg hr]

/-- C04 (e): garbage collection does not disturb rounds above the horizon: with collections up to rounds
below `r` in between, the messages for round `r` are still those of one aggregator fed with the
certificates of that round. -/
theorem rounds_independent_gc (c : Committee) (xs : List In) (r : Nat)
    (hgc : ∀ g, In.gc g ∈ xs → g < r) :
    ((runIn c {} xs).sent.filter (fun m => m.2 == r)).map (·.1) =
      (CertsAgg.run c {} (certsOf r xs)).2.filterMap id := by
  suffices h : ((runIn c {} xs).sent.filter (fun m => m.2 == r)).map (·.1) =
      (CertsAgg.run c {} (certsOf r xs)).2.filterMap id ∧
      (SMap.get? r (runIn c {} xs).aggregators).getD {} = (CertsAgg.run c {} (certsOf r xs)).1 from h.1
  induction xs using List.reverseRecOn with
  | nil => exact ⟨rfl, rfl⟩
  | append_singleton xs x ih =>
    obtain ⟨h1, h2⟩ := ih (fun g hg => hgc g (List.mem_append_left _ hg))
    have hr : runIn c {} (xs ++ [x]) = stepIn c (runIn c {} xs) x := by
      simp [runIn, List.foldl_append]
    rw [hr, certsOf_append]
    generalize runIn c {} xs = m at *
    cases x with
    | gc g =>
      have hg : g < r := hgc g (by simp)
      have : certsOf r [In.gc g] = [] := rfl
      rw [this, List.append_nil]
      refine ⟨h1, ?_⟩
      rw [← h2]
      show (SMap.get? r (m.aggregators.filter (fun p => decide (g < p.1)))).getD {} = _
      rw [get?_filter, if_pos hg]
    | cert r' x =>
      simp only [stepIn]
      by_cases hx : r' = r
      · have : certsOf r [In.cert r' x] = [x] := by simp [certsOf, hx]
        rw [this, CertsAgg.run_append, ← h2]
        subst hx
        simp only [appendCertificate, SMap.get?_insert, if_true, Option.getD_some, and_true]
        rw [List.filterMap_append, ← h1]
        cases ((SMap.get? r' m.aggregators).getD {}).append x c |>.2 with
        | none => simp
        | some ps => simp
      · have : certsOf r [In.cert r' x] = [] := by simp [certsOf, hx]
        rw [this, List.append_nil]
        simp only [appendCertificate, SMap.get?_insert]
        rw [if_neg (fun h => hx h.symm)]
        refine ⟨?_, h2⟩
        rw [← h1]
        cases ((SMap.get? r' m.aggregators).getD {}).append x c |>.2 with
        | none => simp
        | some ps => simp [hx]

/-- C04 (f): after a garbage collection nothing is kept for rounds at or below the horizon, and
everything above is. -/
theorem gc_exact (m : CertsAggMgr) (g r : Nat) :
    SMap.get? r (m.garbageCollect g).aggregators = if g < r then SMap.get? r m.aggregators else none :=
  get?_filter m.aggregators g r

example : (runIn four {} [.cert 5 (10, 1), .cert 3 (10, 7), .cert 5 (20, 2), .gc 4, .cert 5 (30, 3),
    .cert 3 (20, 8)]).sent = [([(10, 1), (20, 2), (30, 3)], 5)] := by decide

end CertsAggMgr
end Verif
