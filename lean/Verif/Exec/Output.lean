import Verif.Bullshark.Model
import Verif.Committee.Model
/-
Model of the assembly of a `ConsensusOutput` from a committed sub-dag and the batches fetched for it:
`crates/consensus/executor/src/subscriber.rs` (`fetch_batches`) and
`crates/types/src/primary/output.rs` (`ConsensusOutput`).
-/
namespace Verif
namespace Exec
open Bull

/-- `Batch`, crates/types/src/worker/sealed_batch.rs:62-93. `received_at` is local bookkeeping: it is
not serialised, not part of the digest and not read by execution, so it is left out. -/
structure Batch where
  txs : List (List Nat) := []
  epoch : Epoch := 0
  beneficiary : Nat := 0
  baseFee : Nat := 7
  workerId : Nat := 0
deriving DecidableEq, Repr

/-- `CertifiedBatch`, output.rs:33-38: the batches of one committed header and the execution address
of its author. -/
structure CertifiedBatch where
  addr : Nat
  batches : List Batch
deriving DecidableEq, Repr

/-- `ConsensusOutput`, output.rs:43-77. The cached hash is a function of the other fields
(`ConsensusHeader::digest_from_parts`, modelled in `Codec.Chain`); here it is the field `hash`. -/
structure Output where
  subDag : SubDag
  parent : Nat
  number : Nat
  hash : Nat
  closeEpoch : Bool := false
  digests : List Nat := []
  certs : List CertifiedBatch := []
deriving DecidableEq, Repr

/-- The digests of a header's payload, in payload order: `header.payload().keys()`. -/
def payloadKeys (h : Header) : List Nat := h.payload.map (·.1)

/-- `num_primary_batches`, output.rs:493-495. -/
def numPrimaryBatches (s : SubDag) : Nat := (s.headers.map (fun h => h.payload.length)).sum

/-- The batches returned by the worker: `HashMap<BlockHash, Batch>` as a partial function. -/
abbrev Fetched := Nat → Option Batch

/-- `fetched_batches.remove(digest)`: the map afterwards. -/
def Fetched.remove (f : Fetched) (d : Nat) : Fetched := fun x => if x = d then none else f x

/-- `SubscriberError`, the two cases of this function. -/
inductive AsmErr
  | missingFetchedBatch (d : Nat)
  | unexpectedAuthority (id : Nat)
deriving DecidableEq, Repr

/-- What the subscriber needs to know: the batch digest function, the committee and whether a
duplicate batch is skipped (`skipDup`: the `adiri` feature and leader epoch at most
`ADIRI_DUP_BATCH_EPOCH`, subscriber.rs:478-490; false in every other build). `hashParts` is
`ConsensusHeader::digest_from_parts`. -/
structure AsmParams where
  digest : Batch → Nat
  committee : Committee
  skipDup : Bool := false
  hashParts : Nat → SubDag → Nat → Nat := fun _ _ _ => 0

/-- One digest of a header, subscriber.rs:449-497. `prev`: batches of earlier headers,
`acc`: batches already collected for this one. -/
def asmDigest (P : AsmParams) (prev : List Batch) (f : Fetched) (acc : List Batch) (d : Nat) :
    Except AsmErr (Fetched × List Batch) :=
  match f d with
  | some b => .ok (f.remove d, acc ++ [b])
  | none =>
    match (prev ++ acc).find? (fun b => P.digest b == d) with
    | some b => .ok (f, if P.skipDup then acc else acc ++ [b])
    | none => .error (.missingFetchedBatch d)

/-- The inner loop, subscriber.rs:449-497. -/
def asmHeader (P : AsmParams) (prev : List Batch) (f : Fetched) (acc : List Batch) :
    List Nat → Except AsmErr (Fetched × List Batch)
  | [] => .ok (f, acc)
  | d :: ds =>
    match asmDigest P prev f acc d with
    | .ok (f', acc') => asmHeader P prev f' acc' ds
    | .error e => .error e

/-- The outer loop, subscriber.rs:443-504. `certs`: the entries pushed so far. The author's address
is looked up after its batches were collected. -/
def asmHeaders (P : AsmParams) (f : Fetched) (certs : List CertifiedBatch) :
    List Header → Except AsmErr (List CertifiedBatch)
  | [] => .ok certs
  | h :: hs =>
    match asmHeader P (certs.flatMap (·.batches)) f [] (payloadKeys h) with
    | .error e => .error e
    | .ok (f', bs) =>
      match P.committee.authority h.author with
      | none => .error (.unexpectedAuthority h.author)
      | some a => asmHeaders P f' (certs ++ [⟨a.addr, bs⟩]) hs

/-- `fetch_batches`, subscriber.rs:407-527, given the map the worker returned. -/
def assemble (P : AsmParams) (f : Fetched) (sd : SubDag) (parent number : Nat) :
    Except AsmErr Output :=
  if numPrimaryBatches sd = 0 then
    .ok { subDag := sd, parent := parent, number := number, hash := P.hashParts parent sd number }
  else
    match asmHeaders P f [] sd.headers with
    | .error e => .error e
    | .ok certs =>
      .ok { subDag := sd, parent := parent, number := number, hash := P.hashParts parent sd number,
            digests := sd.headers.flatMap payloadKeys, certs := certs }

/-- `flatten_batches`, output.rs:194-203, applied to the batches: the batches in execution order, each
with the address of the header's author. -/
def Output.flat (o : Output) : List (Nat × Batch) :=
  o.certs.flatMap (fun c => c.batches.map (fun b => (c.addr, b)))

/-- `close_epoch_for_last_batch(index).is_some_and(id)`, output.rs:240-244 and
tn-reth/src/payload.rs:96-100. -/
def Output.closesAt (o : Output) (i : Nat) : Bool :=
  o.closeEpoch && (o.digests.isEmpty || decide (o.digests.length ≤ i + 1))

/-! ## Specification -/

/-- The worker returned, under each digest, a batch with that digest. -/
def Honest (P : AsmParams) (f : Fetched) : Prop := ∀ d b, f d = some b → P.digest b = d

/-- Everything the sub-dag needs is there: each digest named by a header was fetched and each author
is in the committee. -/
def Complete (P : AsmParams) (f : Fetched) (sd : SubDag) : Prop :=
  ∀ h ∈ sd.headers, (∀ d ∈ payloadKeys h, (f d).isSome) ∧ (P.committee.authority h.author).isSome

/-! ## Proofs -/

/-- State of the loop: what was removed from the map is among the collected batches, and every
collected batch is what the worker returned for its digest. -/
structure LoopInv (P : AsmParams) (f f' : Fetched) (coll : List Batch) : Prop where
  left : ∀ d, f' d = f d ∨ (f' d = none ∧ ∃ b ∈ coll, P.digest b = d)
  from_ : ∀ b ∈ coll, f (P.digest b) = some b

theorem LoopInv.start (P : AsmParams) (f : Fetched) : LoopInv P f f [] :=
  ⟨fun _ => .inl rfl, fun b hb => by cases hb⟩

theorem asmDigest_spec {P : AsmParams} {f f' : Fetched} {prev acc : List Batch} {d : Nat}
    (hk : P.skipDup = false) (hf : Honest P f) (inv : LoopInv P f f' (prev ++ acc)) :
    match f d with
    | some b => ∃ f'', asmDigest P prev f' acc d = .ok (f'', acc ++ [b]) ∧
        LoopInv P f f'' (prev ++ (acc ++ [b]))
    | none => asmDigest P prev f' acc d = .error (.missingFetchedBatch d) := by
  cases hd' : f' d with
  | some b =>
    have hfd : f d = some b := by
      rcases inv.left d with h | ⟨h, _⟩
      · rw [← h, hd']
      · rw [h] at hd'; cases hd'
    simp only [hfd]
    refine ⟨f'.remove d, by simp [asmDigest, hd'], ?_, ?_⟩
    · intro x
      by_cases hx : x = d
      · subst hx
        exact .inr ⟨by simp [Fetched.remove], b, by simp, hf _ _ hfd⟩
      · have e : f'.remove d x = f' x := by simp [Fetched.remove, hx]
        rw [e]
        rcases inv.left x with h | ⟨h, b', hb', hbd⟩
        · exact .inl h
        · exact .inr ⟨h, b', by
            rcases List.mem_append.mp hb' with h | h <;> simp [h], hbd⟩
    · intro b' hb'
      rw [← List.append_assoc] at hb'
      rcases List.mem_append.mp hb' with h | h
      · exact inv.from_ b' h
      · rw [List.mem_singleton] at h; subst h; rw [hf _ _ hfd]; exact hfd
  | none =>
    cases hfind : (prev ++ acc).find? (fun b => P.digest b == d) with
    | some b =>
      have hb : b ∈ prev ++ acc := List.mem_of_find?_eq_some hfind
      have hbd : P.digest b = d := by simpa using List.find?_some hfind
      have hfd : f d = some b := by rw [← hbd]; exact inv.from_ b hb
      simp only [hfd]
      refine ⟨f', by simp [asmDigest, hd', hfind, hk], ?_, ?_⟩
      · intro x
        rcases inv.left x with h | ⟨h, b', hb', hbd⟩
        · exact .inl h
        · exact .inr ⟨h, b', by rcases List.mem_append.mp hb' with h | h <;> simp [h], hbd⟩
      · intro b' hb'
        rw [← List.append_assoc] at hb'
        rcases List.mem_append.mp hb' with h | h
        · exact inv.from_ b' h
        · rw [List.mem_singleton] at h; subst h; rw [hbd]; exact hfd
    | none =>
      have hfd : f d = none := by
        rcases inv.left d with h | ⟨_, b, hb, hbd⟩
        · rw [← h, hd']
        · have := List.find?_eq_none.mp hfind b hb
          simp [hbd] at this
      simp only [hfd]
      simp [asmDigest, hd', hfind]

/-- The inner loop succeeds exactly when every digest was fetched, and then collects exactly the
fetched batches in order. -/
theorem asmHeader_spec {P : AsmParams} {f : Fetched} (hk : P.skipDup = false) (hf : Honest P f)
    (prev : List Batch) :
    ∀ (ds : List Nat) (f' : Fetched) (acc : List Batch), LoopInv P f f' (prev ++ acc) →
      ((∀ d ∈ ds, (f d).isSome) → ∃ f'', asmHeader P prev f' acc ds =
          .ok (f'', acc ++ ds.filterMap f) ∧ LoopInv P f f'' (prev ++ (acc ++ ds.filterMap f))) ∧
      ((¬ ∀ d ∈ ds, (f d).isSome) → ∃ d ∈ ds, f d = none ∧
          asmHeader P prev f' acc ds = .error (.missingFetchedBatch d)) := by
  intro ds
  induction ds with
  | nil =>
    intro f' acc inv
    exact ⟨fun _ => ⟨f', by simp [asmHeader], by simpa using inv⟩, fun h => absurd (by simp) h⟩
  | cons d ds ih =>
    intro f' acc inv
    have step := asmDigest_spec (d := d) hk hf inv
    cases hd : f d with
    | some b =>
      rw [hd] at step
      obtain ⟨f'', e, inv'⟩ := step
      obtain ⟨h1, h2⟩ := ih f'' (acc ++ [b]) inv'
      constructor
      · intro hall
        obtain ⟨g, eg, ig⟩ := h1 (fun x hx => hall x (by simp [hx]))
        refine ⟨g, ?_, ?_⟩
        · simp only [asmHeader, e]
          rw [eg]; simp [hd]
        · simpa [hd] using ig
      · intro hnall
        have : ¬ ∀ x ∈ ds, (f x).isSome := by
          intro hall; apply hnall; intro x hx
          rcases List.mem_cons.mp hx with rfl | hx
          · simp [hd]
          · exact hall x hx
        obtain ⟨x, hx, hxn, ex⟩ := h2 this
        exact ⟨x, by simp [hx], hxn, by simp only [asmHeader, e]; exact ex⟩
    | none =>
      rw [hd] at step
      constructor
      · intro hall
        have := hall d (by simp)
        simp [hd] at this
      · intro _
        exact ⟨d, by simp, hd, by simp only [asmHeader, step]⟩

/-- The entry an author's header must get: its address and the fetched batches of its payload. -/
def expectedCert (P : AsmParams) (f : Fetched) (h : Header) : CertifiedBatch :=
  ⟨((P.committee.authority h.author).map (·.addr)).getD 0, (payloadKeys h).filterMap f⟩

theorem asmHeaders_spec {P : AsmParams} {f : Fetched} (hk : P.skipDup = false) (hf : Honest P f) :
    ∀ (hs : List Header) (f' : Fetched) (certs : List CertifiedBatch),
      LoopInv P f f' (certs.flatMap (·.batches)) →
      ((∀ h ∈ hs, (∀ d ∈ payloadKeys h, (f d).isSome) ∧ (P.committee.authority h.author).isSome) →
        asmHeaders P f' certs hs = .ok (certs ++ hs.map (expectedCert P f))) ∧
      ((¬ ∀ h ∈ hs, (∀ d ∈ payloadKeys h, (f d).isSome) ∧ (P.committee.authority h.author).isSome) →
        (∃ h ∈ hs, ∃ d ∈ payloadKeys h, f d = none ∧
            asmHeaders P f' certs hs = .error (.missingFetchedBatch d)) ∨
        (∃ h ∈ hs, P.committee.authority h.author = none ∧
            asmHeaders P f' certs hs = .error (.unexpectedAuthority h.author))) := by
  intro hs
  induction hs with
  | nil => intro f' certs _; exact ⟨fun _ => by simp [asmHeaders], fun h => absurd (by simp) h⟩
  | cons h hs ih =>
    intro f' certs inv
    obtain ⟨h1, h2⟩ := asmHeader_spec hk hf (certs.flatMap (·.batches)) (payloadKeys h) f' []
      (by simpa using inv)
    by_cases hd : ∀ d ∈ payloadKeys h, (f d).isSome
    · obtain ⟨f'', e, inv'⟩ := h1 hd
      cases ha : P.committee.authority h.author with
      | some a =>
        have ee : asmHeaders P f' certs (h :: hs) =
            asmHeaders P f'' (certs ++ [expectedCert P f h]) hs := by
          simp only [asmHeaders, e, ha]
          simp [expectedCert, ha]
        obtain ⟨i1, i2⟩ := ih f'' (certs ++ [expectedCert P f h])
          (by simpa [expectedCert] using inv')
        constructor
        · intro hall
          rw [ee, i1 (fun x hx => hall x (by simp [hx]))]; simp
        · intro hn
          have : ¬ ∀ h ∈ hs, (∀ d ∈ payloadKeys h, (f d).isSome) ∧
              (P.committee.authority h.author).isSome := by
            intro hall; apply hn; intro x hx
            rcases List.mem_cons.mp hx with rfl | hx
            · exact ⟨hd, by simp [ha]⟩
            · exact hall x hx
          rw [ee]
          rcases i2 this with ⟨x, hx, d, hdx, q⟩ | ⟨x, hx, q⟩
          · exact .inl ⟨x, by simp [hx], d, hdx, q⟩
          · exact .inr ⟨x, by simp [hx], q⟩
      | none =>
        constructor
        · intro hall
          have := (hall h (by simp)).2
          simp [ha] at this
        · intro _
          exact .inr ⟨h, by simp, ha, by simp only [asmHeaders, e, ha]⟩
    · constructor
      · intro hall; exact absurd (hall h (by simp)).1 hd
      · intro _
        obtain ⟨d, hdm, hdn, e⟩ := h2 hd
        exact .inl ⟨h, by simp, d, hdm, hdn, by simp only [asmHeaders, e]⟩

theorem no_batches_payload {sd : SubDag} (h0 : numPrimaryBatches sd = 0) :
    ∀ h ∈ sd.headers, h.payload = [] := by
  intro h hh
  unfold numPrimaryBatches at h0
  have hm : h.payload.length ∈ sd.headers.map (fun h => h.payload.length) :=
    List.mem_map.mpr ⟨h, hh, rfl⟩
  have : ∀ (l : List Nat), l.sum = 0 → ∀ x ∈ l, x = 0 := by
    intro l
    induction l with
    | nil => intro _ x hx; cases hx
    | cons a l ih =>
      intro hs x hx
      rw [List.sum_cons] at hs
      rcases List.mem_cons.mp hx with rfl | hx
      · omega
      · exact ih (by omega) x hx
  have := this _ h0 _ hm
  exact List.length_eq_zero_iff.mp this

/-- **The assembled output is exactly the sub-dag's payload.** If the worker answered honestly and
completely, the output lists the payload digests of the committed headers in commit order, and its
entries are, header by header, the author's execution address and the batches with those digests. -/
theorem assemble_complete {P : AsmParams} {f : Fetched} {sd : SubDag} {parent number : Nat}
    (hk : P.skipDup = false) (hf : Honest P f) (hc : Complete P f sd) :
    ∃ o, assemble P f sd parent number = .ok o ∧ o.subDag = sd ∧ o.parent = parent ∧
      o.number = number ∧ o.hash = P.hashParts parent sd number ∧ o.closeEpoch = false ∧
      o.digests = sd.headers.flatMap payloadKeys ∧
      o.flat.map (fun x => P.digest x.2) = o.digests ∧
      o.flat = sd.headers.flatMap (fun h => (payloadKeys h).filterMap (fun d =>
        (f d).map (fun b => (((P.committee.authority h.author).map (·.addr)).getD 0, b)))) := by
  have dig : ∀ ds : List Nat, (∀ d ∈ ds, (f d).isSome) → (ds.filterMap f).map P.digest = ds := by
    intro ds
    induction ds with
    | nil => simp
    | cons d ds ih =>
      intro h
      obtain ⟨b, hb⟩ := Option.isSome_iff_exists.mp (h d (by simp))
      rw [List.filterMap_cons, hb]
      simp only [List.map_cons, hf _ _ hb, ih (fun x hx => h x (by simp [hx]))]
  unfold assemble
  by_cases h0 : numPrimaryBatches sd = 0
  · rw [if_pos h0]
    have hp := no_batches_payload h0
    have e1 : sd.headers.flatMap payloadKeys = [] :=
      List.flatMap_eq_nil_iff.mpr (fun h hh => by simp [payloadKeys, hp h hh])
    refine ⟨_, rfl, rfl, rfl, rfl, rfl, rfl, e1.symm, by simp [Output.flat], ?_⟩
    symm
    exact List.flatMap_eq_nil_iff.mpr (fun h hh => by simp [payloadKeys, hp h hh])
  · rw [if_neg h0]
    have := (asmHeaders_spec hk hf sd.headers f [] (LoopInv.start P f)).1 hc
    rw [this]
    have flateq : ∀ hs : List Header,
        (hs.map (expectedCert P f)).flatMap (fun c => c.batches.map (fun b => (c.addr, b))) =
        hs.flatMap (fun h => (payloadKeys h).filterMap (fun d =>
          (f d).map (fun b => (((P.committee.authority h.author).map (·.addr)).getD 0, b)))) := by
      intro hs
      rw [List.flatMap_map]
      congr 1
      funext h
      simp only [expectedCert]
      induction payloadKeys h with
      | nil => rfl
      | cons d ds ih =>
        cases hd : f d with
        | none => simpa [List.filterMap_cons, hd] using ih
        | some b => simpa [List.filterMap_cons, hd] using ih
    refine ⟨_, rfl, rfl, rfl, rfl, rfl, rfl, rfl, ?_, ?_⟩
    · show (((([] : List CertifiedBatch) ++ sd.headers.map (expectedCert P f)).flatMap
          (fun c : CertifiedBatch => c.batches.map (fun b => (c.addr, b)))).map (fun x => P.digest x.2)) =
          sd.headers.flatMap payloadKeys
      rw [List.nil_append, List.flatMap_map, List.map_flatMap]
      have : ∀ hs : List Header, (∀ h ∈ hs, ∀ d ∈ payloadKeys h, (f d).isSome) →
          hs.flatMap (fun h => ((expectedCert P f h).batches.map
            (fun b => ((expectedCert P f h).addr, b))).map (fun x => P.digest x.2)) =
          hs.flatMap payloadKeys := by
        intro hs
        induction hs with
        | nil => intro _; rfl
        | cons h hs ih =>
          intro hall
          rw [List.flatMap_cons, List.flatMap_cons, ih (fun x hx => hall x (by simp [hx]))]
          congr 1
          rw [List.map_map]
          exact dig _ (hall h (by simp))
      exact this _ (fun h hh => (hc h hh).1)
    · show ((([] : List CertifiedBatch) ++ sd.headers.map (expectedCert P f)).flatMap
          (fun c : CertifiedBatch => c.batches.map (fun b => (c.addr, b)))) = _
      rw [List.nil_append]; exact flateq _

/-- **Nothing is ever left out.** If a batch is missing or an author is unknown there is no output:
the error names a digest that was not fetched or an author that is not in the committee. (An output
without any payload is empty and needs neither.) -/
theorem assemble_incomplete {P : AsmParams} {f : Fetched} {sd : SubDag} {parent number : Nat}
    (hk : P.skipDup = false) (hf : Honest P f) (hn : numPrimaryBatches sd ≠ 0)
    (hc : ¬ Complete P f sd) :
    (∃ h ∈ sd.headers, ∃ d ∈ payloadKeys h, f d = none ∧
        assemble P f sd parent number = .error (.missingFetchedBatch d)) ∨
    (∃ h ∈ sd.headers, P.committee.authority h.author = none ∧
        assemble P f sd parent number = .error (.unexpectedAuthority h.author)) := by
  unfold assemble
  rw [if_neg hn]
  rcases (asmHeaders_spec hk hf sd.headers f [] (LoopInv.start P f)).2 hc with
    ⟨h, hh, d, hd, hdn, e⟩ | ⟨h, hh, ha, e⟩
  · exact .inl ⟨h, hh, d, hd, hdn, by rw [e]⟩
  · exact .inr ⟨h, hh, ha, by rw [e]⟩

/-- **Two nodes build the same output.** Whatever workers and peers answered the two nodes, if both
answers are honest and no two different batches among them have the same digest, both outputs are
equal. -/
theorem assemble_agree {P : AsmParams} {f g : Fetched} {sd : SubDag} {parent number : Nat}
    {o o' : Output} (hk : P.skipDup = false) (hf : Honest P f) (hg : Honest P g)
    (nocoll : ∀ d d' b b', f d = some b → g d' = some b' → P.digest b = P.digest b' → b = b')
    (ho : assemble P f sd parent number = .ok o) (ho' : assemble P g sd parent number = .ok o') :
    o = o' := by
  unfold assemble at ho ho'
  by_cases h0 : numPrimaryBatches sd = 0
  · rw [if_pos h0] at ho ho'
    rw [← Except.ok.inj ho, ← Except.ok.inj ho']
  · rw [if_neg h0] at ho ho'
    have key : ∀ (f : Fetched), Honest P f → ∀ certs, asmHeaders P f [] sd.headers = .ok certs →
        (∀ h ∈ sd.headers, (∀ d ∈ payloadKeys h, (f d).isSome) ∧
          (P.committee.authority h.author).isSome) ∧ certs = sd.headers.map (expectedCert P f) := by
      intro f hf certs hc
      obtain ⟨a, b⟩ := asmHeaders_spec hk hf sd.headers f [] (LoopInv.start P f)
      by_cases hall : ∀ h ∈ sd.headers, (∀ d ∈ payloadKeys h, (f d).isSome) ∧
          (P.committee.authority h.author).isSome
      · refine ⟨hall, ?_⟩
        have := a hall
        rw [hc] at this
        simpa using Except.ok.inj this
      · rcases b hall with ⟨_, _, _, _, _, e⟩ | ⟨_, _, _, e⟩ <;> rw [hc] at e <;> cases e
    cases hcf : asmHeaders P f [] sd.headers with
    | error e => rw [hcf] at ho; cases ho
    | ok cf =>
      cases hcg : asmHeaders P g [] sd.headers with
      | error e => rw [hcg] at ho'; cases ho'
      | ok cg =>
        rw [hcf] at ho; rw [hcg] at ho'
        obtain ⟨af, rfl⟩ := key f hf cf hcf
        obtain ⟨ag, rfl⟩ := key g hg cg hcg
        have same : sd.headers.map (expectedCert P f) = sd.headers.map (expectedCert P g) := by
          apply List.map_congr_left
          intro h hh
          unfold expectedCert
          congr 1
          have : ∀ ds : List Nat, (∀ d ∈ ds, (f d).isSome) → (∀ d ∈ ds, (g d).isSome) →
              ds.filterMap f = ds.filterMap g := by
            intro ds
            induction ds with
            | nil => intro _ _; rfl
            | cons d ds ih =>
              intro h1 h2
              obtain ⟨b, hb⟩ := Option.isSome_iff_exists.mp (h1 d (by simp))
              obtain ⟨b', hb'⟩ := Option.isSome_iff_exists.mp (h2 d (by simp))
              have : b = b' := nocoll d d b b' hb hb' (by rw [hf _ _ hb, hg _ _ hb'])
              rw [List.filterMap_cons, List.filterMap_cons, hb, hb', this,
                ih (fun x hx => h1 x (by simp [hx])) (fun x hx => h2 x (by simp [hx]))]
          exact this _ (af h hh).1 (ag h hh).1
        rw [same] at ho
        exact (Except.ok.inj ho).symm.trans (Except.ok.inj ho')

/-- **Every batch has its own digest at the same index.** For every output that is built, the number
of batches to execute equals the number of digests, so the engine's check for uneven lengths never
fires, and the i-th batch has the i-th digest. -/
theorem assemble_even {P : AsmParams} {f : Fetched} {sd : SubDag} {parent number : Nat} {o : Output}
    (hk : P.skipDup = false) (hf : Honest P f) (ho : assemble P f sd parent number = .ok o) :
    o.flat.map (fun x => P.digest x.2) = o.digests ∧ o.flat.length = o.digests.length := by
  have key : o.flat.map (fun x => P.digest x.2) = o.digests := by
    by_cases hc : Complete P f sd
    · obtain ⟨o', e, _, _, _, _, _, _, h, _⟩ := assemble_complete (parent := parent)
        (number := number) hk hf hc
      rw [ho] at e; rw [Except.ok.inj e]; exact h
    · by_cases h0 : numPrimaryBatches sd = 0
      · unfold assemble at ho
        rw [if_pos h0] at ho
        rw [← Except.ok.inj ho]; simp [Output.flat]
      · rcases assemble_incomplete (parent := parent) (number := number) hk hf h0 hc with
          ⟨_, _, _, _, _, e⟩ | ⟨_, _, _, e⟩ <;> rw [ho] at e <;> cases e
  exact ⟨key, by rw [← key]; simp⟩

/-! ## A concrete case, and the `adiri` variant -/
namespace OutEx

def com : Committee := ⟨3, [⟨1, 10, 100⟩, ⟨2, 20, 200⟩]⟩
def b1 : Batch := { txs := [[1]], baseFee := 5 }
def b2 : Batch := { txs := [[2]], baseFee := 6 }
def P : AsmParams := { digest := fun b => b.baseFee, committee := com }
/-- Two headers; the second repeats batch 5 of the first. -/
def h1 : Header := { author := 1, round := 1, epoch := 3, payload := [(5, 0), (6, 0)], digest := 0 }
def h2 : Header := { author := 2, round := 2, epoch := 3, payload := [(5, 0)], digest := 1 }
def sd : SubDag := { headers := [h1, h2], scores := ⟨[], false⟩, timestamp := 9, randomness := 77 }
def fetched : Fetched := fun d => if d = 5 then some b1 else if d = 6 then some b2 else none

theorem honest : Honest P fetched := by
  intro d b h
  unfold fetched at h
  split at h
  · rename_i e; rw [← Option.some.inj h, e]; rfl
  · split at h
    · rename_i e; rw [← Option.some.inj h, e]; rfl
    · cases h

theorem complete : Complete P fetched sd := by
  unfold Complete; decide

/-- The hypotheses of the theorems above hold in a case with a repeated batch, and the batch is
executed for both headers. -/
theorem assembled : ∃ o, assemble P fetched sd 4 1 = .ok o ∧
    o.digests = [5, 6, 5] ∧ o.flat = [(100, b1), (100, b2), (200, b1)] := by
  refine ⟨_, rfl, ?_, ?_⟩ <;> decide

/-- The early-`adiri` rule: the repeated batch is not collected, so there are more digests than
batches. If this output closes the epoch, no batch of it is the closing one
(`close_epoch_for_last_batch` compares with the number of digests): the engine executes all its
blocks and the epoch is not closed on chain. -/
theorem adiri_dup_never_closes :
    ∃ o, assemble { P with skipDup := true } fetched sd 4 1 = .ok o ∧ o.digests.length = 3 ∧
      o.flat.length = 2 ∧ ∀ i < o.flat.length, ({ o with closeEpoch := true } : Output).closesAt i = false := by
  refine ⟨_, rfl, ?_, ?_, ?_⟩
  · decide
  · decide
  · decide

end OutEx
end Exec
end Verif
