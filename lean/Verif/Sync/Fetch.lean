import Verif.Cert.Props
/-
C19: verification of certificates fetched in bulk
(`crates/consensus/primary/src/state_sync/cert_validator.rs:222-378`). Every certificate arrives here in state
`unverified` (certificate_fetcher.rs:505-515 resets what the peer claimed).
-/
namespace Verif
namespace Fetch

/-- Errors of this path: too old, too new, or an error of the certificate itself. -/
inductive Err where
  | tooOld (d : Digest) (round gc : Round)
  | tooNew (d : Digest) (round processed : Round)
  | cert (e : CertErr)
deriving DecidableEq, Repr

/-- `u32::is_multiple_of`: only 0 is a multiple of 0. -/
def isMultipleOf (r i : Nat) : Bool := if i = 0 then r == 0 else r % i == 0

/-- `all_parents`, cert_validator.rs:277-282. -/
def allParents (certs : List Certificate) : List Digest := certs.flatMap (·.header.parents)

/-- `requires_direct_verification`, cert_validator.rs:303-312. -/
def requiresDirect (interval : Nat) (parents : List Digest) (cert : Certificate) : Bool :=
  !(parents.contains cert.header.digest) || isMultipleOf cert.header.round interval

/-- `mark_verified_indirectly`, cert_validator.rs:317-324. -/
def markIndirect (cert : Certificate) : Except Err Certificate :=
  match cert.aggregatedSignature with
  | none => .error (.cert .recoverSignature)
  | some s => .ok { cert with state := .verifiedIndirectly s }

/-- `CertificateValidator::validate_and_verify`, cert_validator.rs:113-130. -/
def verifyDirect (B : Bls) (g : AuthorityId → Epoch → Digest) (c : Committee) (gc : Round)
    (cert : Certificate) : Except Err Certificate :=
  if cert.header.round < gc then .error (.tooOld cert.header.digest cert.header.round gc)
  else match cert.validateAndVerify B g c with
    | .error e => .error (.cert e)
    | .ok out => .ok out

/-- A loop over a list with indices that stops at the first error. -/
def travE {α β ε : Type} (f : Nat → α → Except ε β) : Nat → List α → Except ε (List β)
  | _, [] => .ok []
  | i, a :: l =>
    match f i a with
    | .error e => .error e
    | .ok b =>
      match travE f (i + 1) l with
      | .error e => .error e
      | .ok bs => .ok (b :: bs)

/-- First loop, `classify_certificates_for_verification`, cert_validator.rs:272-296. -/
def classify (interval : Nat) (parents : List Digest) (cert : Certificate) : Except Err Certificate :=
  if requiresDirect interval parents cert then .ok cert else markIndirect cert

/-- Second loop, `verify_certificate_chunk` and `spawn_verification_task`, cert_validator.rs:327-366: chunks are
verified in parallel and awaited in order, so the result is that of one loop; each certificate reads the
horizon when its turn comes (`gc i`). -/
def check (B : Bls) (g : AuthorityId → Epoch → Digest) (c : Committee) (interval : Nat)
    (parents : List Digest) (gc : Nat → Round) (i : Nat) (cert : Certificate) :
    Except Err Certificate :=
  if requiresDirect interval parents cert then verifyDirect B g c (gc i) cert else .ok cert

/-- `verify_collection`, cert_validator.rs:244-269. -/
def verifyCollection (B : Bls) (g : AuthorityId → Epoch → Digest) (c : Committee) (interval : Nat)
    (gc : Nat → Round) (certs : List Certificate) : Except Err (List Certificate) :=
  match travE (fun _ => classify interval (allParents certs)) 0 certs with
  | .error e => .error e
  | .ok marked => travE (check B g c interval (allParents certs) gc) 0 marked

/-- `process_fetched_certificates_in_parallel` and `forward_verified_certs`, cert_validator.rs:132-240:
what is handed to the certificate manager. A certificate too far ahead of the committed round stops everything. -/
def processFetched (B : Bls) (g : AuthorityId → Epoch → Digest) (c : Committee) (interval : Nat)
    (gc : Nat → Round) (committed maxDiff : Nat) (certs : List Certificate) :
    Except Err (List Certificate) :=
  match verifyCollection B g c interval gc certs with
  | .error e => .error e
  | .ok outs =>
    match outs.find? (fun x => decide (committed + maxDiff < x.header.round)) with
    | some x => .error (.tooNew x.header.digest x.header.round committed)
    | none => .ok outs

/-! ### Proofs -/

variable {B : Bls} {g : AuthorityId → Epoch → Digest} {c : Committee} {interval : Nat}
  {gc : Nat → Round}

theorem travE_ok {α β ε : Type} {f : Nat → α → Except ε β} {l : List α} {bs : List β} {k : Nat}
    (h : travE f k l = .ok bs) :
    bs.length = l.length ∧ ∀ i a b, l[i]? = some a → bs[i]? = some b → f (k + i) a = .ok b := by
  induction l generalizing k bs with
  | nil => simp only [travE, Except.ok.injEq] at h; subst h; simp
  | cons a l ih =>
    unfold travE at h
    split at h
    · cases h
    · rename_i b hb
      split at h
      · cases h
      · rename_i bs' hbs
        cases h
        obtain ⟨h1, h2⟩ := ih hbs
        refine ⟨by simp [h1], ?_⟩
        intro i x y hx hy
        cases i with
        | zero => simp only [List.getElem?_cons_zero, Option.some.injEq] at hx hy; subst hx hy; exact hb
        | succ i =>
          have := h2 i x y (by simpa using hx) (by simpa using hy)
          rw [show k + (i + 1) = k + 1 + i by omega]; exact this

theorem travE_error {α β ε : Type} {f : Nat → α → Except ε β} {l : List α} {k i : Nat} {a : α} {e : ε}
    (hi : l[i]? = some a) (he : f (k + i) a = .error e) : ∃ e', travE f k l = .error e' := by
  cases h : travE f k l with
  | error e' => exact ⟨e', rfl⟩
  | ok bs =>
    exfalso
    obtain ⟨h1, h2⟩ := travE_ok h
    have hlt : i < l.length := by
      by_contra hn
      rw [List.getElem?_eq_none (by omega)] at hi; cases hi
    have := h2 i a bs[i] hi (List.getElem?_eq_getElem (by omega))
    rw [he] at this; cases this

theorem markIndirect_ok {x y : Certificate} (h : markIndirect x = .ok y) :
    ∃ s, x.aggregatedSignature = some s ∧ y = { x with state := .verifiedIndirectly s } := by
  unfold markIndirect at h
  split at h
  · cases h
  · rename_i s hs; cases h; exact ⟨s, hs, rfl⟩

theorem classify_header {ps : List Digest} {x y : Certificate} (h : classify interval ps x = .ok y) :
    y.header = x.header := by
  unfold classify at h
  split at h
  · cases h; rfl
  · obtain ⟨s, -, rfl⟩ := markIndirect_ok h; rfl

theorem requiresDirect_congr {ps : List Digest} {x y : Certificate} (h : y.header = x.header) :
    requiresDirect interval ps y = requiresDirect interval ps x := by
  unfold requiresDirect; rw [h]

theorem le_sum (l : List Nat) (x : Nat) (h : x ∈ l) : x ≤ l.sum := by
  induction l with
  | nil => cases h
  | cons a l ih =>
    rw [List.sum_cons]
    rcases List.mem_cons.mp h with rfl | h
    · omega
    · have := ih h; omega

/-- What acceptance of a batch means for each of its certificates: the directly checked ones have verified
against the committee and the horizon; the others are passed on marked as verified indirectly, unchanged otherwise. -/
theorem collection_ok {certs outs : List Certificate}
    (h : verifyCollection B g c interval gc certs = .ok outs) :
    outs.length = certs.length ∧ ∀ i x y, certs[i]? = some x → outs[i]? = some y →
      (requiresDirect interval (allParents certs) x = true → verifyDirect B g c (gc i) x = .ok y) ∧
      (requiresDirect interval (allParents certs) x = false →
        ∃ s, x.aggregatedSignature = some s ∧ y = { x with state := .verifiedIndirectly s }) := by
  unfold verifyCollection at h
  split at h
  · cases h
  · rename_i marked hm
    obtain ⟨l1, h1⟩ := travE_ok hm
    obtain ⟨l2, h2⟩ := travE_ok h
    refine ⟨by omega, ?_⟩
    intro i x y hx hy
    have hlt : i < certs.length := by
      by_contra hn
      rw [List.getElem?_eq_none (by omega)] at hx; cases hx
    have hmi : marked[i]? = some marked[i] := List.getElem?_eq_getElem (by omega)
    have e1 := h1 i x _ hx hmi
    have e2 := h2 i _ y hmi hy
    have hh := classify_header e1
    rw [Nat.zero_add] at e2
    unfold check at e2
    rw [requiresDirect_congr hh] at e2
    unfold classify at e1
    constructor
    · intro hd
      rw [if_pos hd] at e1 e2
      rw [(Except.ok.inj e1)]; exact e2
    · intro hd
      rw [if_neg (by simp [hd])] at e1 e2
      rw [← Except.ok.inj e2]
      exact markIndirect_ok e1

/-- **C19, all or nothing.** If one of the directly checked certificates is too old or does not verify,
nothing of the batch is accepted. -/
theorem one_bad_rejects_all {certs : List Certificate} {i : Nat} {x : Certificate} {e : Err}
    (hi : certs[i]? = some x) (hd : requiresDirect interval (allParents certs) x = true)
    (he : verifyDirect B g c (gc i) x = .error e) :
    ∃ e', verifyCollection B g c interval gc certs = .error e' := by
  cases h : verifyCollection B g c interval gc certs with
  | error e' => exact ⟨e', rfl⟩
  | ok outs =>
    exfalso
    obtain ⟨h1, h2⟩ := collection_ok h
    have hlt : i < certs.length := by
      by_contra hn
      rw [List.getElem?_eq_none (by omega)] at hi; cases hi
    have := (h2 i x _ hi (List.getElem?_eq_getElem (by omega))).1 hd
    rw [he] at this; cases this

/-- What is handed on is all of the verified batch, none of it too far ahead. -/
theorem processFetched_ok {certs outs : List Certificate} {committed maxDiff : Nat}
    (h : processFetched B g c interval gc committed maxDiff certs = .ok outs) :
    verifyCollection B g c interval gc certs = .ok outs ∧
    ∀ x ∈ outs, x.header.round ≤ committed + maxDiff := by
  unfold processFetched at h
  split at h
  · cases h
  · rename_i o ho
    split at h
    · cases h
    · rename_i hf
      cases h
      refine ⟨ho, ?_⟩
      intro x hx
      have := List.find?_eq_none.mp hf x hx
      simp only [decide_eq_true_eq] at this; omega

/-- Specification: certificates of the batch that satisfy `D` themselves, and those that are named as a parent
by a covered one. -/
inductive Covered (certs : List Certificate) (D : Certificate → Prop) : Certificate → Prop
  | direct {x} : x ∈ certs → D x → Covered certs D x
  | parent {x y} : Covered certs D y → x ∈ certs → x.header.digest ∈ y.header.parents → Covered certs D x

theorem Covered.mem {certs : List Certificate} {D : Certificate → Prop} {x : Certificate}
    (h : Covered certs D x) : x ∈ certs := by
  cases h <;> assumption

/-- **C19.** Every certificate of an accepted batch is covered by certificates whose aggregate
signature verified against a quorum of the committee at this node. `rank` says that digests are
acyclic: no header names a digest that depends on its own. -/
theorem accepted_covered {certs outs : List Certificate} (rank : Digest → Nat)
    (hrank : ∀ x ∈ certs, ∀ y ∈ certs, x.header.digest ∈ y.header.parents →
      rank x.header.digest < rank y.header.digest)
    (h : verifyCollection B g c interval gc certs = .ok outs) :
    ∀ x ∈ certs, Covered certs (fun y => ∃ out, y.validateAndVerify B g c = .ok out) x := by
  obtain ⟨hlen, hall⟩ := collection_ok h
  -- every certificate that is not checked directly is a parent of one of the batch
  have key : ∀ n, ∀ x ∈ certs, (certs.map (fun y => rank y.header.digest)).sum - rank x.header.digest = n →
      Covered certs (fun y => ∃ out, y.validateAndVerify B g c = .ok out) x := by
    intro n
    induction n using Nat.strongRecOn with
    | ind n ih =>
      intro x hx hn
      obtain ⟨i, hlt, hxi⟩ := List.getElem_of_mem hx
      have hxi' : certs[i]? = some x := by rw [List.getElem?_eq_getElem hlt, hxi]
      have hyi : outs[i]? = some (outs[i]'(by omega)) := List.getElem?_eq_getElem (by omega)
      obtain ⟨hd, -⟩ := hall i x _ hxi' hyi
      by_cases hr : requiresDirect interval (allParents certs) x = true
      · have := hd hr
        unfold verifyDirect at this
        split at this
        · cases this
        · split at this
          · cases this
          · rename_i out ho
            exact .direct hx ⟨out, ho⟩
      · have hp : x.header.digest ∈ allParents certs := by
          by_contra hn
          apply hr
          simp [requiresDirect, hn]
        obtain ⟨y, hy, hxy⟩ := List.mem_flatMap.mp hp
        have hlt2 := hrank x hx y hy hxy
        have hbound : rank y.header.digest ≤ (certs.map (fun y => rank y.header.digest)).sum :=
          le_sum _ _ (List.mem_map_of_mem hy)
        exact .parent (ih _ (by omega) y hy rfl) hx hxy
  intro x hx
  exact key _ x hx rfl

/-- Certificates of every round that is a multiple of the interval are always checked directly. -/
theorem interval_checked {certs outs : List Certificate} (hi : 0 < interval)
    (h : verifyCollection B g c interval gc certs = .ok outs) {x : Certificate} (hx : x ∈ certs)
    (hr : interval ∣ x.header.round) : ∃ out, x.validateAndVerify B g c = .ok out := by
  obtain ⟨hlen, hall⟩ := collection_ok h
  obtain ⟨i, hlt, hxi⟩ := List.getElem_of_mem hx
  have hxi' : certs[i]? = some x := by rw [List.getElem?_eq_getElem hlt, hxi]
  have hyi : outs[i]? = some (outs[i]'(by omega)) := List.getElem?_eq_getElem (by omega)
  have hm : isMultipleOf x.header.round interval = true := by
    unfold isMultipleOf
    rw [if_neg (by omega)]
    simpa using Nat.mod_eq_zero_of_dvd hr
  have := (hall i x _ hxi' hyi).1 (by simp [requiresDirect, hm])
  unfold verifyDirect at this
  split at this
  · cases this
  · split at this
    · cases this
    · rename_i out ho
      exact ⟨out, ho⟩

/-- …and so is every certificate no other of the batch names as a parent. -/
theorem leaf_checked {certs outs : List Certificate}
    (h : verifyCollection B g c interval gc certs = .ok outs) {x : Certificate} (hx : x ∈ certs)
    (hr : ∀ y ∈ certs, x.header.digest ∉ y.header.parents) :
    ∃ out, x.validateAndVerify B g c = .ok out := by
  obtain ⟨hlen, hall⟩ := collection_ok h
  obtain ⟨i, hlt, hxi⟩ := List.getElem_of_mem hx
  have hxi' : certs[i]? = some x := by rw [List.getElem?_eq_getElem hlt, hxi]
  have hyi : outs[i]? = some (outs[i]'(by omega)) := List.getElem?_eq_getElem (by omega)
  have hm : x.header.digest ∉ allParents certs := by
    intro hp
    obtain ⟨y, hy, hxy⟩ := List.mem_flatMap.mp hp
    exact hr y hy hxy
  have := (hall i x _ hxi' hyi).1 (by simp [requiresDirect, hm])
  unfold verifyDirect at this
  split at this
  · cases this
  · split at this
    · cases this
    · rename_i out ho
      exact ⟨out, ho⟩

/-! ### Examples -/
namespace Example

/-- Signature 7 is the good one. -/
def bls : Bls := ⟨fun s _ _ => s == 7, fun _ => some 7, fun s _ _ => s == 7⟩
def gen : AuthorityId → Epoch → Digest := fun a _ => 1000 + a

def parent (sig : Sig) : Certificate :=
  { header := { author := 10, round := 3, epoch := 1, createdAt := 5, payload := [], parents := [],
                digest := 21 }, state := .unverified sig, bitmap := [0, 1, 2] }
def child (sig : Sig) : Certificate :=
  { header := { author := 20, round := 4, epoch := 1, createdAt := 6, payload := [], parents := [21],
                digest := 31 }, state := .unverified sig, bitmap := [0, 1, 2] }

/-- The hypotheses of `accepted_covered` are met by a batch with a directly and an indirectly verified
certificate. -/
theorem accepted : verifyCollection bls gen Committee.four 50 (fun _ => 0) [parent 7, child 7] =
    .ok [{ parent 7 with state := .verifiedIndirectly 7 }, { child 7 with state := .verifiedDirectly 7 }] ∧
    ∀ x ∈ [parent 7, child 7], ∀ y ∈ [parent 7, child 7], x.header.digest ∈ y.header.parents →
      x.header.digest < y.header.digest := by decide

/-- **Observation.** The aggregate signature of an indirectly verified certificate is never looked
at: a batch whose parent certificate carries a worthless signature is accepted, and the certificate goes on, marked
as verified. (Its header is vouched for by the child; its signature is not, and whoever is served this
certificate later will reject it.) -/
theorem indirect_signature_unchecked :
    verifyCollection bls gen Committee.four 50 (fun _ => 0) [parent 8, child 7] =
      .ok [{ parent 8 with state := .verifiedIndirectly 8 }, { child 7 with state := .verifiedDirectly 7 }] ∧
    (parent 8).validateAndVerify bls gen Committee.four = .error .invalidSignature := by decide

theorem bad_leaf_rejected :
    verifyCollection bls gen Committee.four 50 (fun _ => 0) [parent 7, child 8] =
      .error (.cert .invalidSignature) := by decide

end Example

end Fetch
end Verif
