import Mathlib.Data.Finset.Card
import Mathlib.Data.Finset.Dedup
import Verif.Cert.Lemmas
/-
Model of epoch records and their certificates: `crates/types/src/primary/epoch.rs`, the acceptance rules of
`crates/storage/src/epoch_records.rs` (`validate_record_against_anchor` 284-303) and
`build_epoch_record` (`crates/node/src/manager/node/close_epoch.rs` 783-845).

The digest of a record is an abstract function `dig`; where two different records must have different
digests the theorem assumes it injective. The signed message is the intent message of a digest, so it is
identified with the digest.
-/
namespace Verif
namespace Ep

/-- `EpochRecord`, epoch.rs:22-40. -/
structure Rec where
  epoch : Nat
  committee : List Nat
  next : List Nat
  parent : Nat
  finalState : Nat × Nat
  finalNum : Nat
  finalHash : Nat
deriving DecidableEq, Repr

/-- `EpochCertificate`, epoch.rs:206-216; the bitmap is its ascending list of indices. -/
structure Cert where
  hash : Nat
  sig : Nat
  bitmap : List Nat
deriving DecidableEq, Repr

/-- `EpochRecord::super_quorum`, epoch.rs:122-124. -/
def superQuorum (n : Nat) : Nat := n * 2 / 3 + 1

/-- `EpochRecord::verify_with_cert`, epoch.rs:62-96. The walk over the committee is that of
`Certificate::signed_by`, `Certificate.signedKeys`. -/
def verifyWithCert (B : Bls) (dig : Rec → Nat) (r : Rec) (c : Cert) : Bool :=
  if dig r ≠ c.hash then false
  else
    let pks := Certificate.signedKeys r.committee 0 c.bitmap
    if pks.length < superQuorum r.committee.length then false
    else B.verifyAgg c.sig c.hash pks

/-- `EpochRecord::committee_compatible`, epoch.rs:163-184; a `BTreeSet` is a `Finset`. -/
def compatible (r : Rec) (expected : Finset Nat) : Bool :=
  if r.committee.toFinset.card ≠ r.committee.length then false
  else if expected.card < r.committee.length then false
  else if r.committee.length = expected.card then decide (r.committee.toFinset = expected)
  else decide (4 ≤ r.committee.length) && decide (expected.card * 2 ≤ r.committee.length * 3)
    && decide (r.committee.toFinset ⊆ expected)

/-- `validate_record_against_anchor`, epoch_records.rs:284-303; `true` is `Valid`. -/
def validAgainst (B : Bls) (dig : Rec → Nat) (epoch : Nat) (r : Rec) (c : Cert) (parent : Nat)
    (committee : Finset Nat) : Bool :=
  decide (r.epoch = epoch) && decide (parent = r.parent) && compatible r committee
    && verifyWithCert B dig r c

/-- `build_epoch_record`, close_epoch.rs:783-845; `none` is an error. `EpochDigest::default()` is 0. -/
def build (dig : Rec → Nat) (epoch : Nat) (com next : List Nat) (prev : Option Rec) (fs : Nat × Nat)
    (num hash : Nat) : Option Rec :=
  match prev with
  | none => if epoch = 0 then some ⟨epoch, com, next, 0, fs, num, hash⟩ else none
  | some p =>
    let r : Rec := ⟨epoch, com, next, if epoch = 0 then 0 else dig p, fs, num, hash⟩
    if compatible r p.next.toFinset then some r else none

/-! ## What a certificate proves -/

/-- Every key in an aggregate that verifies belongs to a faulty validator or signed the digest. -/
def SoundFor (B : Bls) (faulty : Finset Nat) (signed : Nat → Nat → Prop) : Prop :=
  ∀ s d ks, B.verifyAgg s d ks = true → ∀ k ∈ ks, k ∈ faulty ∨ signed k d

theorem verify_spec {B : Bls} {dig : Rec → Nat} {r : Rec} {c : Cert} (h : verifyWithCert B dig r c = true) :
    c.hash = dig r ∧ ∃ ks : List Nat, ks.Sublist r.committee ∧ superQuorum r.committee.length ≤ ks.length ∧
      B.verifyAgg c.sig (dig r) ks = true := by
  unfold verifyWithCert at h
  split at h
  · cases h
  · rename_i hd
    have hd : dig r = c.hash := Classical.not_not.mp hd
    dsimp only at h
    split at h
    · cases h
    · rename_i hq
      refine ⟨hd.symm, _, Certificate.signedKeys_sublist _ _ _, Nat.le_of_not_lt hq, ?_⟩
      rw [hd]; exact h

/-- A compatible committee has no repeated member, is part of what was expected and has at least two thirds
of it. -/
theorem compatible_spec {r : Rec} {E : Finset Nat} :
    compatible r E = true ↔ r.committee.Nodup ∧ r.committee.toFinset ⊆ E ∧ E.card * 2 ≤ r.committee.length * 3 ∧
      (r.committee.length = E.card ∨ 4 ≤ r.committee.length) := by
  unfold compatible
  have hnd : r.committee.toFinset.card = r.committee.length ↔ r.committee.Nodup := by
    constructor
    · intro h
      have h2 : r.committee.dedup.length = r.committee.length := h
      rw [← List.dedup_eq_self]
      exact (List.dedup_sublist _).eq_of_length h2
    · exact List.toFinset_card_of_nodup
  split
  · rename_i h
    constructor
    · intro h; cases h
    · intro ⟨hn, _⟩
      exact absurd (hnd.mpr hn) h
  · rename_i h
    have h : r.committee.toFinset.card = r.committee.length := Classical.not_not.mp h
    split
    · rename_i hgt
      constructor
      · intro h; cases h
      · intro ⟨_, hs, _⟩
        have := Finset.card_le_card hs
        omega
    · split
      · rename_i hle heq
        rw [decide_eq_true_iff]
        constructor
        · intro he
          exact ⟨hnd.mp h, he ▸ Finset.Subset.refl _, by omega, Or.inl heq⟩
        · intro ⟨_, hs, _⟩
          exact Finset.eq_of_subset_of_card_le hs (by omega)
      · rename_i hle hne
        rw [Bool.and_eq_true, Bool.and_eq_true, decide_eq_true_iff, decide_eq_true_iff, decide_eq_true_iff]
        constructor
        · intro ⟨⟨h4, h23⟩, hs⟩
          exact ⟨hnd.mp h, hs, h23, Or.inr h4⟩
        · intro ⟨_, hs, h23, h4⟩
          rcases h4 with h4 | h4
          · exact absurd h4 hne
          · exact ⟨⟨h4, h23⟩, hs⟩

theorem valid_spec {B : Bls} {dig : Rec → Nat} {e p : Nat} {r : Rec} {c : Cert} {E : Finset Nat} :
    validAgainst B dig e r c p E = true ↔ r.epoch = e ∧ r.parent = p ∧ compatible r E = true ∧
      verifyWithCert B dig r c = true := by
  unfold validAgainst
  rw [Bool.and_eq_true, Bool.and_eq_true, Bool.and_eq_true, decide_eq_true_iff, decide_eq_true_iff]
  constructor
  · intro ⟨⟨⟨a, b⟩, x⟩, d⟩; exact ⟨a, b.symm, x, d⟩
  · intro ⟨a, b, x, d⟩; exact ⟨⟨⟨a, b.symm⟩, x⟩, d⟩

/-- **C51**, soundness. If at most a third of the expected committee is faulty, every accepted record carries
the signature of a member that is not, even if the record's committee is a shrunken one. -/
theorem accepted_honest {B : Bls} {dig : Rec → Nat} {faulty : Finset Nat} {signed : Nat → Nat → Prop}
    (hB : SoundFor B faulty signed) {e p : Nat} {r : Rec} {c : Cert} {E : Finset Nat}
    (h : validAgainst B dig e r c p E = true) (hf : (faulty ∩ E).card ≤ (E.card - 1) / 3) :
    ∃ k ∈ r.committee, k ∈ E ∧ k ∉ faulty ∧ signed k (dig r) := by
  obtain ⟨_, _, hc, hv⟩ := valid_spec.mp h
  obtain ⟨hnd, hsub, h23, _⟩ := compatible_spec.mp hc
  obtain ⟨_, ks, hks, hq, hagg⟩ := verify_spec hv
  have hcard : ks.toFinset.card = ks.length := List.toFinset_card_of_nodup (hks.nodup hnd)
  have hksE : ks.toFinset ⊆ E := by
    intro k hk
    exact hsub (List.mem_toFinset.mpr (hks.subset (List.mem_toFinset.mp hk)))
  have hlen : r.committee.length ≤ E.card := by
    have := Finset.card_le_card hsub
    rw [List.toFinset_card_of_nodup hnd] at this
    exact this
  have : ¬ ks.toFinset ⊆ faulty := by
    intro hsf
    have h1 : ks.toFinset ⊆ faulty ∩ E := Finset.subset_inter hsf hksE
    have h2 := Finset.card_le_card h1
    unfold superQuorum at hq
    omega
  obtain ⟨k, hk, hnf⟩ := Finset.not_subset.mp this
  have hk' := List.mem_toFinset.mp hk
  rcases hB _ _ _ hagg k hk' with hh | hh
  · exact absurd hh hnf
  · exact ⟨k, hks.subset hk', hksE hk, hnf, hh⟩

/-- **C51**, no two certificates. Two certified records with the same committee, of which at most a third is
faulty, have a common signer that is not faulty. -/
theorem certs_intersect {B : Bls} {dig : Rec → Nat} {faulty : Finset Nat} {signed : Nat → Nat → Prop}
    (hB : SoundFor B faulty signed) {r r' : Rec} {c c' : Cert} (hnd : r.committee.Nodup)
    (hnd' : r'.committee.Nodup) (heq : r.committee.toFinset = r'.committee.toFinset)
    (h : verifyWithCert B dig r c = true) (h' : verifyWithCert B dig r' c' = true)
    (hf : (faulty ∩ r.committee.toFinset).card ≤ (r.committee.length - 1) / 3) :
    ∃ k ∈ r.committee, k ∉ faulty ∧ signed k (dig r) ∧ signed k (dig r') := by
  obtain ⟨_, ks, hks, hq, hagg⟩ := verify_spec h
  obtain ⟨_, ks', hks', hq', hagg'⟩ := verify_spec h'
  have hcard : ks.toFinset.card = ks.length := List.toFinset_card_of_nodup (hks.nodup hnd)
  have hcard' : ks'.toFinset.card = ks'.length := List.toFinset_card_of_nodup (hks'.nodup hnd')
  have hcom : r.committee.toFinset.card = r.committee.length := List.toFinset_card_of_nodup hnd
  have hcom' : r'.committee.toFinset.card = r'.committee.length := List.toFinset_card_of_nodup hnd'
  have hlen : r.committee.length = r'.committee.length := by rw [← hcom, heq, hcom']
  have hs : ks.toFinset ⊆ r.committee.toFinset := fun k hk =>
    List.mem_toFinset.mpr (hks.subset (List.mem_toFinset.mp hk))
  have hs' : ks'.toFinset ⊆ r.committee.toFinset := fun k hk => by
    rw [heq]
    exact List.mem_toFinset.mpr (hks'.subset (List.mem_toFinset.mp hk))
  have hun : (ks.toFinset ∪ ks'.toFinset).card ≤ r.committee.length := by
    rw [← hcom]; exact Finset.card_le_card (Finset.union_subset hs hs')
  have hie := Finset.card_union_add_card_inter ks.toFinset ks'.toFinset
  have hnot : ¬ ks.toFinset ∩ ks'.toFinset ⊆ faulty := by
    intro hsf
    have h1 : ks.toFinset ∩ ks'.toFinset ⊆ faulty ∩ r.committee.toFinset :=
      Finset.subset_inter hsf (fun k hk => hs (Finset.mem_inter.mp hk).1)
    have h2 := Finset.card_le_card h1
    unfold superQuorum at hq hq'
    rw [← hlen] at hq'
    omega
  obtain ⟨k, hk, hnf⟩ := Finset.not_subset.mp hnot
  obtain ⟨hk1, hk2⟩ := Finset.mem_inter.mp hk
  rw [List.mem_toFinset] at hk1 hk2
  refine ⟨k, hks.subset hk1, hnf, ?_, ?_⟩
  · exact (hB _ _ _ hagg k hk1).resolve_left hnf
  · exact (hB _ _ _ hagg' k hk2).resolve_left hnf

/-! ## The documented margins -/

/-- epoch.rs:106-114 says that at the floor of a tolerated shrink the overlap of two certificates still
meets the fault bound of the expected committee. It does up to 18 members ... -/
theorem overlap_meets_small (e n : Nat) (he : e ≤ 18) (hn : e * 2 ≤ n * 3) (hne : n ≤ e) (h1 : 1 ≤ e) :
    (e - 1) / 3 ≤ 2 * superQuorum n - n := by
  unfold superQuorum
  omega

/-- ... **finding**: but not with 19, shrunk to 13: two certificates need only share 5 members, the bound
is 6. -/
theorem overlap_below_bound : 19 * 2 ≤ 13 * 3 ∧ 2 * superQuorum 13 - 13 = 5 ∧ (19 - 1) / 3 = 6 := by decide

/-- ... and in general it falls short by any amount. -/
theorem overlap_gap_unbounded (g : Nat) : ∃ e n, e * 2 ≤ n * 3 ∧ n ≤ e ∧ 4 ≤ n ∧
    2 * superQuorum n - n + g ≤ (e - 1) / 3 := by
  refine ⟨27 * (g + 3), 18 * (g + 3), by omega, by omega, by omega, ?_⟩
  unfold superQuorum
  omega

/-- Two committees that are both acceptable after the same record can even have disjoint quorums. -/
theorem disjoint_quorums : 20 * 2 ≤ 14 * 3 ∧ superQuorum 14 + superQuorum 14 ≤ 20 := by decide

end Ep
end Verif
