import Verif.Epoch.Record
/-
Model of the database of epoch records, `crates/storage/src/epoch_records.rs` (`EpochRecordDb` 101-1070,
`Inner` 1079-1452), and of the three places that write to it: the close of an epoch
(`write_epoch_record`, close_epoch.rs:310-405), the aggregation of votes (`manage_epoch_votes`) and the
download of a record with its certificate (`collect_epoch_records`, state-sync/src/epoch.rs:20-130, and the
recovery at the end of `manage_epoch_votes`).

Simplifications: the packs and their indexes are lists (C46-C48); `start_epoch` is 0 (`open` always passes 0);
the calls are atomic (the code updates the list of final numbers in the caller and the packs in a background
thread, in the order of the calls); storage errors are not modelled.
-/
namespace Verif
namespace Ep

structure Db where
  recs : List Rec
  /-- certificates by digest, `cert_digests` with `certs` -/
  certs : List (Nat × Cert)
  dummy : Option Rec
  /-- `final_numbers` -/
  finals : List Nat
  /-- `certified_watermark` -/
  mark : Nat
deriving Repr

namespace Db

def empty : Db := ⟨[], [], none, [], 0⟩

/-- `Inner::cert_by_digest`, 1353-1365. -/
def certOf (db : Db) (d : Nat) : Option Cert := (db.certs.find? (fun x => x.1 == d)).map (·.2)

/-- `Inner::try_record_by_epoch`, 1333-1343. -/
def recordByEpoch (db : Db) (e : Nat) : Option Rec :=
  if e = 0 ∧ db.recs = [] then db.dummy else db.recs[e]?

/-- `update_finals`, 483-497; `none` is `EpochOutOfOrder`. -/
def updateFinals (db : Db) (r : Rec) : Option Db :=
  if db.finals.length < r.epoch then none
  else if r.epoch < db.finals.length then some { db with finals := db.finals.set r.epoch r.finalNum }
  else some { db with finals := db.finals ++ [r.finalNum] }

/-- `Inner::save_record`, 1254-1280: the first record of an epoch stays. -/
def innerSaveRecord (db : Db) (r : Rec) : Option Db :=
  if r.epoch < db.recs.length then some db
  else if r.epoch ≠ db.recs.length then none
  else some { db with recs := db.recs ++ [r] }

/-- `Inner::save_certificate`, 1304-1318: the first certificate of a digest stays. -/
def saveCert (db : Db) (d : Nat) (c : Cert) : Db :=
  match db.certOf d with
  | some _ => db
  | none => { db with certs := db.certs ++ [(d, c)] }

/-- `EpochRecordDb::save_record`, 501-509. An error leaves what was done before it. -/
def saveRecord (db : Db) (r : Rec) : Db :=
  match db.updateFinals r with
  | none => db
  | some db1 => (db1.innerSaveRecord r).getD db1

/-- `EpochRecordDb::save`, 513-525 and `Inner::save`, 1284-1301. -/
def save (dig : Rec → Nat) (db : Db) (r : Rec) (c : Cert) : Db :=
  match db.updateFinals r with
  | none => db
  | some db1 =>
    match db1.innerSaveRecord r with
    | none => db1
    | some db2 => db2.saveCert (dig r) c

/-- `Inner::save_dummy_epoch0`, 1243-1250. -/
def saveDummy (db : Db) (r : Rec) : Db := if r.epoch = 0 then { db with dummy := some r } else db

/-- `get_committee_keys`, 816-830. -/
def committeeKeys (db : Db) (e : Nat) : Option (Finset Nat) :=
  match db.recordByEpoch e with
  | some r => some r.committee.toFinset
  | none => if e = 0 then none else (db.recordByEpoch (e - 1)).map (fun r => r.next.toFinset)

/-- The anchor of `validate_downloaded_record`, 1045-1068. -/
def anchor (dig : Rec → Nat) (db : Db) (e : Nat) : Option (Nat × Finset Nat) :=
  if e = 0 then (db.committeeKeys 0).map (fun c => (0, c))
  else (db.recordByEpoch (e - 1)).map (fun p => (dig p, p.next.toFinset))

/-- `validate_downloaded_record`, 1045-1068: `true` is `Valid`. -/
def validate (B : Bls) (dig : Rec → Nat) (db : Db) (e : Nat) (r : Rec) (c : Cert) : Bool :=
  match db.anchor dig e with
  | none => false
  | some (p, E) => validAgainst B dig e r c p E

/-- `CertifiedRecordError`, 313-336. -/
inductive CertifiedErr where
  | missingRecord
  | missingCertificate
  | invalidCertificate
deriving DecidableEq, Repr

/-- `certified_record_by_epoch`, 610-628. -/
def certifiedRecord (B : Bls) (dig : Rec → Nat) (db : Db) (e : Nat) : Except CertifiedErr Rec :=
  match db.recordByEpoch e with
  | none => .error .missingRecord
  | some r =>
    match db.certOf (dig r) with
    | none => .error .missingCertificate
    | some c => if verifyWithCert B dig r c then .ok r else .error .invalidCertificate

/-- `number_to_epoch`, 1022-1025. `partition_point` on a partitioned list is the length of the prefix. -/
def numberToEpoch (db : Db) (n : Nat) : Nat := (db.finals.takeWhile (fun f => decide (f < n))).length

/-- `Inner::epoch_certified`, 1407-1410. -/
def epochCertified (dig : Rec → Nat) (db : Db) (e : Nat) : Bool :=
  match db.recordByEpoch e with
  | none => false
  | some r => (db.certOf (dig r)).isSome

/-- The search of `first_missing_historical_cert`, from `e` on for `k` epochs. -/
def scan (dig : Rec → Nat) (db : Db) : Nat → Nat → Nat
  | e, 0 => e
  | e, k + 1 => if db.epochCertified dig e then scan dig db (e + 1) k else e

/-- `Inner::first_missing_historical_cert`, 1422-1429. -/
def firstMissing (dig : Rec → Nat) (db : Db) (tip : Nat) : Db × Option Nat :=
  let f := if db.mark < tip then db.scan dig db.mark (tip - db.mark) else tip
  ({ db with mark := max db.mark f }, if f < tip then some f else none)

/-- Reopening after a crash, 1165-1238 and 384-395: a prefix of the records and some of the certificates are
left; the final numbers are read from the records, the dummy is gone and the mark is computed anew. -/
def reopen (dig : Rec → Nat) (db : Db) (k : Nat) (keep : Nat × Cert → Bool) : Db :=
  let db1 : Db := { recs := db.recs.take k, certs := db.certs.filter keep, dummy := none,
                    finals := (db.recs.take k).map (·.finalNum), mark := 0 }
  (db1.firstMissing dig db1.recs.length).1

end Db

/-! ## The true chain of records and the node's steps -/

/-- What an epoch's execution gives: committees read at the closing block and the final positions. -/
structure Facts where
  com : Nat → List Nat
  next : Nat → List Nat
  fs : Nat → Nat × Nat
  num : Nat → Nat
  hash : Nat → Nat

/-- The record every correct node derives for epoch `e`. -/
def truth (dig : Rec → Nat) (F : Facts) : Nat → Rec
  | 0 => ⟨0, F.com 0, F.next 0, 0, F.fs 0, F.num 0, F.hash 0⟩
  | e + 1 => ⟨e + 1, F.com (e + 1), F.next (e + 1), dig (truth dig F e), F.fs (e + 1), F.num (e + 1), F.hash (e + 1)⟩

theorem truth_epoch (dig : Rec → Nat) (F : Facts) (e : Nat) : (truth dig F e).epoch = e := by
  cases e <;> rfl

/-- The steps of a correct node. A downloaded record and certificate are anything a peer sends. -/
inductive DbStep (B : Bls) (dig : Rec → Nat) (F : Facts) (g : List Nat) : Db → Db → Prop
  /-- run_epoch.rs:224-243: a dummy for epoch 0, with the committee of the genesis and no final output -/
  | dummy {db} (r : Rec) : r.epoch = 0 → r.committee = g → r.next = g → r ≠ truth dig F 0 → DbStep B dig F g db (db.saveDummy r)
  /-- `write_epoch_record`, close_epoch.rs:310-405 -/
  | close {db} (e : Nat) (r : Rec) :
      (e = 0 ∨ db.recordByEpoch e = none) →
      build dig e (F.com e) (F.next e) (if e = 0 then none else db.recordByEpoch (e - 1)) (F.fs e) (F.num e)
        (F.hash e) = some r →
      DbStep B dig F g db (db.saveRecord r)
  /-- a quorum of votes for a stored record, epoch_votes.rs:168-193 -/
  | quorum {db} (e : Nat) (r : Rec) (c : Cert) : db.recs[e]? = some r → verifyWithCert B dig r c = true →
      DbStep B dig F g db (db.saveCert (dig r) c)
  /-- a download that passed validation -/
  | download {db} (e : Nat) (r : Rec) (c : Cert) : db.validate B dig e r c = true →
      DbStep B dig F g db (db.save dig r c)
  | scan {db} (tip : Nat) : DbStep B dig F g db (db.firstMissing dig tip).1
  | crash {db} (k : Nat) (keep : Nat × Cert → Bool) : DbStep B dig F g db (db.reopen dig k keep)

inductive DbReach (B : Bls) (dig : Rec → Nat) (F : Facts) (g : List Nat) : Db → Prop
  | init : DbReach B dig F g Db.empty
  | step {s t} : DbReach B dig F g s → DbStep B dig F g s t → DbReach B dig F g t

/-- What is assumed of the validators: signatures cannot be forged, a correct validator signs only records
of the true chain, at most a third of each committee that anchors a record is faulty, and digests do not
collide. -/
structure Honest (B : Bls) (dig : Rec → Nat) (F : Facts) (g : List Nat) (faulty : Finset Nat)
    (signed : Nat → Nat → Prop) : Prop where
  sound : SoundFor B faulty signed
  signs : ∀ k d, k ∉ faulty → signed k d → ∃ e, d = dig (truth dig F e)
  inj : ∀ r r', dig r = dig r' → r = r'
  few : ∀ e, (faulty ∩ (F.next e).toFinset).card ≤ ((F.next e).toFinset.card - 1) / 3
  few0 : (faulty ∩ (F.com 0).toFinset).card ≤ ((F.com 0).toFinset.card - 1) / 3
  fewg : (faulty ∩ g.toFinset).card ≤ (g.toFinset.card - 1) / 3

/-! ## The store holds the true chain -/

structure DbInv (B : Bls) (dig : Rec → Nat) (F : Facts) (g : List Nat) (db : Db) : Prop where
  recs : ∀ (i : Nat) (r : Rec), db.recs[i]? = some r → r = truth dig F i
  finals : db.finals = db.recs.map (·.finalNum)
  certs : ∀ x ∈ db.certs, ∃ e, x.1 = dig (truth dig F e) ∧ verifyWithCert B dig (truth dig F e) x.2 = true
  linked : ∀ i, i + 1 < db.recs.length → compatible (truth dig F (i + 1)) (truth dig F i).next.toFinset = true
  dummy : ∀ r, db.dummy = some r → r.epoch = 0 ∧ r.committee = g ∧ r.next = g ∧ r ≠ truth dig F 0

section
variable {B : Bls} {dig : Rec → Nat} {F : Facts} {g : List Nat} {faulty : Finset Nat}
  {signed : Nat → Nat → Prop}

/-- Saving the next record of the true chain, or one that is there. -/
theorem save_truth {db : Db} (h : DbInv B dig F g db) (e : Nat)
    (hcomp : ∀ i, e = i + 1 → e = db.recs.length →
      compatible (truth dig F (i + 1)) (truth dig F i).next.toFinset = true) :
    (∃ db1, db.updateFinals (truth dig F e) = some db1 ∧ DbInv B dig F g ((db1.innerSaveRecord (truth dig F e)).getD db1)
      ∧ ((db1.innerSaveRecord (truth dig F e)).isSome)) ∨ db.updateFinals (truth dig F e) = none := by
  have he := truth_epoch dig F e
  have hlen : db.finals.length = db.recs.length := by rw [h.finals, List.length_map]
  unfold Db.updateFinals
  rw [he, hlen]
  by_cases h1 : db.recs.length < e
  · rw [if_pos h1]; exact Or.inr rfl
  · rw [if_neg h1]
    left
    by_cases h2 : e < db.recs.length
    · rw [if_pos h2]
      refine ⟨_, rfl, ?_⟩
      have hg : db.recs[e]? = some db.recs[e] := List.getElem?_eq_getElem h2
      have hr := h.recs e _ hg
      have hset : db.finals.set e (truth dig F e).finalNum = db.finals := by
        apply List.ext_getElem?
        intro i
        rw [List.getElem?_set]
        split
        · rename_i hie
          subst hie
          rw [if_pos (by omega), h.finals, List.getElem?_map, hg, hr]
          rfl
        · rfl
      have hsave : ({ db with finals := db.finals.set e (truth dig F e).finalNum } : Db).innerSaveRecord
          (truth dig F e) = some { db with finals := db.finals.set e (truth dig F e).finalNum } := by
        unfold Db.innerSaveRecord
        rw [he]
        exact if_pos h2
      rw [hsave]
      refine ⟨⟨h.recs, ?_, h.certs, h.linked, h.dummy⟩, rfl⟩
      show db.finals.set e _ = _
      rw [hset]; exact h.finals
    · rw [if_neg h2]
      have hee : e = db.recs.length := by omega
      refine ⟨_, rfl, ?_⟩
      have hsave : ({ db with finals := db.finals ++ [(truth dig F e).finalNum] } : Db).innerSaveRecord
          (truth dig F e) = some { db with finals := db.finals ++ [(truth dig F e).finalNum],
                                           recs := db.recs ++ [truth dig F e] } := by
        unfold Db.innerSaveRecord
        rw [he]
        show (if e < db.recs.length then _ else if e ≠ db.recs.length then _ else _) = _
        rw [if_neg h2, if_neg (fun hn => hn hee)]
      rw [hsave]
      refine ⟨⟨?_, ?_, h.certs, ?_, h.dummy⟩, rfl⟩
      · intro i r hr
        have hr' : (db.recs ++ [truth dig F e])[i]? = some r := hr
        rcases Nat.lt_or_ge i db.recs.length with hlt | hge
        · rw [List.getElem?_append_left hlt] at hr'
          exact h.recs i r hr'
        · rw [List.getElem?_append_right hge] at hr'
          have hi : i = e := by
            have := (List.getElem?_eq_some_iff.mp hr').1
            simp only [List.length_cons, List.length_nil] at this
            omega
          subst hi
          rw [hee, Nat.sub_self] at hr'
          simp only [List.getElem?_cons_zero, Option.some.injEq] at hr'
          rw [← hr', ← hee]
      · show db.finals ++ [_] = (db.recs ++ [_]).map _
        rw [h.finals, List.map_append]
        rfl
      · intro i hi
        have hi' : i + 1 < (db.recs ++ [truth dig F e]).length := hi
        rw [List.length_append] at hi'
        simp only [List.length_cons, List.length_nil] at hi'
        rcases Nat.lt_or_ge (i + 1) db.recs.length with hlt | hge
        · exact h.linked i hlt
        · exact hcomp i (by omega) hee

theorem saveCert_inv {db : Db} (h : DbInv B dig F g db) {e : Nat} {c : Cert}
    (hv : verifyWithCert B dig (truth dig F e) c = true) : DbInv B dig F g (db.saveCert (dig (truth dig F e)) c) := by
  unfold Db.saveCert
  split
  · exact h
  · refine ⟨h.recs, h.finals, ?_, h.linked, h.dummy⟩
    intro x hx
    have hx' : x ∈ db.certs ++ [(dig (truth dig F e), c)] := hx
    rw [List.mem_append, List.mem_singleton] at hx'
    rcases hx' with hx' | rfl
    · exact h.certs x hx'
    · exact ⟨e, rfl, hv⟩

theorem saveRecord_inv {db : Db} (h : DbInv B dig F g db) (e : Nat)
    (hcomp : ∀ i, e = i + 1 → e = db.recs.length →
      compatible (truth dig F (i + 1)) (truth dig F i).next.toFinset = true) :
    DbInv B dig F g (db.saveRecord (truth dig F e)) := by
  unfold Db.saveRecord
  rcases save_truth h e hcomp with ⟨db1, h1, h2, _⟩ | h1
  · rw [h1]; exact h2
  · rw [h1]; exact h

theorem save_inv {db : Db} (h : DbInv B dig F g db) {e : Nat} {c : Cert}
    (hcomp : ∀ i, e = i + 1 → e = db.recs.length →
      compatible (truth dig F (i + 1)) (truth dig F i).next.toFinset = true)
    (hv : verifyWithCert B dig (truth dig F e) c = true) : DbInv B dig F g (db.save dig (truth dig F e) c) := by
  unfold Db.save
  rcases save_truth h e hcomp with ⟨db1, h1, h2, h3⟩ | h1
  · rw [h1]
    dsimp only
    cases hs : db1.innerSaveRecord (truth dig F e) with
    | none => rw [hs] at h3; cases h3
    | some db2 =>
      rw [hs] at h2
      exact saveCert_inv h2 hv
  · rw [h1]; exact h

theorem firstMissing_frame (db : Db) (tip : Nat) : (db.firstMissing dig tip).1.recs = db.recs ∧
    (db.firstMissing dig tip).1.certs = db.certs ∧ (db.firstMissing dig tip).1.dummy = db.dummy ∧
    (db.firstMissing dig tip).1.finals = db.finals := ⟨rfl, rfl, rfl, rfl⟩

theorem firstMissing_inv {db : Db} (h : DbInv B dig F g db) (tip : Nat) :
    DbInv B dig F g (db.firstMissing dig tip).1 := ⟨h.recs, h.finals, h.certs, h.linked, h.dummy⟩

theorem recordByEpoch_real {db : Db} {e : Nat} (h0 : e ≠ 0) : db.recordByEpoch e = db.recs[e]? := by
  unfold Db.recordByEpoch
  exact if_neg (fun h => h0 h.1)

/-- Whoever answers the download, what is accepted is the record of the true chain. -/
theorem validate_truth (hh : Honest B dig F g faulty signed) {db : Db} (h : DbInv B dig F g db) {e : Nat}
    {r : Rec} {c : Cert} (hv : db.validate B dig e r c = true) :
    r = truth dig F e ∧ verifyWithCert B dig r c = true ∧
      (∀ i, e = i + 1 → e = db.recs.length →
        compatible (truth dig F (i + 1)) (truth dig F i).next.toFinset = true) := by
  unfold Db.validate at hv
  cases ha : db.anchor dig e with
  | none => rw [ha] at hv; cases hv
  | some pE =>
    obtain ⟨p, E⟩ := pE
    rw [ha] at hv
    dsimp only at hv
    have hf : (faulty ∩ E).card ≤ (E.card - 1) / 3 := by
      unfold Db.anchor at ha
      by_cases h0 : e = 0
      · rw [if_pos h0] at ha
        cases hc : db.committeeKeys 0 with
        | none => rw [hc] at ha; cases ha
        | some E' =>
          rw [hc] at ha
          have hE : E' = E := by cases ha; rfl
          subst hE
          unfold Db.committeeKeys at hc
          cases hr : db.recordByEpoch 0 with
          | none => rw [hr] at hc; cases hc
          | some r0 =>
            rw [hr] at hc
            have hE : r0.committee.toFinset = E' := by cases hc; rfl
            rw [← hE]
            unfold Db.recordByEpoch at hr
            by_cases he : db.recs = []
            · rw [if_pos ⟨rfl, he⟩] at hr
              rw [(h.dummy r0 hr).2.1]
              exact hh.fewg
            · rw [if_neg (fun hx => he hx.2)] at hr
              rw [h.recs 0 r0 hr]
              exact hh.few0
      · rw [if_neg h0] at ha
        cases hr : db.recordByEpoch (e - 1) with
        | none => rw [hr] at ha; cases ha
        | some p' =>
          rw [hr] at ha
          have hE : p'.next.toFinset = E := by cases ha; rfl
          have hp : p = dig p' := by cases ha; rfl
          unfold Db.recordByEpoch at hr
          by_cases hd : e - 1 = 0 ∧ db.recs = []
          · rw [if_pos hd] at hr
            rw [← hE, (h.dummy p' hr).2.2.1]
            exact hh.fewg
          · rw [if_neg hd] at hr
            rw [← hE, h.recs _ _ hr]
            have : (truth dig F (e - 1)).next = F.next (e - 1) := by cases (e - 1) <;> rfl
            rw [this]
            exact hh.few _
    obtain ⟨k, _, _, hnf, hs⟩ := accepted_honest hh.sound hv hf
    obtain ⟨j, hj⟩ := hh.signs k _ hnf hs
    have hr := hh.inj _ _ hj
    obtain ⟨hep, _, hcom, hver⟩ := valid_spec.mp hv
    have : j = e := by rw [hr, truth_epoch] at hep; exact hep
    subst this
    refine ⟨hr, hver, ?_⟩
    intro i hi hlen
    subst hi
    unfold Db.anchor at ha
    rw [if_neg (by omega)] at ha
    cases hrec : db.recordByEpoch (i + 1 - 1) with
    | none => rw [hrec] at ha; cases ha
    | some p' =>
      rw [hrec] at ha
      have hE : p'.next.toFinset = E := by cases ha; rfl
      unfold Db.recordByEpoch at hrec
      rw [if_neg (fun hx => by rw [hx.2] at hlen; cases hlen)] at hrec
      have := h.recs _ _ hrec
      rw [← hE, this, hr] at hcom
      exact hcom

theorem reopen_inv {db : Db} (h : DbInv B dig F g db) (k : Nat) (keep : Nat × Cert → Bool) :
    DbInv B dig F g (db.reopen dig k keep) := by
  refine ⟨?_, rfl, ?_, ?_, ?_⟩
  · intro i r hr
    have hr' : (db.recs.take k)[i]? = some r := hr
    rw [List.getElem?_take] at hr'
    split at hr'
    · exact h.recs i r hr'
    · cases hr'
  · intro x hx
    have hx' : x ∈ db.certs.filter keep := hx
    exact h.certs x (List.mem_filter.mp hx').1
  · intro i hi
    have hi' : i + 1 < (db.recs.take k).length := hi
    rw [List.length_take] at hi'
    exact h.linked i (by omega)
  · intro r hr
    have hr' : (none : Option Rec) = some r := hr
    cases hr'

/-- The record built at the close of an epoch is the one of the true chain, unless only the dummy stands for
the previous epoch; that record is then for epoch 1 and the store refuses it. -/
theorem close_inv {db : Db} (h : DbInv B dig F g db) {e : Nat} {r : Rec}
    (hb : build dig e (F.com e) (F.next e) (if e = 0 then none else db.recordByEpoch (e - 1)) (F.fs e) (F.num e)
        (F.hash e) = some r) : DbInv B dig F g (db.saveRecord r) := by
  cases e with
  | zero =>
    have : r = truth dig F 0 := by
      rw [if_pos rfl] at hb
      unfold build at hb
      rw [if_pos rfl] at hb
      exact (Option.some.inj hb).symm
    rw [this]
    exact saveRecord_inv h 0 (fun i hi => by omega)
  | succ e =>
    rw [if_neg (by omega)] at hb
    unfold build at hb
    cases hp : db.recordByEpoch (e + 1 - 1) with
    | none => rw [hp] at hb; dsimp only at hb; rw [if_neg (by omega)] at hb; cases hb
    | some p =>
      rw [hp] at hb
      dsimp only at hb
      rw [if_neg (by omega : ¬ e + 1 = 0)] at hb
      split at hb
      · rename_i hcm
        have hr : r = ⟨e + 1, F.com (e + 1), F.next (e + 1), dig p, F.fs (e + 1), F.num (e + 1), F.hash (e + 1)⟩ :=
          (Option.some.inj hb).symm
        unfold Db.recordByEpoch at hp
        by_cases hd : e + 1 - 1 = 0 ∧ db.recs = []
        · -- the store is empty: a record of epoch 1 is refused
          have hf : db.finals.length = 0 := by rw [h.finals, hd.2]; rfl
          have : db.updateFinals r = none := by
            unfold Db.updateFinals
            rw [hf, hr]
            exact if_pos (by show 0 < e + 1; omega)
          unfold Db.saveRecord
          rw [this]
          exact h
        · rw [if_neg hd] at hp
          have hpt := h.recs _ _ hp
          have : r = truth dig F (e + 1) := by
            rw [hr, hpt]; rfl
          rw [this]
          refine saveRecord_inv h (e + 1) ?_
          intro i hi _
          have hie : i = e := by omega
          subst hie
          rw [← this, hr]
          have hpt' : p = truth dig F i := hpt
          rw [← hpt']
          exact hcm
      · cases hb

theorem step_inv (hh : Honest B dig F g faulty signed) {db db' : Db} (h : DbInv B dig F g db)
    (hs : DbStep B dig F g db db') : DbInv B dig F g db' := by
  cases hs with
  | dummy r h0 hc hn hne =>
    unfold Db.saveDummy
    rw [if_pos h0]
    refine ⟨h.recs, h.finals, h.certs, h.linked, ?_⟩
    intro r' hr'
    have hr2 : some r = some r' := hr'
    cases hr2
    exact ⟨h0, hc, hn, hne⟩
  | close e r _ hb => exact close_inv h hb
  | quorum e r c hr hv =>
    have := h.recs e r hr
    rw [this] at hv ⊢
    exact saveCert_inv h hv
  | download e r c hv =>
    obtain ⟨hr, hver, hcm⟩ := validate_truth hh h hv
    rw [hr] at hver ⊢
    exact save_inv h hcm hver
  | scan tip => exact firstMissing_inv h tip
  | crash k keep => exact reopen_inv h k keep

theorem reach_inv (hh : Honest B dig F g faulty signed) {db : Db} (h : DbReach B dig F g db) :
    DbInv B dig F g db := by
  induction h with
  | init =>
    refine ⟨?_, rfl, ?_, ?_, ?_⟩
    · intro i r hr
      have : ([] : List Rec)[i]? = some r := hr
      simp at this
    · intro x hx
      have : x ∈ ([] : List (Nat × Cert)) := hx
      cases this
    · intro i hi
      exact absurd hi (Nat.not_lt_zero _)
    · intro r hr
      have : (none : Option Rec) = some r := hr
      cases this
  | step _ hs ih => exact step_inv hh ih hs

/-! ## C52 -/

/-- **C52**, the store. Whatever peers send, the stored records are those every correct validator derives,
in order, from epoch 0 on, each chained to the one before and with a committee that one allows. -/
theorem store_is_truth (hh : Honest B dig F g faulty signed) {db : Db} (h : DbReach B dig F g db) :
    ∀ (e : Nat) (r : Rec), db.recs[e]? = some r → r = truth dig F e ∧
      (∀ (p : Rec), 1 ≤ e → db.recs[e - 1]? = some p → r.parent = dig p ∧ compatible r p.next.toFinset = true) := by
  have hi := reach_inv hh h
  intro e r hr
  have hrt := hi.recs e r hr
  refine ⟨hrt, ?_⟩
  intro p h1 hp
  have hpt := hi.recs _ _ hp
  obtain ⟨i, rfl⟩ : ∃ i, e = i + 1 := ⟨e - 1, by omega⟩
  rw [hrt, hpt]
  exact ⟨rfl, hi.linked i (List.getElem?_eq_some_iff.mp hr).1⟩

theorem certOf_mem {db : Db} {d : Nat} {c : Cert} (h : db.certOf d = some c) : (d, c) ∈ db.certs := by
  unfold Db.certOf at h
  cases hf : db.certs.find? (fun x => x.1 == d) with
  | none => rw [hf] at h; cases h
  | some x =>
    rw [hf] at h
    have hx := List.mem_of_find?_eq_some hf
    have hp := List.find?_some hf
    simp only [beq_iff_eq] at hp
    simp only [Option.map_some, Option.some.injEq] at h
    rw [← hp, ← h]
    exact hx

/-- **C52**, the certified read. It returns only the true record of the epoch, and the stored certificate
always verifies: the permanent `InvalidCertificate` error does not occur. -/
theorem certified_is_truth (hh : Honest B dig F g faulty signed) {db : Db} (h : DbReach B dig F g db) (e : Nat) :
    (∀ r, db.certifiedRecord B dig e = .ok r → r = truth dig F e) ∧
      db.certifiedRecord B dig e ≠ .error .invalidCertificate := by
  have hi := reach_inv hh h
  unfold Db.certifiedRecord
  cases hr : db.recordByEpoch e with
  | none => exact ⟨(fun r hx => by cases hx), (fun hx => by cases hx)⟩
  | some r =>
    dsimp only
    cases hc : db.certOf (dig r) with
    | none => exact ⟨(fun r hx => by cases hx), (fun hx => by cases hx)⟩
    | some c =>
      dsimp only
      obtain ⟨j, hj, hv⟩ := hi.certs _ (certOf_mem hc)
      have hrj : r = truth dig F j := hh.inj _ _ hj
      have hrt : r = truth dig F e := by
        unfold Db.recordByEpoch at hr
        split at hr
        · rename_i h0
          obtain ⟨he0, _⟩ := h0
          have hd := hi.dummy r hr
          have : j = 0 := by rw [hrj, truth_epoch] at hd; exact hd.1
          rw [hrj, this, he0]
        · exact hi.recs e r hr
      have hv' : verifyWithCert B dig r c = true := by rw [hrj]; exact hv
      rw [if_pos hv']
      refine ⟨?_, (fun hx => by cases hx)⟩
      intro r' hx
      cases hx
      exact hrt

theorem takeWhile_spec (l : List Nat) (n : Nat) (i : Nat) (hsorted : ∀ (a b x y : Nat), a ≤ b → l[a]? = some x → l[b]? = some y → x ≤ y)
    (x : Nat) (hx : l[i]? = some x) : i < (l.takeWhile (fun f => decide (f < n))).length ↔ x < n := by
  induction l generalizing i with
  | nil => simp at hx
  | cons y l ih =>
    rw [List.takeWhile_cons]
    by_cases hy : y < n
    · simp only [hy, decide_true, if_true, List.length_cons]
      cases i with
      | zero =>
        simp only [List.getElem?_cons_zero, Option.some.injEq] at hx
        subst hx
        exact ⟨fun _ => hy, fun _ => by omega⟩
      | succ i =>
        simp only [List.getElem?_cons_succ] at hx
        have := ih i (fun a b u v hab hu hv => hsorted (a + 1) (b + 1) u v (by omega) (by simpa using hu)
          (by simpa using hv)) hx
        omega
    · simp only [hy, decide_false, Bool.false_eq_true, if_false, List.length_nil]
      have hle := hsorted 0 i y x (by omega) rfl hx
      omega

/-- **C52**, the epoch of an output. If the final numbers of the epochs do not decrease, `number_to_epoch`
answers the epoch the number belongs to: the first whose final number is at least `n`. -/
theorem number_to_epoch (hh : Honest B dig F g faulty signed) (hmono : ∀ a b, a ≤ b → F.num a ≤ F.num b)
    {db : Db} (h : DbReach B dig F g db) (n : Nat) :
    db.numberToEpoch n ≤ db.recs.length ∧ ∀ e, e < db.recs.length → (e < db.numberToEpoch n ↔ F.num e < n) := by
  have hi := reach_inv hh h
  have hnum : ∀ e, (truth dig F e).finalNum = F.num e := by intro e; cases e <;> rfl
  have hget : ∀ e x, db.finals[e]? = some x → x = F.num e := by
    intro e x hx
    rw [hi.finals, List.getElem?_map] at hx
    cases hr : db.recs[e]? with
    | none => rw [hr] at hx; cases hx
    | some r =>
      rw [hr] at hx
      simp only [Option.map_some, Option.some.injEq] at hx
      rw [← hx, hi.recs e r hr, hnum]
  have hlen : db.finals.length = db.recs.length := by rw [hi.finals, List.length_map]
  refine ⟨?_, ?_⟩
  · unfold Db.numberToEpoch
    have := (List.takeWhile_sublist (fun f => decide (f < n)) (l := db.finals)).length_le
    omega
  · intro e he
    have hx : db.finals[e]? = some db.finals[e] := List.getElem?_eq_getElem (by omega)
    have := takeWhile_spec db.finals n e (fun a b x y hab ha hb => by
      rw [hget a x ha, hget b y hb]; exact hmono a b hab) _ hx
    unfold Db.numberToEpoch
    rw [this, hget e _ hx]

/-! ## The watermark of certified epochs -/

/-- Every epoch below the mark is certified. -/
def MarkOk (dig : Rec → Nat) (db : Db) : Prop := ∀ e, e < db.mark → db.epochCertified dig e = true

theorem scan_spec (db : Db) (e k : Nat) : e ≤ db.scan dig e k ∧ db.scan dig e k ≤ e + k ∧
    (∀ j, e ≤ j → j < db.scan dig e k → db.epochCertified dig j = true) ∧
    (db.scan dig e k < e + k → db.epochCertified dig (db.scan dig e k) = false) := by
  induction k generalizing e with
  | zero => exact ⟨Nat.le_refl _, Nat.le_refl _, fun j h1 h2 => absurd h2 (by show ¬ j < e; omega),
      fun h => absurd h (by show ¬ e < e + 0; omega)⟩
  | succ k ih =>
    unfold Db.scan
    by_cases hc : db.epochCertified dig e = true
    · rw [if_pos hc]
      obtain ⟨h1, h2, h3, h4⟩ := ih (e + 1)
      refine ⟨by omega, by omega, ?_, ?_⟩
      · intro j hj hlt
        rcases Nat.eq_or_lt_of_le hj with rfl | hj
        · exact hc
        · exact h3 j hj hlt
      · intro hlt
        exact h4 (by omega)
    · rw [if_neg hc]
      refine ⟨Nat.le_refl _, by omega, fun j h1 h2 => absurd h2 (by omega), ?_⟩
      intro _
      cases hx : db.epochCertified dig e with
      | false => rfl
      | true => exact absurd hx hc

theorem certified_of_frame {db db' : Db} {e : Nat} (hr : db'.recordByEpoch e = db.recordByEpoch e)
    (hc : ∀ d, (db.certOf d).isSome = true → (db'.certOf d).isSome = true)
    (h : db.epochCertified dig e = true) : db'.epochCertified dig e = true := by
  unfold Db.epochCertified at h ⊢
  rw [hr]
  cases hx : db.recordByEpoch e with
  | none => rw [hx] at h; cases h
  | some r =>
    rw [hx] at h
    exact hc _ h

theorem firstMissing_mark {db : Db} (h : MarkOk dig db) (tip : Nat) : MarkOk dig (db.firstMissing dig tip).1 := by
  intro e he
  have hfr : ∀ e, (db.firstMissing dig tip).1.epochCertified dig e = db.epochCertified dig e := fun _ => rfl
  rw [hfr]
  have he' : e < max db.mark (if db.mark < tip then db.scan dig db.mark (tip - db.mark) else tip) := he
  by_cases hm : e < db.mark
  · exact h e hm
  · by_cases ht : db.mark < tip
    · rw [if_pos ht] at he'
      exact (scan_spec db db.mark (tip - db.mark)).2.2.1 e (by omega) (by omega)
    · rw [if_neg ht] at he'
      omega

theorem saveCert_certs (db : Db) (d : Nat) (c : Cert) (d' : Nat) (h : (db.certOf d').isSome = true) :
    ((db.saveCert d c).certOf d').isSome = true := by
  unfold Db.saveCert
  split
  · exact h
  · unfold Db.certOf at h ⊢
    rw [List.find?_append]
    cases hf : db.certs.find? (fun x => x.1 == d') with
    | none => rw [hf] at h; cases h
    | some x => rfl

theorem saveCert_mark {db : Db} (h : MarkOk dig db) (d : Nat) (c : Cert) : MarkOk dig (db.saveCert d c) := by
  intro e he
  have hm : (db.saveCert d c).mark = db.mark := by unfold Db.saveCert; split <;> rfl
  have hr : (db.saveCert d c).recordByEpoch e = db.recordByEpoch e := by unfold Db.saveCert; split <;> rfl
  rw [hm] at he
  exact certified_of_frame hr (saveCert_certs db d c) (h e he)

/-- A certified epoch has a real record: the dummy never has a certificate. -/
theorem certified_real (hh : Honest B dig F g faulty signed) {db : Db} (hi : DbInv B dig F g db) {e : Nat}
    (h : db.epochCertified dig e = true) : e < db.recs.length := by
  unfold Db.epochCertified at h
  cases hr : db.recordByEpoch e with
  | none => rw [hr] at h; cases h
  | some r =>
    rw [hr] at h
    dsimp only at h
    unfold Db.recordByEpoch at hr
    split at hr
    · obtain ⟨c, hc⟩ := Option.isSome_iff_exists.mp h
      obtain ⟨j, hj, _⟩ := hi.certs _ (certOf_mem hc)
      have hrj : r = truth dig F j := hh.inj _ _ hj
      have hd := hi.dummy r hr
      have hj0 : j = 0 := by rw [hrj, truth_epoch] at hd; exact hd.1
      rw [hj0] at hrj
      exact absurd hrj hd.2.2.2
    · exact (List.getElem?_eq_some_iff.mp hr).1

theorem updateFinals_frame {db db1 : Db} {r : Rec} (h : db.updateFinals r = some db1) :
    db1.recs = db.recs ∧ db1.certs = db.certs ∧ db1.dummy = db.dummy ∧ db1.mark = db.mark := by
  unfold Db.updateFinals at h
  split at h
  · cases h
  · split at h
    · cases h; exact ⟨rfl, rfl, rfl, rfl⟩
    · cases h; exact ⟨rfl, rfl, rfl, rfl⟩

theorem innerSave_frame {db db2 : Db} {r : Rec} (h : db.innerSaveRecord r = some db2) :
    (db2.recs = db.recs ∨ db2.recs = db.recs ++ [r]) ∧ db2.certs = db.certs ∧ db2.dummy = db.dummy ∧
      db2.mark = db.mark := by
  unfold Db.innerSaveRecord at h
  split at h
  · cases h; exact ⟨Or.inl rfl, rfl, rfl, rfl⟩
  · split at h
    · cases h
    · cases h; exact ⟨Or.inr rfl, rfl, rfl, rfl⟩

theorem mark_grow (hh : Honest B dig F g faulty signed) {db db' : Db} (hi : DbInv B dig F g db) (h : MarkOk dig db)
    (hrec : ∀ (i : Nat) (r : Rec), db.recs[i]? = some r → db'.recs[i]? = some r)
    (hcert : ∀ d, (db.certOf d).isSome = true → (db'.certOf d).isSome = true) (hm : db'.mark = db.mark) :
    MarkOk dig db' := by
  intro e he
  rw [hm] at he
  have hc := h e he
  have hlt := certified_real hh hi hc
  have hne : db.recs ≠ [] := by intro h0; rw [h0] at hlt; exact absurd hlt (Nat.not_lt_zero _)
  have hg : db.recs[e]? = some db.recs[e] := List.getElem?_eq_getElem hlt
  have hg' := hrec _ _ hg
  have hne' : db'.recs ≠ [] := by intro h0; rw [h0] at hg'; simp at hg'
  refine certified_of_frame ?_ hcert hc
  unfold Db.recordByEpoch
  rw [if_neg (fun hx => hne' hx.2), if_neg (fun hx => hne hx.2), hg, hg']

theorem grow_of {db db' : Db} {r0 : Rec} (h : db'.recs = db.recs ∨ db'.recs = db.recs ++ [r0]) :
    ∀ (i : Nat) (r : Rec), db.recs[i]? = some r → db'.recs[i]? = some r := by
  intro i r hr
  rcases h with h | h
  · rw [h]; exact hr
  · rw [h, List.getElem?_append_left (List.getElem?_eq_some_iff.mp hr).1]; exact hr

theorem certOf_congr {db db' : Db} (h : db'.certs = db.certs) (d : Nat) : db'.certOf d = db.certOf d := by
  unfold Db.certOf; rw [h]

theorem step_mark (hh : Honest B dig F g faulty signed) {db db' : Db} (hi : DbInv B dig F g db)
    (h : MarkOk dig db) (hs : DbStep B dig F g db db') : MarkOk dig db' := by
  cases hs with
  | dummy r h0 hc hn hne =>
    unfold Db.saveDummy
    rw [if_pos h0]
    exact mark_grow hh hi h (fun _ _ hr => hr) (fun _ hx => hx) rfl
  | close e r _ hb =>
    unfold Db.saveRecord
    cases hu : db.updateFinals r with
    | none => exact h
    | some db1 =>
      obtain ⟨f1, f2, f3, f4⟩ := updateFinals_frame hu
      dsimp only
      cases hsv : db1.innerSaveRecord r with
      | none =>
        exact mark_grow hh hi h (fun i x hx => by show db1.recs[i]? = _; rw [f1]; exact hx)
          (fun d hx => by show (db1.certOf d).isSome = true; rw [certOf_congr f2]; exact hx) f4
      | some db2 =>
        obtain ⟨g1, g2, g3, g4⟩ := innerSave_frame hsv
        refine mark_grow hh hi h (grow_of (r0 := r) ?_) ?_ ?_
        · show db2.recs = _ ∨ db2.recs = _
          rw [f1] at g1; exact g1
        · intro d hx
          show (db2.certOf d).isSome = true
          rw [certOf_congr g2, certOf_congr f2]; exact hx
        · show db2.mark = _
          rw [g4, f4]
  | quorum e r c hr hv => exact saveCert_mark h _ _
  | download e r c hv =>
    unfold Db.save
    cases hu : db.updateFinals r with
    | none => exact h
    | some db1 =>
      obtain ⟨f1, f2, f3, f4⟩ := updateFinals_frame hu
      dsimp only
      cases hsv : db1.innerSaveRecord r with
      | none =>
        exact mark_grow hh hi h (fun i x hx => by show db1.recs[i]? = _; rw [f1]; exact hx)
          (fun d hx => by show (db1.certOf d).isSome = true; rw [certOf_congr f2]; exact hx) f4
      | some db2 =>
        obtain ⟨g1, g2, g3, g4⟩ := innerSave_frame hsv
        refine saveCert_mark (mark_grow hh hi h (grow_of (r0 := r) ?_) ?_ ?_) _ _
        · rw [f1] at g1; exact g1
        · intro d hx
          rw [certOf_congr g2, certOf_congr f2]; exact hx
        · rw [g4, f4]
  | scan tip => exact firstMissing_mark h tip
  | crash k keep =>
    unfold Db.reopen
    exact firstMissing_mark (fun e he => absurd he (Nat.not_lt_zero _)) _

theorem reach_mark (hh : Honest B dig F g faulty signed) {db : Db} (h : DbReach B dig F g db) : MarkOk dig db := by
  induction h with
  | init => exact fun e he => absurd he (Nat.not_lt_zero _)
  | step hr hs ih => exact step_mark hh (reach_inv hh hr) ih hs

/-- **C52**, the scan that decides whether an export is possible finds exactly the first epoch below the tip
without a certificate, although it resumes from its watermark. -/
theorem first_missing (hh : Honest B dig F g faulty signed) {db : Db} (h : DbReach B dig F g db) (tip : Nat) :
    (∀ e, (db.firstMissing dig tip).2 = some e → e < tip ∧ db.epochCertified dig e = false ∧
      ∀ j, j < e → db.epochCertified dig j = true) ∧
    ((db.firstMissing dig tip).2 = none → ∀ j, j < tip → db.epochCertified dig j = true) := by
  have hm := reach_mark hh h
  have hval : (db.firstMissing dig tip).2 =
      if (if db.mark < tip then db.scan dig db.mark (tip - db.mark) else tip) < tip then
        some (if db.mark < tip then db.scan dig db.mark (tip - db.mark) else tip) else none := rfl
  rw [hval]
  by_cases ht : db.mark < tip
  · simp only [ht, if_true]
    obtain ⟨h1, h2, h3, h4⟩ := scan_spec (dig := dig) db db.mark (tip - db.mark)
    have hall : ∀ j, j < db.scan dig db.mark (tip - db.mark) → db.epochCertified dig j = true := by
      intro j hj
      by_cases hjm : j < db.mark
      · exact hm j hjm
      · exact h3 j (by omega) hj
    refine ⟨?_, ?_⟩
    · intro e he
      split at he
      · rename_i hlt
        simp only [Option.some.injEq] at he
        subst he
        exact ⟨hlt, h4 (by omega), hall⟩
      · cases he
    · intro he j hj
      split at he
      · cases he
      · exact hall j (by omega)
  · simp only [ht, if_false]
    refine ⟨?_, ?_⟩
    · intro e he
      rw [if_neg (by omega)] at he
      cases he
    · intro _ j hj
      exact hm j (by omega)

end

/-! ## A record that differs from the certified one -/

/-- **Finding.** The recovery path reports that it overwrote its record with the certified one
(epoch_votes.rs:221-228), but the store keeps the first record of an epoch. The certificate is filed under a
digest the node has no record for, the certified read stays `MissingCertificate`, and the final number used by
`number_to_epoch` is now that of a record the store does not have. -/
theorem overwrite_keeps_old {B : Bls} {dig : Rec → Nat} {db : Db} {r r' : Rec} {c : Cert} {e : Nat}
    (hlen : db.finals.length = db.recs.length) (hr : db.recs[e]? = some r') (he : r.epoch = e)
    (hne : dig r ≠ dig r') (hno : db.certOf (dig r') = none) :
    (db.save dig r c).recordByEpoch e = some r' ∧
      (db.save dig r c).certifiedRecord B dig e = .error .missingCertificate ∧
      (db.save dig r c).finals[e]? = some r.finalNum := by
  have hlt := (List.getElem?_eq_some_iff.mp hr).1
  have hu : db.updateFinals r = some { db with finals := db.finals.set e r.finalNum } := by
    unfold Db.updateFinals
    rw [he, hlen, if_neg (by omega), if_pos hlt]
  have hsv : ({ db with finals := db.finals.set e r.finalNum } : Db).innerSaveRecord r
      = some { db with finals := db.finals.set e r.finalNum } := by
    unfold Db.innerSaveRecord
    rw [he]
    exact if_pos hlt
  have hsave : db.save dig r c = ({ db with finals := db.finals.set e r.finalNum } : Db).saveCert (dig r) c := by
    unfold Db.save
    rw [hu]
    dsimp only
    rw [hsv]
  have hrecs : (db.save dig r c).recs = db.recs := by
    rw [hsave]; unfold Db.saveCert; split <;> rfl
  have hrec : (db.save dig r c).recordByEpoch e = some r' := by
    unfold Db.recordByEpoch
    have hn : ¬ (e = 0 ∧ (db.save dig r c).recs = []) := by
      intro hx
      rw [hrecs] at hx
      rw [hx.2] at hlt
      exact absurd hlt (Nat.not_lt_zero _)
    rw [if_neg hn, hrecs]
    exact hr
  refine ⟨hrec, ?_, ?_⟩
  · have hc : (db.save dig r c).certOf (dig r') = none := by
      rw [hsave]
      unfold Db.saveCert
      split
      · exact hno
      · unfold Db.certOf at hno ⊢
        rw [List.find?_append]
        cases hf : db.certs.find? (fun x => x.1 == dig r') with
        | some x => rw [hf] at hno; cases hno
        | none =>
          have hb : (dig r == dig r') = false := by simp [hne]
          simp [List.find?_cons, hf, hb]
    unfold Db.certifiedRecord
    rw [hrec]
    dsimp only
    rw [hc]
  · have : (db.save dig r c).finals = db.finals.set e r.finalNum := by
      rw [hsave]; unfold Db.saveCert; split <;> rfl
    rw [this, List.getElem?_set_self (by omega)]

/-- ... and no record of the next epoch that chains to the certified one is ever accepted. -/
theorem next_refused {B : Bls} {dig : Rec → Nat} {db : Db} {r' n : Rec} {c : Cert} {e : Nat}
    (hr : db.recs[e]? = some r') (hp : n.parent ≠ dig r') : db.validate B dig (e + 1) n c = false := by
  unfold Db.validate
  have ha : db.anchor dig (e + 1) = some (dig r', r'.next.toFinset) := by
    unfold Db.anchor
    rw [if_neg (by omega)]
    have : db.recordByEpoch (e + 1 - 1) = some r' := by
      unfold Db.recordByEpoch
      rw [if_neg (fun hx => by rw [hx.2] at hr; simp at hr)]
      exact hr
    rw [this]; rfl
  rw [ha]
  dsimp only
  cases hv : validAgainst B dig (e + 1) n c (dig r') r'.next.toFinset with
  | false => rfl
  | true => exact absurd (valid_spec.mp hv).2.1 hp

end Ep
end Verif
