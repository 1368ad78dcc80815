import Verif.Epoch.Store
import Verif.Snapshot.Transfer
import Verif.Snapshot.Publish
import Verif.Archive.ImportMain
import Verif.Archive.ImportLimits
/-
C118: the consensus half of `db load-state`, `restore_consensus_and_records` and `verify_and_save_epoch_records`
(`crates/telcoin-network-cli/src/db.rs` 587-757): the database of epoch records is rebuilt from the bundle's records and
certificates, the last epoch's pack is imported from the bundle's data, its tip compared, and the hint for the restart written.
The check in memory before the import is `Snapshot.verifyChain` (C84), the database `Ep.Db` (C46), the import of a stream
`Import.packImport` (C54).

Simplifications: what a read of a bundle's file gives is the list of its records (a file that cannot be read is an error
before anything is written); an error of the background thread that writes the records, which the code reports at
`persist`, ends the loop here at the record it is about; a failing file system is not modelled; what is on the disk after
a panic is not modelled.
-/
namespace Verif
namespace Resume
open Ep (Rec Cert Db)

/-- The consensus half of a bundle: records, certificates, and the version and records of the stream of
`consensus_data`. -/
structure Bundle where
  records : List Rec
  certs : List Cert
  version : Nat
  data : List (Option Import.Rec)

/-- `reject_non_contiguous_records`, db.rs:420-433. -/
def contiguous : List Rec → Nat → Bool
  | [], _ => true
  | r :: rs, i => decide (r.epoch = i) && contiguous rs (i + 1)

/-- The dummy record of epoch 0, db.rs:724-731. `g` is the list of the genesis committee's keys. -/
def seed (g : List Nat) : Rec := ⟨0, g, g, 0, (0, 0), 0, 0⟩

/-- The loop of `verify_and_save_epoch_records`, db.rs:733-755: whether it ended, and the database. `save` is
`EpochRecordDb::save`, epoch_records.rs:513-525, with the writer's error. -/
def saveAll (B : Bls) (dig : Rec → Nat) (certs : Nat → Option Cert) : List Rec → Db → Bool × Db
  | [], db => (true, db)
  | r :: rs, db =>
    match certs (dig r) with
    | none => (false, db)
    | some c =>
      if db.validate B dig r.epoch r c then
        match db.updateFinals r with
        | none => (false, db)
        | some db1 =>
          match db1.innerSaveRecord r with
          | none => (false, db1)
          | some db2 => saveAll B dig certs rs (db2.saveCert (dig r) c)
      else (false, db)

/-- `verify_and_save_epoch_records`, db.rs:713-757. -/
def rebuild (B : Bls) (dig : Rec → Nat) (g : List Nat) (b : Bundle) (db : Db) : Bool × Db :=
  saveAll B dig (Pub.certMap b.certs) b.records (db.saveDummy (seed g))

/-- What is on the disk under `epochs`: the database of records, the pack of the bundle's last epoch, the hint where to
resume. -/
structure Disk where
  db : Db := Db.empty
  pack : Option Import.Pack := none
  hint : Option (Nat × Nat) := none

/-- `Inner::stream_import`, consensus_pack.rs:907-1005, into a directory that may hold a pack already: its files are
opened for appending, and an output whose position is taken is skipped. -/
def importOver (E : Import.Env) (epoch : Nat) (prev : Rec) (v fin : Nat) (own : Option Import.Pack) :
    List (Option Import.Rec) → Import.Res
  | some (.epoch m) :: rs =>
    if Import.verifyMeta epoch prev m then
      Import.loop E m v fin (rs.length + 1) (Import.firstExpect epoch prev) (match own with | none => [] | some p => p.outs) rs
    else .err
  | _ => .err

/-- The meta data read back from the directory: those of the first record of its file. -/
def keptMeta (own : Option Import.Pack) (m : Import.Meta) : Import.Meta := match own with | none => m | some p => p.m

/-- db.rs:634-695: the pack and the hint. `n` is the last record's epoch. -/
def restorePack (E : Import.Env) (b : Bundle) (last : Rec) (d : Disk) : Import.Outcome × Disk :=
  if last.epoch = 0 then (.err, d)
  else
    match b.records[last.epoch - 1]?, b.records[last.epoch]? with
    | some prev, some final =>
      match importOver E last.epoch prev b.version final.finalNum d.pack b.data with
      | .panic => (.panic, d)
      | .err => (.err, { d with pack := none })
      | .ok m outs =>
        if Import.lastOk E final outs then
          (.ok, { d with pack := some ⟨keptMeta d.pack m, outs⟩, hint := some (last.epoch, final.finalNum) })
        else (.err, { d with pack := none })
    | _, _ => (.panic, d)

/-- `restore_consensus_and_records`, db.rs:587-704. -/
def restore (B : Bls) (dig : Rec → Nat) (E : Import.Env) (g : List Nat) (b : Bundle) (d : Disk) : Import.Outcome × Disk :=
  if contiguous b.records 0 then
    match b.records.getLast? with
    | none => (.err, d)
    | some last =>
      let x := rebuild B dig g b d.db
      if x.1 then restorePack E b last { d with db := x.2 } else (.err, { d with db := x.2 })
  else (.err, d)

/-! ### The check before the import and the one that persists -/

variable {B : Bls} {dig : Rec → Nat} {g : List Nat}

/-- The database after the records `pre` of a bundle, from an empty one. -/
structure At (B : Bls) (dig : Rec → Nat) (g : List Nat) (certs : Nat → Option Cert) (pre : List Rec) (db : Db) : Prop where
  recs : db.recs = pre
  finals : db.finals = pre.map (·.finalNum)
  dummy : db.dummy = some (seed g)
  from_ : ∀ k c, db.certOf k = some c → certs k = some c
  certified : ∀ r ∈ pre, ∃ c, db.certOf (dig r) = some c ∧ Ep.verifyWithCert B dig r c = true

/-- The anchor of the record after `pre`. -/
def anchorOf (dig : Rec → Nat) (g : List Nat) (pre : List Rec) : Nat × Finset Nat :=
  match pre.getLast? with
  | none => (0, g.toFinset)
  | some p => (dig p, p.next.toFinset)

theorem At.start (certs : Nat → Option Cert) : At B dig g certs [] (Db.empty.saveDummy (seed g)) where
  recs := rfl
  finals := rfl
  dummy := rfl
  from_ := by intro k c h; cases h
  certified := by intro r h; cases h

theorem anchor_at {certs : Nat → Option Cert} {pre : List Rec} {db : Db} (h : At B dig g certs pre db) :
    db.anchor dig pre.length = some (anchorOf dig g pre) := by
  unfold Db.anchor anchorOf
  rcases List.eq_nil_or_concat pre with rfl | ⟨l, x, rfl⟩
  · show (db.committeeKeys 0).map (fun c => (0, c)) = some (0, g.toFinset)
    unfold Db.committeeKeys Db.recordByEpoch
    rw [if_pos ⟨rfl, h.recs⟩, h.dummy]
    rfl
  · rw [List.concat_eq_append] at h ⊢
    rw [if_neg (by simp), List.getLast?_concat]
    unfold Db.recordByEpoch
    rw [if_neg (by rw [h.recs]; simp), h.recs]
    simp

theorem At.next {certs : Nat → Option Cert} {pre : List Rec} {db : Db} (h : At B dig g certs pre db) {r : Rec} {c : Cert}
    (he : r.epoch = pre.length) (hc : certs (dig r) = some c) (hv : Ep.verifyWithCert B dig r c = true) :
    ∃ db1 db2, db.updateFinals r = some db1 ∧ db1.innerSaveRecord r = some db2 ∧
      At B dig g certs (pre ++ [r]) (db2.saveCert (dig r) c) := by
  have hf : db.finals.length = pre.length := by rw [h.finals, List.length_map]
  have e1 : db.updateFinals r = some { db with finals := db.finals ++ [r.finalNum] } := by
    unfold Db.updateFinals
    rw [if_neg (by omega), if_neg (by omega)]
  have hrl : db.recs.length = pre.length := by rw [h.recs]
  have e2 : ({ db with finals := db.finals ++ [r.finalNum] } : Db).innerSaveRecord r =
      some { db with finals := db.finals ++ [r.finalNum], recs := db.recs ++ [r] } := by
    unfold Db.innerSaveRecord
    rw [if_neg (by show ¬ r.epoch < db.recs.length; omega), if_neg (by show ¬ r.epoch ≠ db.recs.length; omega)]
  refine ⟨_, _, e1, e2, ?_⟩
  generalize hd : ({ db with finals := db.finals ++ [r.finalNum], recs := db.recs ++ [r] } : Db) = d2
  have hcert : ∀ k, d2.certOf k = db.certOf k := by intro k; rw [← hd]; rfl
  have hcase : (d2.saveCert (dig r) c = d2 ∧ d2.certOf (dig r) = some c) ∨
      (d2.saveCert (dig r) c = { d2 with certs := d2.certs ++ [(dig r, c)] } ∧ d2.certOf (dig r) = none) := by
    unfold Db.saveCert
    cases hx : d2.certOf (dig r) with
    | none => exact .inr ⟨rfl, rfl⟩
    | some c' =>
      refine .inl ⟨rfl, ?_⟩
      have := h.from_ _ _ ((hcert _).symm.trans hx)
      rw [hc] at this
      exact congrArg some (Option.some.inj this).symm
  have happ : ∀ k, ({ d2 with certs := d2.certs ++ [(dig r, c)] } : Db).certOf k =
      (d2.certOf k).or (if dig r = k then some c else none) := by
    intro k
    unfold Db.certOf
    dsimp only
    rw [List.find?_append]
    by_cases hk : dig r = k
    · cases d2.certs.find? (fun x => x.1 == k) <;> simp [hk]
    · cases d2.certs.find? (fun x => x.1 == k) <;> simp [hk]
  have hr : d2.recs = pre ++ [r] := by rw [← hd, ← h.recs]
  have hfn : d2.finals = (pre ++ [r]).map (·.finalNum) := by rw [← hd]; simp [h.finals]
  have hdm : d2.dummy = some (seed g) := by rw [← hd]; exact h.dummy
  rcases hcase with ⟨e, hx⟩ | ⟨e, hx⟩ <;> rw [e]
  · refine ⟨hr, hfn, hdm, fun k c' hk => h.from_ _ _ ((hcert k).symm.trans hk), ?_⟩
    intro x hxm
    rcases List.mem_append.mp hxm with hxm | hxm
    · obtain ⟨c', a1, a2⟩ := h.certified x hxm
      exact ⟨c', (hcert _).trans a1, a2⟩
    · rw [List.mem_singleton.mp hxm]; exact ⟨c, hx, hv⟩
  · refine ⟨hr, hfn, hdm, ?_, ?_⟩
    · intro k c' hk
      rw [happ] at hk
      cases hd2 : d2.certOf k with
      | some c'' =>
        rw [hd2] at hk
        cases hk
        exact h.from_ _ _ ((hcert k).symm.trans hd2)
      | none =>
        rw [hd2, Option.none_or] at hk
        split at hk
        · rename_i hk'; cases hk; rw [← hk']; exact hc
        · cases hk
    · intro x hxm
      rcases List.mem_append.mp hxm with hxm | hxm
      · obtain ⟨c', a1, a2⟩ := h.certified x hxm
        exact ⟨c', by rw [happ, hcert, a1]; rfl, a2⟩
      · rw [List.mem_singleton.mp hxm]
        exact ⟨c, by rw [happ, hx, if_pos rfl]; rfl, hv⟩

theorem saveAll_iff {certs : Nat → Option Cert} : ∀ (rs pre : List Rec) (db : Db), At B dig g certs pre db →
    ((contiguous rs pre.length = true ∧ (saveAll B dig certs rs db).1 = true ∧ (pre ++ rs) ≠ []) ↔
      ∃ r, Snapshot.verifyChain B dig certs rs pre.length (anchorOf dig g pre).1 (anchorOf dig g pre).2 pre.getLast? = .ok r) ∧
    ((contiguous rs pre.length = true ∧ (saveAll B dig certs rs db).1 = true) →
      At B dig g certs (pre ++ rs) (saveAll B dig certs rs db).2) := by
  intro rs
  induction rs with
  | nil =>
    intro pre db h
    refine ⟨?_, fun _ => by rw [List.append_nil]; exact h⟩
    rw [List.append_nil]
    cases hl : pre.getLast? with
    | none =>
      rw [List.getLast?_eq_none_iff] at hl
      simp [Snapshot.verifyChain, hl]
    | some p =>
      refine ⟨fun _ => ⟨p, rfl⟩, fun _ => ⟨rfl, rfl, ?_⟩⟩
      rintro rfl
      cases hl
  | cons r rs ih =>
    intro pre db h
    unfold contiguous saveAll Snapshot.verifyChain
    by_cases he : r.epoch = pre.length
    · rw [if_neg (by rw [he]; simp)]
      cases hc : certs (dig r) with
      | none => simp
      | some c =>
        dsimp only
        have hval : db.validate B dig r.epoch r c =
            Ep.validAgainst B dig pre.length r c (anchorOf dig g pre).1 (anchorOf dig g pre).2 := by
          unfold Db.validate
          rw [he, anchor_at h]
        rw [hval]
        by_cases hv : Ep.validAgainst B dig pre.length r c (anchorOf dig g pre).1 (anchorOf dig g pre).2 = true
        · rw [if_pos hv, if_pos hv]
          have hw : Ep.verifyWithCert B dig r c = true := (Ep.valid_spec.mp hv).2.2.2
          obtain ⟨db1, db2, e1, e2, hat⟩ := h.next he hc hw
          rw [e1]
          dsimp only
          rw [e2]
          dsimp only
          obtain ⟨i1, i2⟩ := ih (pre ++ [r]) _ hat
          have ha : anchorOf dig g (pre ++ [r]) = (dig r, r.next.toFinset) := by unfold anchorOf; rw [List.getLast?_concat]
          rw [ha, List.getLast?_concat, List.length_append, List.length_singleton, List.append_assoc] at i1
          rw [List.length_append, List.length_singleton, List.append_assoc] at i2
          have hd : decide (r.epoch = pre.length) = true := decide_eq_true he
          rw [hd, Bool.true_and]
          exact ⟨i1, i2⟩
        · rw [if_neg hv, if_neg hv]
          simp
    · rw [if_pos he]
      simp [he]

/-- **C118** The check of the records in memory, before anything is written, and the one that persists them into a fresh
database accept the same bundles. -/
theorem gate_iff (b : Bundle) :
    (∃ r, Snapshot.verifyChain B dig (Pub.certMap b.certs) b.records 0 0 g.toFinset none = .ok r) ↔
      contiguous b.records 0 = true ∧ b.records ≠ [] ∧ (rebuild B dig g b Db.empty).1 = true := by
  have h := (saveAll_iff b.records [] _ (At.start (B := B) (dig := dig) (g := g) (Pub.certMap b.certs))).1
  rw [List.nil_append] at h
  have e : Snapshot.verifyChain B dig (Pub.certMap b.certs) b.records 0 0 g.toFinset none =
      Snapshot.verifyChain B dig (Pub.certMap b.certs) b.records ([] : List Rec).length (anchorOf dig g []).1
        (anchorOf dig g []).2 ([] : List Rec).getLast? := rfl
  rw [e, ← h]
  exact ⟨fun ⟨a, b, c⟩ => ⟨a, c, b⟩, fun ⟨a, b, c⟩ => ⟨a, c, b⟩⟩

theorem contiguous_get : ∀ (rs : List Rec) (k : Nat), contiguous rs k = true → ∀ i r, rs[i]? = some r → r.epoch = k + i
  | [], _, _, i, r, h => by simp at h
  | x :: xs, k, hc, i, r, h => by
    unfold contiguous at hc
    rw [Bool.and_eq_true, decide_eq_true_eq] at hc
    cases i with
    | zero => cases h; exact hc.1
    | succ i =>
      have := contiguous_get xs (k + 1) hc.2 i r (by simpa using h)
      omega

/-- What the last record is, of contiguous records. -/
theorem last_index {rs : List Rec} (hc : contiguous rs 0 = true) {last : Rec} (hl : rs.getLast? = some last) :
    last.epoch + 1 = rs.length ∧ rs[last.epoch]? = some last := by
  rw [List.getLast?_eq_getElem?] at hl
  have h1 := contiguous_get rs 0 hc _ _ hl
  have h2 := (List.getElem?_eq_some_iff.mp hl).1
  refine ⟨by omega, ?_⟩
  have : last.epoch = rs.length - 1 := by omega
  rw [this]
  exact hl

/-- **C118** After a rebuild the database holds the records of the bundle, every one certified, and for every epoch its
last number. -/
theorem rebuilt {b : Bundle} (hc : contiguous b.records 0 = true) (h : (rebuild B dig g b Db.empty).1 = true) :
    (rebuild B dig g b Db.empty).2.recs = b.records ∧
    (rebuild B dig g b Db.empty).2.finals = b.records.map (·.finalNum) ∧
    ∀ i r, b.records[i]? = some r → (rebuild B dig g b Db.empty).2.certifiedRecord B dig i = .ok r := by
  have hat := (saveAll_iff b.records [] _ (At.start (B := B) (dig := dig) (g := g) (Pub.certMap b.certs))).2 ⟨hc, h⟩
  rw [List.nil_append] at hat
  change At B dig g _ b.records (rebuild B dig g b Db.empty).2 at hat
  refine ⟨hat.recs, hat.finals, ?_⟩
  intro i r hr
  obtain ⟨c, c1, c2⟩ := hat.certified r (List.mem_of_getElem? hr)
  unfold Db.certifiedRecord Db.recordByEpoch
  rw [if_neg (by rintro ⟨-, h2⟩; rw [hat.recs] at h2; rw [h2] at hr; simp at hr), hat.recs, hr]
  dsimp only
  rw [c1]
  dsimp only
  rw [if_pos c2]

theorem restore_cases {E : Import.Env} {b : Bundle} {d d' : Disk} {o : Import.Outcome} (h : restore B dig E g b d = (o, d'))
    (ho : o = .ok) : ∃ last, contiguous b.records 0 = true ∧ b.records.getLast? = some last ∧
      (rebuild B dig g b d.db).1 = true ∧ d'.db = (rebuild B dig g b d.db).2 ∧
      restorePack E b last { d with db := (rebuild B dig g b d.db).2 } = (.ok, d') := by
  unfold restore at h
  split at h
  · rename_i hc
    cases hl : b.records.getLast? with
    | none => rw [hl] at h; cases h; cases ho
    | some last =>
      rw [hl] at h
      dsimp only at h
      split at h
      · rename_i hx
        refine ⟨last, hc, rfl, hx, ?_, ho ▸ h⟩
        unfold restorePack at h
        split at h
        · cases h; cases ho
        · split at h
          · split at h
            · cases h; cases ho
            · cases h; cases ho
            · split at h
              · cases h; rfl
              · cases h; cases ho
          · cases h; cases ho
      · cases h; cases ho
  · cases h; cases ho

theorem importOver_none (E : Import.Env) (epoch : Nat) (prev : Rec) (v fin : Nat) (rs : List (Option Import.Rec)) :
    importOver E epoch prev v fin none rs = Import.packImport E epoch prev v fin rs := by
  rcases rs with _ | ⟨_ | x, rs⟩
  · rfl
  · rfl
  · cases x <;> rfl

/-- The import of a bundle's pack into a fresh directory is that of a stream from a peer (C54). -/
theorem pack_of {E : Import.Env} {b : Bundle} {last prev : Rec} {d d' : Disk} (hd : d.pack = none) (h0 : last.epoch ≠ 0)
    (hl : b.records[last.epoch]? = some last) (hp : b.records[last.epoch - 1]? = some prev) :
    (restorePack E b last d = (.ok, d')) ↔
      ∃ p, Import.chainImport E last prev b.version false none b.data = (.ok, some p) ∧
        d' = { d with pack := some p, hint := some (last.epoch, last.finalNum) } := by
  unfold restorePack Import.chainImport
  rw [if_neg h0, hp, hl]
  dsimp only
  rw [hd, importOver_none, if_neg (by simp [Import.have_]), if_neg (by simp)]
  cases Import.packImport E last.epoch prev b.version last.finalNum b.data with
  | panic => simp
  | err => simp
  | ok m outs =>
    dsimp only
    by_cases hlo : Import.lastOk E last outs = true
    · rw [if_pos hlo, if_pos hlo]
      simp [keptMeta, eq_comm]
    · rw [if_neg hlo, if_neg hlo]
      simp

/-- **C118** After a restore that reports success, into a fresh directory: the database holds the bundle's records, every one
certified; the pack is exactly the consensus chain (`T`) that leads from the last consensus header of the record before
the last to that of the last, with every batch; and the node is told to resume from there. -/
theorem restored {E : Import.Env} {b : Bundle} {d' : Disk} (h : restore B dig E g b {} = (.ok, d')) :
    ∃ last prev, b.records.getLast? = some last ∧ b.records[last.epoch - 1]? = some prev ∧
      1 ≤ last.epoch ∧ last.epoch + 1 = b.records.length ∧
      (∃ r, Snapshot.verifyChain B dig (Pub.certMap b.certs) b.records 0 0 g.toFinset none = .ok r) ∧
      d'.db.recs = b.records ∧ d'.db.finals = b.records.map (·.finalNum) ∧
      (∀ i r, b.records[i]? = some r → d'.db.certifiedRecord B dig i = .ok r) ∧
      d'.hint = some (last.epoch, last.finalNum) ∧
      ∀ (T : List Import.CHdr), Import.EpochChain E prev.finalHash (prev.finalNum + 1) last.epoch last.finalNum last.finalHash T →
        ∀ hp : Import.CHdr, E.dig hp = prev.finalHash → hp.leaderEpoch ≠ some last.epoch →
        Import.NoCollision E (fun x => some (Import.Rec.hdr x) ∈ b.data ∨ x ∈ T ∨ x = hp) →
        ∃ p, d'.pack = some p ∧ p.outs.map (·.hdr) = T ∧ (∀ o ∈ p.outs, o.Good E p.m) ∧ Import.MetaOk last.epoch prev p.m := by
  obtain ⟨last, hc, hl, hr, hdb, hpk⟩ := restore_cases h rfl
  obtain ⟨i1, i2⟩ := last_index hc hl
  have h0 : last.epoch ≠ 0 := by
    intro h0
    unfold restorePack at hpk
    rw [if_pos h0] at hpk
    cases hpk
  obtain ⟨prev, hp⟩ : ∃ prev, b.records[last.epoch - 1]? = some prev :=
    ⟨b.records[last.epoch - 1]'(by omega), List.getElem?_eq_getElem (by omega)⟩
  have hne : b.records ≠ [] := by rintro e; rw [e] at hl; cases hl
  obtain ⟨a1, a2, a3⟩ := rebuilt (B := B) (dig := dig) (g := g) hc hr
  obtain ⟨p, p1, p2⟩ := (pack_of (E := E) (d := { ({} : Disk) with db := (rebuild B dig g b ({} : Disk).db).2 }) rfl h0 i2 hp).mp hpk
  rw [hdb]
  refine ⟨last, prev, hl, hp, by omega, i1, (gate_iff b).mpr ⟨hc, hne, hr⟩, a1, a2, a3, ?_, ?_⟩
  · rw [p2]
  · intro T hT hpd hprev hpe hcol
    have e : d'.pack = some p := by rw [p2]
    rcases Import.import_content p1 h0 hT hprev hpe hcol with h1 | ⟨-, p', q1, q2, q3, q4, -⟩
    · cases h1
    · cases q1
      exact ⟨p, e, q2, q3, q4⟩

/-- **C118** A bundle whose records pass the check in memory and whose data are those of a complete pack that continues
the record before the last is restored: the pack on the disk is that pack. -/
theorem restorable {E : Import.Env} {b : Bundle} {r last prev : Rec} {p : Import.Pack}
    (hv : Snapshot.verifyChain B dig (Pub.certMap b.certs) b.records 0 0 g.toFinset none = .ok r)
    (hl : b.records.getLast? = some last) (hp : b.records[last.epoch - 1]? = some prev) (h0 : last.epoch ≠ 0)
    (hh : p.Honest E) (hmeta : Import.MetaOk last.epoch prev p.m)
    (hlink : Import.LinkedX E (Import.firstExpect last.epoch prev) (p.outs.map (·.hdr)))
    (htip : ∃ l : Import.Out, p.outs.getLast? = some l ∧ l.hdr.number = last.finalNum ∧ E.dig l.hdr = last.finalHash)
    (hdata : b.data = Import.exportAll E b.version p) :
    restore B dig E g b {} =
      (.ok, { db := (rebuild B dig g b Db.empty).2, pack := some p, hint := some (last.epoch, last.finalNum) }) := by
  obtain ⟨hc, -, hr⟩ := (gate_iff b).mp ⟨r, hv⟩
  obtain ⟨-, i2⟩ := last_index hc hl
  unfold restore
  rw [if_pos hc, hl]
  dsimp only
  rw [if_pos hr]
  refine (pack_of (E := E) rfl h0 i2 hp).mpr ⟨p, ?_, rfl⟩
  rw [hdata]
  exact Import.import_complete hh hmeta hlink htip rfl b.version

/-- **C118** A restore that reports an error leaves no pack of the epoch and no new hint, whatever was there, once the records
are rebuilt; before that it leaves both alone. -/
theorem failed {E : Import.Env} {b : Bundle} {d d' : Disk} (h : restore B dig E g b d = (.err, d')) :
    d'.hint = d.hint ∧ (d'.pack = d.pack ∨ d'.pack = none) ∧ (d.pack = none → d'.pack = none) := by
  unfold restore at h
  split at h
  · split at h
    · cases h; exact ⟨rfl, .inl rfl, id⟩
    · dsimp only at h
      split at h
      · unfold restorePack at h
        split at h
        · cases h; exact ⟨rfl, .inl rfl, id⟩
        · split at h
          · split at h
            · cases h
            · cases h; exact ⟨rfl, .inr rfl, fun _ => rfl⟩
            · split at h
              · cases h
              · cases h; exact ⟨rfl, .inr rfl, fun _ => rfl⟩
          · cases h
      · cases h; exact ⟨rfl, .inl rfl, id⟩
  · cases h; exact ⟨rfl, .inl rfl, id⟩

/-- **C118** Once `db load-state` has imported the execution state (`Snapshot.loadState`, C84), the rebuild of the records
of the same bundle into a fresh database cannot fail. -/
theorem after_load {genesis : Finset Nat} {hash : Snapshot.Header → Nat} {SE : Snapshot.Env} {emptyHash : Nat}
    {rootOf : Snapshot.View → Nat} {ready : Snapshot.View → Nat → Bool} {tip : Nat} {gc : Nat → Option (List Nat)}
    {sb : Snapshot.Bundle} {b : Bundle} {res : (Nat × Nat) × List Snapshot.Header × Snapshot.Db} (hg : genesis = g.toFinset)
    (h : Snapshot.loadState B dig genesis hash SE emptyHash rootOf ready tip gc sb = .ok res)
    (hr : sb.records = some b.records) (hcs : sb.certs = some (Pub.certMap b.certs)) :
    contiguous b.records 0 = true ∧ (rebuild B dig g b Db.empty).1 = true ∧
      ∃ last, b.records.getLast? = some last ∧ last.epoch ≠ 0 := by
  unfold Snapshot.loadState at h
  rw [hr, hcs] at h
  cases hcons : sb.consensus with
  | false => rw [hcons] at h; cases h
  | true =>
    rw [hcons] at h
    dsimp only at h
    split at h
    · cases h
    · rename_i hz
      cases hv : Snapshot.verifyChain B dig (Pub.certMap b.certs) b.records 0 0 genesis none with
      | error e => rw [hv] at h; cases h
      | ok r =>
        subst hg
        obtain ⟨a1, -, a3⟩ := (gate_iff b).mp ⟨r, hv⟩
        refine ⟨a1, a3, ?_⟩
        cases hl : b.records.getLast? with
        | none => rw [hl] at hz; exact absurd rfl hz
        | some last =>
          rw [hl] at hz
          refine ⟨last, rfl, fun h0 => hz ?_⟩
          simp [h0]

end Resume
end Verif
