import Verif.Snapshot.Resume
/-
C118: a restore over a directory that holds something already, and examples.
-/
namespace Verif
namespace Resume
open Ep (Rec Cert Db)

section
variable {B : Bls} {dig : Rec → Nat} {g : List Nat}

theorem updateFinals_recs {db db1 : Db} {r : Rec} (h : db.updateFinals r = some db1) : db1.recs = db.recs := by
  unfold Db.updateFinals at h
  split at h
  · cases h
  · split at h <;> cases h <;> rfl

theorem inner_recs {db db1 : Db} {r : Rec} (h : db.innerSaveRecord r = some db1) :
    (r.epoch < db.recs.length ∧ db1.recs = db.recs) ∨ (r.epoch = db.recs.length ∧ db1.recs = db.recs ++ [r]) := by
  unfold Db.innerSaveRecord at h
  split at h
  · rename_i hlt; cases h; exact .inl ⟨hlt, rfl⟩
  · split at h
    · cases h
    · rename_i he; cases h; exact .inr ⟨by omega, rfl⟩

theorem saveCert_recs (db : Db) (k : Nat) (c : Cert) : (db.saveCert k c).recs = db.recs := by
  unfold Db.saveCert
  split <;> rfl

/-- One record of the loop that was accepted. -/
theorem saveAll_cons {certs : Nat → Option Cert} {r : Rec} {rs : List Rec} {db : Db}
    (h : (saveAll B dig certs (r :: rs) db).1 = true) :
    ∃ c db', certs (dig r) = some c ∧ db.validate B dig r.epoch r c = true ∧
      saveAll B dig certs (r :: rs) db = saveAll B dig certs rs db' ∧
      ((r.epoch < db.recs.length ∧ db'.recs = db.recs) ∨ (r.epoch = db.recs.length ∧ db'.recs = db.recs ++ [r])) := by
  rw [saveAll] at h ⊢
  cases hc : certs (dig r) with
  | none => rw [hc] at h; cases h
  | some c =>
    rw [hc] at h
    dsimp only at h ⊢
    split at h
    · rename_i hv
      rw [if_pos hv]
      cases h1 : db.updateFinals r with
      | none => rw [h1] at h; cases h
      | some db1 =>
        rw [h1] at h
        dsimp only at h ⊢
        cases h2 : db1.innerSaveRecord r with
        | none => rw [h2] at h; cases h
        | some db2 =>
          refine ⟨c, _, rfl, hv, rfl, ?_⟩
          rw [saveCert_recs, ← updateFinals_recs h1]
          exact inner_recs h2
    · cases h

/-- What is stored stays. -/
theorem saveAll_mono {certs : Nat → Option Cert} : ∀ (rs : List Rec) (db : Db), (saveAll B dig certs rs db).1 = true →
    ∀ (i : Nat) (x : Rec), db.recs[i]? = some x → (saveAll B dig certs rs db).2.recs[i]? = some x
  | [], _, _, _, _, h => h
  | r :: rs, db, hs, i, x, h => by
    obtain ⟨c, db', -, -, e, hr⟩ := saveAll_cons hs
    rw [e] at hs ⊢
    refine saveAll_mono rs db' hs i x ?_
    rcases hr with ⟨-, hr⟩ | ⟨-, hr⟩ <;> rw [hr]
    · exact h
    · rw [List.getElem?_append_left (List.getElem?_eq_some_iff.mp h).1]; exact h

theorem over_tail (hdig : Function.Injective dig) {certs : Nat → Option Cert} : ∀ (rs : List Rec) (k : Nat) (q : Rec)
    (C : Finset Nat) (pr : Option Rec) (db : Db),
    (∃ r, Snapshot.verifyChain B dig certs rs (k + 1) (dig q) C pr = .ok r) → db.recs ≠ [] →
    (saveAll B dig certs rs db).1 = true →
    (rs ≠ [] → db.recs[k]? = some q) ∧
      ∀ i, i + 1 < rs.length → (saveAll B dig certs rs db).2.recs[k + 1 + i]? = rs[i]? := by
  intro rs
  induction rs with
  | nil => intro k q C pr db _ _ _; exact ⟨fun h => absurd rfl h, fun i hi => absurd hi (by simp)⟩
  | cons r rs ih =>
    intro k q C pr db ⟨w, hv⟩ hne hs
    obtain ⟨c, db', hc, hval, e, hr⟩ := saveAll_cons hs
    rw [Snapshot.verifyChain] at hv
    by_cases he : r.epoch = k + 1
    · rw [if_neg (by rw [he]; simp), hc] at hv
      dsimp only at hv
      split at hv
      · rename_i hva
        have hp : dig q = r.parent := (Ep.valid_spec.mp hva).2.1.symm
        have hk : db.recs[k]? = some q := by
          unfold Db.validate Db.anchor at hval
          rw [if_neg (by omega)] at hval
          have e1 : r.epoch - 1 = k := by omega
          rw [e1] at hval
          unfold Db.recordByEpoch at hval
          rw [if_neg (fun h => hne h.2)] at hval
          cases hx : db.recs[k]? with
          | none => rw [hx] at hval; cases hval
          | some p =>
            rw [hx] at hval
            have : dig p = r.parent := (Ep.valid_spec.mp hval).2.1.symm
            rw [hdig (this.trans hp.symm)]
        refine ⟨fun _ => hk, ?_⟩
        rw [e] at hs ⊢
        have hne' : db'.recs ≠ [] := by
          rcases hr with ⟨-, hr⟩ | ⟨-, hr⟩ <;> rw [hr]
          · exact hne
          · simp
        obtain ⟨j1, j2⟩ := ih (k + 1) r _ _ db' ⟨w, hv⟩ hne' hs
        intro i hi
        cases i with
        | zero =>
          have : rs ≠ [] := by rintro rfl; simp at hi
          rw [Nat.add_zero]
          exact saveAll_mono rs db' hs _ _ (j1 this)
        | succ i =>
          have := j2 i (by simpa using hi)
          rw [show k + 1 + 1 + i = k + 1 + (i + 1) by omega] at this
          rw [this]
          rfl
      · cases hv
    · rw [if_pos he] at hv; cases hv

/-- **C118** Over a database that holds records already: if the rebuild ends without an error, all records but the last are
those of the bundle. The last may be another (`stale_tip`). -/
theorem over_old (hdig : Function.Injective dig) {b : Bundle} {db : Db} {r : Rec}
    (hv : Snapshot.verifyChain B dig (Pub.certMap b.certs) b.records 0 0 g.toFinset none = .ok r)
    (h : (rebuild B dig g b db).1 = true) :
    ∀ i, i + 1 < b.records.length → (rebuild B dig g b db).2.recs[i]? = b.records[i]? := by
  unfold rebuild at h ⊢
  generalize db.saveDummy (seed g) = d1 at h ⊢
  generalize Pub.certMap b.certs = certs at hv h ⊢
  cases hb : b.records with
  | nil => intro i hi; simp at hi
  | cons q rs =>
    rw [hb] at hv h
    obtain ⟨c, db', hc, -, e, hr⟩ := saveAll_cons h
    rw [Snapshot.verifyChain] at hv
    by_cases he : q.epoch = 0
    · rw [if_neg (by rw [he]; simp), hc] at hv
      dsimp only at hv
      split at hv
      · rw [e] at h ⊢
        have hne : db'.recs ≠ [] := by
          rcases hr with ⟨hl, hr⟩ | ⟨-, hr⟩ <;> rw [hr]
          · intro h0; rw [h0] at hl; simp at hl
          · simp
        obtain ⟨j1, j2⟩ := over_tail hdig rs 0 q _ _ db' ⟨r, hv⟩ hne h
        intro i hi
        cases i with
        | zero =>
          have : rs ≠ [] := by rintro rfl; simp at hi
          exact saveAll_mono rs db' h _ _ (j1 this)
        | succ i =>
          have := j2 i (by simpa using hi)
          rw [show 0 + 1 + i = i + 1 by omega] at this
          rw [this]
          rfl
      · cases hv
    · rw [if_pos he] at hv; cases hv

end

/-! ### Examples -/

namespace Ex
open Import.Ex (rec0 m1 p1 k1 k2 h2)

def B : Bls := ⟨fun _ _ _ => true, fun _ => some 0, fun _ _ _ => true⟩
def dig (r : Rec) : Nat := 1000 * r.epoch + r.finalState.1
def r1 : Rec := { Import.Ex.rec1 with parent := dig rec0 }
def cert (r : Rec) : Cert := ⟨dig r, 0, [0, 1]⟩
def b : Bundle := ⟨[rec0, r1], [cert r1, cert rec0], 1, Import.exportAll Import.Ex.E 1 p1⟩
/-- The same bundle, its data cut off. -/
def cut : Bundle := { b with data := b.data.take 3 }

/-- A bundle of two epochs is restored, in both formats. -/
theorem run : (restore B dig Import.Ex.E [1, 2] b {}).1 = .ok ∧
    (restore B dig Import.Ex.E [1, 2] b {}).2.pack = some p1 ∧
    (restore B dig Import.Ex.E [1, 2] b {}).2.hint = some (1, 4) ∧
    (restore B dig Import.Ex.E [1, 2] b {}).2.db.recs = [rec0, r1] ∧
    (restore B dig Import.Ex.E [1, 2] { b with version := 0, data := Import.exportAll Import.Ex.E 0 p1 } {}).2.pack = some p1 := by
  decide +kernel

/-- A missing or a foreign certificate, a record of another committee, a broken link, records out of order, an epoch-0 bundle
and data cut off are refused. -/
theorem refusals :
    (restore B dig Import.Ex.E [1, 2] { b with certs := [cert r1] } {}).1 = .err ∧
    (restore B dig Import.Ex.E [1, 3] b {}).1 = .err ∧
    (restore B dig Import.Ex.E [1, 2] { b with records := [rec0, { r1 with parent := 4 }] } {}).1 = .err ∧
    (restore B dig Import.Ex.E [1, 2] { b with records := [r1, rec0] } {}).1 = .err ∧
    (restore B dig Import.Ex.E [1, 2] { b with records := [rec0] } {}).1 = .err ∧
    (restore B dig Import.Ex.E [1, 2] { b with records := [] } {}).1 = .err ∧
    (restore B dig Import.Ex.E [1, 2] cut {}).1 = .err := by
  decide +kernel

/-- The hypotheses of `restored` hold of this bundle: its pack is the chain `[k1, k2]`. -/
theorem hyps : (∃ d, restore B dig Import.Ex.E [1, 2] b {} = (.ok, d)) ∧
    Import.EpochChain Import.Ex.E rec0.finalHash (rec0.finalNum + 1) r1.epoch r1.finalNum r1.finalHash [k1, k2] ∧
    Import.Ex.E.dig h2 = rec0.finalHash ∧ h2.leaderEpoch ≠ some r1.epoch ∧ ∀ K, Import.NoCollision Import.Ex.E K :=
  ⟨⟨_, Prod.ext run.1 rfl⟩, ⟨Import.Ex.chain1.linked, Import.Ex.chain1.numbers, Import.Ex.chain1.epochs,
    Import.Ex.chain1.last⟩, Import.Ex.prev_is_other_epoch.1, Import.Ex.prev_is_other_epoch.2, Import.Ex.inj1⟩

/-- The hypotheses of `restorable` hold of it. -/
theorem hyps2 : (∃ r, Snapshot.verifyChain B dig (Pub.certMap b.certs) b.records 0 0 [1, 2].toFinset none = .ok r) ∧
    p1.Honest Import.Ex.E ∧ Import.MetaOk r1.epoch rec0 p1.m ∧
    Import.LinkedX Import.Ex.E (Import.firstExpect r1.epoch rec0) (p1.outs.map (·.hdr)) :=
  ⟨(gate_iff b).mpr (by decide +kernel), Import.Ex.honest1, Import.verifyMeta_iff.mp (by decide +kernel),
    ⟨by decide +kernel, rfl, trivial⟩⟩

/-- **C118** A restore that fails removes the epoch's pack also if it was there before, whole, and did not come from this
restore. -/
theorem own_pack_lost : ∃ d : Disk, d.pack = some p1 ∧
    (restore B dig Import.Ex.E [1, 2] { b with data := [] } d).1 = .err ∧
    (restore B dig Import.Ex.E [1, 2] { b with data := [] } d).2.pack = none :=
  ⟨{ pack := some p1 }, rfl, by decide +kernel⟩

/-- An output of another chain. -/
def other : Import.CHdr := ⟨77, 3, [⟨1, 1, []⟩], 5⟩

/-- **C118** A pack that was there and holds an output of another chain is completed by the bundle's outputs, and success is
reported: the comparison of the tip does not see it, and the pack is no chain. -/
theorem mixed_pack : ∃ d : Disk, d.pack = some ⟨m1, [⟨other, []⟩]⟩ ∧
    (restore B dig Import.Ex.E [1, 2] b d).1 = .ok ∧
    (restore B dig Import.Ex.E [1, 2] b d).2.pack = some ⟨m1, [⟨other, []⟩, ⟨k2, []⟩]⟩ ∧
    k2.parent ≠ Import.Ex.E.dig other :=
  ⟨{ pack := some ⟨m1, [⟨other, []⟩]⟩ }, rfl, by decide +kernel⟩

/-- **C118** A database that holds another record for the last epoch keeps it, without a certificate, and success is
reported. -/
theorem stale_tip : ∃ d : Disk, d.db.recs = [rec0, { r1 with finalState := (10, 10) }] ∧
    (restore B dig Import.Ex.E [1, 2] b d).1 = .ok ∧
    (restore B dig Import.Ex.E [1, 2] b d).2.db.recs[1]? ≠ some r1 ∧
    (restore B dig Import.Ex.E [1, 2] b d).2.db.recs[1]? = some { r1 with finalState := (10, 10) } ∧
    (restore B dig Import.Ex.E [1, 2] b d).2.db.certOf (dig { r1 with finalState := (10, 10) }) = none :=
  ⟨{ db := ⟨[rec0, { r1 with finalState := (10, 10) }], [(dig rec0, cert rec0)], none, [2, 4], 0⟩ }, rfl, by decide +kernel⟩

end Ex
end Resume
end Verif
