import Mathlib.Data.Nat.Pairing
import Verif.Epoch.Votes
/-
Concrete cases for the theorems on epoch records: a committee of four with one faulty member, an injective
digest and a toy signature scheme that cannot be forged for correct members.
-/
namespace Verif
namespace Ep
namespace Ex

def encL : List Nat → Nat
  | [] => 0
  | a :: l => Nat.pair a (encL l) + 1

theorem encL_inj : ∀ l l', encL l = encL l' → l = l'
  | [], [], _ => rfl
  | [], _ :: _, h => by simp [encL] at h
  | _ :: _, [], h => by simp [encL] at h
  | a :: l, b :: l', h => by
    simp only [encL, Nat.add_right_cancel_iff, Nat.pair_eq_pair] at h
    rw [h.1, encL_inj l l' h.2]

def dig (r : Rec) : Nat :=
  Nat.pair r.epoch (Nat.pair (encL r.committee) (Nat.pair (encL r.next) (Nat.pair r.parent
    (Nat.pair (Nat.pair r.finalState.1 r.finalState.2) (Nat.pair r.finalNum r.finalHash))))) + 1

theorem dig_inj (r r' : Rec) (h : dig r = dig r') : r = r' := by
  unfold dig at h
  simp only [Nat.add_right_cancel_iff, Nat.pair_eq_pair] at h
  obtain ⟨h1, h2, h3, h4, ⟨h5, h5'⟩, h6, h7⟩ := h
  obtain ⟨a, b, c, d, ⟨e1, e2⟩, f, g⟩ := r
  obtain ⟨a', b', c', d', ⟨e1', e2'⟩, f', g'⟩ := r'
  simp only at h1 h2 h3 h4 h5 h5' h6 h7
  rw [h1, encL_inj _ _ h2, encL_inj _ _ h3, h4, h5, h5', h6, h7]

def F : Facts := ⟨fun _ => [1, 2, 3, 4], fun _ => [1, 2, 3, 4], fun e => (e, 7), fun e => 10 * e + 9, fun e => e⟩

def r0 : Rec := truth dig F 0
def r1 : Rec := truth dig F 1

/-- Correct members have signed the records of the epochs 0 and 1 only; member 4 is faulty and signs anything. -/
def may (k d : Nat) : Bool := k == 4 || d == dig r0 || d == dig r1

def B : Bls where
  verify s d k := s == d + k && may k d
  aggregate l := if l = [] then none else some l.sum
  verifyAgg s d ks := s == (ks.map (d + ·)).sum && ks.all (fun k => may k d)

theorem B_agg : AggOk B := by
  refine ⟨?_, ?_⟩
  · intro l hl
    exact ⟨l.sum, if_neg hl⟩
  · intro ps d s ks hv hs hp
    have hs' : (ps.map (·.2)).sum = s := by
      unfold B at hs
      dsimp only at hs
      split at hs
      · cases hs
      · simpa using hs
    show (s == (ks.map (d + ·)).sum && ks.all (fun k => may k d)) = true
    have hv' : ∀ p ∈ ps, p.2 = d + p.1 ∧ may p.1 d = true := by
      intro p hpm
      have := hv p hpm
      simp only [B, Bool.and_eq_true, beq_iff_eq] at this
      exact this
    rw [Bool.and_eq_true, beq_iff_eq, List.all_eq_true]
    refine ⟨?_, ?_⟩
    · rw [(hp.map _).sum_eq, List.map_map, ← hs']
      clear hs hs' hp hv
      congr 1
      apply List.map_congr_left
      intro p hpm
      exact (hv' p hpm).1
    · intro k hk
      obtain ⟨p, hpm, rfl⟩ := List.mem_map.mp (hp.subset hk)
      exact (hv' p hpm).2

/-- The assumptions of C51 and C52 hold here. -/
theorem honest : Honest B dig F [1, 2, 3, 4] {4} (fun k d => may k d = true) := by
  have h4 : (({4} : Finset Nat) ∩ [1, 2, 3, 4].toFinset).card ≤ ([1, 2, 3, 4].toFinset.card - 1) / 3 := by decide
  refine ⟨?_, ?_, dig_inj, fun _ => h4, h4, h4⟩
  · intro s d ks h k hk
    right
    have h' : (s == (ks.map (d + ·)).sum && ks.all (fun k => may k d)) = true := h
    rw [Bool.and_eq_true, List.all_eq_true] at h'
    exact h'.2 k hk
  · intro k d hk hs
    have hk4 : (k == 4) = false := by
      simpa using hk
    simp only [may, hk4, Bool.false_or, Bool.or_eq_true, beq_iff_eq] at hs
    rcases hs with hs | hs
    · exact ⟨0, hs⟩
    · exact ⟨1, hs⟩

def c0 : Cert := ⟨dig r0, 3 * dig r0 + 6, [0, 1, 2]⟩
def c1 : Cert := ⟨dig r1, 3 * dig r1 + 7, [0, 1, 3]⟩

/-- Epoch 0 is closed and certified by votes; the record of epoch 1 is downloaded. -/
def db2 : Db := ((Db.empty.saveRecord r0).saveCert (dig r0) c0).save dig r1 c1

theorem db2_reach : DbReach B dig F [1, 2, 3, 4] db2 := by
  have s1 : DbReach B dig F [1, 2, 3, 4] (Db.empty.saveRecord r0) :=
    .step .init (.close 0 r0 (Or.inl rfl) (by rfl))
  have s2 : DbReach B dig F [1, 2, 3, 4] ((Db.empty.saveRecord r0).saveCert (dig r0) c0) :=
    .step s1 (.quorum 0 r0 c0 (by decide +kernel) (by decide +kernel))
  exact .step s2 (.download 1 r1 c1 (by decide +kernel))

/-- The run of `db2` satisfies the hypotheses, and both epochs are certified. -/
example : db2.recs = [r0, r1] ∧ db2.certs = [(dig r0, c0), (dig r1, c1)] ∧ db2.numberToEpoch 9 = 0 ∧
    db2.numberToEpoch 10 = 1 ∧ (db2.firstMissing dig 2).2 = none := by decide +kernel

example : (db2.certifiedRecord B dig 1).toOption = some r1 := by decide +kernel

/-- A record the faulty member signs alone, or one with a committee of strangers, is rejected. -/
example : (Db.empty.saveRecord r0).validate B dig 1 { r1 with finalHash := 99 }
    ⟨dig { r1 with finalHash := 99 }, dig { r1 with finalHash := 99 } + 4, [3]⟩ = false := by decide +kernel

example : compatible { r1 with committee := [5, 6, 7, 4] } r0.next.toFinset = false := by decide +kernel
example : compatible { r1 with committee := [1, 2, 3, 3] } r0.next.toFinset = false := by decide +kernel
example : compatible { r1 with committee := [4, 2, 1, 3] } r0.next.toFinset = true := by decide +kernel
-- a shrink from six to four is tolerated, to three is not
example : compatible { r1 with committee := [1, 2, 3, 4] } {1, 2, 3, 4, 5, 6} = true ∧
    compatible { r1 with committee := [1, 2, 3, 4] } {1, 2, 3, 4, 5, 6, 7} = false ∧
    compatible { r1 with committee := [1, 2, 3] } {1, 2, 3, 4} = false := by decide +kernel

/-! A collector: member 3 votes for something else, member 2's vote comes twice, member 4's after a timeout. -/

def vote (k : Nat) : Vote := ⟨0, k, dig r0, dig r0 + k⟩

def evs : List CEv := [.vote ⟨0, 3, 5, 8⟩, .vote (vote 2), .timeout, .vote (vote 2), .vote ⟨1, 4, dig r1, dig r1 + 4⟩,
  .vote (vote 4), .timeout]

example : ((Coll.init r0 1 (dig r0 + 1)).run dig r0 evs).finish B dig r0 = some ⟨dig r0, 3 * dig r0 + 7, [0, 1, 3]⟩ := by
  decide +kernel

/-- `quorum_certifies` applies to it. -/
example : ∃ cert, ((Coll.init r0 1 (dig r0 + 1)).run dig r0 evs).finish B dig r0 = some cert ∧
    verifyWithCert B dig r0 cert = true := by
  refine quorum_certifies (S := {2, 4}) B_agg (by decide +kernel) (by decide +kernel) ?_ ?_ ⟨2, by decide⟩
    (by decide +kernel) ?_ ?_ (by decide +kernel) (by decide +kernel)
  · have : ∀ e ∈ evs, (match e with | .vote v => !(v.hash == dig r0) || B.verify v.sig v.hash v.key | _ => true) = true := by
      decide +kernel
    intro v hv hh
    have := this _ hv
    simpa [hh] using this
  · decide +kernel
  · have : ∀ e ∈ evs, (match e with
        | .vote v => !(decide (v.key ∈ ({2, 4} : Finset Nat))) || !(v.epoch == r0.epoch) || v.hash == dig r0
        | _ => true) = true := by decide +kernel
    intro v hv hk he
    have := this _ hv
    simpa [hk, he] using this
  · intro k hk
    rw [Finset.mem_insert, Finset.mem_singleton] at hk
    rcases hk with rfl | rfl
    · exact ⟨vote 2, by decide +kernel, rfl, rfl, rfl⟩
    · exact ⟨vote 4, by decide +kernel, rfl, rfl, rfl⟩

-- without member 4 there is no quorum and no certificate
example : ((Coll.init r0 1 (dig r0 + 1)).run dig r0 [.vote (vote 2), .timeout, .timeout]).finish B dig r0 = none := by
  decide +kernel

/-! The gate: a forged vote of member 2 comes first, the real one is forwarded once. -/

def held : Gate.View := fun e => if e = 0 then some (r0, false) else none

example : (Gate.run B dig ⟨[], []⟩ [(held, ⟨0, 2, dig r0, 1⟩), (held, vote 2), (held, vote 2), (held, vote 9)]).forwarded
    = [vote 2] := by decide +kernel

theorem held_stable : Gate.Stable (fun e => if e = 0 then some r0 else none)
    [(held, ⟨0, 2, dig r0, 1⟩), (held, vote 2), (held, vote 2), (held, vote 9)] := by
  intro hv hm e r b h
  have : hv.1 = held := by
    simp only [List.mem_cons, List.not_mem_nil, or_false] at hm
    rcases hm with rfl | rfl | rfl | rfl <;> rfl
  rw [this] at h
  unfold held at h
  dsimp only
  split at h
  · rename_i he
    rw [if_pos he]
    cases h; rfl
  · cases h

/-- A node whose own record of epoch 0 differs from the certified one. -/
example : let r' : Rec := { r0 with finalHash := 5 }
    (((Db.empty.saveRecord r').save dig r0 c0).recordByEpoch 0 = some r') ∧
    ((Db.empty.saveRecord r').validate B dig 0 r0 c0 = true) ∧
    (((Db.empty.saveRecord r').save dig r0 c0).validate B dig 1 r1 c1 = false) := by decide +kernel

end Ex
end Ep
end Verif
