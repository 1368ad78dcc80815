import Mathlib.Data.List.Sort
import Mathlib.Data.List.Perm.Subperm
import Verif.Epoch.Store
import Verif.Cert.Props
/-
Model of the collection of votes on an epoch record: the gossip gate
(`crates/consensus/primary/src/network/handler.rs` 258-292 and 498-560) and the collector
(`manage_epoch_votes`, `crates/node/src/manager/epoch_votes.rs` 60-190).

Not modelled here: the routing of a forwarded vote to its collector (`Router.lean`), the re-publication
of the own vote, and the download that follows a failed round (its effect on the store is the step `download` of
`Store.lean`).
-/
namespace Verif
namespace Ep

/-- `EpochVote`, epoch.rs:186-204. -/
structure Vote where
  epoch : Nat
  key : Nat
  hash : Nat
  sig : Nat
deriving DecidableEq, Repr

/-! ## The collector -/

/-- The local variables of `manage_epoch_votes`, epoch_votes.rs:67-103. -/
structure Coll where
  /-- `committee_keys`: members not heard of yet -/
  remaining : Finset Nat
  /-- `signed_authorities`: the indices in ascending order -/
  bits : List Nat
  sigs : List Nat
  /-- `alt_recs` -/
  alts : Nat → Nat
  reached : Bool
  timeouts : Nat
  /-- the loop was left -/
  done : Bool

inductive CEv where
  | vote (v : Vote)
  | timeout
  | closed
deriving DecidableEq, Repr

namespace Coll

/-- `committee_index`, 69-70: collecting into a map keeps the last index of a repeated key. -/
def indexOf (committee : List Nat) (k : Nat) : Option Nat :=
  ((committee.zipIdx.reverse).find? (fun p => p.1 == k)).map (·.2)

/-- `RoaringBitmap::insert` and the push of the signature when the index is new, 83-87 and 119-123. -/
def add (committee : List Nat) (c : Coll) (k s : Nat) : Coll :=
  match indexOf committee k with
  | none => c
  | some i => if i ∈ c.bits then c
              else { c with bits := c.bits.orderedInsert (· ≤ ·) i, sigs := c.sigs ++ [s] }

/-- 67-95, for a node with key `me` whose own vote has signature `mySig`. -/
def init (r : Rec) (me mySig : Nat) : Coll :=
  let c : Coll := ⟨r.committee.toFinset, [], [], fun _ => 0, false, 0, false⟩
  if me ∈ c.remaining then add r.committee { c with remaining := c.remaining.erase me } me mySig else c

/-- What follows the insertion of a vote, 124-131. -/
def check (r : Rec) (c : Coll) : Coll :=
  { c with reached := c.reached || decide (superQuorum r.committee.length ≤ c.bits.length),
           done := decide (r.committee.length ≤ c.bits.length) }

/-- One turn of the loop, 104-168. -/
def step (dig : Rec → Nat) (r : Rec) (c : Coll) : CEv → Coll
  | .closed => { c with done := true }
  | .vote v =>
    if v.epoch ≠ r.epoch then c
    else if v.hash = dig r ∧ v.key ∈ c.remaining then
      check r (add r.committee { c with remaining := c.remaining.erase v.key } v.key v.sig)
    else if v.hash ≠ dig r ∧ v.key ∈ c.remaining then
      { c with remaining := c.remaining.erase v.key,
               alts := fun h => if h = v.hash then c.alts h + 1 else c.alts h,
               done := decide (superQuorum r.committee.length ≤ c.alts v.hash + 1) }
    else c
  | .timeout =>
    if c.reached = true ∨ 24 < c.timeouts then { c with done := true }
    else { c with timeouts := c.timeouts + 1 }

def run (dig : Rec → Nat) (r : Rec) (c : Coll) : List CEv → Coll
  | [] => c
  | e :: es => if c.done then c else run dig r (step dig r c e) es

/-- The certificate saved after the loop, 170-193; `none` if nothing is saved. -/
def finish (B : Bls) (dig : Rec → Nat) (r : Rec) (c : Coll) : Option Cert :=
  if c.reached then
    match B.aggregate c.sigs with
    | none => none
    | some s => if verifyWithCert B dig r ⟨dig r, s, c.bits⟩ then some ⟨dig r, s, c.bits⟩ else none
  else none

end Coll

/-- Aggregating valid signatures works and gives a signature of the same keys in any order. -/
structure AggOk (B : Bls) : Prop where
  total : ∀ l : List Nat, l ≠ [] → ∃ s, B.aggregate l = some s
  valid : ∀ (ps : List (Nat × Nat)) (d s : Nat) (ks : List Nat), (∀ p ∈ ps, B.verify p.2 d p.1 = true) →
    B.aggregate (ps.map (·.2)) = some s → ks.Perm (ps.map (·.1)) → B.verifyAgg s d ks = true

/-! ### Lemmas on the indices -/

theorem indexOf_spec {committee : List Nat} (hnd : committee.Nodup) {k i : Nat} :
    Coll.indexOf committee k = some i ↔ committee[i]? = some k := by
  unfold Coll.indexOf
  constructor
  · intro h
    cases hf : (committee.zipIdx.reverse).find? (fun p => p.1 == k) with
    | none => rw [hf] at h; cases h
    | some x =>
      rw [hf] at h
      simp only [Option.map_some, Option.some.injEq] at h
      have h1 := List.mem_of_find?_eq_some hf
      have h2 := List.find?_some hf
      simp only [beq_iff_eq] at h2
      rw [List.mem_reverse] at h1
      have h3 := List.mem_zipIdx_iff_getElem?.mp h1
      rw [← h, ← h2]
      exact h3
  · intro h
    have hm : (k, i) ∈ committee.zipIdx.reverse := by
      rw [List.mem_reverse]
      exact List.mem_zipIdx_iff_getElem?.mpr h
    cases hf : (committee.zipIdx.reverse).find? (fun p => p.1 == k) with
    | none =>
      have := List.find?_eq_none.mp hf _ hm
      simp at this
    | some x =>
      have h1 := List.mem_of_find?_eq_some hf
      have h2 := List.find?_some hf
      simp only [beq_iff_eq] at h2
      rw [List.mem_reverse] at h1
      have h3 := List.mem_zipIdx_iff_getElem?.mp h1
      rw [h2] at h3
      simp only [Option.map_some, Option.some.injEq]
      have l1 := (List.getElem?_eq_some_iff.mp h).1
      exact ((List.getElem?_inj l1 hnd).mp (h.trans h3.symm)).symm

theorem indexOf_mem {committee : List Nat} (hnd : committee.Nodup) {k : Nat} (h : k ∈ committee) :
    ∃ i, Coll.indexOf committee k = some i ∧ committee[i]? = some k := by
  obtain ⟨i, hi⟩ := List.getElem?_of_mem h
  exact ⟨i, (indexOf_spec hnd).mpr hi, hi⟩

/-- The walk of `verify_with_cert` collects the keys at the indices. -/
theorem signedKeys_eq (ks : List Nat) (bs : List Nat) (off : Nat) (hs : bs.Pairwise (· < ·))
    (hb : ∀ b ∈ bs, off ≤ b ∧ b < off + ks.length) :
    Certificate.signedKeys ks off bs = bs.filterMap (fun b => ks[b - off]?) := by
  induction ks generalizing off bs with
  | nil =>
    cases bs with
    | nil => rfl
    | cons b bs =>
      have := hb b (List.mem_cons_self ..)
      simp only [List.length_nil] at this
      omega
  | cons k ks ih =>
    cases bs with
    | nil => rfl
    | cons b bs =>
      simp only [Certificate.signedKeys]
      have hb0 := hb b (List.mem_cons_self ..)
      rw [List.pairwise_cons] at hs
      have shift : ∀ l : List Nat, (∀ x ∈ l, off + 1 ≤ x) →
          l.filterMap (fun b => (k :: ks)[b - off]?) = l.filterMap (fun b => ks[b - (off + 1)]?) := by
        intro l hl
        apply List.filterMap_congr
        intro x hx
        have := hl x hx
        obtain ⟨j, rfl⟩ : ∃ j, x = off + 1 + j := ⟨x - (off + 1), by omega⟩
        rw [show off + 1 + j - off = j + 1 by omega, show off + 1 + j - (off + 1) = j by omega]
        rfl
      by_cases hbo : b = off
      · subst hbo
        rw [if_pos rfl, List.filterMap_cons, Nat.sub_self]
        simp only [List.getElem?_cons_zero]
        have hge : ∀ x ∈ bs, b + 1 ≤ x := fun x hx => hs.1 x hx
        rw [shift bs hge, ih bs (b + 1) hs.2]
        intro x hx
        have h1 := hb x (List.mem_cons_of_mem _ hx)
        simp only [List.length_cons] at h1
        have := hge x hx
        omega
      · rw [if_neg hbo]
        have hge : ∀ x ∈ b :: bs, off + 1 ≤ x := by
          intro x hx
          rcases List.mem_cons.mp hx with rfl | hx
          · omega
          · have := hs.1 x hx; omega
        rw [shift (b :: bs) hge, ih (b :: bs) (off + 1) (List.pairwise_cons.mpr hs)]
        intro x hx
        have h1 := hb x hx
        simp only [List.length_cons] at h1
        have := hge x hx
        omega

/-! ### What the collector has, it can certify -/

/-- The signatures and the bitmap belong together. -/
structure CollInv (B : Bls) (dig : Rec → Nat) (r : Rec) (c : Coll) : Prop where
  /-- index, key and signature of each accepted vote, in order of arrival -/
  ps : ∃ ps : List (Nat × Nat × Nat), c.sigs = ps.map (·.2.2) ∧ c.bits.Perm (ps.map (·.1)) ∧
    (∀ p ∈ ps, r.committee[p.1]? = some p.2.1 ∧ B.verify p.2.2 (dig r) p.2.1 = true)
  sorted : c.bits.Pairwise (· < ·)
  reached : c.reached = true → superQuorum r.committee.length ≤ c.bits.length

theorem add_inv {B : Bls} {dig : Rec → Nat} {r : Rec} {c : Coll} (h : CollInv B dig r c) (hnd : r.committee.Nodup)
    {k s : Nat} (hv : B.verify s (dig r) k = true) : CollInv B dig r (c.add r.committee k s) := by
  unfold Coll.add
  cases hi : Coll.indexOf r.committee k with
  | none => exact h
  | some i =>
    dsimp only
    split
    · exact h
    · rename_i hni
      obtain ⟨ps, h1, h2, h3⟩ := h.ps
      refine ⟨⟨ps ++ [(i, k, s)], ?_, ?_, ?_⟩, ?_, ?_⟩
      · show c.sigs ++ [s] = _
        rw [h1, List.map_append]; rfl
      · show (c.bits.orderedInsert (· ≤ ·) i).Perm _
        rw [List.map_append]
        exact ((List.perm_orderedInsert _ i c.bits).trans (h2.cons i)).trans
          (List.perm_append_singleton i _).symm
      · intro p hp
        rw [List.mem_append, List.mem_singleton] at hp
        rcases hp with hp | rfl
        · exact h3 p hp
        · exact ⟨(indexOf_spec hnd).mp hi, hv⟩
      · show (c.bits.orderedInsert (· ≤ ·) i).Pairwise (· < ·)
        have hsort : c.bits.Pairwise (· ≤ ·) := h.sorted.imp (fun hab => Nat.le_of_lt hab)
        have hle : (c.bits.orderedInsert (· ≤ ·) i).Pairwise (· ≤ ·) := by
          have := List.Pairwise.orderedInsert (r := ((· ≤ ·) : Nat → Nat → Prop)) i c.bits hsort
          exact this
        have hnod : (c.bits.orderedInsert (· ≤ ·) i).Nodup := by
          rw [(List.perm_orderedInsert _ i c.bits).nodup_iff, List.nodup_cons]
          exact ⟨hni, h.sorted.imp (fun hab => Nat.ne_of_lt hab)⟩
        exact (List.Pairwise.and hle hnod).imp (fun ⟨ha, hb⟩ => Nat.lt_of_le_of_ne ha hb)
      · intro hr
        show _ ≤ (c.bits.orderedInsert (· ≤ ·) i).length
        rw [(List.perm_orderedInsert _ i c.bits).length_eq, List.length_cons]
        have := h.reached hr
        omega

theorem step_coll {B : Bls} {dig : Rec → Nat} {r : Rec} {c : Coll} (h : CollInv B dig r c) (hnd : r.committee.Nodup)
    {e : CEv} (hv : ∀ v, e = .vote v → v.hash = dig r → B.verify v.sig v.hash v.key = true) :
    CollInv B dig r (c.step dig r e) := by
  cases e with
  | closed => exact ⟨h.ps, h.sorted, h.reached⟩
  | timeout =>
    unfold Coll.step; dsimp only
    split
    · exact ⟨h.ps, h.sorted, h.reached⟩
    · exact ⟨h.ps, h.sorted, h.reached⟩
  | vote v =>
    unfold Coll.step; dsimp only
    split
    · exact h
    · split
      · rename_i hm
        have hvv := hv v rfl hm.1
        rw [hm.1] at hvv
        have h' : CollInv B dig r ({ c with remaining := c.remaining.erase v.key } : Coll) :=
          ⟨h.ps, h.sorted, h.reached⟩
        have ha := add_inv h' hnd hvv
        refine ⟨ha.ps, ha.sorted, ?_⟩
        intro hr
        have hr' : (_ || decide _) = true := hr
        rw [Bool.or_eq_true] at hr'
        rcases hr' with hr' | hr'
        · exact ha.reached hr'
        · exact of_decide_eq_true hr'
      · split
        · exact ⟨h.ps, h.sorted, h.reached⟩
        · exact h

theorem run_coll {B : Bls} {dig : Rec → Nat} {r : Rec} {c : Coll} (h : CollInv B dig r c) (hnd : r.committee.Nodup)
    {es : List CEv} (hv : ∀ v, CEv.vote v ∈ es → v.hash = dig r → B.verify v.sig v.hash v.key = true) :
    CollInv B dig r (c.run dig r es) := by
  induction es generalizing c with
  | nil => exact h
  | cons e es ih =>
    unfold Coll.run
    split
    · exact h
    · exact ih (step_coll h hnd (fun v hve => hv v (hve ▸ List.mem_cons_self ..)))
        (fun v hm => hv v (List.mem_cons_of_mem _ hm))

theorem init_coll {B : Bls} {dig : Rec → Nat} {r : Rec} {me mySig : Nat} (hnd : r.committee.Nodup)
    (hme : B.verify mySig (dig r) me = true) : CollInv B dig r (Coll.init r me mySig) := by
  have h0 : ∀ rem, CollInv B dig r (⟨rem, [], [], fun _ => 0, false, 0, false⟩ : Coll) := fun _ =>
    ⟨⟨[], rfl, List.Perm.nil, fun p hp => absurd hp (by simp)⟩, List.Pairwise.nil, fun h => by cases h⟩
  unfold Coll.init
  dsimp only
  split
  · exact add_inv (h0 _) hnd hme
  · exact h0 _

/-- **C53**, the collector only saves what verifies, and saves whenever it has a quorum: the check before the
save never fails. -/
theorem collector_saves {B : Bls} {dig : Rec → Nat} {r : Rec} {me mySig : Nat} {es : List CEv} (hB : AggOk B)
    (hnd : r.committee.Nodup) (hme : B.verify mySig (dig r) me = true)
    (hv : ∀ v, CEv.vote v ∈ es → v.hash = dig r → B.verify v.sig v.hash v.key = true) :
    let c := (Coll.init r me mySig).run dig r es
    (c.reached = true → ∃ cert, c.finish B dig r = some cert ∧ verifyWithCert B dig r cert = true) ∧
      (c.reached = false → c.finish B dig r = none) := by
  intro c
  have hi : CollInv B dig r c := run_coll (init_coll hnd hme) hnd hv
  refine ⟨?_, ?_⟩
  · intro hr
    have hq := hi.reached hr
    obtain ⟨ps, h1, h2, h3⟩ := hi.ps
    have hlen : ps.length = c.bits.length := by rw [h2.length_eq, List.length_map]
    have hne : c.sigs ≠ [] := by
      intro h0
      rw [h0] at h1
      have : ps = [] := List.map_eq_nil_iff.mp h1.symm
      rw [this] at hlen
      unfold superQuorum at hq
      simp only [List.length_nil] at hlen
      omega
    obtain ⟨s, hs⟩ := hB.total _ hne
    have hkeys : Certificate.signedKeys r.committee 0 c.bits = c.bits.filterMap (fun b => r.committee[b]?) := by
      have := signedKeys_eq r.committee c.bits 0 hi.sorted (fun b hb => by
        have hb' : b ∈ ps.map (·.1) := h2.subset hb
        obtain ⟨p, hp, rfl⟩ := List.mem_map.mp hb'
        have := (List.getElem?_eq_some_iff.mp (h3 p hp).1).1
        omega)
      simpa using this
    have hperm : (Certificate.signedKeys r.committee 0 c.bits).Perm (ps.map (·.2.1)) := by
      rw [hkeys]
      refine (h2.filterMap _).trans ?_
      rw [List.filterMap_map]
      have : List.filterMap ((fun b => r.committee[b]?) ∘ fun x => x.1) ps = ps.map (·.2.1) := by
        clear h1 h2 hlen hne hs hkeys
        induction ps with
        | nil => rfl
        | cons p ps ih =>
          rw [List.filterMap_cons]
          have hp := (h3 p (List.mem_cons_self ..)).1
          have hp' : ((fun b => r.committee[b]?) ∘ fun x : Nat × Nat × Nat => x.1) p = some p.2.1 := hp
          rw [hp']
          dsimp only
          rw [List.map_cons, ih (fun q hq => h3 q (List.mem_cons_of_mem _ hq))]
      rw [this]
    have hagg : B.verifyAgg s (dig r) (Certificate.signedKeys r.committee 0 c.bits) = true := by
      refine hB.valid (ps.map (fun p => (p.2.1, p.2.2))) (dig r) s _ ?_ ?_ ?_
      · intro p hp
        obtain ⟨q, hq, rfl⟩ := List.mem_map.mp hp
        exact (h3 q hq).2
      · rw [List.map_map, ← hs, h1]; rfl
      · rw [List.map_map]; exact hperm
    have hver : verifyWithCert B dig r ⟨dig r, s, c.bits⟩ = true := by
      unfold verifyWithCert
      rw [if_neg (fun hn => hn rfl)]
      dsimp only
      have : ¬ (Certificate.signedKeys r.committee 0 c.bits).length < superQuorum r.committee.length := by
        rw [hperm.length_eq, List.length_map]; omega
      rw [if_neg this]
      exact hagg
    refine ⟨⟨dig r, s, c.bits⟩, ?_, hver⟩
    unfold Coll.finish
    rw [if_pos hr, hs]
    dsimp only
    rw [if_pos hver]
  · intro hr
    unfold Coll.finish
    rw [hr]
    rfl

/-! ### A quorum of correct members is enough -/

section live
variable {dig : Rec → Nat} {r : Rec} {me : Nat} {S : Finset Nat}

/-- Progress of a run in which the members `S` vote for our record only. -/
structure LiveInv (dig : Rec → Nat) (r : Rec) (me : Nat) (S : Finset Nat) (c : Coll) : Prop where
  nodup : c.bits.Nodup
  mine : me ∈ r.committee → ∃ i, Coll.indexOf r.committee me = some i ∧ i ∈ c.bits
  heard : ∀ k ∈ S, k ∈ c.remaining ∨ ∃ i, Coll.indexOf r.committee k = some i ∧ i ∈ c.bits
  rem : c.remaining ⊆ r.committee.toFinset.erase me
  alts : ∀ h, c.alts h ≤ (((r.committee.toFinset.erase me) \ S) \ c.remaining).card
  reached : ∀ k ∈ S, k ∉ c.remaining → superQuorum r.committee.length ≤ c.bits.length → c.reached = true

theorem add_frame (com : List Nat) (c : Coll) (k s : Nat) : (c.add com k s).remaining = c.remaining ∧
    (c.add com k s).alts = c.alts ∧ (c.add com k s).reached = c.reached ∧ (c.add com k s).timeouts = c.timeouts ∧
    (c.add com k s).done = c.done ∧ (∀ i ∈ c.bits, i ∈ (c.add com k s).bits) ∧
    (c.bits.Nodup → (c.add com k s).bits.Nodup) ∧
    (∀ i, Coll.indexOf com k = some i → i ∈ (c.add com k s).bits) := by
  unfold Coll.add
  cases hi : Coll.indexOf com k with
  | none => exact ⟨rfl, rfl, rfl, rfl, rfl, fun _ h => h, fun h => h, fun i h => by cases h⟩
  | some i =>
    dsimp only
    split
    · rename_i hm
      exact ⟨rfl, rfl, rfl, rfl, rfl, fun _ h => h, fun h => h, fun j hj => by cases hj; exact hm⟩
    · rename_i hn
      refine ⟨rfl, rfl, rfl, rfl, rfl, ?_, ?_, ?_⟩
      · intro j hj
        exact (List.mem_orderedInsert _).mpr (Or.inr hj)
      · intro hnd
        show (c.bits.orderedInsert (· ≤ ·) i).Nodup
        rw [(List.perm_orderedInsert _ i c.bits).nodup_iff, List.nodup_cons]
        exact ⟨hn, hnd⟩
      · intro j hj
        cases hj
        exact (List.mem_orderedInsert _).mpr (Or.inl rfl)

theorem erase_sdiff_card {A R : Finset Nat} {k : Nat} (hk : k ∈ R) (hA : k ∈ A) :
    (A \ R).card + 1 ≤ (A \ R.erase k).card := by
  have hsub : insert k (A \ R) ⊆ A \ R.erase k := by
    intro x hx
    rw [Finset.mem_insert] at hx
    rw [Finset.mem_sdiff, Finset.mem_erase]
    rcases hx with rfl | hx
    · exact ⟨hA, fun h => h.1 rfl⟩
    · rw [Finset.mem_sdiff] at hx
      exact ⟨hx.1, fun h => hx.2 h.2⟩
  have hcard : (insert k (A \ R)).card = (A \ R).card + 1 := by
    rw [Finset.card_insert_of_notMem]
    intro h
    exact (Finset.mem_sdiff.mp h).2 hk
  rw [← hcard]
  exact Finset.card_le_card hsub

theorem sdiff_mono_card {A R : Finset Nat} (k : Nat) : (A \ R).card ≤ (A \ R.erase k).card := by
  apply Finset.card_le_card
  intro x hx
  rw [Finset.mem_sdiff] at hx ⊢
  exact ⟨hx.1, fun h => hx.2 (Finset.mem_of_mem_erase h)⟩

theorem step_live {c : Coll} {e : CEv} (h : LiveInv dig r me S c) (hS : S ⊆ r.committee.toFinset.erase me)
    (honest : ∀ v, e = .vote v → v.key ∈ S → v.epoch = r.epoch → v.hash = dig r) :
    LiveInv dig r me S (c.step dig r e) := by
  cases e with
  | closed => exact ⟨h.nodup, h.mine, h.heard, h.rem, h.alts, h.reached⟩
  | timeout =>
    unfold Coll.step; dsimp only
    split
    · exact ⟨h.nodup, h.mine, h.heard, h.rem, h.alts, h.reached⟩
    · exact ⟨h.nodup, h.mine, h.heard, h.rem, h.alts, h.reached⟩
  | vote v =>
    unfold Coll.step; dsimp only
    split
    · exact h
    · rename_i hep
      have hep : v.epoch = r.epoch := Classical.not_not.mp hep
      split
      · rename_i hm
        obtain ⟨f1, f2, f3, f4, f5, f6, f7, f8⟩ :=
          add_frame r.committee ({ c with remaining := c.remaining.erase v.key } : Coll) v.key v.sig
        refine ⟨f7 h.nodup, ?_, ?_, ?_, ?_, ?_⟩
        · intro hme
          obtain ⟨i, h1, h2⟩ := h.mine hme
          exact ⟨i, h1, f6 i h2⟩
        · intro k hk
          rcases h.heard k hk with hr | ⟨i, h1, h2⟩
          · by_cases hkv : k = v.key
            · right
              have hmem := hS hk
              have hcm : k ∈ r.committee := List.mem_toFinset.mp (Finset.mem_of_mem_erase hmem)
              have hex : ∃ i, Coll.indexOf r.committee k = some i := by
                unfold Coll.indexOf
                obtain ⟨i, hi⟩ := List.getElem?_of_mem hcm
                have hmz : (k, i) ∈ r.committee.zipIdx.reverse := by
                  rw [List.mem_reverse]; exact List.mem_zipIdx_iff_getElem?.mpr hi
                cases hf : (r.committee.zipIdx.reverse).find? (fun p => p.1 == k) with
                | none => have := List.find?_eq_none.mp hf _ hmz; simp at this
                | some x => exact ⟨x.2, rfl⟩
              obtain ⟨i, hi⟩ := hex
              exact ⟨i, hi, f8 i (hkv ▸ hi)⟩
            · left
              show k ∈ (Coll.add _ _ _ _).remaining
              rw [f1]
              exact Finset.mem_erase.mpr ⟨hkv, hr⟩
          · exact Or.inr ⟨i, h1, f6 i h2⟩
        · show (Coll.add _ _ _ _).remaining ⊆ _
          rw [f1]
          exact (Finset.erase_subset _ _).trans h.rem
        · intro x
          show (Coll.add _ _ _ _).alts x ≤ (_ \ (Coll.add _ _ _ _).remaining).card
          rw [f1, f2]
          exact (h.alts x).trans (sdiff_mono_card _)
        · intro k hk hnr hq
          show ((Coll.add _ _ _ _).reached || decide _) = true
          rw [Bool.or_eq_true]
          exact Or.inr (decide_eq_true hq)
      · rename_i hnm
        split
        · rename_i hm
          have hnS : v.key ∉ S := fun hk => hm.1 (honest v rfl hk hep)
          refine ⟨h.nodup, h.mine, ?_, ?_, ?_, ?_⟩
          · intro k hk
            rcases h.heard k hk with hr | hr
            · left
              exact Finset.mem_erase.mpr ⟨fun he => hnS (he ▸ hk), hr⟩
            · exact Or.inr hr
          · exact (Finset.erase_subset _ _).trans h.rem
          · intro x
            show (if x = v.hash then c.alts x + 1 else c.alts x) ≤ (_ \ c.remaining.erase v.key).card
            have hin : v.key ∈ (r.committee.toFinset.erase me) \ S :=
              Finset.mem_sdiff.mpr ⟨h.rem hm.2, hnS⟩
            have h1 := erase_sdiff_card hm.2 hin
            have h2 := h.alts x
            split <;> omega
          · intro k hk hnr hq
            refine h.reached k hk ?_ hq
            intro hr
            exact hnr (Finset.mem_erase.mpr ⟨fun he => hnS (he ▸ hk), hr⟩)
        · exact h

theorem init_live (hS : S ⊆ r.committee.toFinset.erase me) (mySig : Nat) :
    LiveInv dig r me S (Coll.init r me mySig) := by
  unfold Coll.init
  dsimp only
  by_cases hm : me ∈ r.committee.toFinset
  · rw [if_pos hm]
    obtain ⟨f1, f2, f3, f4, f5, f6, f7, f8⟩ := add_frame r.committee
      (⟨r.committee.toFinset.erase me, [], [], fun _ => 0, false, 0, false⟩ : Coll) me mySig
    refine ⟨f7 List.nodup_nil, ?_, ?_, ?_, ?_, ?_⟩
    · intro hme
      obtain ⟨i, hi⟩ := List.getElem?_of_mem hme
      have hmz : (me, i) ∈ r.committee.zipIdx.reverse := by
        rw [List.mem_reverse]; exact List.mem_zipIdx_iff_getElem?.mpr hi
      have : ∃ i, Coll.indexOf r.committee me = some i := by
        unfold Coll.indexOf
        cases hf : (r.committee.zipIdx.reverse).find? (fun p => p.1 == me) with
        | none => have := List.find?_eq_none.mp hf _ hmz; simp at this
        | some x => exact ⟨x.2, rfl⟩
      obtain ⟨j, hj⟩ := this
      exact ⟨j, hj, f8 j hj⟩
    · intro k hk
      left; rw [f1]; exact hS hk
    · rw [f1]
    · intro x; rw [f2]; exact Nat.zero_le _
    · intro k hk hn
      rw [f1] at hn
      exact absurd (hS hk) hn
  · rw [if_neg hm]
    refine ⟨List.nodup_nil, ?_, ?_, ?_, fun _ => Nat.zero_le _, ?_⟩
    · intro hme; exact absurd (List.mem_toFinset.mpr hme) hm
    · intro k hk; left; exact Finset.mem_of_mem_erase (hS hk)
    · rw [Finset.erase_eq_of_notMem hm]
    · intro k hk hn
      exact absurd (Finset.mem_of_mem_erase (hS hk)) hn

/-- A quorum heard of is a quorum in the bitmap. -/
theorem heard_quorum {c : Coll} (h : LiveInv dig r me S c) (hnd : r.committee.Nodup)
    (hS : S ⊆ r.committee.toFinset.erase me)
    (hq : superQuorum r.committee.length ≤ S.card + (if me ∈ r.committee then 1 else 0))
    (hall : ∀ k ∈ S, k ∉ c.remaining) : superQuorum r.committee.length ≤ c.bits.length := by
  have hidx : ∀ k ∈ (if me ∈ r.committee then insert me S else S), ∃ i, r.committee[i]? = some k ∧ i ∈ c.bits := by
    intro k hk
    have : k ∈ S ∨ (k = me ∧ me ∈ r.committee) := by
      split at hk
      · rename_i hm
        rcases Finset.mem_insert.mp hk with rfl | hk
        · exact Or.inr ⟨rfl, hm⟩
        · exact Or.inl hk
      · exact Or.inl hk
    rcases this with hk | ⟨rfl, hm⟩
    · rcases h.heard k hk with hr | ⟨i, h1, h2⟩
      · exact absurd hr (hall k hk)
      · exact ⟨i, (indexOf_spec hnd).mp h1, h2⟩
    · obtain ⟨i, h1, h2⟩ := h.mine hm
      exact ⟨i, (indexOf_spec hnd).mp h1, h2⟩
  have hcard : (if me ∈ r.committee then insert me S else S).card = S.card + (if me ∈ r.committee then 1 else 0) := by
    split
    · rw [Finset.card_insert_of_notMem]
      intro hm
      exact (Finset.mem_erase.mp (hS hm)).1 rfl
    · rfl
  have hle : (if me ∈ r.committee then insert me S else S).card ≤ c.bits.toFinset.card := by
    apply Finset.card_le_card_of_surjOn (fun i => (r.committee[i]?).getD 0)
    intro k hk
    obtain ⟨i, h1, h2⟩ := hidx k (Finset.mem_coe.mp hk)
    refine ⟨i, Finset.mem_coe.mpr (List.mem_toFinset.mpr h2), ?_⟩
    simp only [h1, Option.getD_some]
  rw [List.toFinset_card_of_nodup h.nodup] at hle
  omega

/-- After a vote of a member for our record the member has been heard of. -/
theorem step_heard {c : Coll} {v : Vote} (he : v.epoch = r.epoch) (hh : v.hash = dig r) :
    v.key ∉ (c.step dig r (.vote v)).remaining := by
  unfold Coll.step; dsimp only
  rw [if_neg (fun hn => hn he)]
  split
  · show v.key ∉ (Coll.add _ _ _ _).remaining
    rw [(add_frame _ _ _ _).1]
    exact fun h => (Finset.mem_erase.mp h).1 rfl
  · rename_i hn
    have : v.key ∉ c.remaining := fun h => hn ⟨hh, h⟩
    rw [if_neg (fun h => h.1 hh)]
    exact this

theorem step_rem (c : Coll) (e : CEv) : (c.step dig r e).remaining ⊆ c.remaining := by
  cases e with
  | closed => exact Finset.Subset.refl _
  | timeout => unfold Coll.step; dsimp only; split <;> exact Finset.Subset.refl _
  | vote v =>
    unfold Coll.step; dsimp only
    split
    · exact Finset.Subset.refl _
    · split
      · show (Coll.add _ _ _ _).remaining ⊆ _
        rw [(add_frame _ _ _ _).1]
        exact Finset.erase_subset _ _
      · split
        · exact Finset.erase_subset _ _
        · exact Finset.Subset.refl _

theorem run_live {c : Coll} {es : List CEv} (h : LiveInv dig r me S c) (hnd : r.committee.Nodup)
    (hS : S ⊆ r.committee.toFinset.erase me) (hne : S.Nonempty)
    (hq : superQuorum r.committee.length ≤ S.card + (if me ∈ r.committee then 1 else 0))
    (honest : ∀ v, CEv.vote v ∈ es → v.key ∈ S → v.epoch = r.epoch → v.hash = dig r)
    (hall : ∀ k ∈ S, k ∉ c.remaining ∨ ∃ v, CEv.vote v ∈ es ∧ v.key = k ∧ v.epoch = r.epoch ∧ v.hash = dig r)
    (hto : c.timeouts + es.count .timeout ≤ 25) (hcl : CEv.closed ∉ es)
    (hd : c.done = true → c.reached = true) : (c.run dig r es).reached = true := by
  induction es generalizing c with
  | nil =>
    have hall' : ∀ k ∈ S, k ∉ c.remaining := by
      intro k hk
      rcases hall k hk with h1 | ⟨v, hv, _⟩
      · exact h1
      · simp at hv
    obtain ⟨k, hk⟩ := hne
    exact h.reached k hk (hall' k hk) (heard_quorum h hnd hS hq hall')
  | cons e es ih =>
    unfold Coll.run
    by_cases hdone : c.done = true
    · rw [if_pos hdone]; exact hd hdone
    · rw [if_neg hdone]
      have hn : ∀ v, e = CEv.vote v → v.key ∈ S → v.epoch = r.epoch → v.hash = dig r :=
        fun v hve => honest v (hve ▸ List.mem_cons_self ..)
      have hl := step_live h hS hn
      have hcl' : CEv.closed ∉ es := fun hx => hcl (List.mem_cons_of_mem _ hx)
      have hce : e ≠ .closed := fun hx => hcl (hx ▸ List.mem_cons_self ..)
      -- sizes
      have hScard : S.card ≤ (r.committee.toFinset.erase me).card := Finset.card_le_card hS
      have hlenc : r.committee.toFinset.card = r.committee.length := List.toFinset_card_of_nodup hnd
      have herase : (r.committee.toFinset.erase me).card + (if me ∈ r.committee then 1 else 0) = r.committee.length := by
        split
        · rename_i hm
          have h1 := Finset.card_erase_of_mem (List.mem_toFinset.mpr hm)
          have hpos : 0 < r.committee.toFinset.card := Finset.card_pos.mpr ⟨me, List.mem_toFinset.mpr hm⟩
          omega
        · rename_i hm
          rw [Finset.erase_eq_of_notMem (fun hx => hm (List.mem_toFinset.mp hx))]
          omega
      have hothers : ((r.committee.toFinset.erase me) \ S).card + S.card = (r.committee.toFinset.erase me).card := by
        rw [Finset.card_sdiff_of_subset hS]; omega
      have hpos : 1 ≤ r.committee.length := by
        have := Finset.card_pos.mpr hne
        omega
      refine ih hl (fun v hv => honest v (List.mem_cons_of_mem _ hv)) ?_ ?_ hcl' ?_
      · intro k hk
        rcases hall k hk with h1 | ⟨v, hv, hvk, hve, hvh⟩
        · left
          exact fun hx => h1 (step_rem c e hx)
        · rcases List.mem_cons.mp hv with rfl | hv
          · left
            rw [← hvk]
            exact step_heard hve hvh
          · exact Or.inr ⟨v, hv, hvk, hve, hvh⟩
      · cases e with
        | closed => exact absurd rfl hce
        | vote v =>
          rw [List.count_cons_of_ne (by simp)] at hto
          have : (c.step dig r (.vote v)).timeouts = c.timeouts := by
            unfold Coll.step; dsimp only
            split
            · rfl
            · split
              · show (Coll.add _ _ _ _).timeouts = _
                exact (add_frame _ _ _ _).2.2.2.1
              · split <;> rfl
          rw [this]; exact hto
        | timeout =>
          rw [List.count_cons_self] at hto
          unfold Coll.step; dsimp only
          split
          · show c.timeouts + _ ≤ 25; omega
          · show c.timeouts + 1 + _ ≤ 25; omega
      · intro hdn
        cases e with
        | closed => exact absurd rfl hce
        | timeout =>
          rw [List.count_cons_self] at hto
          unfold Coll.step at hdn ⊢; dsimp only at hdn ⊢
          split
          · rename_i hc
            rcases hc with hc | hc
            · exact hc
            · omega
          · rename_i hc
            rw [if_neg hc] at hdn
            exact absurd hdn hdone
        | vote v =>
          unfold Coll.step at hdn ⊢; dsimp only at hdn ⊢
          split
          · rename_i hc
            rw [if_pos hc] at hdn
            exact absurd hdn hdone
          · rename_i hc
            rw [if_neg hc] at hdn
            split
            · rename_i hm
              rw [if_pos hm] at hdn
              have hsz := of_decide_eq_true hdn
              show (_ || decide _) = true
              rw [Bool.or_eq_true]
              refine Or.inr (decide_eq_true ?_)
              unfold superQuorum
              omega
            · rename_i hm
              rw [if_neg hm] at hdn
              split
              · rename_i hm2
                rw [if_pos hm2] at hdn
                have hsz : superQuorum r.committee.length ≤ c.alts v.hash + 1 := of_decide_eq_true hdn
                have hnS : v.key ∉ S := fun hk => hm2.1 (hn v rfl hk (Classical.not_not.mp hc))
                have hin : v.key ∈ (r.committee.toFinset.erase me) \ S := Finset.mem_sdiff.mpr ⟨h.rem hm2.2, hnS⟩
                have h1 := erase_sdiff_card hm2.2 hin
                have h2 := h.alts v.hash
                have h3 : (((r.committee.toFinset.erase me) \ S) \ c.remaining.erase v.key).card ≤
                    ((r.committee.toFinset.erase me) \ S).card := Finset.card_le_card Finset.sdiff_subset
                unfold superQuorum at hsz hq
                omega
              · rename_i hm2
                rw [if_neg hm2] at hdn
                exact absurd hdn hdone

end live

/-- **C53**, liveness. If a super-quorum of the committee (the node itself counted if it is a member, and at
least one other) votes for our record, and only for it, then the collector ends with a certificate, whatever
the other members send, in any order, with up to 25 timeouts in between. -/
theorem quorum_certifies {B : Bls} {dig : Rec → Nat} {r : Rec} {me mySig : Nat} {es : List CEv} {S : Finset Nat}
    (hB : AggOk B) (hnd : r.committee.Nodup) (hme : B.verify mySig (dig r) me = true)
    (hv : ∀ v, CEv.vote v ∈ es → v.hash = dig r → B.verify v.sig v.hash v.key = true)
    (hS : ∀ k ∈ S, k ∈ r.committee ∧ k ≠ me) (hne : S.Nonempty)
    (hq : superQuorum r.committee.length ≤ S.card + (if me ∈ r.committee then 1 else 0))
    (honest : ∀ v, CEv.vote v ∈ es → v.key ∈ S → v.epoch = r.epoch → v.hash = dig r)
    (hall : ∀ k ∈ S, ∃ v, CEv.vote v ∈ es ∧ v.key = k ∧ v.epoch = r.epoch ∧ v.hash = dig r)
    (hto : es.count .timeout ≤ 25) (hcl : CEv.closed ∉ es) :
    ∃ cert, ((Coll.init r me mySig).run dig r es).finish B dig r = some cert ∧
      verifyWithCert B dig r cert = true := by
  have hS' : S ⊆ r.committee.toFinset.erase me := by
    intro k hk
    exact Finset.mem_erase.mpr ⟨(hS k hk).2, List.mem_toFinset.mpr (hS k hk).1⟩
  have hfr : (Coll.init r me mySig).timeouts = 0 ∧ (Coll.init r me mySig).done = false := by
    unfold Coll.init
    dsimp only
    split
    · obtain ⟨_, _, _, f4, f5, _⟩ := add_frame r.committee
        (⟨r.committee.toFinset.erase me, [], [], fun _ => 0, false, 0, false⟩ : Coll) me mySig
      exact ⟨f4, f5⟩
    · exact ⟨rfl, rfl⟩
  have hr := run_live (dig := dig) (init_live hS' mySig) hnd hS' hne hq honest (fun k hk => Or.inr (hall k hk))
    (by rw [hfr.1]; omega) hcl (fun hd => by rw [hfr.2] at hd; cases hd)
  exact (collector_saves hB hnd hme hv).1 hr

/-- **Finding.** The only member of a committee never certifies a record: a quorum is looked for only when
another member's vote arrives. -/
theorem solo_never_certifies {B : Bls} {dig : Rec → Nat} {r : Rec} {me mySig : Nat} (hr : r.committee = [me])
    (es : List CEv) : ((Coll.init r me mySig).run dig r es).finish B dig r = none := by
  have key : ∀ (es : List CEv) (c : Coll), c.remaining = ∅ → c.reached = false → (c.run dig r es).reached = false := by
    intro es
    induction es with
    | nil => intro c _ h; exact h
    | cons e es ih =>
      intro c h0 h1
      unfold Coll.run
      split
      · exact h1
      · refine ih _ ?_ ?_
        · exact Finset.subset_empty.mp (h0 ▸ step_rem c e)
        · cases e with
          | closed => exact h1
          | timeout => unfold Coll.step; dsimp only; split <;> exact h1
          | vote v =>
            unfold Coll.step; dsimp only
            split
            · exact h1
            · rw [if_neg (fun h => by rw [h0] at h; exact absurd h.2 (Finset.notMem_empty _)),
                if_neg (fun h => by rw [h0] at h; exact absurd h.2 (Finset.notMem_empty _))]
              exact h1
  have h0 : (Coll.init r me mySig).remaining = ∅ ∧ (Coll.init r me mySig).reached = false := by
    unfold Coll.init
    dsimp only
    rw [if_pos (by rw [hr]; simp)]
    rw [(add_frame _ _ _ _).1, (add_frame _ _ _ _).2.2.1, hr]
    exact ⟨by simp, rfl⟩
  unfold Coll.finish
  rw [key es _ h0.1 h0.2]
  rfl

/-! ## The gossip gate -/

namespace Gate

/-- `MAX_EPOCH_VOTES`, network/mod.rs. -/
def maxVotes : Nat := 1024

/-- `epoch_votes_seen`: the keys in the order of their sequence numbers, and (ghost) what was forwarded. -/
structure St where
  seen : List (Nat × Nat)
  forwarded : List Vote

/-- `record_epoch_vote`, handler.rs:280-292: a new key has the highest sequence number, and the lowest is
evicted when the map is full. -/
def record (seen : List (Nat × Nat)) (k : Nat × Nat) : List (Nat × Nat) :=
  (if maxVotes ≤ seen.length ∧ k ∉ seen then seen.tail else seen).filter (fun x => x != k) ++ [k]

/-- What the node holds for the epoch of a vote: a record, and whether it is certified. -/
abbrev View := Nat → Option (Rec × Bool)

inductive Out where
  | forwarded
  | duplicate
  | noRecord
  | wrongDigest
  | notMember
  | badSignature
deriving DecidableEq, Repr

/-- The `EpochVote` arm of `process_gossip`, handler.rs:498-560. -/
def step (B : Bls) (dig : Rec → Nat) (held : View) (s : St) (v : Vote) : St × Out :=
  match held v.epoch with
  | some (r, false) =>
    if dig r ≠ v.hash then (s, .wrongDigest)
    else if v.key ∉ r.committee then (s, .notMember)
    else if (v.key, v.epoch) ∈ s.seen then (s, .duplicate)
    else if B.verify v.sig v.hash v.key = false then (s, .badSignature)
    else (⟨record s.seen (v.key, v.epoch), s.forwarded ++ [v]⟩, .forwarded)
  | _ => (s, .noRecord)

def run (B : Bls) (dig : Rec → Nat) (s : St) : List (View × Vote) → St
  | [] => s
  | (h, v) :: l => run B dig (step B dig h s v).1 l

/-- The node never changes its record of an epoch (`Inner::save_record` keeps the first). -/
def Stable (D : Nat → Option Rec) (l : List (View × Vote)) : Prop :=
  ∀ hv ∈ l, ∀ e r b, hv.1 e = some (r, b) → D e = some r

structure GInv (B : Bls) (dig : Rec → Nat) (D : Nat → Option Rec) (s : St) : Prop where
  small : s.seen.length ≤ maxVotes
  nodup : s.seen.Nodup
  fwd : ∀ v ∈ s.forwarded, ∃ r, D v.epoch = some r ∧ v.hash = dig r ∧ v.key ∈ r.committee ∧
    B.verify v.sig v.hash v.key = true
  seen : ∀ k ∈ s.seen, ∃ v ∈ s.forwarded, v.key = k.1 ∧ v.epoch = k.2

theorem record_length (seen : List (Nat × Nat)) (k : Nat × Nat) (hn : seen.Nodup) (h : seen.length ≤ maxVotes) :
    (record seen k).length ≤ maxVotes := by
  unfold record
  rw [List.length_append, List.length_singleton]
  split
  · have := List.length_filter_le (fun x => x != k) seen.tail
    rw [List.length_tail] at this
    have : 1 ≤ maxVotes := by decide
    omega
  · rename_i hc
    by_cases hk : k ∈ seen
    · have hlt : (seen.filter (fun x => x != k)).length < seen.length := by
        rw [List.length_filter_lt_length_iff_exists]
        exact ⟨k, hk, by simp⟩
      omega
    · have hlt : seen.length < maxVotes := Nat.lt_of_not_le (fun hle => hc ⟨hle, hk⟩)
      have := List.length_filter_le (fun x => x != k) seen
      omega

theorem record_nodup (seen : List (Nat × Nat)) (k : Nat × Nat) (hn : seen.Nodup) : (record seen k).Nodup := by
  unfold record
  rw [List.nodup_append]
  refine ⟨?_, by simp, ?_⟩
  · apply List.Nodup.filter
    split
    · exact hn.sublist (List.tail_sublist _)
    · exact hn
  · intro a ha b hb hab
    rw [List.mem_singleton] at hb
    rw [List.mem_filter] at ha
    simp only [bne_iff_ne, ne_eq] at ha
    exact ha.2 (hab.trans hb)

theorem record_mem {seen : List (Nat × Nat)} {k x : Nat × Nat} (h : x ∈ record seen k) : x ∈ seen ∨ x = k := by
  unfold record at h
  rw [List.mem_append, List.mem_filter, List.mem_singleton] at h
  rcases h with ⟨h, _⟩ | h
  · left
    split at h
    · exact List.mem_of_mem_tail h
    · exact h
  · exact Or.inr h

theorem step_inv {B : Bls} {dig : Rec → Nat} {D : Nat → Option Rec} {s : St} (h : GInv B dig D s) {held : View}
    {v : Vote} (hD : ∀ e r b, held e = some (r, b) → D e = some r) : GInv B dig D (step B dig held s v).1 := by
  unfold step
  split
  · rename_i r hr
    split
    · exact h
    · rename_i h1
      split
      · exact h
      · rename_i h2
        split
        · exact h
        · rename_i h3
          split
          · exact h
          · rename_i h4
            refine ⟨record_length _ _ h.nodup h.small, record_nodup _ _ h.nodup, ?_, ?_⟩
            · intro w hw
              rw [List.mem_append, List.mem_singleton] at hw
              rcases hw with hw | rfl
              · exact h.fwd w hw
              · exact ⟨r, hD _ _ _ hr, (Classical.not_not.mp h1).symm, Classical.not_not.mp h2,
                  by simpa using h4⟩
            · intro k hk
              rcases record_mem hk with hk | rfl
              · obtain ⟨w, hw, he⟩ := h.seen k hk
                exact ⟨w, List.mem_append_left _ hw, he⟩
              · exact ⟨v, List.mem_append_right _ (List.mem_singleton.mpr rfl), rfl, rfl⟩
  · exact h

theorem run_inv {B : Bls} {dig : Rec → Nat} {D : Nat → Option Rec} {l : List (View × Vote)} (hD : Stable D l) :
    ∀ {s : St}, GInv B dig D s → GInv B dig D (run B dig s l) := by
  induction l with
  | nil => intro s h; exact h
  | cons x l ih =>
    intro s h
    exact ih (fun hv hm => hD hv (List.mem_cons_of_mem _ hm))
      (step_inv h (fun e r b => hD x (List.mem_cons_self ..) e r b))

theorem run_append {B : Bls} {dig : Rec → Nat} (l l' : List (View × Vote)) (s : St) :
    run B dig s (l ++ l') = run B dig (run B dig s l) l' := by
  induction l generalizing s with
  | nil => rfl
  | cons x l ih => exact ih _

theorem init_inv (B : Bls) (dig : Rec → Nat) (D : Nat → Option Rec) : GInv B dig D ⟨[], []⟩ :=
  ⟨Nat.zero_le _, List.nodup_nil, fun _ h => absurd h (by simp), fun _ h => absurd h (by simp)⟩

/-- **C53**, the gate is sound: every vote that reaches the collector is a vote for the node's record of the
epoch, by a member of its committee, with a valid signature; and the memory used is bounded. -/
theorem forwarded_valid {B : Bls} {dig : Rec → Nat} {D : Nat → Option Rec} {l : List (View × Vote)}
    (hD : Stable D l) :
    (∀ v ∈ (run B dig ⟨[], []⟩ l).forwarded, ∃ r, D v.epoch = some r ∧ v.hash = dig r ∧ v.key ∈ r.committee ∧
      B.verify v.sig v.hash v.key = true) ∧ (run B dig ⟨[], []⟩ l).seen.length ≤ 1024 := by
  have h := run_inv hD (init_inv B dig D)
  exact ⟨h.fwd, h.small⟩

theorem run_forwarded {B : Bls} {dig : Rec → Nat} (l : List (View × Vote)) (s : St) :
    ∀ v ∈ s.forwarded, v ∈ (run B dig s l).forwarded := by
  induction l generalizing s with
  | nil => intro v h; exact h
  | cons x l ih =>
    intro v h
    refine ih _ v ?_
    unfold step
    split
    · split
      · exact h
      · split
        · exact h
        · split
          · exact h
          · split
            · exact h
            · exact List.mem_append_left _ h
    · exact h

/-- **C53**, nobody can suppress a member's vote. Once a valid vote for the node's uncertified record has
arrived, a valid vote of that member for that record has been forwarded, whatever arrived before or after:
forged votes, replays, votes of other members. -/
theorem not_suppressed {B : Bls} {dig : Rec → Nat} {D : Nat → Option Rec} {l l' : List (View × Vote)} {held : View}
    {v : Vote} {r : Rec} (hD : Stable D (l ++ (held, v) :: l')) (hr : held v.epoch = some (r, false))
    (hh : v.hash = dig r) (hm : v.key ∈ r.committee) (hs : B.verify v.sig v.hash v.key = true) :
    ∃ w ∈ (run B dig ⟨[], []⟩ (l ++ (held, v) :: l')).forwarded, w.key = v.key ∧ w.epoch = v.epoch ∧
      w.hash = dig r ∧ B.verify w.sig w.hash w.key = true := by
  rw [run_append]
  have h := run_inv (fun hv hx => hD hv (List.mem_append_left _ hx)) (init_inv B dig D)
  have hDr := hD (held, v) (by simp) _ _ _ hr
  generalize hg : run B dig ⟨[], []⟩ l = s at h ⊢
  show ∃ w ∈ (run B dig (step B dig held s v).1 l').forwarded, _
  have main : ∃ w ∈ (step B dig held s v).1.forwarded, w.key = v.key ∧ w.epoch = v.epoch ∧ w.hash = dig r ∧
      B.verify w.sig w.hash w.key = true := by
    unfold step
    rw [hr]
    dsimp only
    rw [if_neg (fun hn => hn hh.symm), if_neg (fun hn => hn hm)]
    split
    · rename_i hseen
      obtain ⟨w, hw, h1, h2⟩ := h.seen _ hseen
      obtain ⟨r', h3, h4, _, h6⟩ := h.fwd w hw
      rw [h2] at h3
      have : r' = r := by rw [hDr] at h3; cases h3; rfl
      exact ⟨w, hw, h1, h2, this ▸ h4, h6⟩
    · rw [if_neg (by rw [hs]; simp)]
      exact ⟨v, List.mem_append_right _ (List.mem_singleton.mpr rfl), rfl, rfl, hh, hs⟩
  obtain ⟨w, hw, rest⟩ := main
  exact ⟨w, run_forwarded l' _ w hw, rest⟩

end Gate

end Ep
end Verif
