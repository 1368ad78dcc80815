import Verif.Worker.Quorum
import Verif.Storage.Layered
/-
Availability and validity of certified batches: all members of a committee during one epoch, each with its batch
tables, the primary's payload table, the batches it has sealed and the headers it has voted for.
-/
namespace Verif
namespace Worker
open Exec (Batch payloadKeys)

/-- The parts of a member's state that matter for batches. -/
structure WNode where
  /-- `NodeBatchesCache` and the epoch's consensus pack. -/
  store : Store := {}
  /-- The `Payload` table: (digest, worker id) pairs, storage/src/stores/payload_store.rs. -/
  marks : List (Nat × Nat) := []
  /-- Digests for which `process_report_batch` answered `Ok` to a peer. -/
  acks : List Nat := []
  /-- Own digests reported to the primary (`report_own_batch`). -/
  own : List Nat := []
  /-- Headers of others whose batches were synchronised, so that a vote may follow. -/
  voted : List Header := []
  /-- Own headers. -/
  proposed : List Header := []
  /-- The node has crashed during the epoch. -/
  crashed : Bool := false

/-- `insert::<NodeBatchesCache>`. -/
def Store.put (s : Store) (d : Nat) (b : Batch) : Store :=
  { s with cache := fun x => if x = d then some b else s.cache x }

/-- Several inserts in one transaction. -/
def Store.putAll (s : Store) : List (Nat × Batch) → Store
  | [] => s
  | (d, b) :: l => (s.put d b).putAll l

/-- A batch arriving in the consensus pack of the epoch. -/
def Store.save (s : Store) (d : Nat) (b : Batch) : Store :=
  { s with pack := fun x => if x = d then some b else s.pack x }

/-- The digests `synchronize` asks the network for, network/primary.rs:34-52. -/
def unknown (s : Store) (ds : List Nat) : List Nat := ds.filter (fun d => (s.get d).isNone)

/-- `synchronize` with `store_synced_batches`, network/primary.rs:28-140, for the digests `ds` (a set) of one
worker id. `valid` is `validate_batch`. Result: the store, and whether the call returned `Ok`. Database failures
(an error and nothing stored) are the case `dbOk = false`. -/
def synchronize (dg : Batch → Nat) (valid : Batch → Nat → Bool) (certified : Bool)
    (env : List (Option (List Peer))) (dbOk : Bool) (s : Store) (ds : List Nat) : Store × Bool :=
  if (unknown s ds).isEmpty then (s, true)
  else
    let r := requestBatches dg maxRetries (unknown s ds) env
    match r.2 with
    | none => (s, false)
    | some bs =>
      if ! (certified || bs.all (fun x => valid x.2 x.1)) then (s, false)
      else if ! bs.all (fun x => (unknown s ds).contains x.1) then (s, false)
      else if ! dbOk then (s, false)
      else (s.putAll bs, r.1.isEmpty)

/-- A committee, its faulty members, the validation every other member applies in this epoch (same worker id,
epoch and base fee: C25, C29), and the digest, assumed free of collisions. -/
structure Setting where
  c : Committee
  F : Finset AuthorityId
  v : Validator
  wf : c.WF
  faulty : F.card ≤ c.maxFaults
  inj : ∀ a b, v.digest a = v.digest b → a = b

/-- The state of all members (nothing is assumed about the faulty ones, whose entries are never used). -/
abbrev WState := AuthorityId → WNode

variable (G : Setting)

/-- Not faulty. -/
def Setting.Honest (i : AuthorityId) : Prop := i ∈ G.c.Members ∧ i ∉ G.F

/-- A header for which a certificate can exist: a quorum of distinct members of which the honest ones have proposed
it (the author) or voted for it. -/
def Certified (s : WState) (h : Header) : Prop :=
  ∃ signers : List AuthorityId, signers.Nodup ∧ G.c.reachedQuorum (G.c.power signers) = true ∧
    ∀ i ∈ signers, G.Honest i → (h.author = i ∧ h ∈ (s i).proposed) ∨ (h.author ≠ i ∧ h ∈ (s i).voted)

/-- One member's state changes. -/
def WState.upd (s : WState) (i : AuthorityId) (n : WNode) : WState := fun j => if j = i then n else s j

/-- A valid batch stored, marked as payload and acknowledged. -/
def WNode.reported (n : WNode) (d w : Nat) (b : Batch) : WNode :=
  { n with store := n.store.put d b, marks := (d, w) :: n.marks, acks := d :: n.acks }

/-- Other tables. -/
def WNode.withStore (n : WNode) (st : Store) : WNode := { n with store := st }

/-- An own batch stored and reported to the primary. -/
def WNode.sealed (n : WNode) (d : Nat) (b : Batch) : WNode :=
  { n with store := n.store.put d b, own := d :: n.own }

/-- After a `synchronize` request. -/
def WNode.synced (n : WNode) (st : Store) (ok : Bool) (ds : List Nat) (w : Nat) : WNode :=
  { n with store := st, marks := if ok then ds.map (fun d => (d, w)) ++ n.marks else n.marks }

/-- After a vote. -/
def WNode.vote (n : WNode) (h : Header) : WNode := { n with voted := h :: n.voted }

/-- After proposing. -/
def WNode.propose (n : WNode) (h : Header) : WNode := { n with proposed := h :: n.proposed }

/-- After a crash. -/
def WNode.crash (n : WNode) (st : Store) (marks : List (Nat × Nat)) : WNode :=
  { n with store := st, marks := marks, crashed := true }

/-- What honest members do with batches during an epoch. -/
inductive Step : WState → WState → Prop
  /-- `process_report_batch`, worker/src/network/handler.rs:272-303: a batch some member sent (perhaps a faulty one) is
  validated, stored, marked as payload of this worker, and acknowledged. -/
  | report (s : WState) (i : AuthorityId) (b : Batch) (d : Nat) : G.Honest i → G.v.validate b d = .ok () →
      Step s (s.upd i ((s i).reported d G.v.workerId b))
  /-- `validate_and_cache_prefetched_batch`, handler.rs:225-268. -/
  | prefetch (s : WState) (i : AuthorityId) (b : Batch) (d : Nat) : G.Honest i → G.v.validate b d = .ok () →
      Step s (s.upd i ((s i).withStore ((s i).store.put d b)))
  /-- `seal`, worker/src/worker.rs:289-390: the own batch, sealed with its digest, was acknowledged by a quorum; it is
  stored and its digest handed to the primary. The answers of honest members are theirs: an acknowledgement from one
  means it has acknowledged (authenticated channels). -/
  | sealOwn (s : WState) (i : AuthorityId) (b : Batch) (answers : List (AuthorityId × Answer)) : G.Honest i →
      verifyBatch G.c i answers = .ok () →
      (∀ j, G.Honest j → (j, Answer.ack) ∈ answers → G.v.digest b ∈ (s j).acks) →
      Step s (s.upd i ((s i).sealed (G.v.digest b) b))
  /-- One `synchronize` request of `sync_header_batches`, primary/src/state_sync/header_validator.rs:120-156, for
  the digests `ds` that a header attributes to worker `w`; on success they are marked. It is done without validation
  only for the payload of a certified header (cert_validator.rs:188). -/
  | sync (s : WState) (i : AuthorityId) (ds : List Nat) (w : Nat) (certified : Bool)
      (env : List (Option (List Peer))) (dbOk : Bool) (st : Store) (ok : Bool) : G.Honest i → ds.Nodup →
      (certified = true → ∃ h, Certified G s h ∧ ∀ d ∈ ds, d ∈ payloadKeys h) →
      synchronize G.v.digest (fun b d => decide (G.v.validate b d = .ok ())) certified env dbOk
        (s i).store ds = (st, ok) →
      Step s (s.upd i ((s i).synced st ok ds w))
  /-- `fetch_for_primary` for a committed sub-dag (every header of which is certified): its writes. -/
  | fetch (s : WState) (i : AuthorityId) (ds : List Nat) (ps : List Pass) : G.Honest i → ds.Nodup →
      (∀ d ∈ ds, ∃ h, Certified G s h ∧ d ∈ payloadKeys h) →
      Step s (s.upd i ((s i).withStore
        ((s i).store.putAll (fetchForPrimary G.v.digest ps (start ds)).loop.writes)))
  /-- A consensus output is saved: a batch of a certified header enters the epoch's pack under its digest. -/
  | save (s : WState) (i : AuthorityId) (h : Header) (b : Batch) : G.Honest i → Certified G s h →
      G.v.digest b ∈ payloadKeys h →
      Step s (s.upd i ((s i).withStore ((s i).store.save (G.v.digest b) b)))
  /-- The payload of another member's header is all marked: `sync_header_batches` returns `Ok` and the vote may
  follow (primary/src/network/handler.rs:879-881). -/
  | vote (s : WState) (i : AuthorityId) (h : Header) : G.Honest i → h.author ≠ i →
      (∀ x ∈ h.payload, x ∈ (s i).marks) →
      Step s (s.upd i ((s i).vote h))
  /-- The proposer puts own digests (`our_digests`, proposer.rs) into a header. -/
  | propose (s : WState) (i : AuthorityId) (h : Header) : G.Honest i → h.author = i →
      (∀ d ∈ payloadKeys h, d ∈ (s i).own) →
      Step s (s.upd i ((s i).propose h))
  /-- The process dies. Of the tables some part survives (the batch table and the payload table are in different
  databases with different writer threads, storage/src/composite_db.rs:35-39). -/
  | crash (s : WState) (i : AuthorityId) (st : Store) (marks : List (Nat × Nat)) : G.Honest i →
      (∀ d b, st.cache d = some b → (s i).store.cache d = some b) →
      (∀ d b, st.pack d = some b → (s i).store.pack d = some b) →
      (∀ x ∈ marks, x ∈ (s i).marks) →
      Step s (s.upd i ((s i).crash st marks))

/-- States reached from empty tables. -/
inductive Reach : WState → Prop
  | init : Reach (fun _ => {})
  | step {s s' : WState} : Reach s → Step G s s' → Reach s'

/-! ## Proofs -/

variable {G}

/-- The digest is that of a batch that passes validation. -/
def Good (G : Setting) (d : Nat) : Prop := ∃ b, G.v.validate b d = .ok ()

theorem Good.digest {b : Batch} {d : Nat} (h : G.v.validate b d = .ok ()) : G.v.digest b = d := by
  obtain ⟨txs, ha⟩ := (validate_iff _ _ _).mp h
  exact ha.digest.symm

theorem upd_same (s : WState) (i : AuthorityId) (n : WNode) : s.upd i n i = n := by
  simp [WState.upd]

theorem upd_other (s : WState) (i j : AuthorityId) (n : WNode) (h : j ≠ i) : s.upd i n j = s j := by
  simp [WState.upd, h]

/-- The store has a batch with this digest under it. -/
def Holds (G : Setting) (st : Store) (d : Nat) : Prop := ∃ b, st.get d = some b ∧ G.v.digest b = d

/-- Invariant of one member. -/
structure NInv (G : Setting) (n : WNode) : Prop where
  ok : n.store.Ok G.v.digest
  storeGood : ∀ d, Holds G n.store d → Good G d
  held : n.crashed = false → ∀ x ∈ n.marks, Holds G n.store x.1
  good : ∀ x ∈ n.marks, Good G x.1
  ackGood : ∀ d ∈ n.acks, Good G d
  ackHeld : n.crashed = false → ∀ d ∈ n.acks, Holds G n.store d
  ownGood : ∀ d ∈ n.own, Good G d
  ownHeld : n.crashed = false → ∀ d ∈ n.own, Holds G n.store d
  votedGood : ∀ h ∈ n.voted, ∀ d ∈ payloadKeys h, Good G d
  votedHeld : n.crashed = false → ∀ h ∈ n.voted, ∀ d ∈ payloadKeys h, Holds G n.store d
  proposedGood : ∀ h ∈ n.proposed, ∀ d ∈ payloadKeys h, Good G d
  proposedHeld : n.crashed = false → ∀ h ∈ n.proposed, ∀ d ∈ payloadKeys h, Holds G n.store d

/-- The store keeps what it holds, stays well-filed, and gains only digests with property `P`. -/
structure Grows (G : Setting) (P : Nat → Prop) (a b : Store) : Prop where
  ok : b.Ok G.v.digest
  keep : ∀ d, Holds G a d → Holds G b d
  new : ∀ d, Holds G b d → Holds G a d ∨ P d

theorem Grows.refl {P : Nat → Prop} {a : Store} (h : a.Ok G.v.digest) : Grows G P a a :=
  ⟨h, fun _ h => h, fun _ h => .inl h⟩

theorem Grows.trans {P : Nat → Prop} {a b c : Store} (h : Grows G P a b) (h' : Grows G P b c) : Grows G P a c :=
  ⟨h'.ok, fun d hd => h'.keep d (h.keep d hd), fun d hd => (h'.new d hd).elim (h.new d) .inr⟩

theorem Grows.mono {P Q : Nat → Prop} {a b : Store} (h : Grows G P a b) (hPQ : ∀ d, P d → Q d) : Grows G Q a b :=
  ⟨h.ok, h.keep, fun d hd => (h.new d hd).imp_right (hPQ d)⟩

theorem Store.Ok.holds {st : Store} (h : st.Ok G.v.digest) {d : Nat} {b : Batch} (hb : st.get d = some b) :
    Holds G st d := by
  refine ⟨b, hb, ?_⟩
  unfold Store.get at hb
  cases hc : st.cache d with
  | some x => rw [hc] at hb; cases hb; exact h.1 d _ hc
  | none => rw [hc] at hb; exact h.2 d b hb

theorem put_get_other {a : Store} {d e : Nat} {b : Batch} (he : e ≠ d) : (a.put d b).get e = a.get e := by
  simp only [Store.get, Store.put, if_neg he]

theorem Grows.put {P : Nat → Prop} {a : Store} (h : a.Ok G.v.digest) {d : Nat} {b : Batch}
    (hb : G.v.digest b = d) (hP : P d) : Grows G P a (a.put d b) ∧ Holds G (a.put d b) d := by
  have hok : (a.put d b).Ok G.v.digest := by
    refine ⟨fun e x hx => ?_, h.2⟩
    simp only [Store.put] at hx
    split at hx
    next he => cases hx; rw [he]; exact hb
    next => exact h.1 e x hx
  have hd : Holds G (a.put d b) d := ⟨b, by simp [Store.get, Store.put], hb⟩
  refine ⟨⟨hok, ?_, ?_⟩, hd⟩
  · rintro e ⟨x, hx, hxe⟩
    by_cases he : e = d
    · exact he ▸ hd
    · exact ⟨x, by rw [put_get_other he]; exact hx, hxe⟩
  · rintro e ⟨x, hx, hxe⟩
    by_cases he : e = d
    · exact .inr (he ▸ hP)
    · exact .inl ⟨x, by rw [put_get_other he] at hx; exact hx, hxe⟩

theorem Grows.putAll {P : Nat → Prop} (l : List (Nat × Batch)) : ∀ {a : Store}, a.Ok G.v.digest →
    (∀ x ∈ l, G.v.digest x.2 = x.1 ∧ P x.1) →
    Grows G P a (a.putAll l) ∧ ∀ x ∈ l, Holds G (a.putAll l) x.1 := by
  induction l with
  | nil => intro a h _; exact ⟨.refl h, fun _ h => (by cases h)⟩
  | cons x l ih =>
    intro a h hl
    obtain ⟨d, b⟩ := x
    obtain ⟨hx1, hx2⟩ := hl (d, b) (List.mem_cons_self ..)
    obtain ⟨h1, h2⟩ := Grows.put (G := G) (P := P) h hx1 hx2
    obtain ⟨h3, h4⟩ := ih h1.ok (fun y hy => hl y (List.mem_cons_of_mem _ hy))
    refine ⟨h1.trans h3, ?_⟩
    intro y hy
    rcases List.mem_cons.mp hy with rfl | hy
    · exact h3.keep d h2
    · exact h4 y hy

theorem save_get_other {a : Store} {d e : Nat} {b : Batch} (he : e ≠ d) : (a.save d b).get e = a.get e := by
  simp only [Store.get, Store.save, if_neg he]

theorem Grows.save {P : Nat → Prop} {a : Store} (h : a.Ok G.v.digest) {d : Nat} {b : Batch}
    (hb : G.v.digest b = d) (hP : P d) : Grows G P a (a.save d b) := by
  have hok : (a.save d b).Ok G.v.digest := by
    refine ⟨h.1, fun e x hx => ?_⟩
    simp only [Store.save] at hx
    split at hx
    next he => cases hx; rw [he]; exact hb
    next => exact h.2 e x hx
  have hd : Holds G (a.save d b) d := by
    have : ((a.save d b).get d).isSome = true := by
      unfold Store.get Store.save
      dsimp only
      cases a.cache d <;> simp
    obtain ⟨x, hx⟩ := Option.isSome_iff_exists.mp this
    exact hok.holds hx
  refine ⟨hok, ?_, ?_⟩
  · rintro e ⟨x, hx, hxe⟩
    by_cases he : e = d
    · exact he ▸ hd
    · exact ⟨x, by rw [save_get_other he]; exact hx, hxe⟩
  · rintro e ⟨x, hx, hxe⟩
    by_cases he : e = d
    · exact .inr (he ▸ hP)
    · exact .inl ⟨x, by rw [save_get_other he] at hx; exact hx, hxe⟩

/-- `synchronize`: the store keeps what it holds, and on success it holds every digest asked for. What it gains are
digests asked for, of valid batches unless the request was for certified ones. -/
theorem synchronize_spec {valid : Batch → Nat → Bool} {certified : Bool} {env : List (Option (List Peer))}
    {dbOk : Bool} {s st : Store} {ds : List Nat} {ok : Bool} (hs : s.Ok G.v.digest) (hn : ds.Nodup)
    (h : synchronize G.v.digest valid certified env dbOk s ds = (st, ok)) :
    Grows G (fun d => d ∈ ds ∧ (certified = true ∨ ∃ b, valid b d = true)) s st ∧
    (ok = true → ∀ d ∈ ds, Holds G st d) := by
  have hun : ∀ d, d ∈ ds → d ∉ unknown s ds → Holds G s d := by
    intro d hd hnu
    cases hg : s.get d with
    | none => exact absurd (List.mem_filter.mpr ⟨hd, by rw [hg]; rfl⟩) hnu
    | some b => exact hs.holds hg
  have hund : (unknown s ds).Nodup := hn.filter _
  unfold synchronize at h
  split at h
  next he =>
    cases h
    have he := isEmpty_nil he
    have hall : ∀ d ∈ ds, Holds G s d := fun d hd => hun d hd (by rw [he]; exact List.not_mem_nil)
    exact ⟨.refl hs, fun _ => hall⟩
  next he =>
  have hq := request_exact (dg := G.v.digest) maxRetries env hund
  dsimp only at h
  generalize requestBatches G.v.digest maxRetries (unknown s ds) env = q at hq h
  obtain ⟨left, res⟩ := q
  cases res with
  | none =>
    cases h
    exact ⟨.refl hs, fun h => (by cases h)⟩
  | some bs =>
    have hq : Split G.v.digest (unknown s ds) left bs := hq
    dsimp only at h
    split at h
    · cases h; exact ⟨.refl hs, fun h => (by cases h)⟩
    next hval =>
    split at h
    · cases h; exact ⟨.refl hs, fun h => (by cases h)⟩
    split at h
    · cases h; exact ⟨.refl hs, fun h => (by cases h)⟩
    obtain ⟨h1, h2⟩ := Prod.mk.inj h
    subst h1; subst h2
    obtain ⟨g1, g2⟩ := Grows.putAll (G := G) (P := fun d => d ∈ ds ∧ (certified = true ∨ ∃ b, valid b d = true)) bs hs
      (by
        intro x hx
        refine ⟨hq.digest x hx, ?_, ?_⟩
        · exact (List.mem_filter.mp ((hq.cover x.1).mpr (.inr (List.mem_map_of_mem hx)))).1
        · cases hc : certified with
          | true => exact .inl rfl
          | false =>
            rw [hc] at hval
            simp only [Bool.false_or, Bool.not_eq_true', Bool.not_eq_false, List.all_eq_true] at hval
            exact .inr ⟨x.2, hval x hx⟩)
    refine ⟨g1, ?_⟩
    intro hl d hd
    have hl := isEmpty_nil hl
    by_cases hu : d ∈ unknown s ds
    · rcases (hq.cover d).mp hu with h3 | h3
      · rw [hl] at h3; cases h3
      · obtain ⟨x, hx, rfl⟩ := List.mem_map.mp h3
        exact g2 x hx
    · exact g1.keep d (hun d hd hu)

/-- A quorum without the faulty members still has validity-threshold many. -/
theorem honest_signers (G : Setting) {signers : List AuthorityId} (hn : signers.Nodup)
    (hq : G.c.reachedQuorum (G.c.power signers) = true) :
    ∃ A : List AuthorityId, A.Nodup ∧ (∀ i ∈ A, i ∈ signers ∧ G.Honest i) ∧ G.c.validityThreshold ≤ A.length := by
  refine ⟨signers.filter (fun i => decide (i ∈ G.c.Members ∧ i ∉ G.F)), hn.filter _, ?_, ?_⟩
  · intro i hi
    obtain ⟨h1, h2⟩ := List.mem_filter.mp hi
    exact ⟨h1, by simpa [Setting.Honest] using h2⟩
  · simp only [Committee.reachedQuorum, decide_eq_true_eq, Committee.power_eq_card hn] at hq
    have hf := G.faulty
    have h1 : (signers.toFinset ∩ G.c.Members) ⊆
        (signers.filter (fun i => decide (i ∈ G.c.Members ∧ i ∉ G.F))).toFinset ∪ G.F := by
      intro i hi
      simp only [Finset.mem_inter, List.mem_toFinset] at hi
      by_cases hF : i ∈ G.F
      · exact Finset.mem_union_right _ hF
      · refine Finset.mem_union_left _ ?_
        simp only [List.mem_toFinset, List.mem_filter, decide_eq_true_eq]
        exact ⟨hi.1, hi.2, hF⟩
    have h2 := Finset.card_le_card h1
    have h3 := Finset.card_union_le (signers.filter (fun i => decide (i ∈ G.c.Members ∧ i ∉ G.F))).toFinset G.F
    rw [List.toFinset_card_of_nodup (hn.filter _)] at h3
    obtain ⟨e1, e2, _⟩ := Committee.thresholds_exact G.c G.wf
    have := G.wf.two
    unfold Committee.maxFaults at *
    omega

/-- A quorum has an honest member other than any given one. -/
theorem honest_other (G : Setting) (i : AuthorityId) {signers : List AuthorityId} (hn : signers.Nodup)
    (hq : G.c.reachedQuorum (G.c.power signers) = true) : ∃ j ∈ signers, G.Honest j ∧ j ≠ i := by
  simp only [Committee.reachedQuorum, decide_eq_true_eq, Committee.power_eq_card hn] at hq
  have hf := G.faulty
  have htwo := G.wf.two
  have hcard : ¬ (signers.toFinset ∩ G.c.Members) ⊆ insert i G.F := by
    intro hs
    have h1 := Finset.card_le_card hs
    have h2 := Finset.card_insert_le i G.F
    unfold Committee.quorumThreshold at hq
    unfold Committee.maxFaults at hf
    omega
  obtain ⟨j, hj, hjn⟩ := Finset.not_subset.mp hcard
  simp only [Finset.mem_inter, List.mem_toFinset] at hj
  simp only [Finset.mem_insert, not_or] at hjn
  exact ⟨j, hj.1, ⟨hj.2, hjn.2⟩, hjn.1⟩

/-- Invariant of the whole state. -/
def Inv (G : Setting) (s : WState) : Prop := ∀ i, NInv G (s i)

theorem certified_good {s : WState} (hI : Inv G s) {h : Header} (hc : Certified G s h) :
    ∀ d ∈ payloadKeys h, Good G d := by
  obtain ⟨signers, h1, h2, h3⟩ := hc
  obtain ⟨j, hj, hjh, hja⟩ := honest_other G h.author h1 h2
  rcases h3 j hj hjh with ⟨h4, _⟩ | ⟨_, h5⟩
  · exact absurd h4.symm hja
  · exact (hI j).votedGood h h5

/-- A store that only gains good digests keeps the invariant. -/
theorem NInv.withStore {n : WNode} (h : NInv G n) {st : Store} (hg : Grows G (Good G) n.store st) :
    NInv G (n.withStore st) where
  ok := hg.ok
  storeGood d hd := (hg.new d hd).elim (h.storeGood d) id
  held hc x hx := hg.keep _ (h.held hc x hx)
  good := h.good
  ackGood := h.ackGood
  ackHeld hc d hd := hg.keep _ (h.ackHeld hc d hd)
  ownGood := h.ownGood
  ownHeld hc d hd := hg.keep _ (h.ownHeld hc d hd)
  votedGood := h.votedGood
  votedHeld hc x hx d hd := hg.keep _ (h.votedHeld hc x hx d hd)
  proposedGood := h.proposedGood
  proposedHeld hc x hx d hd := hg.keep _ (h.proposedHeld hc x hx d hd)

theorem NInv.empty : NInv G {} where
  ok := ⟨fun _ _ h => (by cases h), fun _ _ h => (by cases h)⟩
  storeGood _ := by rintro ⟨b, hb, _⟩; cases hb
  held _ _ h := by cases h
  good _ h := by cases h
  ackGood _ h := by cases h
  ackHeld _ _ h := by cases h
  ownGood _ h := by cases h
  ownHeld _ _ h := by cases h
  votedGood _ h := by cases h
  votedHeld _ _ h := by cases h
  proposedGood _ h := by cases h
  proposedHeld _ _ h := by cases h

theorem Inv.upd {s : WState} (h : Inv G s) {i : AuthorityId} {n : WNode} (hn : NInv G n) : Inv G (s.upd i n) := by
  intro j
  unfold WState.upd
  split
  · exact hn
  · exact h j

theorem Inv.step {s s' : WState} (h : Inv G s) (hs : Step G s s') : Inv G s' := by
  cases hs with
  | report i b d hi hv =>
    have hb := Good.digest hv
    obtain ⟨g1, g2⟩ := Grows.put (G := G) (P := Good G) (h i).ok hb ⟨b, hv⟩
    have h0 := (h i).withStore g1
    refine h.upd { h0 with held := ?_, good := ?_, ackGood := ?_, ackHeld := ?_ }
    · intro hc x hx
      rcases List.mem_cons.mp hx with rfl | hx
      · exact g2
      · exact h0.held hc x hx
    · intro x hx
      rcases List.mem_cons.mp hx with rfl | hx
      · exact ⟨b, hv⟩
      · exact h0.good x hx
    · intro x hx
      rcases List.mem_cons.mp hx with rfl | hx
      · exact ⟨b, hv⟩
      · exact h0.ackGood x hx
    · intro hc x hx
      rcases List.mem_cons.mp hx with rfl | hx
      · exact g2
      · exact h0.ackHeld hc x hx
  | prefetch i b d hi hv =>
    exact h.upd ((h i).withStore (Grows.put (G := G) (P := Good G) (h i).ok (Good.digest hv) ⟨b, hv⟩).1)
  | sealOwn i b answers hi hq hack =>
    have hout := quorum_outcome G.wf hi.1 answers
    rw [hq] at hout
    obtain ⟨acked, h1, h2, h3⟩ := hout
    obtain ⟨j, hj, hjh, hji⟩ := honest_other G i h1 h3
    have hgood : Good G (G.v.digest b) := by
      rcases List.mem_cons.mp hj with rfl | hj
      · exact absurd rfl hji
      · exact (h j).ackGood _ (hack j hjh (h2 j hj).2)
    obtain ⟨g1, g2⟩ := Grows.put (G := G) (P := Good G) (h i).ok (b := b) rfl hgood
    have h0 := (h i).withStore g1
    refine h.upd { h0 with ownGood := ?_, ownHeld := ?_ }
    · intro x hx
      rcases List.mem_cons.mp hx with rfl | hx
      · exact hgood
      · exact h0.ownGood x hx
    · intro hc x hx
      rcases List.mem_cons.mp hx with rfl | hx
      · exact g2
      · exact h0.ownHeld hc x hx
  | sync i ds w certified env dbOk st ok hi hn hcert hsync =>
    obtain ⟨g1, g2⟩ := synchronize_spec (G := G) (h i).ok hn hsync
    have hg : Grows G (Good G) (s i).store st := g1.mono (by
      rintro d ⟨hd, hc | ⟨b, hb⟩⟩
      · obtain ⟨x, hx, hx'⟩ := hcert hc
        exact certified_good h hx d (hx' d hd)
      · exact ⟨b, of_decide_eq_true hb⟩)
    have h0 := (h i).withStore hg
    refine h.upd { h0 with held := ?_, good := ?_ }
    · intro hc x hx
      simp only [WNode.synced] at hx
      split at hx
      next hok =>
        rcases List.mem_append.mp hx with hx | hx
        · obtain ⟨d, hd, rfl⟩ := List.mem_map.mp hx
          exact g2 hok d hd
        · exact h0.held hc x hx
      next => exact h0.held hc x hx
    · intro x hx
      simp only [WNode.synced] at hx
      split at hx
      next hok =>
        rcases List.mem_append.mp hx with hx | hx
        · obtain ⟨d, hd, rfl⟩ := List.mem_map.mp hx
          exact h0.storeGood d (g2 hok d hd)
        · exact h0.good x hx
      next => exact h0.good x hx
  | fetch i ds ps hi hn hcert =>
    refine h.upd ((h i).withStore (Grows.putAll _ (h i).ok ?_).1)
    intro x hx
    obtain ⟨h1, h2⟩ := (fetch_exact hn ps).2 x hx
    obtain ⟨y, hy, hy'⟩ := hcert x.1 h2
    exact ⟨h1, certified_good h hy x.1 hy'⟩
  | save i x b hi hx hb =>
    exact h.upd ((h i).withStore (Grows.save (h i).ok rfl (certified_good h hx _ hb)))
  | vote i x hi hne hm =>
    refine h.upd { (h i) with votedGood := ?_, votedHeld := ?_ }
    · intro y hy d hd
      rcases List.mem_cons.mp hy with rfl | hy
      · obtain ⟨z, hz, rfl⟩ := List.mem_map.mp hd
        exact (h i).good z (hm z hz)
      · exact (h i).votedGood y hy d hd
    · intro hc y hy d hd
      rcases List.mem_cons.mp hy with rfl | hy
      · obtain ⟨z, hz, rfl⟩ := List.mem_map.mp hd
        exact (h i).held hc z (hm z hz)
      · exact (h i).votedHeld hc y hy d hd
  | propose i x hi he hm =>
    refine h.upd { (h i) with proposedGood := ?_, proposedHeld := ?_ }
    · intro y hy d hd
      rcases List.mem_cons.mp hy with rfl | hy
      · exact (h i).ownGood d (hm d hd)
      · exact (h i).proposedGood y hy d hd
    · intro hc y hy d hd
      rcases List.mem_cons.mp hy with rfl | hy
      · exact (h i).ownHeld hc d (hm d hd)
      · exact (h i).proposedHeld hc y hy d hd
  | crash i st marks hi h1 h2 h3 =>
    refine h.upd { (h i) with
      ok := ?_, storeGood := ?_, held := ?_, good := ?_, ackHeld := ?_, ownHeld := ?_,
      votedHeld := ?_, proposedHeld := ?_ }
    · exact ⟨fun d b hb => (h i).ok.1 d b (h1 d b hb), fun d b hb => (h i).ok.2 d b (h2 d b hb)⟩
    · rintro d ⟨b, hb, hbd⟩
      refine (h i).storeGood d ?_
      have hb : st.get d = some b := hb
      cases hc : (s i).store.cache d with
      | some y => exact (h i).ok.holds (b := y) (by simp [Store.get, hc])
      | none =>
        refine (h i).ok.holds (b := b) ?_
        simp only [Store.get, hc]
        cases hc' : st.cache d with
        | some y => rw [h1 d y hc'] at hc; cases hc
        | none => simp only [Store.get, hc'] at hb; exact h2 d b hb
    · intro hc; cases hc
    · intro x hx; exact (h i).good x (h3 x hx)
    · intro hc; cases hc
    · intro hc; cases hc
    · intro hc; cases hc
    · intro hc; cases hc

theorem Reach.inv {s : WState} (h : Reach G s) : Inv G s := by
  induction h with
  | init => intro i; exact NInv.empty
  | step _ hs ih => exact ih.step hs

/-! ## The property -/

/-- **C45 (a).** At every moment, on every honest member, crashed or not: what the batch table and the pack have under
a digest is a batch with that digest, and it passes the epoch's batch validation. -/
theorem stored_valid {s : WState} (hr : Reach G s) {i : AuthorityId} {d : Nat} {b : Batch}
    (hb : (s i).store.get d = some b) : ∃ txs, Acceptable G.v b d txs := by
  have hI := hr.inv i
  obtain ⟨b', hb', hd⟩ := hI.ok.holds hb
  rw [hb] at hb'
  cases hb'
  obtain ⟨b2, h2⟩ := hI.storeGood d ⟨b, hb, hd⟩
  have := G.inj b b2 (by rw [hd, Good.digest h2])
  subst this
  exact (validate_iff _ _ _).mp h2

/-- **C45 (b).** Every batch digest in a header that can be certified is the digest of exactly one batch, and that
batch passes the epoch's validation, even though certified batches are fetched without validating them, and even
if the author is faulty. -/
theorem certified_valid {s : WState} (hr : Reach G s) {h : Header} (hc : Certified G s h) {d : Nat}
    (hd : d ∈ payloadKeys h) :
    ∃ b, G.v.digest b = d ∧ (∃ txs, Acceptable G.v b d txs) ∧ ∀ b', G.v.digest b' = d → b' = b := by
  obtain ⟨b, hb⟩ := certified_good hr.inv hc d hd
  exact ⟨b, Good.digest hb, (validate_iff _ _ _).mp hb, fun b' hb' => G.inj b' b (by rw [hb', Good.digest hb])⟩

/-- **C45 (c).** A header that can be certified: at least a validity threshold of honest members have proposed it or
voted for it, and each of those that has not crashed has every batch of the header in its store. -/
theorem certified_available {s : WState} (hr : Reach G s) {h : Header} (hc : Certified G s h) :
    ∃ A : List AuthorityId, A.Nodup ∧ (∀ i ∈ A, G.Honest i) ∧ G.c.validityThreshold ≤ A.length ∧
      ∀ i ∈ A, (s i).crashed = false → ∀ d ∈ payloadKeys h, ∃ b, (s i).store.get d = some b ∧ G.v.digest b = d := by
  obtain ⟨signers, h1, h2, h3⟩ := hc
  obtain ⟨A, a1, a2, a3⟩ := honest_signers G h1 h2
  refine ⟨A, a1, fun i hi => (a2 i hi).2, a3, ?_⟩
  intro i hi hcr d hd
  obtain ⟨b1, b2⟩ := a2 i hi
  rcases h3 i b1 b2 with ⟨_, h4⟩ | ⟨_, h4⟩
  · exact (hr.inv i).proposedHeld hcr h h4 d hd
  · exact (hr.inv i).votedHeld hcr h h4 d hd

/-- Acknowledgements do not vanish. -/
theorem acks_mono {s s' : WState} (h : Step G s s') : ∀ j d, d ∈ (s j).acks → d ∈ (s' j).acks := by
  have key : ∀ (i : AuthorityId) (n : WNode), (∀ d, d ∈ (s i).acks → d ∈ n.acks) →
      ∀ j d, d ∈ (s j).acks → d ∈ (s.upd i n j).acks := by
    intro i n hn j d hd
    unfold WState.upd
    split
    next hj => subst hj; exact hn d hd
    next => exact hd
  cases h with
  | report i b d hi hv => exact key i _ (fun x hx => List.mem_cons_of_mem _ hx)
  | _ => exact key _ _ (fun x hx => hx)

/-- Own digests were acknowledged by a quorum. -/
theorem own_acked {s : WState} (hr : Reach G s) : ∀ i d, d ∈ (s i).own →
    G.Honest i ∧ ∃ acked : List AuthorityId, (i :: acked).Nodup ∧ G.c.reachedQuorum (G.c.power (i :: acked)) = true ∧
      ∀ j ∈ acked, G.Honest j → d ∈ (s j).acks := by
  induction hr with
  | init => intro i d hd; cases hd
  | @step s s' hr hstep ih =>
    intro i d hd
    have mono : ∀ {i d}, (G.Honest i ∧ ∃ acked : List AuthorityId, (i :: acked).Nodup ∧
        G.c.reachedQuorum (G.c.power (i :: acked)) = true ∧ ∀ j ∈ acked, G.Honest j → d ∈ (s j).acks) →
        (G.Honest i ∧ ∃ acked : List AuthorityId, (i :: acked).Nodup ∧
        G.c.reachedQuorum (G.c.power (i :: acked)) = true ∧ ∀ j ∈ acked, G.Honest j → d ∈ (s' j).acks) := by
      rintro i d ⟨h0, acked, h1, h2, h3⟩
      exact ⟨h0, acked, h1, h2, fun j hj hh => acks_mono hstep j d (h3 j hj hh)⟩
    by_cases hold : d ∈ (s i).own
    · exact mono (ih i d hold)
    · have key : ∀ (k : AuthorityId) (n : WNode), n.own = (s k).own → d ∈ (s.upd k n i).own → False := by
        intro k n hn hh
        unfold WState.upd at hh
        split at hh
        next hj => subst hj; rw [hn] at hh; exact hold hh
        next => exact hold hh
      cases hstep with
      | sealOwn k b answers hk hq hack =>
        by_cases hik : i = k
        · subst hik
          rw [upd_same] at hd
          rcases List.mem_cons.mp hd with rfl | hd
          · have hout := quorum_outcome G.wf hk.1 answers
            rw [hq] at hout
            obtain ⟨acked, h1, h2, h3⟩ := hout
            exact mono ⟨hk, acked, h1, h3, fun j hj hh => hack j hh (h2 j hj).2⟩
          · exact absurd hd hold
        · rw [upd_other _ _ _ _ hik] at hd
          exact absurd hd hold
      | _ => exact (key _ _ (by rfl) hd).elim

/-- **C45 (d).** Already when a worker hands the digest of its own batch to the primary, at least a validity threshold
of honest members (itself among them) have the batch in their store unless they have crashed since. -/
theorem sealed_available {s : WState} (hr : Reach G s) {i : AuthorityId} {d : Nat} (hd : d ∈ (s i).own) :
    ∃ A : List AuthorityId, A.Nodup ∧ (∀ j ∈ A, G.Honest j) ∧ G.c.validityThreshold ≤ A.length ∧
      ∀ j ∈ A, (s j).crashed = false → ∃ b, (s j).store.get d = some b ∧ G.v.digest b = d := by
  obtain ⟨hi, acked, h1, h2, h3⟩ := own_acked hr i d hd
  obtain ⟨A, a1, a2, a3⟩ := honest_signers G h1 h2
  refine ⟨A, a1, fun j hj => (a2 j hj).2, a3, ?_⟩
  intro j hj hcr
  obtain ⟨b1, b2⟩ := a2 j hj
  rcases List.mem_cons.mp b1 with rfl | b1
  · exact (hr.inv j).ownHeld hcr d hd
  · exact (hr.inv j).ackHeld hcr d (h3 j b1 b2)

/-- **C45 (e).** So a node fetching the batches of a committed sub-dag completes its fetch as soon as, for each
header, it has once been connected to one of the members of (c) that has not crashed. -/
theorem committed_fetchable {s : WState} (hr : Reach G s) {ds : List Nat} (hn : ds.Nodup) (hlen : ds.length ≤ maxDigests)
    (hcert : ∀ d ∈ ds, ∃ h, Certified G s h ∧ d ∈ payloadKeys h) :
    ∀ (ps : List Pass), (∀ p ∈ ps, p.readOk = true ∧ p.writeOk = true) →
      (∀ (A : List AuthorityId), A.Nodup → (∀ i ∈ A, G.Honest i) → G.c.validityThreshold ≤ A.length →
        ∃ i ∈ A, (s i).crashed = false ∧
          ∃ p ∈ ps, ∃ peers rest, p.attempts = some peers :: rest ∧ responder G.v.digest (s i).store ∈ peers) →
      ∃ l, fetchForPrimary G.v.digest ps (start ds) = .done l := by
  intro ps hok hconn
  refine fetch_completes hn hlen hok ?_
  intro d hd
  obtain ⟨h, hc, hdh⟩ := hcert d hd
  obtain ⟨A, a1, a2, a3, a4⟩ := certified_available hr hc
  obtain ⟨i, hi, hcr, p, hp, peers, rest, h1, h2⟩ := hconn A a1 a2 a3
  obtain ⟨b, hb, _⟩ := a4 i hi hcr d hdh
  exact ⟨p, hp, .inr ⟨(s i).store, peers, rest, (hr.inv i).ok, by rw [hb]; rfl, h1, h2⟩⟩

end Worker
end Verif
