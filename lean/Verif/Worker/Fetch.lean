import Verif.Exec.Output
/-
Model of how a worker obtains batches it is missing: `crates/consensus/worker/src/batch_fetcher.rs`
(`get_batches_local`, `fetch_local`, `fetch_for_primary`), `network/handle.rs` (`request_batches`,
`read_sync_batches`), `network/stream_codec.rs` (the responder) and `network/primary.rs` (`synchronize`).
-/
namespace Verif
namespace Worker
open Exec (Batch Fetched)

/-- `MAX_BATCH_DIGESTS_PER_REQUEST`, worker/src/network/mod.rs:51. -/
def maxDigests : Nat := 500
/-- `MAX_BATCH_REQUEST_RETRIES`, worker/src/network/handle.rs:46. -/
def maxRetries : Nat := 3
/-- `BATCH_DIGESTS_READ_CHUNK_SIZE`, worker/src/network/stream_codec.rs:25. -/
def chunkSize : Nat := 200

/-- What a worker holds: `NodeBatchesCache` and the batches of the epoch's consensus pack
(`ConsensusChain::get_batches`, storage/src/consensus.rs:1177-1190). Both are keyed by digest. -/
structure Store where
  cache : Nat → Option Batch := fun _ => none
  pack : Nat → Option Batch := fun _ => none

/-- `get_batch_local`, batch_fetcher.rs:78-97. -/
def Store.get (s : Store) (d : Nat) : Option Batch :=
  match s.cache d with
  | some b => some b
  | none => s.pack d

/-- `get_batches_local`, batch_fetcher.rs:117-152. -/
def Store.getAll (dg : Batch → Nat) (s : Store) (ds : List Nat) : List Batch :=
  let cached := ds.filterMap s.cache
  if cached.isEmpty then ds.filterMap s.pack
  else if cached.length < ds.length then
    cached ++ (ds.filter (fun d => ! (cached.map dg).contains d)).filterMap s.pack
  else cached

/-- `SyncFrame`, as the requester sees it after `Ack`: a `Data` frame whose payload decodes to a batch
(or does not), `End`, or anything else. A read failure or timeout is the end of the list. -/
inductive Frame
  | data (b : Option Batch)
  | fin
  | other
deriving DecidableEq, Repr

/-- `read_sync_batches`, network/handle.rs:434-505. `acc`: `batches` so far; `received_digests` is
the set of their first components. `none`: the exchange failed and everything read is dropped. -/
def readSync (dg : Batch → Nat) (req : List Nat) :
    List (Nat × Batch) → List Frame → Option (List (Nat × Batch))
  | _, [] => none
  | acc, .fin :: _ => some acc
  | _, .other :: _ => none
  | _, .data none :: _ => none
  | acc, .data (some b) :: fs =>
    if req.length ≤ acc.length then none
    else if ! req.contains (dg b) then none
    else if (acc.map (·.1)).contains (dg b) then none
    else readSync dg req (acc ++ [(dg b, b)]) fs

/-- The loop over the batches one peer returned, handle.rs:206-211. -/
def takeBatches (req : List Nat) (acc : List (Nat × Batch)) :
    List (Nat × Batch) → List Nat × List (Nat × Batch)
  | [] => (req, acc)
  | (d, b) :: l =>
    if req.contains d then takeBatches (req.erase d) (acc ++ [(d, b)]) l
    else takeBatches req acc l

/-- One peer's answer to a request for these digests: the frames after its `Ack`, or `none` if there was
no exchange (`request_batches_from_peer`, handle.rs:271-310). The answer may depend on the digests asked for. -/
abbrev Peer := List Nat → Option (List Frame)

/-- The digests asked of one peer, handle.rs:186-203. -/
def asked (req : List Nat) : List Nat := if maxDigests < req.length then req.take maxDigests else req

/-- One peer, handle.rs:180-227. -/
def onePeer (dg : Batch → Nat) (p : Peer) (req : List Nat) (acc : List (Nat × Batch)) :
    List Nat × List (Nat × Batch) :=
  if req.isEmpty then (req, acc)
  else
    match p (asked req) with
    | none => (req, acc)
    | some fs =>
      match readSync dg (asked req) [] fs with
      | none => (req, acc)
      | some bs => takeBatches req acc bs

/-- The loop over the connected peers, handle.rs:179-228. -/
def allPeers (dg : Batch → Nat) (req : List Nat) (acc : List (Nat × Batch)) :
    List Peer → List Nat × List (Nat × Batch)
  | [] => (req, acc)
  | p :: ps => allPeers dg (onePeer dg p req acc).1 (onePeer dg p req acc).2 ps

/-- `request_batches`, handle.rs:165-262, from the attempt with `n` attempts left. The environment gives,
for each attempt, the connected peers (`none`: `connected_peers` failed; a missing entry counts as failure).
Result: the digests still wanted, and the batches (or the error). `acc` is empty on every attempt. -/
def requestBatches (dg : Batch → Nat) : Nat → List Nat → List (Option (List Peer)) →
    List Nat × Option (List (Nat × Batch))
  | 0, req, _ => if req.isEmpty then (req, some []) else (req, none)
  | _ + 1, req, [] => (req, none)
  | _ + 1, req, none :: _ => (req, none)
  | n + 1, req, some ps :: rest =>
    if ps.isEmpty then (req, some [])
    else
      let r := allPeers dg req [] ps
      if ! r.2.isEmpty || r.1.isEmpty then (r.1, some r.2)
      else requestBatches dg n r.1 rest

/-- What the environment does in one pass of the fetch loop: the store as it is when read (other tasks
write to it too), whether that read and the write transaction succeed, and the peers of each attempt. -/
structure Pass where
  store : Store := {}
  readOk : Bool := true
  writeOk : Bool := true
  attempts : List (Option (List Peer)) := []

/-- `HashMap::extend` with pairs. -/
def extend (f : Fetched) : List (Nat × Batch) → Fetched
  | [] => f
  | (d, b) :: l => extend (fun x => if x = d then some b else f x) l

/-- State of `fetch_for_primary`: what is missing, what was fetched, what was written to `NodeBatchesCache`. -/
structure Loop where
  missing : List Nat
  fetched : Fetched := fun _ => none
  writes : List (Nat × Batch) := []

/-- Outcome of the passes so far. -/
inductive FetchRes
  | done (l : Loop)
  | failed (l : Loop)
  | running (l : Loop)

/-- `fetch_local`, batch_fetcher.rs:295-318. -/
def fetchLocal (dg : Batch → Nat) (s : Store) (l : Loop) : Loop :=
  let fetched := extend l.fetched ((s.getAll dg l.missing).map (fun b => (dg b, b)))
  { l with fetched := fetched, missing := l.missing.filter (fun d => (fetched d).isNone) }

/-- One pass of the loop, batch_fetcher.rs:205-291 (metrics and back-off left out). -/
def onePass (dg : Batch → Nat) (p : Pass) (l : Loop) : FetchRes :=
  if l.missing.isEmpty then .done l
  else if ! p.readOk then .failed l
  else
    let l1 := fetchLocal dg p.store l
    if l1.missing.isEmpty then .done l1
    else
      let r := requestBatches dg maxRetries l1.missing p.attempts
      match r.2 with
      | none => .running { l1 with missing := r.1 }
      | some new =>
        if new.isEmpty then .running { l1 with missing := r.1 }
        else if ! p.writeOk then .failed { l1 with missing := r.1 }
        else
          let l2 : Loop := { missing := r.1, fetched := extend l1.fetched new, writes := l1.writes ++ new }
          if l2.missing.isEmpty then .done l2 else .running l2

/-- `fetch_for_primary`, batch_fetcher.rs:174-292, as far as the given passes take it. -/
def fetchForPrimary (dg : Batch → Nat) : List Pass → Loop → FetchRes
  | [], l => if l.missing.isEmpty then .done l else .running l
  | p :: ps, l =>
    match onePass dg p l with
    | .running l' => fetchForPrimary dg ps l'
    | r => r

/-- The start of `fetch_for_primary`: the digests of the request, nothing fetched. -/
def start (ds : List Nat) : Loop := { missing := ds }

/-- `[T]::chunks`, with as many steps as elements. -/
def chunks (n : Nat) : Nat → List Nat → List (List Nat)
  | 0, _ => []
  | _ + 1, [] => []
  | k + 1, l => l.take n :: chunks n k (l.drop n)

/-- `send_sync_batches_over_stream`, network/stream_codec.rs:61-112, with the truncation of the request
in network/mod.rs:367-380: the frames after `Ack` sent by a responder with this store. -/
def serve (dg : Batch → Nat) (s : Store) (req : List Nat) : List Frame :=
  ((chunks chunkSize (asked req).length (asked req)).flatMap (s.getAll dg)).map (fun b => .data (some b)) ++
    [.fin]

/-! ## Specification -/

/-- Every batch stored under a digest has that digest. -/
def Store.Ok (dg : Batch → Nat) (s : Store) : Prop :=
  (∀ d b, s.cache d = some b → dg b = d) ∧ (∀ d b, s.pack d = some b → dg b = d)

/-- The batches are for distinct requested digests and each has the digest it is filed under. -/
structure Answers (dg : Batch → Nat) (req : List Nat) (bs : List (Nat × Batch)) : Prop where
  digest : ∀ x ∈ bs, dg x.2 = x.1
  wanted : ∀ x ∈ bs, x.1 ∈ req
  distinct : (bs.map (·.1)).Nodup

/-! ## Proofs: the exchange with one peer -/

theorem readSync_sound {dg : Batch → Nat} {req : List Nat} (fs : List Frame) :
    ∀ {acc bs}, Answers dg req acc → readSync dg req acc fs = some bs → Answers dg req bs := by
  induction fs with
  | nil => intro acc bs _ h; simp [readSync] at h
  | cons f fs ih =>
    intro acc bs ha h
    match f with
    | .fin => simp only [readSync, Option.some.injEq] at h; exact h ▸ ha
    | .other => simp [readSync] at h
    | .data none => simp [readSync] at h
    | .data (some b) =>
      rw [readSync] at h
      split at h
      · cases h
      split at h
      · cases h
      split at h
      · cases h
      next h1 h2 h3 =>
      refine ih ?_ h
      refine ⟨?_, ?_, ?_⟩
      · intro x hx
        rcases List.mem_append.mp hx with hx | hx
        · exact ha.digest x hx
        · rw [List.mem_singleton.mp hx]
      · intro x hx
        rcases List.mem_append.mp hx with hx | hx
        · exact ha.wanted x hx
        · rw [List.mem_singleton.mp hx]; simpa using h2
      · rw [List.map_append, List.nodup_append]
        refine ⟨ha.distinct, by simp, ?_⟩
        intro a ha' b' hb' hab
        simp only [List.map_cons, List.map_nil, List.mem_singleton] at hb'
        subst hb'; subst hab
        exact h3 (by simpa using ha')

/-- Whatever a peer sends, what is accepted from it are batches with the digests they are filed under,
requested ones only, none twice; and no more than were requested. -/
theorem exchange_sound {dg : Batch → Nat} {req : List Nat} {fs : List Frame} {bs : List (Nat × Batch)}
    (h : readSync dg req [] fs = some bs) :
    Answers dg req bs ∧ bs.length ≤ req.length := by
  have ha : Answers dg req bs := readSync_sound fs ⟨by simp, by simp, by simp⟩ h
  refine ⟨ha, ?_⟩
  have := (List.subperm_of_subset ha.distinct (l₂ := req) (fun x hx => by
    obtain ⟨y, hy, rfl⟩ := List.mem_map.mp hx
    exact ha.wanted y hy)).length_le
  simpa using this

/-- Relation between the request, what is still wanted and what was received. -/
structure Split (dg : Batch → Nat) (orig req : List Nat) (acc : List (Nat × Batch)) : Prop where
  nodup : req.Nodup
  digest : ∀ x ∈ acc, dg x.2 = x.1
  distinct : (acc.map (·.1)).Nodup
  cover : ∀ d, d ∈ orig ↔ d ∈ req ∨ d ∈ acc.map (·.1)
  disjoint : ∀ d ∈ acc.map (·.1), d ∉ req

theorem Split.init {dg : Batch → Nat} {req : List Nat} (h : req.Nodup) : Split dg req req [] :=
  ⟨h, by simp, by simp, by simp, by simp⟩

theorem Split.take {dg : Batch → Nat} {orig : List Nat} (bs : List (Nat × Batch)) :
    ∀ {req acc}, Split dg orig req acc → (∀ x ∈ bs, dg x.2 = x.1) →
      Split dg orig (takeBatches req acc bs).1 (takeBatches req acc bs).2 := by
  induction bs with
  | nil => intro req acc h _; exact h
  | cons x bs ih =>
    intro req acc h hb
    obtain ⟨d, b⟩ := x
    rw [takeBatches]
    split
    next hd =>
      have hd : d ∈ req := by simpa using hd
      refine ih ⟨h.nodup.erase d, ?_, ?_, ?_, ?_⟩ (fun y hy => hb y (List.mem_cons_of_mem _ hy))
      · intro y hy
        rcases List.mem_append.mp hy with hy | hy
        · exact h.digest y hy
        · rw [List.mem_singleton.mp hy]; exact hb (d, b) (List.mem_cons_self ..)
      · rw [List.map_append, List.nodup_append]
        refine ⟨h.distinct, by simp, ?_⟩
        intro a ha a' ha' hab
        simp only [List.map_cons, List.map_nil, List.mem_singleton] at ha'
        subst hab; subst ha'
        exact h.disjoint _ ha hd
      · intro e
        rw [h.cover e, List.map_append, List.mem_append, h.nodup.mem_erase_iff]
        by_cases hed : e = d
        · subst hed; simp [hd]
        · simp [hed]
      · intro e he
        rw [h.nodup.mem_erase_iff]
        rw [List.map_append, List.mem_append] at he
        rcases he with he | he
        · exact fun hh => h.disjoint e he hh.2
        · simp only [List.map_cons, List.map_nil, List.mem_singleton] at he
          exact fun hh => hh.1 he
    next => exact ih h (fun y hy => hb y (List.mem_cons_of_mem _ hy))

/-- Taking batches leaves exactly the digests not among them. -/
theorem takeBatches_left (bs : List (Nat × Batch)) :
    ∀ {req acc}, req.Nodup → ∀ d, d ∈ (takeBatches req acc bs).1 ↔ d ∈ req ∧ d ∉ bs.map (·.1) := by
  induction bs with
  | nil => intro req acc _ d; simp [takeBatches]
  | cons x bs ih =>
    intro req acc hn d
    obtain ⟨e, b⟩ := x
    rw [takeBatches]
    split
    next he =>
      rw [ih (hn.erase e), hn.mem_erase_iff]
      simp only [List.map_cons, List.mem_cons, not_or]
      constructor
      · rintro ⟨⟨h1, h2⟩, h3⟩; exact ⟨h2, h1, h3⟩
      · rintro ⟨h2, h1, h3⟩; exact ⟨⟨h1, h2⟩, h3⟩
    next he =>
      rw [ih hn]
      have he : e ∉ req := by simpa using he
      simp only [List.map_cons, List.mem_cons, not_or]
      constructor
      · rintro ⟨h1, h2⟩; exact ⟨h1, fun h => he (h ▸ h1), h2⟩
      · rintro ⟨h1, _, h2⟩; exact ⟨h1, h2⟩

theorem Split.peer {dg : Batch → Nat} {orig req : List Nat} {acc : List (Nat × Batch)}
    (h : Split dg orig req acc) (p : Peer) :
    Split dg orig (onePeer dg p req acc).1 (onePeer dg p req acc).2 := by
  unfold onePeer
  split
  · exact h
  split
  · exact h
  split
  · exact h
  next bs hb => exact h.take bs (exchange_sound hb).1.digest

theorem Split.peers {dg : Batch → Nat} {orig : List Nat} (ps : List Peer) :
    ∀ {req acc}, Split dg orig req acc → Split dg orig (allPeers dg req acc ps).1 (allPeers dg req acc ps).2 := by
  induction ps with
  | nil => intro req acc h; exact h
  | cons p ps ih => intro req acc h; exact ih (h.peer p)

/-- If nothing was received, nothing was taken off the list. -/
theorem takeBatches_none (bs : List (Nat × Batch)) :
    ∀ {req acc}, acc.length ≤ (takeBatches req acc bs).2.length ∧
      ((takeBatches req acc bs).2.length = acc.length → (takeBatches req acc bs).1 = req) := by
  induction bs with
  | nil => intro req acc; exact ⟨Nat.le_refl _, fun _ => rfl⟩
  | cons x bs ih =>
    intro req acc
    obtain ⟨d, b⟩ := x
    rw [takeBatches]
    split
    · have := (ih (req := req.erase d) (acc := acc ++ [(d, b)])).1
      rw [List.length_append, List.length_singleton] at this
      exact ⟨by omega, fun h => by omega⟩
    · exact ih

theorem onePeer_none {dg : Batch → Nat} (p : Peer) {req acc} :
    acc.length ≤ (onePeer dg p req acc).2.length ∧
      ((onePeer dg p req acc).2.length = acc.length → (onePeer dg p req acc).1 = req) := by
  unfold onePeer
  split
  · exact ⟨Nat.le_refl _, fun _ => rfl⟩
  split
  · exact ⟨Nat.le_refl _, fun _ => rfl⟩
  split
  · exact ⟨Nat.le_refl _, fun _ => rfl⟩
  · exact takeBatches_none _

theorem allPeers_none {dg : Batch → Nat} (ps : List Peer) :
    ∀ {req acc}, acc.length ≤ (allPeers dg req acc ps).2.length ∧
      ((allPeers dg req acc ps).2.length = acc.length → (allPeers dg req acc ps).1 = req) := by
  induction ps with
  | nil => intro req acc; exact ⟨Nat.le_refl _, fun _ => rfl⟩
  | cons p ps ih =>
    intro req acc
    have h1 := onePeer_none (dg := dg) p (req := req) (acc := acc)
    have h2 := ih (req := (onePeer dg p req acc).1) (acc := (onePeer dg p req acc).2)
    rw [allPeers]
    exact ⟨by omega, fun h => by rw [h2.2 (by omega), h1.2 (by omega)]⟩

/-- `request_batches`, whatever the peers do: the digests asked for are exactly those still wanted and those
of the batches returned, with no digest in both; each batch has the digest it is filed under; and if the
call fails, nothing was taken off the list. -/
theorem request_exact {dg : Batch → Nat} (n : Nat) : ∀ {req : List Nat} (env : List (Option (List Peer))),
    req.Nodup →
    match requestBatches dg n req env with
    | (left, some bs) => Split dg req left bs
    | (left, none) => left = req := by
  induction n with
  | zero =>
    intro req env h
    simp only [requestBatches]
    split
    next x y hxy =>
      split at hxy
      · obtain ⟨rfl, h2⟩ := Prod.mk.inj hxy
        cases h2
        exact Split.init h
      · cases (Prod.mk.inj hxy).2
    next x hxy =>
      split at hxy
      · cases (Prod.mk.inj hxy).2
      · exact (Prod.mk.inj hxy).1.symm
  | succ n ih =>
    intro req env h
    match env with
    | [] => simp [requestBatches]
    | none :: _ => simp [requestBatches]
    | some ps :: rest =>
      by_cases hp : ps.isEmpty = true
      · simp only [requestBatches, hp, if_true]
        exact Split.init h
      · have hs := Split.peers (dg := dg) ps (Split.init h)
        by_cases hr : (! (allPeers dg req [] ps).2.isEmpty || (allPeers dg req [] ps).1.isEmpty) = true
        · have : requestBatches dg (n + 1) req (some ps :: rest) =
              ((allPeers dg req [] ps).1, some (allPeers dg req [] ps).2) := by
            rw [requestBatches, if_neg hp]; exact if_pos hr
          rw [this]
          exact hs
        · have h2 : (allPeers dg req [] ps).2 = [] := by
            cases hh : (allPeers dg req [] ps).2 with
            | nil => rfl
            | cons a l => rw [hh] at hr; simp at hr
          have : requestBatches dg (n + 1) req (some ps :: rest) =
              requestBatches dg n (allPeers dg req [] ps).1 rest := by
            rw [requestBatches, if_neg hp]; exact if_neg hr
          rw [this]
          rw [h2] at hs
          have hcov : ∀ d, d ∈ req ↔ d ∈ (allPeers dg req [] ps).1 := fun d => by
            rw [hs.cover d]; simp
          have := ih rest hs.nodup
          revert this
          generalize hq : requestBatches dg n (allPeers dg req [] ps).1 rest = q
          intro this
          match q, this with
          | (left, some bs), this =>
            exact ⟨this.nodup, this.digest, this.distinct, fun d => by rw [hcov d]; exact this.cover d,
              this.disjoint⟩
          | (left, none), this =>
            have h3 : (allPeers dg req [] ps).1 = req :=
              (allPeers_none ps).2 (by rw [h2])
            exact this.trans h3

/-! ## Proofs: the fetch loop -/

theorem extend_cases (l : List (Nat × Batch)) : ∀ (f : Fetched) (d : Nat) (b : Batch),
    extend f l d = some b → (d, b) ∈ l ∨ f d = some b := by
  induction l with
  | nil => intro f d b h; exact .inr h
  | cons x l ih =>
    intro f d b h
    obtain ⟨e, c⟩ := x
    rw [extend] at h
    rcases ih _ d b h with h | h
    · exact .inl (List.mem_cons_of_mem _ h)
    · by_cases hd : d = e
      · rw [if_pos hd] at h
        cases h; subst hd
        exact .inl (List.mem_cons_self ..)
      · rw [if_neg hd] at h; exact .inr h

theorem extend_isSome (l : List (Nat × Batch)) : ∀ (f : Fetched) (d : Nat),
    (extend f l d).isSome = true ↔ d ∈ l.map (·.1) ∨ (f d).isSome = true := by
  induction l with
  | nil => intro f d; simp [extend]
  | cons x l ih =>
    intro f d
    obtain ⟨e, c⟩ := x
    rw [extend, ih]
    by_cases hd : d = e
    · subst hd; simp
    · simp [hd]

/-- Invariant of the loop: every digest of the request is missing or fetched (never both), what is
fetched has the digest it is filed under, what is written was requested. -/
structure LoopOk (dg : Batch → Nat) (ds : List Nat) (l : Loop) : Prop where
  nodup : l.missing.Nodup
  sub : ∀ d ∈ l.missing, d ∈ ds
  have_ : ∀ d ∈ ds, d ∈ l.missing ∨ (l.fetched d).isSome = true
  fetched : ∀ d b, l.fetched d = some b → dg b = d
  writes : ∀ x ∈ l.writes, dg x.2 = x.1 ∧ x.1 ∈ ds

theorem LoopOk.local_ {dg : Batch → Nat} {ds : List Nat} {l : Loop} (h : LoopOk dg ds l) (s : Store) :
    LoopOk dg ds (fetchLocal dg s l) := by
  refine ⟨h.nodup.filter _, fun d hd => h.sub d (List.mem_filter.mp hd).1, ?_, ?_, h.writes⟩
  · intro d hd
    simp only [fetchLocal]
    cases hf : extend l.fetched ((s.getAll dg l.missing).map (fun b => (dg b, b))) d with
    | some b => exact .inr rfl
    | none =>
      refine .inl (List.mem_filter.mpr ⟨?_, by rw [hf]; rfl⟩)
      rcases h.have_ d hd with h1 | h1
      · exact h1
      · have := (extend_isSome ((s.getAll dg l.missing).map (fun b => (dg b, b))) l.fetched d).mpr (.inr h1)
        rw [hf] at this; cases this
  · intro d b hb
    rcases extend_cases _ _ _ _ hb with h1 | h1
    · obtain ⟨c, _, hc⟩ := List.mem_map.mp h1
      cases hc; rfl
    · exact h.fetched d b h1

/-- The loop in each outcome. -/
def FetchRes.loop : FetchRes → Loop
  | .done l | .failed l | .running l => l

/-- Invariant of a pass that ended without an error, and what it wrote in any case. -/
def PassOk (dg : Batch → Nat) (ds : List Nat) : FetchRes → Prop
  | .done l => LoopOk dg ds l ∧ l.missing = []
  | .failed l => ∀ x ∈ l.writes, dg x.2 = x.1 ∧ x.1 ∈ ds
  | .running l => LoopOk dg ds l

theorem isEmpty_nil {α : Type} {l : List α} (h : l.isEmpty = true) : l = [] := by
  cases l with
  | nil => rfl
  | cons a l => cases h

theorem LoopOk.pass {dg : Batch → Nat} {ds : List Nat} {l : Loop} (h : LoopOk dg ds l) (p : Pass) :
    PassOk dg ds (onePass dg p l) := by
  unfold onePass
  split
  next he => exact ⟨h, isEmpty_nil he⟩
  split
  · exact h.writes
  have h1 := h.local_ p.store
  generalize fetchLocal dg p.store l = l1 at h1 ⊢
  dsimp only
  split
  next he => exact ⟨h1, isEmpty_nil he⟩
  have hq := request_exact (dg := dg) maxRetries p.attempts h1.nodup
  generalize requestBatches dg maxRetries l1.missing p.attempts = q at hq ⊢
  obtain ⟨left, res⟩ := q
  cases res with
  | none =>
    have hq : left = l1.missing := hq
    subst hq
    exact h1
  | some bs =>
    have hq : Split dg l1.missing left bs := hq
    have hsub : ∀ d ∈ left, d ∈ ds := fun d hd => h1.sub d ((hq.cover d).mpr (.inl hd))
    have hbs : ∀ x ∈ bs, dg x.2 = x.1 ∧ x.1 ∈ ds := fun x hx =>
      ⟨hq.digest x hx, h1.sub _ ((hq.cover _).mpr (.inr (List.mem_map_of_mem hx)))⟩
    dsimp only
    split
    next hb =>
      have hb := isEmpty_nil hb
      subst hb
      refine ⟨hq.nodup, hsub, ?_, h1.fetched, h1.writes⟩
      intro d hd
      rcases h1.have_ d hd with h2 | h2
      · rcases (hq.cover d).mp h2 with h3 | h3
        · exact .inl h3
        · simp at h3
      · exact .inr h2
    · split
      · exact h1.writes
      · have h2 : LoopOk dg ds (Loop.mk left (extend l1.fetched bs) (l1.writes ++ bs)) := by
          refine ⟨hq.nodup, hsub, ?_, ?_, ?_⟩
          · intro d hd
            rcases h1.have_ d hd with h2 | h2
            · rcases (hq.cover d).mp h2 with h3 | h3
              · exact .inl h3
              · exact .inr ((extend_isSome _ _ _).mpr (.inl h3))
            · exact .inr ((extend_isSome _ _ _).mpr (.inr h2))
          · intro d b hb
            rcases extend_cases _ _ _ _ hb with h3 | h3
            · exact hq.digest _ h3
            · exact h1.fetched d b h3
          · intro x hx
            rcases List.mem_append.mp hx with hx | hx
            · exact h1.writes x hx
            · exact hbs x hx
        split
        next he => exact ⟨h2, isEmpty_nil he⟩
        next => exact h2

theorem fetch_ok {dg : Batch → Nat} {ds : List Nat} (ps : List Pass) : ∀ {l : Loop}, LoopOk dg ds l →
    PassOk dg ds (fetchForPrimary dg ps l) := by
  induction ps with
  | nil =>
    intro l h
    rw [fetchForPrimary]
    split
    next he => exact ⟨h, isEmpty_nil he⟩
    next => exact h
  | cons p ps ih =>
    intro l h
    have hp := h.pass p
    rw [fetchForPrimary]
    revert hp
    cases onePass dg p l with
    | done l' => exact id
    | failed l' => exact id
    | running l' => exact fun hp => ih hp

theorem start_ok {dg : Batch → Nat} {ds : List Nat} (h : ds.Nodup) : LoopOk dg ds (start ds) :=
  ⟨h, fun _ h => h, fun _ h => .inl h, fun _ _ h => (by cases h), fun _ h => (by cases h)⟩

/-- **C43.** Whatever the peers send and whatever the local tables contain, for any number of passes: the
fetch returns only when it has a batch for every digest of the request, each batch it returns hashes to
the digest it is filed under, and all it ever writes to the batch table are requested batches under their digests. -/
theorem fetch_exact {dg : Batch → Nat} {ds : List Nat} (h : ds.Nodup) (ps : List Pass) :
    (∀ l, fetchForPrimary dg ps (start ds) = .done l →
      (∀ d ∈ ds, ∃ b, l.fetched d = some b ∧ dg b = d) ∧ (∀ d b, l.fetched d = some b → dg b = d)) ∧
    (∀ x ∈ (fetchForPrimary dg ps (start ds)).loop.writes, dg x.2 = x.1 ∧ x.1 ∈ ds) := by
  have hk := fetch_ok ps (start_ok (dg := dg) h)
  revert hk
  cases fetchForPrimary dg ps (start ds) with
  | done l =>
    rintro ⟨hk, hm⟩
    refine ⟨?_, hk.writes⟩
    intro l' hl
    cases hl
    refine ⟨?_, hk.fetched⟩
    intro d hd
    rcases hk.have_ d hd with h1 | h1
    · rw [hm] at h1; cases h1
    · obtain ⟨b, hb⟩ := Option.isSome_iff_exists.mp h1
      exact ⟨b, hb, hk.fetched d b hb⟩
  | failed l => intro hk; exact ⟨fun _ hl => (by cases hl), hk⟩
  | running l => intro hk; exact ⟨fun _ hl => (by cases hl), hk.writes⟩

/-! ## Proofs: the responder, and progress -/

theorem map_filterMap {dg : Batch → Nat} {f : Nat → Option Batch} (hf : ∀ d b, f d = some b → dg b = d)
    (ds : List Nat) : (ds.filterMap f).map dg = ds.filter (fun d => (f d).isSome) := by
  induction ds with
  | nil => rfl
  | cons d ds ih =>
    cases h : f d with
    | none => simp [h, ih]
    | some b => simp [h, ih, hf d b h]

theorem mem_filterMap_self {dg : Batch → Nat} {f : Nat → Option Batch} (hf : ∀ d b, f d = some b → dg b = d)
    {ds : List Nat} {b : Batch} (h : b ∈ ds.filterMap f) : dg b ∈ ds ∧ f (dg b) = some b := by
  obtain ⟨d, hd, hb⟩ := List.mem_filterMap.mp h
  have := hf d b hb
  subst this
  exact ⟨hd, hb⟩

/-- A store whose batches have the digests they are filed under answers with exactly the batches
it has, each once. -/
theorem getAll_exact {dg : Batch → Nat} {s : Store} (hs : s.Ok dg) {ds : List Nat} (hn : ds.Nodup) :
    ((s.getAll dg ds).map dg).Nodup ∧
    (∀ b ∈ s.getAll dg ds, dg b ∈ ds ∧ s.get (dg b) = some b) ∧
    (∀ d ∈ ds, (s.get d).isSome = true → ∃ b ∈ s.getAll dg ds, dg b = d) := by
  have hmc := map_filterMap hs.1 ds
  unfold Store.getAll
  dsimp only
  split
  next he =>
    have he := isEmpty_nil he
    have hnone : ∀ d ∈ ds, s.cache d = none := by
      intro d hd
      cases hc : s.cache d with
      | none => rfl
      | some b =>
        have : b ∈ ds.filterMap s.cache := List.mem_filterMap.mpr ⟨d, hd, hc⟩
        rw [he] at this; cases this
    refine ⟨by rw [map_filterMap hs.2]; exact hn.filter _, ?_, ?_⟩
    · intro b hb
      obtain ⟨h1, h2⟩ := mem_filterMap_self hs.2 hb
      exact ⟨h1, by rw [Store.get, hnone _ h1]; exact h2⟩
    · intro d hd hg
      rw [Store.get, hnone d hd] at hg
      obtain ⟨b, hb⟩ := Option.isSome_iff_exists.mp hg
      exact ⟨b, List.mem_filterMap.mpr ⟨d, hd, hb⟩, hs.2 d b hb⟩
  next =>
  have hcached : ∀ b ∈ ds.filterMap s.cache, dg b ∈ ds ∧ s.get (dg b) = some b := by
    intro b hb
    obtain ⟨h1, h2⟩ := mem_filterMap_self hs.1 hb
    exact ⟨h1, by rw [Store.get, h2]⟩
  split
  next hlt =>
    have hnc : ∀ d, d ∈ ds.filter (fun d => ! ((ds.filterMap s.cache).map dg).contains d) →
        d ∈ ds ∧ s.cache d = none := by
      intro d hd
      obtain ⟨h1, h2⟩ := List.mem_filter.mp hd
      refine ⟨h1, ?_⟩
      cases hc : s.cache d with
      | none => rfl
      | some b =>
        rw [hmc] at h2
        simp [h1, hc] at h2
    refine ⟨?_, ?_, ?_⟩
    · rw [List.map_append, map_filterMap hs.2, List.nodup_append]
      rw [show (List.filterMap s.cache ds).map dg = _ from hmc] at hnc ⊢
      refine ⟨hn.filter _, (hn.filter _).filter _, ?_⟩
      intro a ha b hb hab
      subst hab
      have := (hnc a (List.mem_filter.mp hb).1).2
      have h2 := (List.mem_filter.mp ha).2
      rw [this] at h2; cases h2
    · intro b hb
      rcases List.mem_append.mp hb with hb | hb
      · exact hcached b hb
      · obtain ⟨h1, h2⟩ := mem_filterMap_self hs.2 hb
        obtain ⟨h3, h4⟩ := hnc _ h1
        exact ⟨h3, by rw [Store.get, h4]; exact h2⟩
    · intro d hd hg
      cases hc : s.cache d with
      | some b =>
        exact ⟨b, List.mem_append.mpr (.inl (List.mem_filterMap.mpr ⟨d, hd, hc⟩)), hs.1 d b hc⟩
      | none =>
        rw [Store.get, hc] at hg
        obtain ⟨b, hb⟩ := Option.isSome_iff_exists.mp hg
        refine ⟨b, List.mem_append.mpr (.inr (List.mem_filterMap.mpr ⟨d, List.mem_filter.mpr ⟨hd, ?_⟩, hb⟩)),
          hs.2 d b hb⟩
        rw [hmc]
        simp [hc]
  next hge =>
    refine ⟨by rw [hmc]; exact hn.filter _, hcached, ?_⟩
    intro d hd _
    have hall : ds.filter (fun d => (s.cache d).isSome) = ds := by
      refine List.filter_eq_self.mpr ?_
      refine List.length_filter_eq_length_iff.mp ?_
      have := congrArg List.length hmc
      rw [List.length_map] at this
      have h2 := List.length_filter_le (fun d => (s.cache d).isSome) ds
      omega
    rw [← hall, ← hmc] at hd
    obtain ⟨b, hb, rfl⟩ := List.mem_map.mp hd
    exact ⟨b, hb, rfl⟩

theorem chunks_flatten (n : Nat) (hn : 0 < n) : ∀ (k : Nat) (l : List Nat), l.length ≤ k →
    (chunks n k l).flatten = l := by
  intro k
  induction k with
  | zero => intro l h; cases l with
    | nil => rfl
    | cons a l => simp at h
  | succ k ih =>
    intro l h
    cases l with
    | nil => rfl
    | cons a l =>
      rw [chunks, List.flatten_cons, ih _ (by rw [List.length_drop]; simp at h ⊢; omega),
        List.take_append_drop]
      intro hh; cases hh

/-- The answer of an honest responder, chunk by chunk. -/
theorem flatMap_getAll {dg : Batch → Nat} {s : Store} (hs : s.Ok dg) (cs : List (List Nat)) :
    cs.flatten.Nodup →
    ((cs.flatMap (s.getAll dg)).map dg).Nodup ∧
    (∀ b ∈ cs.flatMap (s.getAll dg), dg b ∈ cs.flatten ∧ s.get (dg b) = some b) ∧
    (∀ d ∈ cs.flatten, (s.get d).isSome = true → ∃ b ∈ cs.flatMap (s.getAll dg), dg b = d) := by
  induction cs with
  | nil => intro _; simp
  | cons c cs ih =>
    intro hn
    rw [List.flatten_cons, List.nodup_append] at hn
    obtain ⟨n1, n2, n3⟩ := hn
    obtain ⟨a1, a2, a3⟩ := getAll_exact hs n1
    obtain ⟨b1, b2, b3⟩ := ih n2
    rw [List.flatMap_cons, List.flatten_cons]
    refine ⟨?_, ?_, ?_⟩
    · rw [List.map_append, List.nodup_append]
      refine ⟨a1, b1, ?_⟩
      intro x hx y hy hxy
      obtain ⟨p, hp, rfl⟩ := List.mem_map.mp hx
      obtain ⟨q, hq, rfl⟩ := List.mem_map.mp hy
      exact n3 _ (a2 p hp).1 _ (b2 q hq).1 hxy
    · intro b hb
      rcases List.mem_append.mp hb with hb | hb
      · exact ⟨List.mem_append.mpr (.inl (a2 b hb).1), (a2 b hb).2⟩
      · exact ⟨List.mem_append.mpr (.inr (b2 b hb).1), (b2 b hb).2⟩
    · intro d hd hg
      rcases List.mem_append.mp hd with hd | hd
      · obtain ⟨b, hb, h⟩ := a3 d hd hg
        exact ⟨b, List.mem_append.mpr (.inl hb), h⟩
      · obtain ⟨b, hb, h⟩ := b3 d hd hg
        exact ⟨b, List.mem_append.mpr (.inr hb), h⟩

/-- Reading a stream of distinct requested batches, ended by `End`. -/
theorem readSync_good {dg : Batch → Nat} {req : List Nat} (bs : List Batch) :
    ∀ {acc : List (Nat × Batch)}, (acc.map (·.1) ++ bs.map dg).Nodup →
      (∀ d ∈ acc.map (·.1) ++ bs.map dg, d ∈ req) →
      readSync dg req acc (bs.map (fun b => .data (some b)) ++ [.fin]) =
        some (acc ++ bs.map (fun b => (dg b, b))) := by
  induction bs with
  | nil => intro acc _ _; simp [readSync]
  | cons b bs ih =>
    intro acc hn hr
    have hlen : acc.length < req.length := by
      have := (List.subperm_of_subset hn (l₂ := req) hr).length_le
      simp at this; omega
    have hmem : dg b ∈ req := hr _ (by simp)
    have hnew : dg b ∉ acc.map (·.1) := by
      rw [List.nodup_append] at hn
      exact fun h => hn.2.2 _ h _ (by simp) rfl
    rw [List.map_cons, List.cons_append, readSync, if_neg (by omega), if_neg (by simpa using hmem),
      if_neg (by simpa using hnew), ih]
    · simp
    · rw [List.map_append, List.append_assoc]; exact hn
    · rw [List.map_append, List.append_assoc]; exact hr

theorem asked_sub (req : List Nat) : ∀ d ∈ asked req, d ∈ req := by
  intro d hd
  unfold asked at hd
  split at hd
  · exact List.mem_of_mem_take hd
  · exact hd

theorem asked_nodup {req : List Nat} (h : req.Nodup) : (asked req).Nodup := by
  unfold asked
  split
  · exact h.sublist (List.take_sublist ..)
  · exact h

theorem asked_asked (req : List Nat) : asked (asked req) = asked req := by
  unfold asked
  split
  · rw [if_neg]
    rw [List.length_take]; omega
  · rfl

/-- The exchange with a responder that follows the protocol: the requester gets every batch the responder
has among those asked for. -/
theorem exchange_complete {dg : Batch → Nat} {s : Store} (hs : s.Ok dg) {req : List Nat} (hn : req.Nodup) :
    ∃ bs, readSync dg (asked req) [] (serve dg s (asked req)) = some bs ∧
      ∀ d ∈ asked req, (s.get d).isSome = true → d ∈ bs.map (·.1) := by
  have hc := chunks_flatten chunkSize (by decide) (asked req).length (asked req) (Nat.le_refl _)
  obtain ⟨h1, h2, h3⟩ := flatMap_getAll hs (chunks chunkSize (asked req).length (asked req))
    (by rw [hc]; exact asked_nodup hn)
  rw [hc] at h2 h3
  refine ⟨((chunks chunkSize (asked req).length (asked req)).flatMap (s.getAll dg)).map
    (fun b => (dg b, b)), ?_, ?_⟩
  · unfold serve
    rw [asked_asked]
    rw [readSync_good (acc := []), List.nil_append]
    · simpa using h1
    · intro d hd
      simp only [List.map_nil, List.nil_append] at hd
      obtain ⟨b, hb, rfl⟩ := List.mem_map.mp hd
      exact (h2 b hb).1
  · intro d hd hg
    obtain ⟨b, hb, rfl⟩ := h3 d hd hg
    simp only [List.map_map, List.mem_map]
    exact ⟨b, hb, rfl⟩

/-- The behaviour of a connected peer that follows the protocol and has this store. -/
def responder (dg : Batch → Nat) (s : Store) : Peer := fun req => some (serve dg s req)

theorem onePeer_sub {dg : Batch → Nat} (p : Peer) {req acc} (hn : req.Nodup) :
    ∀ d ∈ (onePeer dg p req acc).1, d ∈ req := by
  intro d hd
  unfold onePeer at hd
  split at hd
  · exact hd
  split at hd
  · exact hd
  split at hd
  · exact hd
  · exact ((takeBatches_left _ hn d).mp hd).1

theorem onePeer_nodup {dg : Batch → Nat} (p : Peer) {req acc} (hn : req.Nodup) :
    (onePeer dg p req acc).1.Nodup := by
  have : ∀ (bs : List (Nat × Batch)) (req : List Nat) (acc), req.Nodup → (takeBatches req acc bs).1.Nodup := by
    intro bs
    induction bs with
    | nil => intro req acc h; exact h
    | cons x bs ih =>
      intro req acc h
      obtain ⟨d, b⟩ := x
      rw [takeBatches]
      split
      · exact ih _ _ (h.erase d)
      · exact ih _ _ h
  unfold onePeer
  split
  · exact hn
  split
  · exact hn
  split
  · exact hn
  · exact this _ _ _ hn

theorem onePeer_responder {dg : Batch → Nat} {s : Store} (hs : s.Ok dg) {req acc} (hn : req.Nodup)
    (hlen : req.length ≤ maxDigests) :
    ∀ d, (s.get d).isSome = true → d ∉ (onePeer dg (responder dg s) req acc).1 := by
  intro d hg hd
  have hreq := onePeer_sub _ hn d hd
  have hask : asked req = req := by unfold asked; rw [if_neg (by omega)]
  obtain ⟨bs, h1, h2⟩ := exchange_complete hs hn
  unfold onePeer at hd
  split at hd
  next he => rw [isEmpty_nil he] at hreq; cases hreq
  simp only [responder] at hd
  rw [h1] at hd
  exact ((takeBatches_left _ hn d).mp hd).2 (h2 d (by rw [hask]; exact hreq) hg)

theorem nodup_len {a b : List Nat} (ha : a.Nodup) (h : ∀ x ∈ a, x ∈ b) : a.length ≤ b.length :=
  (List.subperm_of_subset ha h).length_le

theorem allPeers_sub {dg : Batch → Nat} (ps : List Peer) : ∀ {req acc}, req.Nodup →
    ∀ d ∈ (allPeers dg req acc ps).1, d ∈ req := by
  induction ps with
  | nil => intro req acc _ d hd; exact hd
  | cons p ps ih => intro req acc hn d hd; exact onePeer_sub p hn d (ih (onePeer_nodup p hn) d hd)

theorem allPeers_responder {dg : Batch → Nat} {s : Store} (hs : s.Ok dg) (ps : List Peer)
    (hp : responder dg s ∈ ps) : ∀ {req acc}, req.Nodup → req.length ≤ maxDigests →
    ∀ d, (s.get d).isSome = true → d ∉ (allPeers dg req acc ps).1 := by
  induction ps with
  | nil => cases hp
  | cons p ps ih =>
    intro req acc hn hlen d hg hd
    rw [allPeers] at hd
    by_cases he : p = responder dg s
    · subst he
      exact onePeer_responder hs hn hlen d hg (allPeers_sub ps (onePeer_nodup _ hn) d hd)
    · rcases List.mem_cons.mp hp with h | h
      · exact he h.symm
      · exact ih h (onePeer_nodup p hn)
          (Nat.le_trans (nodup_len (onePeer_nodup p hn) (onePeer_sub p hn)) hlen) d hg hd

theorem requestBatches_sub {dg : Batch → Nat} (n : Nat) {req : List Nat} (env : List (Option (List Peer)))
    (hn : req.Nodup) : ∀ d ∈ (requestBatches dg n req env).1, d ∈ req := by
  have := request_exact (dg := dg) n env hn
  revert this
  generalize requestBatches dg n req env = q
  obtain ⟨left, res⟩ := q
  cases res with
  | none => intro h d hd; exact (show left = req from h) ▸ hd
  | some bs => intro h d hd; exact ((show Split dg req left bs from h).cover d).mpr (.inl hd)

/-- If a peer that follows the protocol is connected at the first attempt, then no digest it has is
missing afterwards. -/
theorem request_gets {dg : Batch → Nat} {s : Store} (hs : s.Ok dg) {req : List Nat} {ps : List Peer}
    {rest : List (Option (List Peer))} (n : Nat) (hn : req.Nodup) (hlen : req.length ≤ maxDigests)
    (hp : responder dg s ∈ ps) : ∀ d, (s.get d).isSome = true →
      d ∉ (requestBatches dg (n + 1) req (some ps :: rest)).1 := by
  intro d hg hd
  have hall := allPeers_responder hs ps hp (acc := []) hn hlen d hg
  have hne : ¬ ps.isEmpty = true := fun h => by rw [isEmpty_nil h] at hp; cases hp
  rw [requestBatches, if_neg hne] at hd
  dsimp only at hd
  split at hd
  · exact hall hd
  · exact hall (requestBatches_sub n rest (Split.peers ps (Split.init hn)).nodup d hd)

/-- In this pass the batch is within reach: in the node's own store, or held by a peer that follows the
protocol and is connected at the first attempt. -/
def Pass.Reaches (dg : Batch → Nat) (p : Pass) (d : Nat) : Prop :=
  (p.store.Ok dg ∧ (p.store.get d).isSome = true) ∨
  ∃ (s : Store) (ps : List Peer) (rest : List (Option (List Peer))), s.Ok dg ∧ (s.get d).isSome = true ∧
    p.attempts = some ps :: rest ∧ responder dg s ∈ ps

theorem onePass_progress {dg : Batch → Nat} {p : Pass} {l : Loop} (hn : l.missing.Nodup)
    (hlen : l.missing.length ≤ maxDigests) (hr : p.readOk = true) (hw : p.writeOk = true) :
    (∃ l', onePass dg p l = .done l') ∨
    ∃ l', onePass dg p l = .running l' ∧ l'.missing.Nodup ∧ (∀ d ∈ l'.missing, d ∈ l.missing) ∧
      ∀ d ∈ l'.missing, ¬ p.Reaches dg d := by
  unfold onePass
  split
  · exact .inl ⟨_, rfl⟩
  rw [if_neg (by rw [hr]; simp)]
  dsimp only
  have hsub1 : ∀ d ∈ (fetchLocal dg p.store l).missing, d ∈ l.missing ∧ ¬ (p.store.Ok dg ∧ (p.store.get d).isSome = true) := by
    intro d hd
    obtain ⟨h1, h2⟩ := List.mem_filter.mp hd
    refine ⟨h1, fun ⟨h3, h4⟩ => ?_⟩
    obtain ⟨b, hb, hbd⟩ := (getAll_exact h3 hn).2.2 d h1 h4
    have := (extend_isSome ((p.store.getAll dg l.missing).map (fun b => (dg b, b))) l.fetched d).mpr
      (.inl (by rw [List.map_map]; exact List.mem_map.mpr ⟨b, hb, hbd⟩))
    rw [Option.isNone_iff_eq_none] at h2
    rw [h2] at this; cases this
  have hn1 : (fetchLocal dg p.store l).missing.Nodup := hn.filter _
  generalize hl1 : fetchLocal dg p.store l = l1 at hsub1 hn1 ⊢
  split
  · exact .inl ⟨_, rfl⟩
  have hlen1 : l1.missing.length ≤ maxDigests :=
    Nat.le_trans (nodup_len hn1 (fun d hd => (hsub1 d hd).1)) hlen
  have hleft : ∀ d ∈ (requestBatches dg maxRetries l1.missing p.attempts).1, d ∈ l1.missing ∧ ¬ p.Reaches dg d := by
    intro d hd
    have h1 := requestBatches_sub maxRetries p.attempts hn1 d hd
    refine ⟨h1, ?_⟩
    rintro (h2 | ⟨s, ps, rest, h2, h3, h4, h5⟩)
    · exact (hsub1 d h1).2 h2
    · rw [h4] at hd
      exact request_gets h2 2 hn1 hlen1 h5 d h3 hd
  have hnd : (requestBatches dg maxRetries l1.missing p.attempts).1.Nodup := by
    have := request_exact (dg := dg) maxRetries p.attempts hn1
    revert this
    generalize requestBatches dg maxRetries l1.missing p.attempts = q
    obtain ⟨left, res⟩ := q
    cases res with
    | none => intro h; exact (show left = l1.missing from h) ▸ hn1
    | some bs => intro h; exact (show Split dg l1.missing left bs from h).nodup
  have hfin : ∀ (l' : Loop), l'.missing = (requestBatches dg maxRetries l1.missing p.attempts).1 →
      l'.missing.Nodup ∧ (∀ d ∈ l'.missing, d ∈ l.missing) ∧ ∀ d ∈ l'.missing, ¬ p.Reaches dg d := by
    intro l' h
    rw [h]
    exact ⟨hnd, fun d hd => (hsub1 d (hleft d hd).1).1, fun d hd => (hleft d hd).2⟩
  cases (requestBatches dg maxRetries l1.missing p.attempts).2 with
  | none => exact .inr ⟨_, rfl, hfin _ rfl⟩
  | some bs =>
    dsimp only
    split
    · exact .inr ⟨_, rfl, hfin _ rfl⟩
    · rw [if_neg (by rw [hw]; simp)]
      split
      · exact .inl ⟨_, rfl⟩
      · exact .inr ⟨_, rfl, hfin _ rfl⟩

/-- **C43, completion.** If the tables can be read and written and each requested batch is within reach in
some pass (not necessarily the same one, and whatever all other peers do), the fetch returns within these passes. -/
theorem fetch_completes {dg : Batch → Nat} {ds : List Nat} (h : ds.Nodup) (hlen : ds.length ≤ maxDigests)
    {ps : List Pass} (hok : ∀ p ∈ ps, p.readOk = true ∧ p.writeOk = true)
    (hreach : ∀ d ∈ ds, ∃ p ∈ ps, p.Reaches dg d) :
    ∃ l, fetchForPrimary dg ps (start ds) = .done l := by
  have main : ∀ (ps : List Pass) (l : Loop), l.missing.Nodup → l.missing.length ≤ maxDigests →
      (∀ p ∈ ps, p.readOk = true ∧ p.writeOk = true) → (∀ d ∈ l.missing, ∃ p ∈ ps, p.Reaches dg d) →
      ∃ l', fetchForPrimary dg ps l = .done l' := by
    intro ps
    induction ps with
    | nil =>
      intro l _ _ _ hre
      have : l.missing = [] := by
        cases hm : l.missing with
        | nil => rfl
        | cons d t =>
          obtain ⟨p, hp, _⟩ := hre d (by rw [hm]; exact List.mem_cons_self ..)
          cases hp
      exact ⟨l, by rw [fetchForPrimary, this]; rfl⟩
    | cons p ps ih =>
      intro l hn hl hok hre
      obtain ⟨hr, hw⟩ := hok p (List.mem_cons_self ..)
      rcases onePass_progress (dg := dg) hn hl hr hw with ⟨l', h1⟩ | ⟨l', h1, h2, h3, h4⟩
      · exact ⟨l', by rw [fetchForPrimary, h1]⟩
      · obtain ⟨l'', h5⟩ := ih l' h2 (Nat.le_trans (nodup_len h2 h3) hl)
          (fun q hq => hok q (List.mem_cons_of_mem _ hq)) (by
            intro d hd
            obtain ⟨q, hq, hqr⟩ := hre d (h3 d hd)
            rcases List.mem_cons.mp hq with h | h
            · exact absurd (h ▸ hqr) (h4 d hd)
            · exact ⟨q, h, hqr⟩)
        exact ⟨l'', by rw [fetchForPrimary, h1]; exact h5⟩
  exact main ps (start ds) h hlen hok hreach

/-- The map handed to the assembly of a consensus output (`Exec.assemble`) is an honest, complete one:
the hypotheses of the theorems about outputs hold for whatever the fetch returns. -/
theorem fetched_honest {P : Exec.AsmParams} {ds : List Nat} (h : ds.Nodup) {ps : List Pass} {l : Loop}
    (hd : fetchForPrimary P.digest ps (start ds) = .done l) :
    Exec.Honest P l.fetched ∧ ∀ d ∈ ds, (l.fetched d).isSome = true := by
  obtain ⟨h1, h2⟩ := (fetch_exact h ps).1 l hd
  refine ⟨h2, fun d hd => ?_⟩
  obtain ⟨b, hb, _⟩ := h1 d hd
  rw [hb]; rfl

/-! ## Example: one batch in the cache, one from the second peer; the first peer sends junk. -/
namespace FetchEx

def b1 : Batch := { workerId := 1 }
def b2 : Batch := { workerId := 2 }
def b3 : Batch := { workerId := 3 }
def dig (b : Batch) : Nat := b.workerId + 100

def junk : Peer := fun _ => some [.data (some b3), .fin]
def good : Store := { cache := fun d => if d = 102 then some b2 else none }
def own : Store := { cache := fun d => if d = 101 then some b1 else none }

def pass : Pass := { store := own, attempts := [some [junk, responder dig good]] }

/-- The batch nobody asked for is refused, and the second peer's is taken. -/
theorem example_run :
    (match fetchForPrimary dig [pass] (start [101, 102]) with
     | .done l => decide (l.fetched 101 = some b1 ∧ l.fetched 102 = some b2 ∧ l.fetched 103 = none ∧
        l.writes = [(102, b2)])
     | _ => false) = true := by decide +kernel

theorem good_ok : good.Ok dig :=
  ⟨fun d b h => by
    simp only [good] at h; split at h <;> simp at h; subst h; next h => rw [h]; rfl,
   fun d b h => by cases h⟩

/-- The hypotheses of `fetch_completes` are met. -/
theorem example_reaches : ∀ d ∈ [101, 102], ∃ p ∈ [pass], p.Reaches dig d := by
  intro d hd
  refine ⟨pass, List.mem_singleton.mpr rfl, ?_⟩
  simp only [List.mem_cons, List.not_mem_nil, or_false] at hd
  rcases hd with rfl | rfl
  · refine .inl ⟨⟨fun d b h => ?_, fun d b h => by cases h⟩, rfl⟩
    simp only [pass, own] at h
    split at h
    next hd => cases h; rw [hd]; rfl
    next => cases h
  · exact .inr ⟨good, [junk, responder dig good], [], good_ok, rfl, rfl, by simp⟩

end FetchEx

end Worker
end Verif
