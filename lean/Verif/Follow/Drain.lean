import Verif.Follow.Ledger
/-
Property C77, second part: how a node that does not take part in consensus (an observer, or a validator catching
up) gets the consensus chain: crates/state-sync/src/consensus.rs 138-200, 472-520, 525-715 (the backward walks that
fill the cache), crates/state-sync/src/lib.rs 212-455 (the forward drain) and
crates/consensus/executor/src/subscriber.rs 142-250 with crates/storage/src/consensus.rs 746-786 (saving).

Simplifications. An output is its header (its batches are fixed by the header's digest, C37 and C40). All local packs
(current, static, staged) are one map `pack`; the open interval of the current pack is its `next` number. What a peer
sends is any header at all; the walk keeps it exactly when its digest is the one asked for
(`request_consensus_output`, C75). Gossip that starts a walk carries the digest of the header the committee signed
(C21), so a walk starts at a true digest. Waiting for execution in the drain only delays it; a failure there is a fork
of the execution chain and ends the task, like any step not taken here. `retry` leaves the state as it is.
-/
namespace Verif
namespace Follow

/-- `ConsensusHeader`. -/
structure Hdr (D S : Type) where
  parent : D
  sub : S
  num : Nat

/-- `ConsensusHeader::digest` and `digest_from_parts` are one function of the three fields. -/
structure World (D S : Type) where
  H : D → S → Nat → D
  /-- `sub_dag.leader_epoch()` -/
  ep : S → Nat
  /-- the chain the committees signed; entry 0 is the default header -/
  chain : Nat → Hdr D S

variable {D S : Type}

def World.dig (w : World D S) (h : Hdr D S) : D := w.H h.parent h.sub h.num

/-- The digest is collision free, and the chain is a chain. -/
structure World.Ok (w : World D S) : Prop where
  inj : ∀ p s n p' s' n', w.H p s n = w.H p' s' n' → p = p' ∧ s = s' ∧ n = n'
  num : ∀ n, (w.chain n).num = n
  link : ∀ n, (w.chain (n + 1)).parent = w.dig (w.chain n)

theorem World.Ok.dig_inj {w : World D S} (ok : w.Ok) {a b : Hdr D S} (h : w.dig a = w.dig b) : a = b := by
  obtain ⟨h1, h2, h3⟩ := ok.inj _ _ _ _ _ _ h
  cases a; cases b
  dsimp only at h1 h2 h3
  rw [h1, h2, h3]

/-- A download walk (`get_consensus_header_range`, consensus.rs:474-520): the height it is at, the digest it asks for,
the range it has reserved. `run` only says in which run of the node it began, for the statements below. -/
structure Walk (D : Type) where
  num : Nat
  hash : D
  floor : Nat
  top : Nat
  run : Nat

/-- The node. `last` is the header the drain has got to (`last_consensus_header`, lib.rs:227), `target` the newest header
known (`pending_header`), `latest` the last number saved, `next` the end of the current pack, `queue` what is on its way
to the subscriber, `saved` what it has saved since the process started, `failed` whether the drain or the subscriber
ended with an error. Only for the statements below: `base` is the last number saved when the process started, `lost` and
`everLost` say whether the broadcast channel dropped something in this run and in this process, `run` counts runs. -/
structure Node (D S : Type) where
  cache : Nat → Option (Hdr D S)
  pack : Nat → Option (Hdr D S)
  walks : List (Walk D)
  epoch : Nat
  last : Hdr D S
  target : Nat
  ended : Bool
  queue : List (Hdr D S)
  latest : Nat
  opened : Bool
  next : Nat
  saved : List (Hdr D S)
  failed : Bool
  base : Nat
  lost : Bool
  everLost : Bool
  run : Nat

def put {V : Type} (f : Nat → Option V) (k : Nat) (v : Option V) : Nat → Option V := fun j => if j = k then v else f j

/-- The ledger the walks of a node have. -/
def ledgerOf (ws : List (Walk D)) : Ledger := ⟨0, ws.map (fun x => ⟨0, x.floor, x.top⟩)⟩

/-- `Continue(number, hash)` in `get_consensus_header_range` (consensus.rs:495-502): go on, or end below the floor. -/
def Walk.down (x : Walk D) (n : Nat) (h : D) : List (Walk D) :=
  if n < x.floor then [] else [{ x with num := n, hash := h }]

/-- `Continue(number - 1, parent)` or `Done` at height 0 (consensus.rs:169-174, 194-198). -/
def Walk.after (x : Walk D) (n : Nat) (parent : D) : List (Walk D) := if 0 < n then x.down (n - 1) parent else []

/-- `get_consensus_output` (consensus.rs:151-200) with the answer `r` of the network; what is left of the walk, and the
cache. -/
def fetchOne [DecidableEq D] (w : World D S) (cache pack : Nat → Option (Hdr D S)) (x : Walk D) (r : Option (Hdr D S)) :
    List (Walk D) × (Nat → Option (Hdr D S)) :=
  if (pack x.num).isSome then ([], cache)
  else match cache x.num with
    | some h => (x.after h.num h.parent, cache)
    | none => match r with
      | none => ([x], cache)
      | some h => if w.dig h = x.hash then (x.after x.num h.parent, put cache x.num (some h)) else ([x], cache)

/-- The output for a height: cache first, then packs (lib.rs:373-382). -/
def resolve (cache pack : Nat → Option (Hdr D S)) (n : Nat) : Option (Hdr D S) := (cache n).or (pack n)

/-- One round of the loop in `catch_up_consensus_from_to` (lib.rs:368-452), for the height after `last`. A missing output
ends the call with nothing changed, and the caller tries again. -/
def drainOne [DecidableEq D] (w : World D S) (s : Node D S) : Node D S :=
  match resolve s.cache s.pack (s.last.num + 1) with
  | none => s
  | some h =>
    if w.ep h.sub > s.epoch then { s with ended := true }
    else if w.H (w.dig s.last) h.sub (s.last.num + 1) ≠ w.dig h then
      { s with cache := put s.cache (s.last.num + 1) none, failed := true }
    else if h.num ≤ s.latest then { s with cache := put s.cache (s.last.num + 1) none, last := h }
    else { s with cache := put s.cache (s.last.num + 1) none, last := h, queue := s.queue ++ [h] }

/-- `handle_sync_output` and `save_consensus_output` (subscriber.rs:147-170, storage consensus.rs:746-786,
consensus_pack.rs:1036-1063) for the first output in the channel. -/
def saveOne (w : World D S) (s : Node D S) : Node D S :=
  match s.queue with
  | [] => s
  | h :: q =>
    if w.ep h.sub > s.epoch then { s with queue := q }
    else if h.num ≤ s.latest then { s with queue := q, failed := true }
    else if w.ep h.sub ≠ s.epoch then { s with queue := q, failed := true }
    else if h.num < s.next then { s with queue := q, latest := h.num, saved := s.saved ++ [h] }
    else if s.opened ∧ h.num = s.next then
      { s with queue := q, latest := h.num, saved := s.saved ++ [h], next := s.next + 1,
               pack := put s.pack h.num (some h) }
    else { s with queue := q, failed := true }

/-- What can happen. -/
inductive Step [DecidableEq D] (w : World D S) : Node D S → Node D S → Prop
  /-- verified gossip names the header at height `n`: a walk down from there (consensus.rs:565-608) -/
  | gossip {s : Node D S} (n floor : Nat) : floor ≤ n →
      Step w s { s with walks := s.walks ++ [⟨n, w.dig (w.chain n), floor, n, s.run⟩] }
  /-- the drain asks for the range it misses (lib.rs:303-309); it is walked unless the walks cover it
  (consensus.rs:675-705) -/
  | gap {s : Node D S} : s.last.num + 1 ≤ s.target → covered (ledgerOf s.walks) (s.last.num + 1) s.target = false →
      Step w s { s with walks := s.walks ++ [⟨s.target, w.dig (w.chain s.target), s.last.num + 1, s.target, s.run⟩] }
  /-- one round of one walk, with any answer of the network -/
  | walk {s : Node D S} (a b : List (Walk D)) (x : Walk D) (r : Option (Hdr D S)) : s.walks = a ++ x :: b →
      Step w s { s with walks := a ++ (fetchOne w s.cache s.pack x r).1 ++ b, cache := (fetchOne w s.cache s.pack x r).2 }
  /-- a walk task dies (its guard frees the range) -/
  | dies {s : Node D S} (a b : List (Walk D)) (x : Walk D) : s.walks = a ++ x :: b → Step w s { s with walks := a ++ b }
  /-- a verified pack or staged pack arrives, height by height (C54) -/
  | imported {s : Node D S} (n : Nat) : Step w s { s with pack := put s.pack n (some (w.chain n)) }
  /-- the newest header known gets newer -/
  | newer {s : Node D S} (n : Nat) : s.target < n → Step w s { s with target := n }
  | drain {s : Node D S} : s.failed = false → s.ended = false → s.last.num < s.target → Step w s (drainOne w s)
  /-- the broadcast channel is full and drops its oldest message (`Lagged`, types/src/sync.rs:203-217) -/
  | lag {s : Node D S} (h : Hdr D S) (q : List (Hdr D S)) : s.queue = h :: q → Step w s { s with queue := q, lost := true, everLost := true }
  | save {s : Node D S} : s.failed = false → Step w s (saveOne w s)
  /-- the next epoch, or a change of mode, in the same process: new subscriber, new drain from the last executed header;
  the walks and the cache stay (lib.rs:225-228). The pack of the epoch goes on where the node is: it is open, or already holds the rest of
  the epoch; outputs after `latest` are of this epoch or later ones (C48, C49) -/
  | rerun {s : Node D S} (p e nx : Nat) (o : Bool) : s.failed = false → p ≤ s.latest → s.latest < nx →
      (∀ k, s.latest < k → k < nx → s.pack k = some (w.chain k)) →
      (∀ k, s.latest < k → w.ep (w.chain k).sub ≤ e → w.ep (w.chain k).sub = e ∧ (o = true ∨ k < nx)) →
      Step w s { s with last := w.chain p, epoch := e, ended := false, queue := [], opened := o, next := nx, lost := false,
                        run := s.run + 1 }
  /-- the process restarts: cache and walks are gone (consensus.rs:632-636) -/
  | reboot {s : Node D S} (p e nx : Nat) (o : Bool) : p ≤ s.latest → s.latest < nx →
      (∀ k, s.latest < k → k < nx → s.pack k = some (w.chain k)) →
      (∀ k, s.latest < k → w.ep (w.chain k).sub ≤ e → w.ep (w.chain k).sub = e ∧ (o = true ∨ k < nx)) →
      Step w s { s with cache := fun _ => none, walks := [], target := p, last := w.chain p, epoch := e, ended := false,
                        queue := [], opened := o, next := nx, saved := [], lost := false, failed := false,
                        base := s.latest, everLost := false, run := s.run + 1 }

/-- A node that has `b` outputs saved, and their packs. -/
def boot (w : World D S) (b : Nat) : Node D S :=
  { cache := fun _ => none, pack := fun k => if k ≤ b then some (w.chain k) else none, walks := [], epoch := 0,
    last := w.chain b, target := b, ended := true, queue := [], latest := b, opened := false, next := b + 1, saved := [],
    failed := false, base := b, lost := false, everLost := false, run := 0 }

inductive Reach [DecidableEq D] (w : World D S) (b : Nat) : Node D S → Prop
  | boot : Reach w b (boot w b)
  | step {s t : Node D S} : Reach w b s → Step w s t → Reach w b t

end Follow
end Verif
