import Verif.Wire.MessageProps
/-
The frames of a bulk-sync exchange: crates/network-libp2p/src/sync/frame.rs, and the primary's requests:
crates/network-libp2p/src/sync/request.rs.
-/
namespace Verif
namespace Wire

open Codec (Byte Bytes)

/-- `DenyReason` (frame.rs:51-59). -/
inductive DenyReason where
  | atCapacity
  | unavailable
deriving DecidableEq

/-- `SyncFrameError` (frame.rs:61-68). -/
inductive FrameError where
  | internal
  | malformed
deriving DecidableEq

/-- `SyncFrame` (frame.rs:26-49). -/
inductive Frame (R : Type) where
  | req (r : R)
  | ack
  | deny (d : DenyReason)
  | data (b : Bytes)
  | done
  | err (e : FrameError)
deriving DecidableEq

/-- BCS of an enum: the variant's index (ULEB128), then its fields. The index selects a decoder for the rest. -/
def tagged {α : Type} (tag : α → Nat) (body : α → Bytes) (read : Nat → Bytes → Option (α × Bytes)) : Codec.Codec α where
  enc a := Codec.len.enc (tag a) ++ body a
  dec b := match Codec.len.dec b with
    | none => none
    | some (t, r) => read t r

theorem tagged_ok {α : Type} {tag : α → Nat} {body : α → Bytes} {read : Nat → Bytes → Option (α × Bytes)} {P : α → Prop}
    (ht : ∀ a, tag a ≤ Codec.maxLen) (h : ∀ a, P a → ∀ rest, read (tag a) (body a ++ rest) = some (a, rest)) :
    (tagged tag body read).Ok P := by
  intro a ha rest
  simp only [tagged]
  rw [List.append_assoc, Codec.len_ok (tag a) (ht a)]
  exact h a ha rest

/-- `DenyReason`: a unit variant. -/
def denyCodec : Codec.Codec DenyReason :=
  tagged (fun | .atCapacity => 0 | .unavailable => 1) (fun _ => [])
    (fun t r => if t = 0 then some (.atCapacity, r) else if t = 1 then some (.unavailable, r) else none)

theorem denyCodec_ok : denyCodec.Ok (fun _ => True) :=
  tagged_ok (by intro a; cases a <;> decide) (by intro a _ rest; cases a <;> rfl)

/-- `SyncFrameError`: a unit variant. -/
def errCodec : Codec.Codec FrameError :=
  tagged (fun | .internal => 0 | .malformed => 1) (fun _ => [])
    (fun t r => if t = 0 then some (.internal, r) else if t = 1 then some (.malformed, r) else none)

theorem errCodec_ok : errCodec.Ok (fun _ => True) :=
  tagged_ok (by intro a; cases a <;> decide) (by intro a _ rest; cases a <;> rfl)

/-- The frame's index on the wire (frame.rs:26-49; pinned by `frame_tags_are_stable`). -/
def Frame.tag {R : Type} : Frame R → Nat
  | .req _ => 0
  | .ack => 1
  | .deny _ => 2
  | .data _ => 3
  | .done => 4
  | .err _ => 5

def Frame.body {R : Type} (c : Codec.Codec R) : Frame R → Bytes
  | .req r => c.enc r
  | .ack => []
  | .deny d => denyCodec.enc d
  | .data b => Codec.bytes.enc b
  | .done => []
  | .err e => errCodec.enc e

def Frame.read {R : Type} (c : Codec.Codec R) (t : Nat) (r : Bytes) : Option (Frame R × Bytes) :=
  if t = 0 then (c.dec r).map (fun x => (.req x.1, x.2))
  else if t = 1 then some (.ack, r)
  else if t = 2 then (denyCodec.dec r).map (fun x => (.deny x.1, x.2))
  else if t = 3 then (Codec.bytes.dec r).map (fun x => (.data x.1, x.2))
  else if t = 4 then some (.done, r)
  else if t = 5 then (errCodec.dec r).map (fun x => (.err x.1, x.2))
  else none

/-- The codec of frames whose requests are encoded by `c`. -/
def frame {R : Type} (c : Codec.Codec R) : Codec.Codec (Frame R) := tagged Frame.tag (Frame.body c) (Frame.read c)

/-- The frames that can be encoded. -/
def Frame.Fits {R : Type} (P : R → Prop) : Frame R → Prop
  | .req r => P r
  | .data b => b.length ≤ Codec.maxLen
  | _ => True

/-- **Every frame is read back as itself.** -/
theorem frame_ok {R : Type} {c : Codec.Codec R} {P : R → Prop} (hc : c.Ok P) : (frame c).Ok (Frame.Fits P) := by
  apply tagged_ok
  · intro a; cases a <;> simp only [Frame.tag, Codec.maxLen] <;> omega
  · intro a ha rest
    cases a with
    | req r => simp only [Frame.read, Frame.tag, Frame.body]; rw [if_pos trivial, hc r ha]; rfl
    | ack => rfl
    | deny d =>
      simp only [Frame.read, Frame.tag, Frame.body]
      rw [if_neg (by omega), if_neg (by omega), if_pos trivial, denyCodec_ok d trivial]; rfl
    | data b =>
      simp only [Frame.read, Frame.tag, Frame.body]
      rw [if_neg (by omega), if_neg (by omega), if_neg (by omega), if_pos trivial, Codec.bytes_ok b ha]; rfl
    | done => rfl
    | err e =>
      simp only [Frame.read, Frame.tag, Frame.body]
      rw [if_neg (by omega), if_neg (by omega), if_neg (by omega), if_neg (by omega), if_neg (by omega), if_pos trivial,
        errCodec_ok e trivial]
      rfl

/-- The bytes of the frames that carry no payload are those pinned in frame.rs:155-167. -/
theorem frame_bytes {R : Type} (c : Codec.Codec R) (r : R) :
    (frame c).enc (.req r) = 0 :: c.enc r ∧ (frame c).enc .ack = [1] ∧
    (frame c).enc (.deny .atCapacity) = [2, 0] ∧ (frame c).enc (.deny .unavailable) = [2, 1] ∧
    (frame c).enc (.data []) = [3, 0] ∧ (frame c).enc .done = [4] ∧
    (frame c).enc (.err .internal) = [5, 0] ∧ (frame c).enc (.err .malformed) = [5, 1] :=
  ⟨rfl, rfl, rfl, rfl, rfl, rfl, rfl, rfl⟩

theorem ulebEnc_le (fuel n : Nat) : (Codec.ulebEnc fuel n).length ≤ fuel := by
  induction fuel generalizing n with
  | zero => simp [Codec.ulebEnc]
  | succ fuel ih =>
    simp only [Codec.ulebEnc]
    split
    · simp
    · have := ih (n / 128)
      simp only [List.length_cons]
      omega

theorem lenEnc_le (n : Nat) : (Codec.len.enc n).length ≤ 5 := ulebEnc_le 5 n

/-- A data frame is at most six bytes longer than its payload. -/
theorem data_length {R : Type} (c : Codec.Codec R) (b : Bytes) :
    ((frame c).enc (.data b)).length ≤ b.length + 6 := by
  have h : (frame c).enc (.data b) = Codec.len.enc 3 ++ (Codec.len.enc b.length ++ b) := rfl
  have h3 : (Codec.len.enc 3).length = 1 := rfl
  have := lenEnc_le b.length
  rw [h, List.length_append, List.length_append]
  omega

/-- A payload is shorter than its frame. -/
theorem data_length_ge {R : Type} (c : Codec.Codec R) (b : Bytes) :
    b.length + 2 ≤ ((frame c).enc (.data b)).length := by
  have h : (frame c).enc (.data b) = Codec.len.enc 3 ++ (Codec.len.enc b.length ++ b) := rfl
  have h3 : (Codec.len.enc 3).length = 1 := rfl
  have : 1 ≤ (Codec.len.enc b.length).length := Codec.ulebEnc_pos 5 b.length (by omega)
  rw [h, List.length_append, List.length_append]
  omega

theorem ulebDec_le {fuel : Nat} {first : Bool} {b r : Bytes} {n : Nat} (h : Codec.ulebDec fuel first b = some (n, r)) :
    r.length ≤ b.length := by
  induction fuel generalizing first b n with
  | zero => cases h
  | succ fuel ih =>
    cases b with
    | nil => cases h
    | cons x b =>
      simp only [Codec.ulebDec] at h
      split at h
      · split at h
        · cases h
        · cases h; simp
      · split at h
        · cases h
        · rename_i hr
          cases h
          have := ih hr
          simp only [List.length_cons]; omega

theorem lenDec_le {b r : Bytes} {n : Nat} (h : Codec.len.dec b = some (n, r)) : r.length ≤ b.length := by
  simp only [Codec.len] at h
  split at h
  · cases h
  · rename_i hr
    split at h
    · cases h; exact ulebDec_le hr
    · cases h

theorem bytesDec_le {b : Bytes} {x : Bytes × Bytes} (h : Codec.bytes.dec b = some x) : x.1.length ≤ b.length := by
  simp only [Codec.bytes] at h
  split at h
  · cases h
  · rename_i n r hr
    have := lenDec_le hr
    simp only [Codec.raw] at h
    split at h
    · cases h
    · cases h
      rw [List.length_take]; omega

/-! ### The primary's requests -/

/-- `PrimarySyncRequest` (request.rs:39-83). An authority is named by its 32 raw bytes. -/
inductive Request where
  | epochPack (epoch : Nat)
  | missingCertificates (lower : Nat) (skip : List (Bytes × Bytes))
  | epochPackPartial (epoch last : Nat)
  | consensusOutput (number : Nat)
deriving DecidableEq

def skipCodec : Codec.Codec (List (Bytes × Bytes)) := Codec.seq (Codec.pair (Codec.raw 32) Codec.bytes)

def Request.tag : Request → Nat
  | .epochPack _ => 0
  | .missingCertificates _ _ => 1
  | .epochPackPartial _ _ => 2
  | .consensusOutput _ => 3

def Request.body : Request → Bytes
  | .epochPack e => (Codec.uint 4).enc e
  | .missingCertificates l s => (Codec.pair (Codec.uint 4) skipCodec).enc (l, s)
  | .epochPackPartial e n => (Codec.pair (Codec.uint 4) (Codec.uint 8)).enc (e, n)
  | .consensusOutput n => (Codec.uint 8).enc n

def Request.read (t : Nat) (r : Bytes) : Option (Request × Bytes) :=
  if t = 0 then ((Codec.uint 4).dec r).map (fun x => (.epochPack x.1, x.2))
  else if t = 1 then ((Codec.pair (Codec.uint 4) skipCodec).dec r).map (fun x => (.missingCertificates x.1.1 x.1.2, x.2))
  else if t = 2 then
    ((Codec.pair (Codec.uint 4) (Codec.uint 8)).dec r).map (fun x => (.epochPackPartial x.1.1 x.1.2, x.2))
  else if t = 3 then ((Codec.uint 8).dec r).map (fun x => (.consensusOutput x.1, x.2))
  else none

def request : Codec.Codec Request := tagged Request.tag Request.body Request.read

/-- The requests that exist: 32-bit epochs and rounds, 64-bit numbers, 32-byte authorities. -/
def Request.Fits : Request → Prop
  | .epochPack e => e < 256 ^ 4
  | .missingCertificates l s => l < 256 ^ 4 ∧ s.length ≤ Codec.maxLen ∧
      ∀ x ∈ s, x.1.length = 32 ∧ x.2.length ≤ Codec.maxLen
  | .epochPackPartial e n => e < 256 ^ 4 ∧ n < 256 ^ 8
  | .consensusOutput n => n < 256 ^ 8

theorem request_ok : request.Ok Request.Fits := by
  apply tagged_ok
  · intro a; cases a <;> simp only [Request.tag, Codec.maxLen] <;> omega
  · intro a ha rest
    cases a with
    | epochPack e =>
      simp only [Request.read, Request.tag, Request.body]
      rw [if_pos trivial, Codec.uint_ok 4 e ha]; rfl
    | missingCertificates l s =>
      simp only [Request.read, Request.tag, Request.body, skipCodec]
      rw [if_neg (by omega), if_pos trivial,
        Codec.pair_ok (Codec.uint_ok 4) (Codec.seq_ok (Codec.pair_ok (Codec.raw_ok 32) Codec.bytes_ok)) (l, s)
          ⟨ha.1, ha.2.1, ha.2.2⟩]
      rfl
    | epochPackPartial e n =>
      simp only [Request.read, Request.tag, Request.body]
      rw [if_neg (by omega), if_neg (by omega), if_pos trivial,
        Codec.pair_ok (Codec.uint_ok 4) (Codec.uint_ok 8) (e, n) ha]
      rfl
    | consensusOutput n =>
      simp only [Request.read, Request.tag, Request.body]
      rw [if_neg (by omega), if_neg (by omega), if_neg (by omega), if_pos trivial, Codec.uint_ok 8 n ha]; rfl

end Wire
end Verif
