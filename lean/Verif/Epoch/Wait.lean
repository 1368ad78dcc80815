import Verif.Epoch.Store
/-
Model of the two bounded waits of the database of epoch records, `crates/storage/src/epoch_records.rs`:
`poll_until_deadline` (567-584), used by `cert_by_digest_with_timeout` (748-754), and
`certified_record_by_epoch_with_timeout` (686-693) with `certified_record_poll` (700-716).

Times are counted in microseconds. A lookup is a message to the one background thread that serves the database
in the order of the messages, so its answer is a function of the time at which it is sent; `rt k` is how long
the caller of the `k`-th lookup then waits for the answer, and `late k` is how late the timer wakes the task
after the `k`-th sleep. Both are arbitrary.
-/
namespace Verif
namespace Poll

/-- `POLL_INTERVAL`, 47, and the sleep of `certified_record_poll`, 709: 200 ms. -/
def pollInterval : Nat := 200000

/-- The delays of one execution. -/
structure Delays where
  /-- the round trip of the `k`-th lookup -/
  rt : Nat → Nat
  /-- how late the `k`-th sleep ends -/
  late : Nat → Nat

/-- What a wait did: its value, when it returned, and when it sent each lookup. -/
structure Waited (α : Type) where
  value : α
  finish : Nat
  sent : List Nat

/-- The loop of `poll_until_deadline`, 573-583, whose `k`-th lookup is sent at `t`. The deadline is tested
before the sleep, and the sleep ends at the deadline at the latest. -/
def pollFrom {V : Type} (E : Delays) (look : Nat → Option V) (deadline : Nat) (k t : Nat) : Waited (Option V) :=
  let now := t + E.rt k
  match look t with
  | some v => ⟨some v, now, [t]⟩
  | none =>
    if _h : deadline ≤ now then ⟨none, now, [t]⟩
    else
      let r := pollFrom E look deadline (k + 1) (min deadline (now + pollInterval) + E.late k)
      ⟨r.value, r.finish, t :: r.sent⟩
termination_by deadline - t
decreasing_by
  have : 0 < pollInterval := by decide
  omega

/-- `poll_until_deadline`, 567-584, called at `t0`. -/
def pollUntil {V : Type} (E : Delays) (look : Nat → Option V) (timeout t0 : Nat) : Waited (Option V) :=
  pollFrom E look (t0 + timeout) 0 t0

/-- `CertifiedRecordError`, 313-330, with the storage error. -/
inductive Err where
  | missingRecord
  | missingCertificate
  | invalidCertificate
  | storage
deriving DecidableEq, Repr

/-- `CertifiedRecordError::is_retryable`, 339-347. -/
def Err.retryable : Err → Bool
  | missingRecord => true
  | missingCertificate => true
  | invalidCertificate => false
  | storage => false

/-- What the database answers to a message sent at a time: `none` is a failure to read or an unreachable
thread, `some none` is an absent entry. -/
structure Reads where
  /-- `TryRecordByEpoch` of the epoch asked for -/
  record : Nat → Option (Option Ep.Rec)
  /-- `TryCertByDigest` -/
  cert : Nat → Nat → Option (Option Ep.Cert)

/-- `certified_record_by_epoch`, 610-628, with `certified_read_record` (635-655) and `certified_read_cert`
(659-679): the record is read at `t`, and the certificate of its digest once that answer is there, at `t'`. -/
def attempt (B : Bls) (dig : Ep.Rec → Nat) (R : Reads) (t t' : Nat) : Except Err Ep.Rec :=
  match R.record t with
  | none => .error .storage
  | some none => .error .missingRecord
  | some (some r) =>
    match R.cert t' (dig r) with
    | none => .error .storage
    | some none => .error .missingCertificate
    | some (some c) => if Ep.verifyWithCert B dig r c then .ok r else .error .invalidCertificate

/-- The test `outcome.err().is_some_and(is_retryable)`, 706 and 711. -/
def again : Except Err Ep.Rec → Bool
  | .ok _ => false
  | .error e => e.retryable

/-- The loop of `certified_record_poll`, 705-714, whose `k`-th attempt starts at `t`: `rt (2k)` is the round
trip of the record and `rt (2k+1)` that of the certificate. (When the record is absent the second message is
not sent; the model lets the time of that round trip be anything all the same.) The sleep is not cut at the
deadline. -/
def certFrom (B : Bls) (dig : Ep.Rec → Nat) (E : Delays) (R : Reads) (deadline : Nat) (k t : Nat) :
    Waited (Except Err Ep.Rec) :=
  let t' := t + E.rt (2 * k)
  let now := t' + E.rt (2 * k + 1)
  let out := attempt B dig R t t'
  if _h : again out = true ∧ now < deadline then
    let r := certFrom B dig E R deadline (k + 1) (now + pollInterval + E.late k)
    ⟨r.value, r.finish, t :: r.sent⟩
  else ⟨out, now, [t]⟩
termination_by deadline - t
decreasing_by
  have : 0 < pollInterval := by decide
  have := _h.2
  omega

/-- `certified_record_by_epoch_with_timeout`, 686-693, called at `t0`. -/
def certUntil (B : Bls) (dig : Ep.Rec → Nat) (E : Delays) (R : Reads) (timeout t0 : Nat) :
    Waited (Except Err Ep.Rec) :=
  certFrom B dig E R (t0 + timeout) 0 t0

end Poll
end Verif
