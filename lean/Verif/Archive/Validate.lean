import Verif.Archive.Import
import Mathlib.Data.List.Dedup
/-
Model of the offline validation of an epoch's pack file: `validate_pack_file`
(`crates/storage/src/pack_validate.rs` 186-255), `verify_v0_data` 257-359, `verify_v1_data` 361-461,
`close_v1_group` 463-513 and `finalize_report` 515-556.

The file is the list of what the iterator over the records returns (`none`: a record that cannot be read), as in
`Verif.Import`. Opening the file is not modelled. Numbers are unbounded. The issues of one group that come from a
hash set have no fixed order in the code; here they are in the order of the file.
-/
namespace Verif
namespace Import

/-- `PackIssue`, pack_validate.rs:67-117; `misordered`: the class of a missing batch. -/
inductive Issue where
  | chainBreak (number expected found : Nat)
  | missing (number digest : Nat) (misordered : Bool)
  | extra (number digest : Nat)
  | unsorted (number : Nat)
  | nonSeq (expected found : Nat)
  | metaMismatch
deriving DecidableEq, Repr

/-- Numbering, pack_validate.rs:301-307, 414-420. -/
def seqIssue (start count : Nat) (h : CHdr) : List Issue :=
  if h.number = start + count then [] else [.nonSeq (start + count) h.number]

/-- The chain, pack_validate.rs:310-318, 421-429. -/
def chainIssue (parent : Option Nat) (h : CHdr) : List Issue :=
  match parent with
  | none => []
  | some p => if h.parent = p then [] else [.chainBreak h.number p h.parent]

/-- Referenced batches that are not in the group, pack_validate.rs:323-335, 471-484. -/
def missingIssues (h : CHdr) (bs : List Nat) : List Issue :=
  (h.digests.filter (fun d => !decide (d ∈ bs))).map (fun d => .missing h.number d false)

/-- Batches in the group that are not referenced, pack_validate.rs:340-342, 487-493. -/
def extraIssues (h : CHdr) (bs : List Nat) : List Issue :=
  (bs.dedup.filter (fun d => !decide (d ∈ h.digests))).map (fun d => .extra h.number d)

/-- The order of a group that is right as a set, pack_validate.rs:499-504. -/
def orderIssue (h : CHdr) (bs : List Nat) : List Issue :=
  if missingIssues h bs = [] ∧ extraIssues h bs = [] ∧ bs ≠ h.expected then [.unsorted h.number] else []

/-- `close_v1_group`, pack_validate.rs:463-513. -/
def closeGroup (h : CHdr) (bs : List Nat) : List Issue := missingIssues h bs ++ extraIssues h bs ++ orderIssue h bs

/-- `verify_v0_data`, pack_validate.rs:257-359: `bs` are the digests of the open group. -/
def walk0 (E : Env) (start : Nat) : List Rec → List Nat → Option Nat → Nat → List Issue
  | [], _, _, _ => []
  | .epoch _ :: rs, bs, parent, n => .metaMismatch :: walk0 E start rs bs parent n
  | .bat b :: rs, bs, parent, n => walk0 E start rs (bs ++ [E.bdig b]) parent n
  | .hdr h :: rs, bs, parent, n =>
    seqIssue start n h ++ chainIssue parent h ++ missingIssues h bs ++ extraIssues h bs ++
      walk0 E start rs [] (some (E.dig h)) (n + 1)

/-- `verify_v1_data`, pack_validate.rs:361-461: the open header and the digests collected. Batches before the
first header go to its group. -/
def walk1 (E : Env) (start : Nat) : List Rec → Option CHdr → List Nat → Option Nat → Nat → List Issue
  | [], none, _, _, _ => []
  | [], some h, bs, _, _ => closeGroup h bs
  | .epoch _ :: rs, o, bs, parent, n => .metaMismatch :: walk1 E start rs o bs parent n
  | .bat b :: rs, o, bs, parent, n => walk1 E start rs o (bs ++ [E.bdig b]) parent n
  | .hdr h :: rs, none, bs, parent, n =>
    seqIssue start n h ++ chainIssue parent h ++ walk1 E start rs (some h) bs (some (E.dig h)) (n + 1)
  | .hdr h :: rs, some p, bs, parent, n =>
    closeGroup p bs ++ seqIssue start n h ++ chainIssue parent h ++
      walk1 E start rs (some h) [] (some (E.dig h)) (n + 1)

/-- The digests of all batches. -/
def allDigests (E : Env) (rs : List Rec) : List Nat :=
  rs.filterMap fun r => match r with
    | .bat b => some (E.bdig b)
    | _ => none

/-- The headers. -/
def hdrs (rs : List Rec) : List CHdr :=
  rs.filterMap fun r => match r with
    | .hdr h => some h
    | _ => none

/-- The class of a missing batch, pack_validate.rs:532-540. -/
def classify (all : List Nat) : Issue → Issue
  | .missing n d _ => .missing n d (decide (d ∈ all))
  | i => i

/-- `PackValidationReport`, pack_validate.rs:138-157. -/
structure Report where
  start : Nat
  batches : Nat
  headers : Nat
  first : Option Nat
  last : Option Nat
  issues : List Issue
deriving DecidableEq, Repr

/-- `Verdict::Valid`, pack_validate.rs:542. -/
def Report.valid (r : Report) : Prop := r.issues = []

/-- All records, or none if one cannot be read. -/
def readAll : List (Option Rec) → Option (List Rec)
  | [] => some []
  | none :: _ => none
  | some r :: rs => (readAll rs).map (r :: ·)

/-- The issues of the meta record, pack_validate.rs:213-228. -/
def metaIssues (epoch : Nat) (prev : Option Ep.Rec) (m : Meta) : List Issue :=
  (if m.epoch = epoch then [] else [.metaMismatch]) ++
    (match prev with
      | none => []
      | some p => if verifyMeta epoch p m then [] else [.metaMismatch])

/-- The parent of the first header, pack_validate.rs:234-242. -/
def anchor (epoch : Nat) (prev : Option Ep.Rec) : Option Nat :=
  if epoch = 0 then none else prev.map (·.finalHash)

/-- The walk by version, pack_validate.rs:244-248. -/
def walk (E : Env) (v start : Nat) (a : Option Nat) (rs : List Rec) : List Issue :=
  if v = 0 then walk0 E start rs [] a 0 else walk1 E start rs none [] a 0

/-- `validate_pack_file`, pack_validate.rs:186-255; `none`: an error, no report. -/
def validate (E : Env) (v epoch : Nat) (prev : Option Ep.Rec) : List (Option Rec) → Option Report
  | some (.epoch m) :: rs =>
    match readAll rs with
    | none => none
    | some l =>
      some ⟨m.start, (allDigests E l).length, (hdrs l).length, (hdrs l).head?.map (·.number),
        (hdrs l).getLast?.map (·.number),
        (metaIssues epoch prev m ++ walk E v m.start (anchor epoch prev) l).map (classify (allDigests E l))⟩
  | _ => none

/-! ### Specification -/

/-- no header -/
def plain : Rec → Bool
  | .hdr _ => false
  | _ => true

/-- The digests of the batches that belong to a header with `pre` before and `post` behind it: in version 0
those since the header before, in version 1 those up to the next header. -/
def groupOf (E : Env) (v : Nat) (pre post : List Rec) : List Nat :=
  if v = 0 then allDigests E (pre.reverse.takeWhile plain).reverse
  else (if hdrs pre = [] then allDigests E pre else []) ++ allDigests E (post.takeWhile plain)

/-- What is wrong with a file. -/
inductive Defect (E : Env) (v start : Nat) (a : Option Nat) (rs : List Rec) : Issue → Prop
  /-- a header's number is not its place -/
  | number (pre post : List Rec) (h : CHdr) (e : rs = pre ++ .hdr h :: post) (hn : h.number ≠ start + (hdrs pre).length) :
      Defect E v start a rs (.nonSeq (start + (hdrs pre).length) h.number)
  /-- the first header does not follow the previous epoch -/
  | first (pre post : List Rec) (h : CHdr) (p : Nat) (e : rs = pre ++ .hdr h :: post) (h0 : hdrs pre = []) (ha : a = some p)
      (hp : h.parent ≠ p) : Defect E v start a rs (.chainBreak h.number p h.parent)
  /-- a header does not follow the one before -/
  | link (pre post : List Rec) (h g : CHdr) (e : rs = pre ++ .hdr h :: post) (hg : (hdrs pre).getLast? = some g)
      (hp : h.parent ≠ E.dig g) : Defect E v start a rs (.chainBreak h.number (E.dig g) h.parent)
  /-- a batch is missing in its group; it is somewhere in the file or nowhere -/
  | missing (pre post : List Rec) (h : CHdr) (d : Nat) (e : rs = pre ++ .hdr h :: post) (hd : d ∈ h.digests)
      (hm : d ∉ groupOf E v pre post) : Defect E v start a rs (.missing h.number d (decide (d ∈ allDigests E rs)))
  /-- a batch of the group is not referenced -/
  | extra (pre post : List Rec) (h : CHdr) (d : Nat) (e : rs = pre ++ .hdr h :: post) (hd : d ∉ h.digests)
      (hm : d ∈ groupOf E v pre post) : Defect E v start a rs (.extra h.number d)
  /-- version 1: the right batches, not in ascending order or one twice -/
  | order (pre post : List Rec) (h : CHdr) (hv : v ≠ 0) (e : rs = pre ++ .hdr h :: post)
      (hs : ∀ d, d ∈ groupOf E v pre post ↔ d ∈ h.digests)
      (ho : ¬ (groupOf E v pre post).Pairwise (· < ·)) : Defect E v start a rs (.unsorted h.number)
  /-- a second meta record -/
  | again (m : Meta) (hm : Rec.epoch m ∈ rs) : Defect E v start a rs .metaMismatch

end Import
end Verif
