import Verif.Codec.Header
/-
The model of the wire form against the golden vectors frozen in the code's own tests (header.rs:800-838): the model
produces and reads exactly those bytes.
-/
namespace Verif
namespace Codec
namespace Golden

/-- The `adiri` build: active from epoch 383 (forks.rs:218,253-257). -/
def adiri : Build := ⟨fun e => decide (383 ≤ e), fun _ => true, List.replicate 48 0⟩

/-- `golden_legacy_repr` (header.rs). -/
def legacy : WHeader where
  author := 0 :: List.replicate 31 0xB7
  round := 3
  epoch := 0
  createdAt := 1700000017
  payload := [(List.replicate 32 0x22, 1)]
  parents := [List.replicate 32 0x4D]
  execNumber := 7
  execHash := List.replicate 32 0x5E
  seedSig := List.replicate 48 9

/-- GOLDEN_LEGACY_HEADER_HEX. -/
def legacyBytes : Bytes :=
  [0, 183, 183, 183, 183, 183, 183, 183, 183, 183, 183, 183, 183, 183, 183, 183, 183, 183, 183, 183, 183, 183, 183,
   183, 183, 183, 183, 183, 183, 183, 183, 183, 3, 0, 0, 0, 0, 0, 0, 0, 17, 241, 83, 101, 0, 0, 0, 0, 1, 32, 34, 34,
   34, 34, 34, 34, 34, 34, 34, 34, 34, 34, 34, 34, 34, 34, 34, 34, 34, 34, 34, 34, 34, 34, 34, 34, 34, 34, 34, 34,
   34, 34, 1, 0, 1, 32, 77, 77, 77, 77, 77, 77, 77, 77, 77, 77, 77, 77, 77, 77, 77, 77, 77, 77, 77, 77, 77, 77, 77,
   77, 77, 77, 77, 77, 77, 77, 77, 77, 7, 0, 0, 0, 0, 0, 0, 0, 32, 94, 94, 94, 94, 94, 94, 94, 94, 94, 94, 94, 94,
   94, 94, 94, 94, 94, 94, 94, 94, 94, 94, 94, 94, 94, 94, 94, 94, 94, 94, 94, 94]

/-- `golden_v1_repr`; the signature's bytes are taken from the vector. -/
def v1 : WHeader where
  author := 1 :: List.replicate 31 0xC3
  round := 4
  epoch := 4294967295
  createdAt := 1700000042
  payload := [(List.replicate 32 0x33, 2)]
  parents := [List.replicate 32 0x6A]
  execNumber := 11
  execHash := List.replicate 32 0x7F
  seedSig :=
  [139, 8, 206, 228, 225, 76, 39, 105, 131, 24, 22, 204, 165, 167, 103, 239, 138, 16, 213, 109, 166, 107, 221, 136,
   118, 1, 25, 141, 107, 239, 124, 108, 174, 107, 49, 85, 184, 78, 172, 144, 183, 89, 18, 162, 40, 114, 181, 240]

/-- GOLDEN_V1_HEADER_HEX. -/
def v1Bytes : Bytes :=
  [1, 195, 195, 195, 195, 195, 195, 195, 195, 195, 195, 195, 195, 195, 195, 195, 195, 195, 195, 195, 195, 195, 195,
   195, 195, 195, 195, 195, 195, 195, 195, 195, 4, 0, 0, 0, 255, 255, 255, 255, 42, 241, 83, 101, 0, 0, 0, 0, 1, 32,
   51, 51, 51, 51, 51, 51, 51, 51, 51, 51, 51, 51, 51, 51, 51, 51, 51, 51, 51, 51, 51, 51, 51, 51, 51, 51, 51, 51,
   51, 51, 51, 51, 2, 0, 1, 32, 106, 106, 106, 106, 106, 106, 106, 106, 106, 106, 106, 106, 106, 106, 106, 106, 106,
   106, 106, 106, 106, 106, 106, 106, 106, 106, 106, 106, 106, 106, 106, 106, 11, 0, 0, 0, 0, 0, 0, 0, 32, 127, 127,
   127, 127, 127, 127, 127, 127, 127, 127, 127, 127, 127, 127, 127, 127, 127, 127, 127, 127, 127, 127, 127, 127, 127,
   127, 127, 127, 127, 127, 127, 127, 48, 139, 8, 206, 228, 225, 76, 39, 105, 131, 24, 22, 204, 165, 167, 103, 239,
   138, 16, 213, 109, 166, 107, 221, 136, 118, 1, 25, 141, 107, 239, 124, 108, 174, 107, 49, 85, 184, 78, 172, 144,
   183, 89, 18, 162, 40, 114, 181, 240]

theorem legacy_wire : encHeader adiri legacy = legacyBytes := by decide +kernel
theorem v1_wire : encHeader adiri v1 = v1Bytes := by decide +kernel
theorem legacy_read : (headerC adiri).fromBytes legacyBytes = some (legacy.norm adiri) := by decide +kernel
theorem v1_read : (headerC adiri).fromBytes v1Bytes = some v1 := by decide +kernel

/-- The hypotheses of C27 hold for both headers. -/
theorem legacy_wf : legacy.WF adiri where
  author := by decide
  round := by decide
  epoch := by decide
  createdAt := by decide
  payloadLen := by decide
  payload := by decide
  payloadKeys := by decide
  parentsLen := by decide
  parents := by decide
  sorted := by unfold SortedB; decide
  execNumber := by decide
  execHash := by decide
  seedSig := by decide

theorem v1_wf : v1.WF adiri where
  author := by decide
  round := by decide
  epoch := by decide
  createdAt := by decide
  payloadLen := by decide
  payload := by decide
  payloadKeys := by decide
  parentsLen := by decide
  parents := by decide
  sorted := by unfold SortedB; decide
  execNumber := by decide
  execHash := by decide
  seedSig := by decide

example : ∃ h', (headerC adiri).fromBytes (encHeader adiri legacy) = some h' ∧ h'.seen adiri = legacy.seen adiri :=
  header_fromBytes legacy_wf

/-- A straggler that does not know the fork refuses headers of the new layout. -/
example : (headerC { adiri with active := fun _ => false }).fromBytes v1Bytes = none := by decide +kernel

/-- Observation: the wire form is unique for the writer, not for the reader. The set of parents is read from any
order with repetitions (the digest is that of the ordered form). -/
theorem parents_malleable : ∃ b, b ≠ legacyBytes ∧ (headerC adiri).fromBytes b = some (legacy.norm adiri) := by
  refine ⟨legacyC.enc { legacy with parents := [List.replicate 32 0x4D, List.replicate 32 0x4D] }.fields, ?_, ?_⟩ <;>
    decide +kernel

end Golden
end Codec
end Verif
