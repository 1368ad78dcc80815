import Verif.Wire.CertStream
/-
Concrete cases for C70 and C71: a compressor that meets `Block.Ok` and does compress, messages, streams, and the
trailing bytes that `decode_message` does not look at.
-/
namespace Verif
namespace Wire

open Codec (Byte Bytes leBytes leNat leBytes_length leNat_leBytes)

/-! ### Trailing bytes -/

/-- The wire form of `a` with `pad` behind the compressed data, counted by the second prefix. -/
def padded {α : Type} (k : Block) (c : Codec.Codec α) (a : α) (pad : Bytes) : Bytes :=
  leBytes 4 (c.enc a).length ++ leBytes 4 (snapEnc k (c.enc a) ++ pad).length ++ (snapEnc k (c.enc a) ++ pad)

/-- **The wire form of a message is not unique**: anything may follow the compressed data, as long as the body stays
within the worst case for the declared length; it is read, counted and ignored (codec.rs:88-92). -/
theorem trailing_ignored {α : Type} {k : Block} (hk : k.Ok) {c : Codec.Codec α} {P : α → Prop} (hc : c.Ok P) {max : Nat}
    (hmax : 32 + max + max / 6 ≤ 4294967295) {a : α} (ha : P a) (hfit : (c.enc a).length ≤ max) {pad : Bytes}
    (hpad : (snapEnc k (c.enc a) ++ pad).length ≤ 32 + (c.enc a).length + (c.enc a).length / 6) (rest : Bytes)
    {st : Rd} {s' : Bytes} (hrun : Run max (padded k c a pad ++ rest) st s') : finish k c st = some a ∧ s' = rest := by
  obtain ⟨haf, hw⟩ := after_wire hfit hmax hpad
  obtain ⟨p1, hp1, wp1, ip1⟩ := steps_within hrun.1
  have hz : (padded k c a pad) = leBytes 4 (c.enc a).length ++ leBytes 4 (snapEnc k (c.enc a) ++ pad).length ++
    (snapEnc k (c.enc a) ++ pad) := rfl
  rw [← hz] at haf hw
  have hfull : want (after max (padded k c a pad)) = 0 := by rw [haf]; rfl
  have key : p1 = padded k c a pad → finish k c (after max p1) = some a := by
    intro h
    rw [h, haf]
    simp only [finish]
    rw [unsnap_snapEnc hk]
    dsimp only
    rw [if_pos rfl]
    have := hc a ha []
    rw [List.append_nil] at this
    simp only [Codec.Codec.fromBytes, this]
  have hpe : p1 = padded k c a pad ∧ s' = rest := by
    rcases List.append_eq_append_iff.mp hp1 with ⟨x, hx, hy⟩ | ⟨x, hx, hy⟩
    · -- the padded message is a beginning of what was read
      have := stop_unique hfull (hx ▸ wp1) hx
      refine ⟨this, ?_⟩
      have hx0 : x = [] := by
        rw [this] at hx
        exact List.append_right_eq_self.mp hx.symm
      rw [hx0, List.nil_append] at hy
      exact hy.symm
    · rcases ip1 with rfl | ⟨_, hs, _⟩
      · have := stop_unique hrun.2 (hx ▸ hw) hx
        refine ⟨this.symm, ?_⟩
        have hx0 : x = [] := by
          rw [this] at hx
          exact List.append_right_eq_self.mp hx.symm
        rw [hx0, List.nil_append] at hy
        exact hy
      · rw [hs] at hy
        have h0 := List.append_eq_nil_iff.mp hy.symm
        refine ⟨?_, by rw [hs, h0.2]⟩
        rw [hx, h0.1, List.append_nil]
  rcases ip1 with rfl | ⟨_, hs, hwant⟩
  · exact ⟨key hpe.1, hpe.2⟩
  · exfalso
    obtain ⟨h1, h2⟩ := hpe
    rw [← h2, hs, List.append_nil] at hwant
    rw [hfull] at hwant
    omega

/-! ### A compressor -/

/-- All bytes equal to the first. -/
def uniform : Bytes → Bool
  | [] => false
  | a :: r => r.all (· == a)

/-- Runs of one byte are written as the byte and their length in four bytes, everything else as is. -/
def demoComp (b : Bytes) : Bytes :=
  match b with
  | [] => [0]
  | a :: r => if uniform b && decide (b.length < 256 ^ 4) then 1 :: a :: leBytes 4 (a :: r).length else 0 :: a :: r

def demoDecomp : Bytes → Option Bytes
  | [] => none
  | t :: b => if t.val = 0 then some b else
    match b with
    | [] => none
    | a :: l => some (List.replicate (leNat l) a)

/-- The sum of the bytes stands in for the checksum. -/
def demo : Block := ⟨demoComp, demoDecomp, fun b => leBytes 4 (b.map (·.val)).sum⟩

theorem all_eq_replicate (a : Byte) (r : Bytes) (h : r.all (· == a) = true) : r = List.replicate r.length a := by
  induction r with
  | nil => rfl
  | cons b r ih =>
    rw [List.all_cons, Bool.and_eq_true] at h
    have hb : b = a := by simpa using h.1
    rw [List.length_cons, List.replicate_succ, hb, ← ih h.2]

/-- The assumptions on the compressor can be met. -/
theorem demo_ok : demo.Ok := by
  constructor
  · intro b
    show demoDecomp (demoComp b) = some b
    cases b with
    | nil => rfl
    | cons a r =>
      unfold demoComp
      dsimp only
      split
      · rename_i h
        rw [Bool.and_eq_true, decide_eq_true_eq] at h
        simp only [demoDecomp]
        rw [if_neg (by decide), leNat_leBytes 4 _ h.2]
        have := all_eq_replicate a r h.1
        rw [List.length_cons, List.replicate_succ, ← this]
      · rfl
  · intro b
    exact leBytes_length 4 _

/-- It does compress: twenty equal bytes go out as a chunk of type 0 with ten bytes of content. -/
example : chunkOf demo (List.replicate 20 7) = [0, 10, 0, 0, 140, 0, 0, 0, 1, 7, 20, 0, 0, 0] := by decide

/-- A list of bytes on the wire, and read back from it in three-byte pieces. -/
def demoMsg : Bytes := [5, 6]

def demoWire : Bytes :=
  [3, 0, 0, 0, 21, 0, 0, 0, 255, 6, 0, 0, 115, 78, 97, 80, 112, 89, 1, 7, 0, 0, 13, 0, 0, 0, 2, 5, 6]

example : encodeMessage demo Codec.bytes 100 demoMsg = some demoWire := by decide

/-- Feeding the pieces one after the other. -/
def feedAll (max : Nat) : Rd → List Bytes → Rd
  | st, [] => st
  | st, c :: cs => feedAll max (feed max st c) cs

example : finish demo Codec.bytes (feedAll 100 start
    [[3, 0], [0, 0], [21, 0, 0], [0], [255, 6, 0, 0, 115], [78, 97, 80, 112, 89, 1, 7, 0], [0, 13, 0, 0, 0, 2, 5], [6]]) =
    some demoMsg := by decide

/-- The hypotheses of `message_received` are met by it, with more data behind it. -/
example : ∀ st s', Run 100 (demoWire ++ [1, 2, 3]) st s' → finish demo Codec.bytes st = some demoMsg ∧ s' = [1, 2, 3] :=
  (message_received demo_ok Codec.bytes_ok (ms := 100) (mr := 100) (by omega) (by omega) (a := demoMsg) (w := demoWire)
    (by decide) (by decide) (by decide) [1, 2, 3]).2

/-- Two wire forms of one message: the second ends in a byte nobody reads. -/
example : padded demo Codec.bytes demoMsg [] = demoWire ∧ padded demo Codec.bytes demoMsg [9] ≠ demoWire ∧
    (snapEnc demo (Codec.bytes.enc demoMsg) ++ [9]).length ≤ 32 + (Codec.bytes.enc demoMsg).length +
      (Codec.bytes.enc demoMsg).length / 6 := by decide

/-! ### A pack and an answer -/

/-- A pack of five bytes, read in two pieces. -/
example : Pieces [1, 2, 3, 4, 5] [[1, 2], [3, 4, 5]] := by
  refine ⟨?_, rfl⟩
  intro b hb
  simp only [List.mem_cons, List.not_mem_nil, or_false] at hb
  rcases hb with rfl | rfl <;> exact ⟨by simp, by decide⟩

/-- Three certificates (of 4 bytes here): one batch, sent whole. -/
example : certFrames (Codec.uint 4) [some 1, some 2, some 300] =
    [.ack, .data [3, 1, 0, 0, 0, 2, 0, 0, 0, 44, 1, 0, 0], .done] := by decide

/-- A storage error after two of them. -/
example : certFrames (Codec.uint 4) [some 1, some 2, none, some 4] = [.ack, .err .internal] := by decide

example : ∀ a ∈ [1, 2, 300], CertOk (Codec.uint 4) (fun n => n < 256 ^ 4) a := by
  intro a ha
  have hs : size (Codec.uint 4) a = 4 := leBytes_length 4 a
  refine ⟨?_, by omega, by rw [hs]; decide⟩
  simp only [List.mem_cons, List.not_mem_nil, or_false] at ha
  omega

end Wire
end Verif
