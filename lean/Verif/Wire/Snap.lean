import Verif.Codec.Bcs
/-
The snappy frame format, as used by crates/network-libp2p/src/codec.rs:88-90 (`FrameDecoder`) and :139-143
(`FrameEncoder`). The `snap` crate is a dependency: its framing is modelled from the format description, the block
compressor and the checksum are left open (`Block`).
-/
namespace Verif
namespace Wire

open Codec (Byte Bytes leBytes leNat leBytes_length leNat_leBytes)

/-- The block compressor, its inverse (fails on a malformed block) and the masked checksum of a block. -/
structure Block where
  comp : Bytes → Bytes
  decomp : Bytes → Option Bytes
  crc : Bytes → Bytes

/-- `snap::frame::MAX_BLOCK_SIZE`. -/
def blockSize : Nat := 65536

/-- The size of the decoder's input buffer: the largest compressed block. -/
def srcMax : Nat := 76490

/-- What is assumed of the block compressor: blocks come back, and a checksum has four bytes. -/
structure Block.Ok (k : Block) : Prop where
  inverse : ∀ b, k.decomp (k.comp b) = some b
  crc_len : ∀ b, (k.crc b).length = 4

/-- The body of the stream identifier: `sNaPpY`. -/
def streamBody : Bytes := [115, 78, 97, 80, 112, 89]

/-- The stream identifier chunk. -/
def ident : Bytes := 255 :: leBytes 3 6 ++ streamBody

/-- One data chunk: type, three length bytes, checksum, data. Stored as is unless compression saves an eighth. -/
def chunkOf (k : Block) (src : Bytes) : Bytes :=
  if src.length - src.length / 8 ≤ (k.comp src).length then 1 :: leBytes 3 (4 + src.length) ++ k.crc src ++ src
  else 0 :: leBytes 3 (4 + (k.comp src).length) ++ k.crc src ++ k.comp src

/-- Consecutive blocks of at most `blockSize` bytes. `fuel`: the length of the input is enough. -/
def blocks (k : Block) : Nat → Bytes → Bytes
  | 0, _ => []
  | fuel + 1, b => if b = [] then [] else chunkOf k (b.take blockSize) ++ blocks k fuel (b.drop blockSize)

/-- `FrameEncoder::write_all` followed by `flush`. Nothing is written for an empty input. -/
def snapEnc (k : Block) (b : Bytes) : Bytes := if b = [] then [] else ident ++ blocks k b.length b

inductive Next where
  | eof
  | bad
  | skip (rest : Bytes)
  | data (d rest : Bytes)

/-- A chunk of stored data: its checksum must match and it must fit the output buffer. -/
def stored (k : Block) (d sum rest : Bytes) : Next :=
  if blockSize < d.length then .bad else if k.crc d = sum then .data d rest else .bad

/-- One chunk read by `FrameDecoder::read`. `seen`: the stream identifier has been read. -/
def nextChunk (k : Block) (seen : Bool) : Bytes → Next
  | [] => .eof
  | ty :: a :: b :: c :: r =>
    let len := leNat [a, b, c]
    if (!seen && ty.val != 255) = true then .bad
    else if srcMax < len ∨ r.length < len then .bad
    else if ty.val = 255 then (if r.take len = streamBody then .skip (r.drop len) else .bad)
    else if 128 ≤ ty.val then .skip (r.drop len)
    else if len < 4 then .bad
    else if ty.val = 1 then stored k ((r.take len).drop 4) (r.take 4) (r.drop len)
    else if ty.val = 0 then
      (match k.decomp ((r.take len).drop 4) with
       | none => .bad
       | some d => stored k d (r.take 4) (r.drop len))
    else .bad
  | _ => .bad

/-- `FrameDecoder::new(reader).take(limit).read_to_end`: chunks are read until `limit` bytes came out or the input
ends. `none`: a read error. `fuel`: every chunk uses four bytes, so the length of the input is enough. -/
def unsnapAux (k : Block) : Nat → Nat → Bool → Bytes → Option Bytes
  | 0, _, _, _ => some []
  | fuel + 1, limit, seen, b =>
    if limit = 0 then some []
    else match nextChunk k seen b with
      | .eof => some []
      | .bad => none
      | .skip rest => unsnapAux k fuel limit true rest
      | .data d rest => (unsnapAux k fuel (limit - d.length) true rest).map (d.take limit ++ ·)

def unsnap (k : Block) (limit : Nat) (b : Bytes) : Option Bytes := unsnapAux k (b.length + 1) limit false b

/-! ### The fuel is enough -/

theorem nextChunk_lt {k : Block} {seen : Bool} {b rest : Bytes}
    (h : nextChunk k seen b = .skip rest ∨ ∃ d, nextChunk k seen b = .data d rest) : rest.length + 4 ≤ b.length := by
  have key : ∀ (d sum r x : Bytes), stored k d sum r = .skip x ∨ (∃ e, stored k d sum r = .data e x) → x = r := by
    intro d sum r x hx
    unfold stored at hx
    rcases hx with hx | ⟨e, hx⟩ <;> (split at hx; · cases hx) <;> split at hx <;> cases hx <;> rfl
  match b with
  | [] => rcases h with h | ⟨d, h⟩ <;> cases h
  | [_] => rcases h with h | ⟨d, h⟩ <;> cases h
  | [_, _] => rcases h with h | ⟨d, h⟩ <;> cases h
  | [_, _, _] => rcases h with h | ⟨d, h⟩ <;> cases h
  | ty :: a :: b :: c :: r =>
    have hr : ∃ n, rest = r.drop n := by
      simp only [nextChunk] at h
      split at h
      · rcases h with h | ⟨d, h⟩ <;> cases h
      split at h
      · rcases h with h | ⟨d, h⟩ <;> cases h
      split at h
      · split at h <;> rcases h with h | ⟨d, h⟩ <;> cases h
        exact ⟨_, rfl⟩
      split at h
      · rcases h with h | ⟨d, h⟩ <;> cases h
        exact ⟨_, rfl⟩
      split at h
      · rcases h with h | ⟨d, h⟩ <;> cases h
      split at h
      · exact ⟨_, key _ _ _ _ h⟩
      split at h
      · split at h
        · rcases h with h | ⟨d, h⟩ <;> cases h
        · exact ⟨_, key _ _ _ _ h⟩
      · rcases h with h | ⟨d, h⟩ <;> cases h
    obtain ⟨n, rfl⟩ := hr
    simp only [List.length_cons, List.length_drop]
    omega

/-- **C70**, a chunk is complete or refused: what is accepted as a chunk is four header bytes and a body of exactly the length they name. -/
theorem chunk_complete {k : Block} {seen : Bool} {b rest : Bytes}
    (h : nextChunk k seen b = .skip rest ∨ ∃ d, nextChunk k seen b = .data d rest) :
    ∃ ty x y z body, b = ty :: x :: y :: z :: (body ++ rest) ∧ body.length = leNat [x, y, z] := by
  have key : ∀ (d sum r u : Bytes), stored k d sum r = .skip u ∨ (∃ e, stored k d sum r = .data e u) → u = r := by
    intro d sum r u hx
    unfold stored at hx
    rcases hx with hx | ⟨e, hx⟩ <;> (split at hx; · cases hx) <;> split at hx <;> cases hx <;> rfl
  match b with
  | [] => rcases h with h | ⟨d, h⟩ <;> cases h
  | [_] => rcases h with h | ⟨d, h⟩ <;> cases h
  | [_, _] => rcases h with h | ⟨d, h⟩ <;> cases h
  | [_, _, _] => rcases h with h | ⟨d, h⟩ <;> cases h
  | ty :: x :: y :: z :: r =>
    have hr : rest = r.drop (leNat [x, y, z]) ∧ leNat [x, y, z] ≤ r.length := by
      simp only [nextChunk] at h
      split at h
      · rcases h with h | ⟨d, h⟩ <;> cases h
      split at h
      · rcases h with h | ⟨d, h⟩ <;> cases h
      rename_i hlen
      have hl : leNat [x, y, z] ≤ r.length := by
        rcases Nat.lt_or_ge r.length (leNat [x, y, z]) with h | h
        · exact absurd (Or.inr h) hlen
        · exact h
      refine ⟨?_, hl⟩
      split at h
      · split at h
        · rcases h with h | ⟨d, h⟩ <;> cases h; rfl
        · rcases h with h | ⟨d, h⟩ <;> cases h
      split at h
      · rcases h with h | ⟨d, h⟩ <;> cases h; rfl
      split at h
      · rcases h with h | ⟨d, h⟩ <;> cases h
      split at h
      · exact key _ _ _ _ h
      split at h
      · split at h
        · rcases h with h | ⟨d, h⟩ <;> cases h
        · exact key _ _ _ _ h
      · rcases h with h | ⟨d, h⟩ <;> cases h
    refine ⟨ty, x, y, z, r.take (leNat [x, y, z]), ?_, ?_⟩
    · rw [hr.1, List.take_append_drop]
    · rw [List.length_take]; omega

theorem nextChunk_data_pos {k : Block} {seen : Bool} {b d rest : Bytes} (h : nextChunk k seen b = .data d rest) :
    d.length ≤ blockSize := by
  have key : ∀ (e sum r : Bytes), stored k e sum r = .data d rest → d.length ≤ blockSize := by
    intro e sum r hx
    unfold stored at hx
    split at hx
    · cases hx
    · split at hx <;> cases hx
      omega
  match b with
  | [] => cases h
  | [_] => cases h
  | [_, _] => cases h
  | [_, _, _] => cases h
  | ty :: a :: b :: c :: r =>
    simp only [nextChunk] at h
    split at h
    · cases h
    split at h
    · cases h
    split at h
    · split at h <;> cases h
    split at h
    · cases h
    split at h
    · cases h
    split at h
    · exact key _ _ _ h
    split at h
    · split at h
      · cases h
      · exact key _ _ _ h
    · cases h

/-- More fuel changes nothing. -/
theorem unsnapAux_fuel (k : Block) (f1 f2 limit : Nat) (seen : Bool) (b : Bytes) (h1 : b.length < f1)
    (h2 : b.length < f2) : unsnapAux k f1 limit seen b = unsnapAux k f2 limit seen b := by
  induction f1 generalizing f2 limit seen b with
  | zero => omega
  | succ f1 ih =>
    cases f2 with
    | zero => omega
    | succ f2 =>
      simp only [unsnapAux]
      split
      · rfl
      · cases hn : nextChunk k seen b with
        | eof => rfl
        | bad => rfl
        | skip rest =>
          have := nextChunk_lt (.inl hn)
          exact ih f2 limit true rest (by omega) (by omega)
        | data d rest =>
          have := nextChunk_lt (.inr ⟨d, hn⟩)
          dsimp only
          rw [ih f2 (limit - d.length) true rest (by omega) (by omega)]

/-- Never more than the limit comes out. -/
theorem unsnapAux_le (k : Block) (fuel limit : Nat) (seen : Bool) (b out : Bytes)
    (h : unsnapAux k fuel limit seen b = some out) : out.length ≤ limit := by
  induction fuel generalizing limit seen b out with
  | zero => cases h; exact Nat.zero_le _
  | succ fuel ih =>
    simp only [unsnapAux] at h
    split at h
    · cases h; exact Nat.zero_le _
    · split at h
      · cases h; exact Nat.zero_le _
      · cases h
      · exact ih _ _ _ _ h
      · rename_i d rest _
        cases hr : unsnapAux k fuel (limit - d.length) true rest with
        | none => rw [hr] at h; cases h
        | some o =>
          rw [hr] at h
          cases h
          have := ih _ _ _ _ hr
          rw [List.length_append, List.length_take]
          omega

theorem unsnap_le {k : Block} {limit : Nat} {b out : Bytes} (h : unsnap k limit b = some out) : out.length ≤ limit :=
  unsnapAux_le k _ _ _ _ _ h

/-! ### What was compressed comes back -/

theorem leNat_three (n : Nat) (h : n < 16777216) (r : Bytes) (x y z : Byte) (he : leBytes 3 n = [x, y, z]) :
    leNat [x, y, z] = n := by
  rw [← he, leNat_leBytes 3 n (by omega)]

theorem leBytes_three (n : Nat) : ∃ x y z, leBytes 3 n = [x, y, z] := by
  exact ⟨_, _, _, rfl⟩

theorem next_ident (k : Block) (seen : Bool) (rest : Bytes) : nextChunk k seen (ident ++ rest) = .skip rest := by
  have h : ident ++ rest = 255 :: 6 :: 0 :: 0 :: 115 :: 78 :: 97 :: 80 :: 112 :: 89 :: rest := rfl
  rw [h]
  have hl : leNat [6, 0, 0] = 6 := rfl
  simp only [nextChunk, hl]
  rw [if_neg (by cases seen <;> decide), if_neg (by simp only [srcMax, List.length_cons]; omega), if_pos (by decide)]
  simp [streamBody]

theorem next_chunk {k : Block} (hk : k.Ok) (src rest : Bytes) (h : src.length ≤ blockSize) :
    nextChunk k true (chunkOf k src ++ rest) = .data src rest := by
  have hc := hk.crc_len src
  unfold blockSize at h
  unfold chunkOf
  split
  · obtain ⟨x, y, z, he⟩ := leBytes_three (4 + src.length)
    have hn := leNat_three (4 + src.length) (by omega) rest x y z he
    rw [he]
    simp only [List.cons_append, List.nil_append, nextChunk, hn]
    rw [if_neg (by simp), if_neg (by simp only [srcMax, List.length_append]; omega), if_neg (by decide),
      if_neg (by decide), if_neg (by omega), if_pos (by decide)]
    have h1 : (k.crc src ++ src ++ rest).take (4 + src.length) = k.crc src ++ src :=
      List.take_left' (by rw [List.length_append]; omega)
    have h2 : (k.crc src ++ src ++ rest).drop (4 + src.length) = rest :=
      List.drop_left' (by rw [List.length_append]; omega)
    have h3 : (k.crc src ++ src ++ rest).take 4 = k.crc src := by
      rw [List.append_assoc]; exact List.take_left' hc
    rw [h1, h2, h3, List.drop_left' hc]
    unfold stored
    rw [if_neg (by unfold blockSize; omega), if_pos rfl]
  · rename_i hlt
    generalize hz : k.comp src = z at hlt
    obtain ⟨a, b, c, he⟩ := leBytes_three (4 + z.length)
    have hn := leNat_three (4 + z.length) (by omega) rest a b c he
    rw [he]
    simp only [List.cons_append, List.nil_append, nextChunk, hn]
    rw [if_neg (by simp), if_neg (by simp only [srcMax, List.length_append]; omega), if_neg (by decide),
      if_neg (by decide), if_neg (by omega), if_neg (by decide), if_pos (by decide)]
    have h1 : (k.crc src ++ z ++ rest).take (4 + z.length) = k.crc src ++ z :=
      List.take_left' (by rw [List.length_append]; omega)
    have h2 : (k.crc src ++ z ++ rest).drop (4 + z.length) = rest :=
      List.drop_left' (by rw [List.length_append]; omega)
    have h3 : (k.crc src ++ z ++ rest).take 4 = k.crc src := by
      rw [List.append_assoc]; exact List.take_left' hc
    rw [h1, h2, h3, List.drop_left' hc, ← hz, hk.inverse]
    dsimp only
    unfold stored
    rw [if_neg (by unfold blockSize; omega), if_pos rfl]

theorem chunkOf_length {k : Block} (hk : k.Ok) (src : Bytes) :
    8 ≤ (chunkOf k src).length ∧ (chunkOf k src).length ≤ 8 + src.length := by
  have hc := hk.crc_len src
  unfold chunkOf
  split <;> simp only [List.cons_append, List.length_cons, List.length_append, leBytes_length] <;> omega

theorem unsnapAux_blocks {k : Block} (hk : k.Ok) (f fuel : Nat) (b rest : Bytes) (hb : b.length ≤ f)
    (hf : (blocks k f b ++ rest).length < fuel) : unsnapAux k fuel b.length true (blocks k f b ++ rest) = some b := by
  induction f generalizing b fuel with
  | zero =>
    have : b = [] := List.length_eq_zero_iff.mp (by omega)
    subst this
    cases fuel <;> rfl
  | succ f ih =>
    simp only [blocks] at hf ⊢
    split
    · rename_i h
      subst h
      cases fuel <;> rfl
    · rename_i h
      rw [if_neg h, List.append_assoc, List.length_append] at hf
      have hpos : 0 < b.length := List.length_pos_iff.mpr h
      have hbs : 0 < blockSize := by decide
      cases fuel with
      | zero => omega
      | succ fuel =>
        have hcl := chunkOf_length hk (b.take blockSize)
        have hd : (b.drop blockSize).length = b.length - blockSize := List.length_drop ..
        have := ih fuel (b.drop blockSize) (by omega) (by omega)
        rw [List.append_assoc]
        simp only [unsnapAux]
        rw [if_neg (by omega), next_chunk hk _ _ (by rw [List.length_take]; omega)]
        dsimp only
        have hl : b.length - (b.take blockSize).length = (b.drop blockSize).length := by
          rw [List.length_take, hd]; omega
        rw [hl, this, Option.map_some, List.take_of_length_le (by rw [List.length_take]; omega),
          List.take_append_drop]

/-- What was compressed comes back, whatever follows. -/
theorem unsnap_snapEnc {k : Block} (hk : k.Ok) (b rest : Bytes) :
    unsnap k b.length (snapEnc k b ++ rest) = some b := by
  unfold unsnap snapEnc
  split
  · rename_i h
    subst h
    simp [unsnapAux]
  · rename_i h
    have hpos : 0 < b.length := List.length_pos_iff.mpr h
    rw [List.append_assoc]
    simp only [unsnapAux]
    rw [if_neg (by omega), next_ident]
    exact unsnapAux_blocks hk _ _ _ _ (Nat.le_refl _) (by
      rw [List.length_append (as := ident)]
      have : 0 < ident.length := by decide
      omega)

/-! ### How long it gets -/

theorem blocks_length {k : Block} (hk : k.Ok) (f : Nat) (b : Bytes) (hb : b.length ≤ f) :
    (blocks k f b).length ≤ b.length + 8 * ((b.length + 65535) / 65536) := by
  induction f generalizing b with
  | zero =>
    simp only [blocks, List.length_nil]; omega
  | succ f ih =>
    simp only [blocks]
    split
    · simp
    · rename_i h
      have hpos : 0 < b.length := List.length_pos_iff.mpr h
      have hcl := chunkOf_length hk (b.take blockSize)
      have hd : (b.drop blockSize).length = b.length - 65536 := List.length_drop ..
      have ht : (b.take blockSize).length = min 65536 b.length := List.length_take ..
      have := ih (b.drop blockSize) (by omega)
      rw [hd] at this
      rw [List.length_append]
      by_cases hle : b.length ≤ 65536
      · have e1 : b.length - 65536 = 0 := by omega
        have e2 : (b.length + 65535) / 65536 = 1 := by omega
        rw [e1] at this
        rw [e2]
        omega
      · have e : (b.length + 65535) / 65536 = (b.length - 65536 + 65535) / 65536 + 1 := by omega
        rw [e]
        omega

/-- The compressed form of `n` bytes stays below the worst case of the block format, `32 + n + n/6`. -/
theorem snapEnc_length {k : Block} (hk : k.Ok) (b : Bytes) :
    (snapEnc k b).length ≤ 32 + b.length + b.length / 6 := by
  unfold snapEnc
  split
  · simp
  · have := blocks_length hk b.length b (Nat.le_refl _)
    rw [List.length_append]
    have hi : ident.length = 10 := rfl
    omega

end Wire
end Verif
