import Verif.Wire.Snap
/-
One message on a stream: crates/network-libp2p/src/codec.rs.
-/
namespace Verif
namespace Wire

open Codec (Byte Bytes leBytes leNat leBytes_length leNat_leBytes)

/-- `snap::raw::max_compress_len`: zero when the result does not fit 32 bits. -/
def maxCompressLen (n : Nat) : Nat := if 4294967295 < 32 + n + n / 6 then 0 else 32 + n + n / 6

/-- `BODY_READ_CHUNK_SIZE` (codec.rs:21). -/
def bodyChunk : Nat := 8192

/-- What `decode_message` (codec.rs:32-103) has read so far. -/
inductive Rd where
  /-- reading the first four bytes -/
  | len1 (got : Bytes)
  /-- reading the next four; the message will have `n` bytes -/
  | len2 (n : Nat) (got : Bytes)
  /-- reading the body of `m` bytes; `buf` is `compressed_buffer` -/
  | body (n m : Nat) (buf : Bytes)
  /-- everything has been read -/
  | full (n : Nat) (buf : Bytes)
  | failed
deriving DecidableEq

/-- codec.rs:52-55. -/
def afterLen1 (max n : Nat) : Rd := if max < n then .failed else .len2 n []

/-- codec.rs:63-68; a body of zero bytes is complete. -/
def afterLen2 (n m : Nat) : Rd :=
  if maxCompressLen n < m then .failed else if m = 0 then .full n [] else .body n m []

/-- `c` has been read from the stream. -/
def feed (max : Nat) (st : Rd) (c : Bytes) : Rd :=
  match st with
  | .len1 got => if (got ++ c).length < 4 then .len1 (got ++ c) else afterLen1 max (leNat (got ++ c))
  | .len2 n got => if (got ++ c).length < 4 then .len2 n (got ++ c) else afterLen2 n (leNat (got ++ c))
  | .body n m buf => if (buf ++ c).length < m then .body n m (buf ++ c) else .full n (buf ++ c)
  | st => st

/-- The largest number of bytes the next read asks for (`read_exact` of the rest of a prefix; codec.rs:77). -/
def want : Rd → Nat
  | .len1 got => 4 - got.length
  | .len2 _ got => 4 - got.length
  | .body _ m buf => min (m - buf.length) bodyChunk
  | .full _ _ => 0
  | .failed => 0

/-- One read of `decode_message`. The second component: what the peer sends from here on, before it closes the
stream. A read returns any number of bytes from one up to what was asked for; at the end of the stream it returns
none, and then `decode_message` fails (codec.rs:78-84). -/
inductive Step (max : Nat) : Rd × Bytes → Rd × Bytes → Prop where
  | read {st : Rd} {s : Bytes} (i : Nat) : 1 ≤ i → i ≤ want st → i ≤ s.length →
      Step max (st, s) (feed max st (s.take i), s.drop i)
  | eof {st : Rd} : 0 < want st → Step max (st, []) (.failed, [])

/-- Any number of reads. -/
inductive Steps (max : Nat) : Rd × Bytes → Rd × Bytes → Prop where
  | refl (x : Rd × Bytes) : Steps max x x
  | tail {x y z : Rd × Bytes} : Steps max x y → Step max y z → Steps max x z

/-- `decode_message` starts with empty buffers. -/
def start : Rd := .len1 []

/-- codec.rs:88-103: decompress up to the declared length, compare, decode. -/
def finish {α : Type} (k : Block) (c : Codec.Codec α) : Rd → Option α
  | .full n buf =>
    match unsnap k n buf with
    | none => none
    | some p => if p.length = n then c.fromBytes p else none
  | _ => none

/-- `encode_message` (codec.rs:111-158): the three writes, or an error before the first. `as u32` keeps the low 32
bits. -/
def encodeMessage {α : Type} (k : Block) (c : Codec.Codec α) (max : Nat) (a : α) : Option Bytes :=
  let p := c.enc a
  if max < p.length then none
  else
    let z := snapEnc k p
    some (leBytes 4 (p.length % 4294967296) ++ leBytes 4 (z.length % 4294967296) ++ z)

/-! ### The state after `p` bytes -/

/-- The state of the reader after the bytes `p`. -/
def after (max : Nat) (p : Bytes) : Rd :=
  if p.length < 4 then .len1 p
  else if max < leNat (p.take 4) then .failed
  else if p.length < 8 then .len2 (leNat (p.take 4)) (p.drop 4)
  else if maxCompressLen (leNat (p.take 4)) < leNat ((p.drop 4).take 4) then .failed
  else if p.length < 8 + leNat ((p.drop 4).take 4) then
    .body (leNat (p.take 4)) (leNat ((p.drop 4).take 4)) (p.drop 8)
  else .full (leNat (p.take 4)) (p.drop 8)

theorem after_nil (max : Nat) : after max [] = start := rfl

/-- Reading goes from one such state to the next. -/
theorem feed_after (max : Nat) (p c : Bytes) (hc : 1 ≤ c.length) (h : c.length ≤ want (after max p)) :
    feed max (after max p) c = after max (p ++ c) := by
  have hl : (p ++ c).length = p.length + c.length := List.length_append
  by_cases h4 : p.length < 4
  · have e : after max p = .len1 p := by unfold after; rw [if_pos h4]
    rw [e] at h ⊢
    simp only [want] at h
    simp only [feed]
    by_cases hx : (p ++ c).length < 4
    · rw [if_pos hx]; unfold after; rw [if_pos hx]
    · rw [if_neg hx]
      have he : (p ++ c).take 4 = p ++ c := List.take_of_length_le (by omega)
      have hd : (p ++ c).drop 4 = [] := List.drop_eq_nil_of_le (by omega)
      unfold after afterLen1
      rw [if_neg hx, he, hd]
      split
      · rfl
      · rw [if_pos (by omega)]
  · have t4 : (p ++ c).take 4 = p.take 4 := List.take_append_of_le_length (by omega)
    have d4 : (p ++ c).drop 4 = p.drop 4 ++ c := List.drop_append_of_le_length (by omega)
    have hx : ¬ (p ++ c).length < 4 := by omega
    by_cases hm : max < leNat (p.take 4)
    · have e : after max p = .failed := by unfold after; rw [if_neg h4, if_pos hm]
      rw [e] at h
      simp only [want] at h
      omega
    by_cases h8 : p.length < 8
    · have e : after max p = .len2 (leNat (p.take 4)) (p.drop 4) := by
        unfold after; rw [if_neg h4, if_neg hm, if_pos h8]
      rw [e] at h ⊢
      have hd4 : (p.drop 4).length = p.length - 4 := List.length_drop ..
      simp only [want] at h
      simp only [feed]
      have hdl : (p.drop 4 ++ c).length = p.length - 4 + c.length := by rw [List.length_append, hd4]
      by_cases hy : (p.drop 4 ++ c).length < 4
      · rw [if_pos hy]
        unfold after
        rw [if_neg hx, t4, d4, if_neg hm, if_pos (by omega)]
      · rw [if_neg hy]
        have he : (p.drop 4 ++ c).take 4 = p.drop 4 ++ c := List.take_of_length_le (by omega)
        have hd : (p ++ c).drop 8 = [] := List.drop_eq_nil_of_le (by omega)
        unfold after afterLen2
        rw [if_neg hx, t4, d4, if_neg hm, if_neg (show ¬ (p ++ c).length < 8 by omega), he, hd]
        split
        · rfl
        · by_cases hz : leNat (p.drop 4 ++ c) = 0
          · rw [if_pos hz, if_neg (by omega)]
          · rw [if_neg hz, if_pos (by omega)]
    · have t8 : ((p ++ c).drop 4).take 4 = (p.drop 4).take 4 := by
        rw [d4]; exact List.take_append_of_le_length (by rw [List.length_drop]; omega)
      have d8 : (p ++ c).drop 8 = p.drop 8 ++ c := List.drop_append_of_le_length (by omega)
      by_cases hm2 : maxCompressLen (leNat (p.take 4)) < leNat ((p.drop 4).take 4)
      · have e : after max p = .failed := by unfold after; rw [if_neg h4, if_neg hm, if_neg h8, if_pos hm2]
        rw [e] at h
        simp only [want] at h
        omega
      by_cases hb : p.length < 8 + leNat ((p.drop 4).take 4)
      · have e : after max p = .body (leNat (p.take 4)) (leNat ((p.drop 4).take 4)) (p.drop 8) := by
          unfold after; rw [if_neg h4, if_neg hm, if_neg h8, if_neg hm2, if_pos hb]
        rw [e]
        simp only [feed]
        have hdl : (p.drop 8 ++ c).length = p.length - 8 + c.length := by rw [List.length_append, List.length_drop]
        unfold after
        rw [if_neg hx, t4, t8, d8, if_neg hm, if_neg (show ¬ (p ++ c).length < 8 by omega), if_neg hm2]
        by_cases hy : (p.drop 8 ++ c).length < leNat ((p.drop 4).take 4)
        · rw [if_pos hy, if_pos (by omega)]
        · rw [if_neg hy, if_neg (by omega)]
      · have e : after max p = .full (leNat (p.take 4)) (p.drop 8) := by
          unfold after; rw [if_neg h4, if_neg hm, if_neg h8, if_neg hm2, if_neg hb]
        rw [e] at h
        simp only [want] at h
        omega

/-- Every state of a run is that after the bytes read, or a failure at the end of the stream. -/
theorem steps_inv {max : Nat} {s0 : Bytes} {y : Rd × Bytes} (h : Steps max (start, s0) y) :
    ∃ p, s0 = p ++ y.2 ∧ (y.1 = after max p ∨ (y.1 = .failed ∧ y.2 = [] ∧ 0 < want (after max s0))) := by
  induction h with
  | refl => exact ⟨[], rfl, .inl (after_nil max).symm⟩
  | @tail y z hxy hyz ih =>
    obtain ⟨p, hp, hy⟩ := ih
    cases hyz with
    | @read st s i h1 h2 h3 =>
      dsimp only at hp hy ⊢
      refine ⟨p ++ s.take i, by rw [List.append_assoc, List.take_append_drop]; exact hp, .inl ?_⟩
      rcases hy with rfl | ⟨rfl, rfl, _⟩
      · have hlen : (s.take i).length = i := by rw [List.length_take]; omega
        exact feed_after max p _ (by omega) (by omega)
      · simp only [List.length_nil] at h3; omega
    | @eof st hw =>
      dsimp only at hp hy ⊢
      rw [List.append_nil] at hp
      subst hp
      rcases hy with rfl | ⟨rfl, _, _⟩
      · exact ⟨s0, by rw [List.append_nil], .inr ⟨rfl, rfl, hw⟩⟩
      · simp only [want] at hw; omega

/-- The bytes read never exceed what the message declares. -/
theorem steps_consumed {max : Nat} {s0 : Bytes} {st : Rd} {s : Bytes} (h : Steps max (start, s0) (st, s)) :
    ∃ p, s0 = p ++ s ∧ (4 ≤ p.length → max < leNat (p.take 4) → p.length = 4) ∧
      (8 ≤ p.length → (maxCompressLen (leNat (p.take 4)) < leNat ((p.drop 4).take 4) → p.length = 8) ∧
        p.length ≤ 8 + leNat ((p.drop 4).take 4)) := by
  generalize hy : (st, s) = y at h
  induction h generalizing st s with
  | refl => cases hy; exact ⟨[], rfl, by simp, by simp⟩
  | @tail y z hxy hyz ih =>
    obtain ⟨yst, ys⟩ := y
    obtain ⟨p, hp, hf, hb⟩ := ih rfl
    obtain ⟨q, hq, hi⟩ := steps_inv hxy
    dsimp only at hq hi
    have hpq : p = q := List.append_cancel_right (hp.symm.trans hq)
    subst hpq
    cases hyz with
    | eof hw =>
      cases hy
      exact ⟨p, hp, hf, hb⟩
    | read i h1 h2 h3 =>
      cases hy
      have hlen : (ys.take i).length = i := by rw [List.length_take]; omega
      have hl : (p ++ ys.take i).length = p.length + i := by rw [List.length_append, hlen]
      rcases hi with rfl | ⟨rfl, _, _⟩
      rotate_left
      · simp only [want] at h2; omega
      refine ⟨p ++ ys.take i, by rw [List.append_assoc, List.take_append_drop]; exact hp, ?_, ?_⟩
      · intro h4 hm
        by_cases hp4 : p.length < 4
        · have e : after max p = .len1 p := by unfold after; rw [if_pos hp4]
          rw [e] at h2
          simp only [want] at h2
          omega
        · rw [List.take_append_of_le_length (by omega)] at hm
          have e : after max p = .failed := by unfold after; rw [if_neg hp4, if_pos hm]
          rw [e] at h2
          simp only [want] at h2
          omega
      · intro h8
        by_cases hp4 : p.length < 4
        · have e : after max p = .len1 p := by unfold after; rw [if_pos hp4]
          rw [e] at h2
          simp only [want] at h2
          omega
        by_cases hm : max < leNat (p.take 4)
        · have e : after max p = .failed := by unfold after; rw [if_neg hp4, if_pos hm]
          rw [e] at h2
          simp only [want] at h2
          omega
        by_cases hp8 : p.length < 8
        · have e : after max p = .len2 (leNat (p.take 4)) (p.drop 4) := by
            unfold after; rw [if_neg hp4, if_neg hm, if_pos hp8]
          rw [e] at h2
          simp only [want, List.length_drop] at h2
          exact ⟨fun _ => by omega, by omega⟩
        · have t4 : (p ++ ys.take i).take 4 = p.take 4 := List.take_append_of_le_length (by omega)
          have t8 : ((p ++ ys.take i).drop 4).take 4 = (p.drop 4).take 4 := by
            rw [List.drop_append_of_le_length (by omega)]
            exact List.take_append_of_le_length (by rw [List.length_drop]; omega)
          rw [t4, t8]
          obtain ⟨hb1, hb2⟩ := hb (by omega)
          by_cases hm2 : maxCompressLen (leNat (p.take 4)) < leNat ((p.drop 4).take 4)
          · have e : after max p = .failed := by
              unfold after; rw [if_neg hp4, if_neg hm, if_neg hp8, if_pos hm2]
            rw [e] at h2
            simp only [want] at h2
            omega
          · by_cases hbd : p.length < 8 + leNat ((p.drop 4).take 4)
            · have e : after max p = .body (leNat (p.take 4)) (leNat ((p.drop 4).take 4)) (p.drop 8) := by
                unfold after; rw [if_neg hp4, if_neg hm, if_neg hp8, if_neg hm2, if_pos hbd]
              rw [e] at h2
              simp only [want, List.length_drop] at h2
              exact ⟨fun h => absurd h hm2, by omega⟩
            · have e : after max p = .full (leNat (p.take 4)) (p.drop 8) := by
                unfold after; rw [if_neg hp4, if_neg hm, if_neg hp8, if_neg hm2, if_neg hbd]
              rw [e] at h2
              simp only [want] at h2
              omega

end Wire
end Verif
