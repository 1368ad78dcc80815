import Verif.Wire.Message
import Mathlib.Tactic.Common
/-
Property C70: what `encode_message` wrote is read back exactly, under every fragmentation, or not at all.
-/
namespace Verif
namespace Wire

open Codec (Byte Bytes leBytes leNat leBytes_length leNat_leBytes)

/-- A run of `decode_message` that is over: it reads no more. -/
def Run (max : Nat) (s : Bytes) (st : Rd) (s' : Bytes) : Prop := Steps max (start, s) (st, s') ∧ want st = 0

/-- The bytes read so far do not go beyond the message. -/
structure Within (max : Nat) (p : Bytes) : Prop where
  four : 4 ≤ p.length → max < leNat (p.take 4) → p.length = 4
  eight : 8 ≤ p.length → maxCompressLen (leNat (p.take 4)) < leNat ((p.drop 4).take 4) → p.length = 8
  body : 8 ≤ p.length → p.length ≤ 8 + leNat ((p.drop 4).take 4)

theorem steps_within {max : Nat} {s0 : Bytes} {st : Rd} {s : Bytes} (h : Steps max (start, s0) (st, s)) :
    ∃ p, s0 = p ++ s ∧ Within max p ∧ (st = after max p ∨ (st = .failed ∧ s = [] ∧ 0 < want (after max s0))) := by
  obtain ⟨p, hp, h1, h2⟩ := steps_consumed h
  obtain ⟨q, hq, hi⟩ := steps_inv h
  have : p = q := List.append_cancel_right (hp.symm.trans hq)
  subst this
  exact ⟨p, hp, ⟨h1, fun h => (h2 h).1, fun h => (h2 h).2⟩, hi⟩

/-- Where the reader stops does not depend on how the bytes arrive. -/
theorem stop_unique {max : Nat} {p q x : Bytes} (hp : want (after max p) = 0) (hq : Within max (p ++ x))
    (hxq : q = p ++ x) : q = p := by
  subst hxq
  have hl : (p ++ x).length = p.length + x.length := List.length_append
  have : x.length = 0 := by
    by_cases h4 : p.length < 4
    · unfold after at hp; rw [if_pos h4] at hp; simp only [want] at hp; omega
    have t4 : (p ++ x).take 4 = p.take 4 := List.take_append_of_le_length (by omega)
    by_cases hm : max < leNat (p.take 4)
    · have := hq.four (by omega) (t4 ▸ hm)
      omega
    by_cases h8 : p.length < 8
    · unfold after at hp; rw [if_neg h4, if_neg hm, if_pos h8] at hp
      simp only [want, List.length_drop] at hp; omega
    have t8 : ((p ++ x).drop 4).take 4 = (p.drop 4).take 4 := by
      rw [List.drop_append_of_le_length (by omega)]
      exact List.take_append_of_le_length (by rw [List.length_drop]; omega)
    by_cases hm2 : maxCompressLen (leNat (p.take 4)) < leNat ((p.drop 4).take 4)
    · have := hq.eight (by omega) (by rw [t4, t8]; exact hm2)
      omega
    by_cases hb : p.length < 8 + leNat ((p.drop 4).take 4)
    · unfold after at hp; rw [if_neg h4, if_neg hm, if_neg h8, if_neg hm2, if_pos hb] at hp
      simp only [want, List.length_drop, bodyChunk] at hp; omega
    · have := hq.body (by omega)
      rw [t8] at this
      omega
  rw [List.length_eq_zero_iff.mp this, List.append_nil]

/-- **The outcome depends on the bytes only**, not on how they are cut into pieces on the way: two runs over the
same stream that are over are in the same state and leave the same bytes unread. -/
theorem run_deterministic {max : Nat} {s : Bytes} {st1 st2 : Rd} {s1 s2 : Bytes} (h1 : Run max s st1 s1)
    (h2 : Run max s st2 s2) : st1 = st2 ∧ s1 = s2 := by
  obtain ⟨p, hp, wp, ip⟩ := steps_within h1.1
  obtain ⟨q, hq, wq, iq⟩ := steps_within h2.1
  have e1 : want (after max p) = 0 ∨ p = s := by
    rcases ip with rfl | ⟨_, rfl, _⟩
    · exact .inl h1.2
    · exact .inr (by rw [hp, List.append_nil])
  have e2 : want (after max q) = 0 ∨ q = s := by
    rcases iq with rfl | ⟨_, rfl, _⟩
    · exact .inl h2.2
    · exact .inr (by rw [hq, List.append_nil])
  have hpq : p = q := by
    rcases List.append_eq_append_iff.mp (hp.symm.trans hq) with ⟨x, hx, hy⟩ | ⟨x, hx, hy⟩
    · rcases e1 with e1 | e1
      · exact (stop_unique e1 (hx ▸ wq) hx).symm
      · have : (p ++ s1).length = s.length := by rw [← hp]
        have h' : p.length = s.length := by rw [e1]
        have : s1 = [] := List.length_eq_zero_iff.mp (by rw [List.length_append] at this; omega)
        rw [this] at hy
        have hx0 : x = [] := (List.append_eq_nil_iff.mp hy.symm).1
        rw [hx, hx0, List.append_nil]
    · rcases e2 with e2 | e2
      · exact stop_unique e2 (hx ▸ wp) hx
      · have : (q ++ s2).length = s.length := by rw [← hq]
        have h' : q.length = s.length := by rw [e2]
        have : s2 = [] := List.length_eq_zero_iff.mp (by rw [List.length_append] at this; omega)
        rw [this] at hy
        have hx0 : x = [] := (List.append_eq_nil_iff.mp hy.symm).1
        rw [hx, hx0, List.append_nil]
  subst hpq
  have hs : s1 = s2 := List.append_cancel_left (hp.symm.trans hq)
  refine ⟨?_, hs⟩
  rcases ip with rfl | ⟨rfl, rfl, w⟩ <;> rcases iq with iq | ⟨iq, h0, w'⟩
  · exact iq.symm
  · rw [h0, List.append_nil] at hq
    rw [hq] at w'
    have := h1.2
    omega
  · subst hs
    rw [List.append_nil] at hp
    rw [hp, ← iq] at w
    have := h2.2
    omega
  · exact iq.symm

/-- No run goes on for ever: a read takes bytes from the stream, and the end of the stream ends the run. -/
theorem no_endless_run (max : Nat) : WellFounded (fun y x : Rd × Bytes => Step max x y) := by
  have key : ∀ n : Nat, ∀ x : Rd × Bytes, x.2.length * 2 + (if want x.1 = 0 then 0 else 1) < n →
      Acc (fun y x : Rd × Bytes => Step max x y) x := by
    intro n
    induction n with
    | zero => intro x h; omega
    | succ n ih =>
      intro x h
      constructor
      intro y hy
      cases hy with
      | read i h1 h2 h3 =>
        apply ih
        dsimp only at h ⊢
        rw [List.length_drop]
        split <;> split at h <;> omega
      | eof hw =>
        apply ih
        dsimp only at h ⊢
        rw [if_neg (by omega)] at h
        rw [if_pos (show want Rd.failed = 0 from rfl)]
        simp only [List.length_nil] at h ⊢
        omega
  exact ⟨fun x => key _ x (Nat.lt_succ_self _)⟩

/-- A run that is not over can go on: by reading or by noticing the end of the stream. -/
theorem can_go_on (max : Nat) (st : Rd) (s : Bytes) (h : want st ≠ 0) : ∃ y, Step max (st, s) y := by
  cases s with
  | nil => exact ⟨_, .eof (by omega)⟩
  | cons a s => exact ⟨_, .read 1 (by omega) (by omega) (by simp only [List.length_cons]; omega)⟩

/-- So there is an outcome on every stream. -/
theorem run_exists (max : Nat) (s : Bytes) : ∃ st s', Run max s st s' := by
  have : ∀ x : Rd × Bytes, Steps max (start, s) x → ∃ st s', Run max s st s' := by
    intro x
    induction x using (no_endless_run max).induction with
    | _ x ih =>
      intro hx
      obtain ⟨st, t⟩ := x
      by_cases hw : want st = 0
      · exact ⟨st, t, hx, hw⟩
      · obtain ⟨y, hy⟩ := can_go_on max st t hw
        exact ih y hy (.tail hx hy)
  exact this _ (.refl _)

/-! ### What was sent -/

theorem maxCompressLen_eq {n : Nat} (h : 32 + n + n / 6 ≤ 4294967295) : maxCompressLen n = 32 + n + n / 6 := by
  unfold maxCompressLen; rw [if_neg (by omega)]

theorem maxCompressLen_mono {n m : Nat} (h : n ≤ m) (hm : 32 + m + m / 6 ≤ 4294967295) :
    maxCompressLen n ≤ maxCompressLen m := by
  rw [maxCompressLen_eq hm, maxCompressLen_eq (by omega)]
  omega

theorem maxCompressLen_le (n : Nat) : maxCompressLen n ≤ 32 + n + n / 6 := by
  unfold maxCompressLen; split <;> omega

/-- The pieces of what was written. -/
theorem encode_parts {α : Type} {k : Block} (hk : k.Ok) {c : Codec.Codec α} {ms : Nat}
    (hms : 32 + ms + ms / 6 ≤ 4294967295) {a : α} {w : Bytes} (h : encodeMessage k c ms a = some w) :
    (c.enc a).length ≤ ms ∧ ∃ z, z = snapEnc k (c.enc a) ∧ w = leBytes 4 (c.enc a).length ++ leBytes 4 z.length ++ z ∧
      z.length ≤ 32 + (c.enc a).length + (c.enc a).length / 6 := by
  unfold encodeMessage at h
  dsimp only at h
  split at h
  · cases h
  · have hl := snapEnc_length hk (c.enc a)
    cases h
    refine ⟨by omega, _, rfl, ?_, hl⟩
    rw [Nat.mod_eq_of_lt (by omega), Nat.mod_eq_of_lt (by omega)]

theorem after_wire {mr n : Nat} {z : Bytes} (hn : n ≤ mr) (hr : 32 + mr + mr / 6 ≤ 4294967295)
    (hz : z.length ≤ 32 + n + n / 6) :
    after mr (leBytes 4 n ++ leBytes 4 z.length ++ z) = .full n z ∧
      Within mr (leBytes 4 n ++ leBytes 4 z.length ++ z) := by
  have l1 : (leBytes 4 n).length = 4 := leBytes_length 4 n
  have l2 : (leBytes 4 z.length).length = 4 := leBytes_length 4 _
  have e1 : leNat (leBytes 4 n) = n := leNat_leBytes 4 n (by omega)
  have e2 : leNat (leBytes 4 z.length) = z.length := leNat_leBytes 4 _ (by omega)
  have hlen : (leBytes 4 n ++ leBytes 4 z.length ++ z).length = 8 + z.length := by
    rw [List.length_append, List.length_append]; omega
  have t4 : (leBytes 4 n ++ leBytes 4 z.length ++ z).take 4 = leBytes 4 n := by
    rw [List.append_assoc]; exact List.take_left' l1
  have d4 : (leBytes 4 n ++ leBytes 4 z.length ++ z).drop 4 = leBytes 4 z.length ++ z := by
    rw [List.append_assoc]; exact List.drop_left' l1
  have t8 : ((leBytes 4 n ++ leBytes 4 z.length ++ z).drop 4).take 4 = leBytes 4 z.length := by
    rw [d4]; exact List.take_left' l2
  have d8 : (leBytes 4 n ++ leBytes 4 z.length ++ z).drop 8 = z :=
    List.drop_left' (by rw [List.length_append]; omega)
  have hmc := maxCompressLen_eq (n := n) (by omega)
  constructor
  · unfold after
    rw [t4, t8, d8, e1, e2, if_neg (by omega), if_neg (by omega), if_neg (by omega), if_neg (by omega),
      if_neg (by omega)]
  · constructor
    · intro _ hm; rw [t4, e1] at hm; omega
    · intro _ hm; rw [t4, t8, e1, e2] at hm; omega
    · intro _; rw [t8, e2]; omega

/-- **A message arrives as it was sent.** Whatever follows it on the stream and however its bytes are cut into
pieces, the receiver decodes exactly the message and has read exactly its bytes. `ms`, `mr`: the size limits of
sender and receiver. -/
theorem message_received {α : Type} {k : Block} (hk : k.Ok) {c : Codec.Codec α} {P : α → Prop} (hc : c.Ok P)
    {ms mr : Nat} (hms : 32 + ms + ms / 6 ≤ 4294967295) (hmr : 32 + mr + mr / 6 ≤ 4294967295) {a : α} (ha : P a)
    {w : Bytes} (hw : encodeMessage k c ms a = some w) (hfit : (c.enc a).length ≤ mr) (rest : Bytes) :
    (∃ st s', Run mr (w ++ rest) st s') ∧
      ∀ st s', Run mr (w ++ rest) st s' → finish k c st = some a ∧ s' = rest := by
  refine ⟨run_exists _ _, ?_⟩
  intro st s' hrun
  obtain ⟨_, z, hz, hwz, hzl⟩ := encode_parts hk hms hw
  obtain ⟨haf, hwi⟩ := after_wire hfit hmr hzl
  rw [← hwz] at haf hwi
  obtain ⟨p, hp, wp, ip⟩ := steps_within hrun.1
  have hpw : p = w := by
    rcases List.append_eq_append_iff.mp (hp.symm) with ⟨x, hx, hy⟩ | ⟨x, hx, hy⟩
    · rcases ip with rfl | ⟨_, rfl, _⟩
      · exact (stop_unique hrun.2 (hx ▸ hwi) hx).symm
      · have hx0 : x = [] := (List.append_eq_nil_iff.mp hy.symm).1
        rw [hx, hx0, List.append_nil]
    · exact stop_unique (by rw [haf]; rfl) (hx ▸ wp) hx
  subst hpw
  have hs : s' = rest := (List.append_cancel_left hp).symm
  refine ⟨?_, hs⟩
  rcases ip with rfl | ⟨_, h0, hwant⟩
  · rw [haf, hz]
    simp only [finish]
    have := unsnap_snapEnc hk (c.enc a) []
    rw [List.append_nil] at this
    rw [this]
    dsimp only
    rw [if_pos rfl]
    exact hc.fromBytes ha
  · rw [hs] at h0
    rw [h0, List.append_nil, haf] at hwant
    simp only [want] at hwant
    omega

/-- **A message arrives whole or not at all.** If the stream ends before the last byte of a message, the receiver
gets an error, never a shortened or different message. -/
theorem truncated_rejected {α : Type} {k : Block} (hk : k.Ok) {c : Codec.Codec α} {ms mr : Nat}
    (hms : 32 + ms + ms / 6 ≤ 4294967295) (hmr : 32 + mr + mr / 6 ≤ 4294967295) {a : α} {w p q : Bytes}
    (hw : encodeMessage k c ms a = some w) (hcut : w = p ++ q) (hq : q ≠ []) {st : Rd} {s' : Bytes}
    (hrun : Run mr p st s') : finish k c st = none := by
  obtain ⟨_, z, hz, hwz, hzl⟩ := encode_parts hk hms hw
  obtain ⟨p1, hp1, wp1, ip1⟩ := steps_within hrun.1
  rcases ip1 with rfl | ⟨rfl, _, _⟩
  · by_cases hn : (c.enc a).length ≤ mr
    · obtain ⟨haf, hwi⟩ := after_wire hn hmr hzl
      rw [← hwz] at haf hwi
      have hw1 : w = p1 ++ (s' ++ q) := by rw [hcut, hp1, List.append_assoc]
      have := stop_unique hrun.2 (hw1 ▸ hwi) hw1
      have hx : s' ++ q = [] := by
        rw [hw1] at this
        exact List.append_right_eq_self.mp this
      exact absurd (List.append_eq_nil_iff.mp hx).2 hq
    · have hw1 : p1 ++ (s' ++ q) = w := by rw [hcut, hp1, List.append_assoc]
      have hfin := hrun.2
      by_cases h4 : p1.length < 4
      · unfold after; rw [if_pos h4]; rfl
      · have t4 : p1.take 4 = leBytes 4 (c.enc a).length := by
          have : (p1 ++ (s' ++ q)).take 4 = p1.take 4 := List.take_append_of_le_length (by omega)
          rw [← this, hw1, hwz, List.append_assoc]
          exact List.take_left' (leBytes_length 4 _)
        have hlen : leNat (p1.take 4) = (c.enc a).length := by
          rw [t4]
          have := (encode_parts hk hms hw).1
          exact leNat_leBytes 4 _ (by omega)
        unfold after
        rw [if_neg h4, if_pos (by omega)]
        rfl
  · rfl

/-- A message above the sender's limit is refused before anything is written. -/
theorem oversize_not_sent {α : Type} (k : Block) (c : Codec.Codec α) (ms : Nat) (a : α) :
    encodeMessage k c ms a = none ↔ ms < (c.enc a).length := by
  unfold encodeMessage
  dsimp only
  split <;> simp_all

/-! ### What any peer can do -/

/-- **What is decoded obeys the limits, whoever sent it**: the declared length is within the limit, exactly the
declared number of body bytes has been read, at most the worst case for that length, the decompressed body has
exactly the declared length, and the whole of it decodes to the message. -/
theorem decoded_sound {α : Type} {k : Block} {c : Codec.Codec α} {max : Nat} {s : Bytes} {st : Rd} {s' : Bytes} {a : α}
    (hrun : Run max s st s') (hf : finish k c st = some a) :
    ∃ (n : Nat) (l1 l2 body p : Bytes), s = l1 ++ l2 ++ body ++ s' ∧ l1.length = 4 ∧ l2.length = 4 ∧ leNat l1 = n ∧
      leNat l2 = body.length ∧ n ≤ max ∧ body.length ≤ maxCompressLen n ∧ unsnap k n body = some p ∧ p.length = n ∧
      c.fromBytes p = some a := by
  obtain ⟨q, hq, wq, iq⟩ := steps_within hrun.1
  rcases iq with rfl | ⟨rfl, _, _⟩
  swap
  · cases hf
  have hcase : ¬ q.length < 4 ∧ ¬ max < leNat (q.take 4) ∧ ¬ q.length < 8 ∧
      ¬ maxCompressLen (leNat (q.take 4)) < leNat ((q.drop 4).take 4) ∧
      ¬ q.length < 8 + leNat ((q.drop 4).take 4) := by
    unfold after at hf
    split at hf
    · cases hf
    rename_i h1
    split at hf
    · cases hf
    rename_i h2
    split at hf
    · cases hf
    rename_i h3
    split at hf
    · cases hf
    rename_i h4
    split at hf
    · cases hf
    rename_i h5
    exact ⟨h1, h2, h3, h4, h5⟩
  obtain ⟨h1, h2, h3, h4, h5⟩ := hcase
  have e : after max q = .full (leNat (q.take 4)) (q.drop 8) := by
    unfold after; rw [if_neg h1, if_neg h2, if_neg h3, if_neg h4, if_neg h5]
  rw [e] at hf
  simp only [finish] at hf
  have hb := wq.body (by omega)
  have hbl : (q.drop 8).length = q.length - 8 := List.length_drop ..
  cases hu : unsnap k (leNat (q.take 4)) (q.drop 8) with
  | none => rw [hu] at hf; cases hf
  | some p =>
    rw [hu] at hf
    dsimp only at hf
    split at hf
    · rename_i hpl
      refine ⟨_, q.take 4, (q.drop 4).take 4, q.drop 8, p, ?_, ?_, ?_, rfl, by omega, by omega, by omega, hu, hpl, hf⟩
      · have : q = q.take 4 ++ (q.drop 4).take 4 ++ q.drop 8 := by
          have hdd : q.drop 8 = (q.drop 4).drop 4 := by rw [List.drop_drop]
          rw [hdd, List.append_assoc, List.take_append_drop, List.take_append_drop]
        rw [← this]
        exact hq
      · rw [List.length_take]; omega
      · rw [List.length_take, List.length_drop]; omega
    · cases hf

/-- The bytes held by the reader. -/
def held : Rd → Nat
  | .len1 got => got.length
  | .len2 _ got => got.length
  | .body _ _ buf => buf.length
  | .full _ buf => buf.length
  | .failed => 0

/-- **Memory follows the bytes that arrived, not the lengths a peer declares**: at every moment the reader holds no
more than it has received, and never more than the worst case for its own limit. It has not read beyond the declared
message, and the declared lengths it goes on with are within its limit. -/
theorem memory_bounded {max : Nat} (hmax : 32 + max + max / 6 ≤ 4294967295) {s : Bytes} {st : Rd} {s' : Bytes}
    (h : Steps max (start, s) (st, s')) :
    ∃ p, s = p ++ s' ∧ held st ≤ p.length ∧ held st ≤ 32 + max + max / 6 ∧ p.length ≤ 8 + (32 + max + max / 6) ∧
      want st ≤ bodyChunk := by
  obtain ⟨p, hp, wp, ip⟩ := steps_within h
  have hmono : ∀ n, n ≤ max → maxCompressLen n ≤ 32 + max + max / 6 := by
    intro n hn
    have := maxCompressLen_mono hn hmax
    have := maxCompressLen_le max
    omega
  have hlen : p.length ≤ 8 + (32 + max + max / 6) := by
    by_cases h8 : 8 ≤ p.length
    · have hb := wp.body h8
      by_cases hm : max < leNat (p.take 4)
      · have := wp.four (by omega) hm; omega
      · by_cases hm2 : maxCompressLen (leNat (p.take 4)) < leNat ((p.drop 4).take 4)
        · have := wp.eight h8 hm2; omega
        · have := hmono (leNat (p.take 4)) (by omega)
          omega
    · omega
  refine ⟨p, hp, ?_, ?_, hlen, ?_⟩
  · rcases ip with rfl | ⟨rfl, _, _⟩
    · unfold after
      repeat' split
      all_goals simp only [held, List.length_drop]
      all_goals omega
    · exact Nat.zero_le _
  · rcases ip with rfl | ⟨rfl, _, _⟩
    · unfold after
      repeat' split
      all_goals simp only [held, List.length_drop]
      all_goals omega
    · exact Nat.zero_le _
  · rcases ip with rfl | ⟨rfl, _, _⟩
    · unfold after
      repeat' split
      all_goals simp only [want, List.length_drop, bodyChunk]
      all_goals omega
    · exact Nat.zero_le _

/-- What is decompressed never exceeds the limit either, whatever the compressed bytes are. -/
theorem decompressed_bounded {max : Nat} {s : Bytes} {n : Nat} {buf s' : Bytes} {k : Block} {p : Bytes}
    (h : Steps max (start, s) (.full n buf, s')) (hu : unsnap k n buf = some p) : p.length ≤ max := by
  have hp := unsnap_le hu
  obtain ⟨q, _, _, iq⟩ := steps_within h
  rcases iq with iq | ⟨iq, _, _⟩
  · unfold after at iq
    split at iq
    · cases iq
    split at iq
    · cases iq
    split at iq
    · cases iq
    split at iq
    · cases iq
    split at iq
    · cases iq
    cases iq
    omega
  · cases iq

/-- **An oversized message costs four bytes**: a peer that declares more than the limit is refused before anything
further is read. -/
theorem oversize_refused {max n : Nat} {rest : Bytes} (hn : max < n) (hn32 : n < 4294967296) {st : Rd} {s' : Bytes}
    (hrun : Run max (leBytes 4 n ++ rest) st s') : st = .failed ∧ s' = rest := by
  have l1 : (leBytes 4 n).length = 4 := leBytes_length 4 n
  have e1 : leNat (leBytes 4 n) = n := leNat_leBytes 4 n (by omega)
  have haf : after max (leBytes 4 n) = .failed := by
    unfold after
    rw [if_neg (by omega), List.take_of_length_le (by omega), e1, if_pos hn]
  have hwi : Within max (leBytes 4 n) := ⟨fun _ _ => l1, fun h => by omega, fun h => by omega⟩
  obtain ⟨p, hp, wp, ip⟩ := steps_within hrun.1
  have hpw : p = leBytes 4 n := by
    rcases List.append_eq_append_iff.mp (hp.symm) with ⟨x, hx, hy⟩ | ⟨x, hx, hy⟩
    · rcases ip with rfl | ⟨_, rfl, _⟩
      · exact (stop_unique hrun.2 (hx ▸ hwi) hx).symm
      · have hx0 : x = [] := (List.append_eq_nil_iff.mp hy.symm).1
        rw [hx, hx0, List.append_nil]
    · exact stop_unique (by rw [haf]; rfl) (hx ▸ wp) hx
  subst hpw
  refine ⟨?_, (List.append_cancel_left hp).symm⟩
  rcases ip with rfl | ⟨rfl, _, _⟩
  · exact haf
  · rfl

/-! ### Many messages on one stream -/

/-- Successive calls of `decode_message` on one stream. -/
inductive Reads {α : Type} (k : Block) (c : Codec.Codec α) (max : Nat) : Bytes → List α → Bytes → Prop where
  | nil (s : Bytes) : Reads k c max s [] s
  | cons {s s1 s2 : Bytes} {st : Rd} {a : α} {as : List α} : Run max s st s1 → finish k c st = some a →
      Reads k c max s1 as s2 → Reads k c max s (a :: as) s2

/-- Successive calls of `encode_message`. -/
def encodeAll {α : Type} (k : Block) (c : Codec.Codec α) (max : Nat) : List α → Option Bytes
  | [] => some []
  | a :: as =>
    match encodeMessage k c max a, encodeAll k c max as with
    | some w, some ws => some (w ++ ws)
    | _, _ => none

/-- **A sequence of messages arrives in order, without gap or repetition**, and the bytes after it are untouched. -/
theorem sequence_received {α : Type} {k : Block} (hk : k.Ok) {c : Codec.Codec α} {P : α → Prop} (hc : c.Ok P)
    {max : Nat} (hmax : 32 + max + max / 6 ≤ 4294967295) {as : List α} (ha : ∀ a ∈ as, P a) {w : Bytes}
    (hw : encodeAll k c max as = some w) (rest : Bytes) :
    Reads k c max (w ++ rest) as rest ∧
      ∀ bs s', bs.length = as.length → Reads k c max (w ++ rest) bs s' → bs = as ∧ s' = rest := by
  induction as generalizing w with
  | nil =>
    cases hw
    refine ⟨.nil _, ?_⟩
    intro bs s' hl hr
    cases hr with
    | nil => exact ⟨rfl, rfl⟩
    | cons _ _ _ => simp at hl
  | cons a as ih =>
    simp only [encodeAll] at hw
    cases h1 : encodeMessage k c max a with
    | none => rw [h1] at hw; cases hw
    | some w1 =>
      cases h2 : encodeAll k c max as with
      | none => rw [h1, h2] at hw; cases hw
      | some ws =>
        rw [h1, h2] at hw
        cases hw
        have hfit : (c.enc a).length ≤ max := by
          by_contra hn
          rw [(oversize_not_sent k c max a).mpr (by omega)] at h1
          cases h1
        obtain ⟨⟨st, s1, hrun⟩, hall⟩ := message_received hk hc hmax hmax (ha a (by simp)) h1 hfit (ws ++ rest)
        obtain ⟨ih1, ih2⟩ := ih (fun b hb => ha b (by simp [hb])) h2
        rw [List.append_assoc]
        constructor
        · obtain ⟨hf, rfl⟩ := hall _ _ hrun
          exact .cons hrun hf ih1
        · intro bs s' hl hr
          cases hr with
          | nil => simp at hl
          | cons hrun' hf' hr' =>
            obtain ⟨hf, rfl⟩ := hall _ _ hrun'
            rw [hf] at hf'
            cases hf'
            obtain ⟨rfl, rfl⟩ := ih2 _ _ (by simpa using hl) hr'
            exact ⟨rfl, rfl⟩

/-- Two readers of the same stream read the same messages. -/
theorem reads_prefix {α : Type} {k : Block} {c : Codec.Codec α} {max : Nat} {s s1 s2 : Bytes} {as bs : List α}
    (ha : Reads k c max s as s1) (hb : Reads k c max s bs s2) (hl : as.length ≤ bs.length) : as <+: bs := by
  induction ha generalizing bs with
  | nil s => exact List.nil_prefix
  | cons hrun hf _ ih =>
    cases hb with
    | nil => simp at hl
    | cons hrun' hf' hr' =>
      obtain ⟨rfl, rfl⟩ := run_deterministic hrun hrun'
      rw [hf] at hf'
      cases hf'
      exact List.cons_prefix_cons.mpr ⟨rfl, ih hr' (by simpa using hl)⟩

/-- **Whatever part of a sequence of messages arrives, what is read of it is a prefix of what was sent**, and all of it
only if all of it arrived. -/
theorem part_received {α : Type} {k : Block} (hk : k.Ok) {c : Codec.Codec α} {P : α → Prop} (hc : c.Ok P)
    {max : Nat} (hmax : 32 + max + max / 6 ≤ 4294967295) {as : List α} (ha : ∀ a ∈ as, P a) {w p q : Bytes}
    (hw : encodeAll k c max as = some w) (hcut : w = p ++ q) {bs : List α} {s' : Bytes}
    (hr : Reads k c max p bs s') : bs <+: as ∧ (bs = as → as ≠ [] → q = []) := by
  induction as generalizing w p bs with
  | nil =>
    cases hw
    have hp : p = [] := (List.append_eq_nil_iff.mp hcut.symm).1
    subst hp
    cases hr with
    | nil => exact ⟨List.nil_prefix, fun _ h => absurd rfl h⟩
    | cons hrun hf _ =>
      exfalso
      obtain ⟨n, l1, l2, body, x, hs, h1, _⟩ := decoded_sound hrun hf
      have : l1.length = 0 := by
        have := congrArg List.length hs
        simp only [List.length_nil, List.length_append] at this
        omega
      omega
  | cons a as ih =>
    simp only [encodeAll] at hw
    cases h1 : encodeMessage k c max a with
    | none => rw [h1] at hw; cases hw
    | some w1 =>
      cases h2 : encodeAll k c max as with
      | none => rw [h1, h2] at hw; cases hw
      | some ws =>
        rw [h1, h2] at hw
        cases hw
        cases hr with
        | nil => exact ⟨List.nil_prefix, fun h => by cases h⟩
        | cons hrun hf hr' =>
          have hfit : (c.enc a).length ≤ max := by
            by_contra hn
            rw [(oversize_not_sent k c max a).mpr (by omega)] at h1
            cases h1
          rcases List.append_eq_append_iff.mp hcut with ⟨x, hx, hy⟩ | ⟨x, hx, hy⟩
          · -- the whole first message arrived
            rw [hx] at hrun
            obtain ⟨_, hall⟩ := message_received hk hc hmax hmax (ha a (by simp)) h1 hfit x
            obtain ⟨hf2, rfl⟩ := hall _ _ hrun
            rw [hf2] at hf
            cases hf
            obtain ⟨i1, i2⟩ := ih (fun b hb => ha b (by simp [hb])) h2 hy hr'
            refine ⟨List.cons_prefix_cons.mpr ⟨rfl, i1⟩, ?_⟩
            intro he _
            cases he
            by_cases hn : as = []
            · subst hn
              cases h2
              exact (List.append_eq_nil_iff.mp hy.symm).2
            · exact i2 rfl hn
          · by_cases hx0 : x = []
            · subst hx0
              rw [List.append_nil] at hx
              rw [List.nil_append] at hy
              rw [← hx, ← List.append_nil w1] at hrun
              obtain ⟨_, hall⟩ := message_received hk hc hmax hmax (ha a (by simp)) h1 hfit []
              obtain ⟨hf2, rfl⟩ := hall _ _ hrun
              rw [hf2] at hf
              cases hf
              obtain ⟨i1, i2⟩ := ih (p := []) (fun b hb => ha b (by simp [hb])) h2 hy.symm hr'
              refine ⟨List.cons_prefix_cons.mpr ⟨rfl, i1⟩, ?_⟩
              intro he _
              cases he
              by_cases hn : as = []
              · subst hn
                cases h2
                exact hy
              · exact i2 rfl hn
            · exact absurd hf (by rw [truncated_rejected hk hmax hmax h1 hx hx0 hrun]; exact fun h => by cases h)

end Wire
end Verif
