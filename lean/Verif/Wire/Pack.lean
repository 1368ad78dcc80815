import Verif.Wire.Frame
/-
Property C71 (part 1): a pack streamed from one primary to another,
crates/consensus/primary/src/network/sync_codec.rs:89-313 and network/mod.rs:976-1098.
-/
namespace Verif
namespace Wire

open Codec (Byte Bytes)

/-- `SYNC_PACK_CHUNK_SIZE` (sync_codec.rs:36). -/
def packChunk : Nat := 262144

/-- `MAX_SYNC_PACK_FRAME_SIZE` (sync_codec.rs:45). -/
def packFrameMax : Nat := packChunk + 1024

abbrev F := Frame Request

/-- What the responder writes after accepting (`write_pack_data_frames`, sync_codec.rs:171-210): the reader's pieces in
order, each in a data frame, then the end. -/
def packFrames (chunks : List Bytes) : List F := chunks.map .data ++ [.done]

/-- The pieces a reader may return for `pack`: non-empty, at most `packChunk` bytes (`ReaderStream`), the pack in all. -/
def Pieces (pack : Bytes) (chunks : List Bytes) : Prop :=
  (∀ b ∈ chunks, b ≠ [] ∧ b.length ≤ packChunk) ∧ chunks.flatten = pack

/-- Where the requester's reader stands. -/
inductive End where
  /-- more may come -/
  | more
  /-- the end of the pack, reported to the importer as the end of the file -/
  | clean
  /-- a read error -/
  | broken
deriving DecidableEq

/-- `next_pack_chunk` (sync_codec.rs:272-313): the meaning of the next frame, `none` for an unreadable one. -/
def packNext : Option F → Option (Option Bytes)
  | some (.data b) => some (some b)
  | some .done => some none
  | _ => none

/-- `sync_pack_reader` (sync_codec.rs:250-270): the pieces handed to the importer while reading the stream `s`. A
timeout may break the reading at any point. -/
inductive PackRead (k : Block) : Bytes → List Bytes → End → Prop where
  | more (s : Bytes) : PackRead k s [] .more
  | timeout (s : Bytes) : PackRead k s [] .broken
  | data {s s1 : Bytes} {st : Rd} {b : Bytes} {bs : List Bytes} {e : End} : Run packFrameMax s st s1 →
      packNext (finish k (frame request) st) = some (some b) → PackRead k s1 bs e → PackRead k s (b :: bs) e
  | done {s s1 : Bytes} {st : Rd} : Run packFrameMax s st s1 →
      packNext (finish k (frame request) st) = some none → PackRead k s [] .clean
  | broken {s s1 : Bytes} {st : Rd} : Run packFrameMax s st s1 →
      packNext (finish k (frame request) st) = none → PackRead k s [] .broken

theorem packNext_data {o : Option F} {b : Bytes} (h : packNext o = some (some b)) : o = some (.data b) := by
  unfold packNext at h
  split at h <;> simp_all

theorem packNext_done {o : Option F} (h : packNext o = some none) : o = some .done := by
  unfold packNext at h
  split at h <;> simp_all

/-- The frames read. -/
theorem packRead_reads {k : Block} {s : Bytes} {bs : List Bytes} {e : End} (h : PackRead k s bs e) :
    (∃ s', Reads k (frame request) packFrameMax s (bs.map .data) s') ∧
      (e = .clean → ∃ s', Reads k (frame request) packFrameMax s (packFrames bs) s') := by
  induction h with
  | more s => exact ⟨⟨s, .nil s⟩, fun h => by cases h⟩
  | timeout s => exact ⟨⟨s, .nil s⟩, fun h => by cases h⟩
  | data hrun hn _ ih =>
    obtain ⟨⟨s', h1⟩, h2⟩ := ih
    refine ⟨⟨s', .cons hrun (packNext_data hn) h1⟩, fun he => ?_⟩
    obtain ⟨s'', h3⟩ := h2 he
    exact ⟨s'', .cons hrun (packNext_data hn) h3⟩
  | done hrun hn => exact ⟨⟨_, .nil _⟩, fun _ => ⟨_, .cons hrun (packNext_done hn) (.nil _)⟩⟩
  | broken => exact ⟨⟨_, .nil _⟩, fun h => by cases h⟩

theorem done_last {bs cs : List Bytes} (h : (packFrames bs : List F) <+: packFrames cs) : bs = cs := by
  induction bs generalizing cs with
  | nil =>
    cases cs with
    | nil => rfl
    | cons c cs =>
      simp only [packFrames, List.map_nil, List.nil_append, List.map_cons, List.cons_append] at h
      have := (List.cons_prefix_cons.mp h).1
      cases this
  | cons b bs ih =>
    cases cs with
    | nil =>
      simp only [packFrames, List.map_cons, List.cons_append, List.map_nil, List.nil_append] at h
      have := (List.cons_prefix_cons.mp h).1
      cases this
    | cons c cs =>
      simp only [packFrames, List.map_cons, List.cons_append] at h
      obtain ⟨h1, h2⟩ := List.cons_prefix_cons.mp h
      cases h1
      rw [ih h2]

theorem data_prefix {bs cs : List Bytes} (h : (bs.map .data : List F) <+: packFrames cs) : bs <+: cs := by
  induction bs generalizing cs with
  | nil => exact List.nil_prefix
  | cons b bs ih =>
    cases cs with
    | nil =>
      simp only [packFrames, List.map_cons, List.map_nil, List.nil_append] at h
      have := (List.cons_prefix_cons.mp h).1
      cases this
    | cons c cs =>
      simp only [packFrames, List.map_cons, List.cons_append] at h
      obtain ⟨h1, h2⟩ := List.cons_prefix_cons.mp h
      cases h1
      exact List.cons_prefix_cons.mpr ⟨rfl, ih h2⟩

theorem packFrames_fit {pack : Bytes} {chunks : List Bytes} (hp : Pieces pack chunks) :
    ∀ f ∈ (packFrames chunks : List F), Frame.Fits Request.Fits f ∧ ((frame request).enc f).length ≤ packFrameMax := by
  intro f hf
  simp only [packFrames, List.mem_append, List.mem_map, List.mem_singleton] at hf
  rcases hf with ⟨b, hb, rfl⟩ | rfl
  · have h1 : b.length ≤ packChunk := (hp.1 b hb).2
    have h2 := data_length request b
    have e1 : packChunk = 262144 := rfl
    have e2 : packFrameMax = packChunk + 1024 := rfl
    have e3 : Codec.maxLen = 2147483647 := rfl
    exact ⟨show b.length ≤ Codec.maxLen by omega, by omega⟩
  · have : ((frame request).enc .done).length = 1 := rfl
    have e2 : packFrameMax = packChunk + 1024 := rfl
    exact ⟨trivial, by omega⟩

theorem encodeAll_some {α : Type} {k : Block} {c : Codec.Codec α} {max : Nat} {as : List α}
    (h : ∀ a ∈ as, (c.enc a).length ≤ max) : ∃ w, encodeAll k c max as = some w := by
  induction as with
  | nil => exact ⟨[], rfl⟩
  | cons a as ih =>
    obtain ⟨ws, hws⟩ := ih (fun b hb => h b (by simp [hb]))
    have ha := h a (by simp)
    cases hm : encodeMessage k c max a with
    | none => rw [oversize_not_sent] at hm; omega
    | some w => exact ⟨w ++ ws, by simp only [encodeAll, hm, hws]⟩

theorem packFrameMax_ok : 32 + packFrameMax + packFrameMax / 6 ≤ 4294967295 := by decide

/-- **A pack arrives byte for byte, or as an error after a true beginning of it.** However the responder's reader cuts
the pack into pieces, no frame is too large to be sent. However the bytes `p` that arrive are fragmented, and wherever
the connection breaks (`q`: what is lost), what the importer is given is a beginning of the pack; it is told that the
pack is complete only if it has been given all of it and nothing was lost. -/
theorem pack_transferred {k : Block} (hk : k.Ok) {pack : Bytes} {chunks : List Bytes} (hp : Pieces pack chunks) :
    ∃ w, encodeAll k (frame request) packFrameMax (packFrames chunks) = some w ∧
      ∀ p q, w = p ++ q → ∀ bs e, PackRead k p bs e →
        bs.flatten <+: pack ∧ (e = .clean → bs.flatten = pack ∧ q = []) := by
  have hfit := packFrames_fit hp
  obtain ⟨w, hw⟩ := encodeAll_some (k := k) (c := frame request) (fun a ha => (hfit a ha).2)
  refine ⟨w, hw, ?_⟩
  intro p q hpq bs e hr
  obtain ⟨⟨s', h1⟩, h2⟩ := packRead_reads hr
  have hPf : ∀ a ∈ (packFrames chunks : List F), Frame.Fits Request.Fits a := fun a ha => (hfit a ha).1
  refine ⟨?_, ?_⟩
  · have := part_received hk (frame_ok request_ok) packFrameMax_ok hPf hw hpq h1
    obtain ⟨t, ht⟩ := data_prefix this.1
    refine ⟨t.flatten, ?_⟩
    rw [← hp.2, ← ht, List.flatten_append]
  · intro he
    obtain ⟨s'', h3⟩ := h2 he
    have := part_received hk (frame_ok request_ok) packFrameMax_ok hPf hw hpq h3
    have hbs := done_last this.1
    refine ⟨by rw [hbs, hp.2], this.2 (by rw [hbs]) ?_⟩
    simp [packFrames]

/-- And when all of it arrives there is a reading that reports the whole pack, even with more bytes behind it; every
reading of it that reports the end reports exactly the pack. -/
theorem pack_complete {k : Block} (hk : k.Ok) {pack : Bytes} {chunks : List Bytes} (hp : Pieces pack chunks) {w : Bytes}
    (hw : encodeAll k (frame request) packFrameMax (packFrames chunks) = some w) (rest : Bytes) :
    PackRead k (w ++ rest) chunks .clean ∧
      ∀ bs, PackRead k (w ++ rest) bs .clean → bs.flatten = pack := by
  have hfit := packFrames_fit hp
  obtain ⟨hread, _⟩ := sequence_received hk (frame_ok request_ok) packFrameMax_ok (fun a ha => (hfit a ha).1) hw rest
  have build : ∀ (cs : List Bytes) (s s' : Bytes), Reads k (frame request) packFrameMax s (packFrames cs) s' →
      PackRead k s cs .clean := by
    intro cs
    induction cs with
    | nil =>
      intro s s' h
      cases h with
      | cons hrun hf _ => exact .done hrun (by rw [hf]; rfl)
    | cons c cs ih =>
      intro s s' h
      cases h with
      | cons hrun hf hr => exact .data hrun (by rw [hf]; rfl) (ih _ _ hr)
  refine ⟨build _ _ _ hread, ?_⟩
  intro bs hbs
  obtain ⟨s', h⟩ := (packRead_reads hbs).2 rfl
  rcases Nat.le_total (packFrames bs : List F).length (packFrames chunks : List F).length with hl | hl
  · rw [done_last (reads_prefix h hread hl), hp.2]
  · rw [← done_last (reads_prefix hread h hl), hp.2]

theorem frameRead_data {t : Nat} {r b rest : Bytes} (h : Frame.read request t r = some (.data b, rest)) :
    b.length ≤ r.length := by
  unfold Frame.read at h
  split at h
  · rw [Option.map_eq_some_iff] at h; obtain ⟨y, hy, he⟩ := h; cases he
  split at h
  · cases h
  split at h
  · rw [Option.map_eq_some_iff] at h; obtain ⟨y, hy, he⟩ := h; cases he
  split at h
  · rw [Option.map_eq_some_iff] at h; obtain ⟨y, hy, he⟩ := h; cases he; exact bytesDec_le hy
  split at h
  · cases h
  split at h
  · rw [Option.map_eq_some_iff] at h; obtain ⟨y, hy, he⟩ := h; cases he
  · cases h

/-- **No peer can make the importer hold more than one frame**: every piece, from whomever, is within the frame
limit. -/
theorem pack_piece_bounded {k : Block} {s : Bytes} {bs : List Bytes} {e : End}
    (h : PackRead k s bs e) : ∀ b ∈ bs, b.length ≤ packFrameMax := by
  induction h with
  | more | timeout | done | broken => intro b hb; cases hb
  | @data s s1 st b bs e hrun hn _ ih =>
    intro x hx
    rcases List.mem_cons.mp hx with rfl | hx
    · obtain ⟨n, l1, l2, body, p, _, _, _, _, _, hn1, _, _, hpl, hdec⟩ := decoded_sound hrun (packNext_data hn)
      have hle : x.length ≤ p.length := by
        unfold Codec.Codec.fromBytes at hdec
        split at hdec
        · rename_i f hd
          cases hdec
          simp only [frame, tagged] at hd
          split at hd
          · cases hd
          · rename_i t r hlen
            have hr : r.length ≤ p.length := by
              have := lenDec_le hlen
              exact this
            exact Nat.le_trans (frameRead_data hd) hr
        · cases hdec
      omega
    · exact ih x hx

end Wire
end Verif
