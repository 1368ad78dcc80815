import Verif.Wire.Pack
/-
Property C71 (part 2): missing certificates streamed from one primary to another,
crates/consensus/primary/src/network/sync_codec.rs:359-610, handler.rs:1313-1385 and network/mod.rs:436-520.
-/
namespace Verif
namespace Wire

open Codec (Byte Bytes)

/-- `SYNC_CERT_BATCH_TARGET_SIZE` (sync_codec.rs:57). -/
def batchTarget : Nat := 262144

/-- `MAX_SYNC_CERT_FRAME_SIZE` (sync_codec.rs:63). -/
def certFrameMax : Nat := batchTarget * 2

/-- `MAX_SYNC_MISSING_CERTS_RESPONSE_BYTES` (sync_codec.rs:71). -/
def respCap : Nat := 67108864

/-- `MAX_SYNC_MISSING_CERTS_ACCEPT_BYTES` (sync_codec.rs:82-83). -/
def acceptCap : Nat := respCap + certFrameMax

section
variable {C : Type} (c : Codec.Codec C)

/-- `encoded_size` of a certificate. -/
def size (a : C) : Nat := (c.enc a).length

/-- The encoded size of some certificates. -/
def total (as : List C) : Nat := (as.map (size c)).sum

/-- The `scan` (sync_codec.rs:417-420): items pass while less than the cap has been sent. `none`: a storage error. -/
def scanCap : Nat → List (Option C) → List (Option C)
  | _, [] => []
  | sent, some a :: xs => if sent < respCap then some a :: scanCap (sent + size c a) xs else []
  | sent, none :: xs => if sent < respCap then none :: scanCap sent xs else []

/-- `CertBatch` (sync_codec.rs:458-465) with the frames written so far. -/
structure CertBatch (C : Type) where
  frames : List F
  batch : List C
  bytes : Nat

/-- `flush` (sync_codec.rs:500-512). -/
def CertBatch.flush (s : CertBatch C) : CertBatch C := ⟨s.frames ++ [.data ((Codec.seq c).enc s.batch)], [], 0⟩

/-- `push` (sync_codec.rs:489-497). -/
def CertBatch.push (s : CertBatch C) (a : C) : CertBatch C :=
  let s' : CertBatch C := ⟨s.frames, s.batch ++ [a], s.bytes + size c a⟩
  if batchTarget ≤ s'.bytes then s'.flush c else s'

/-- `finish` (sync_codec.rs:516-530). -/
def CertBatch.finish (s : CertBatch C) : List F :=
  (if s.batch = [] then s.frames else (s.flush c).frames) ++ [.done]

/-- The `try_fold` (sync_codec.rs:421-427), and the error frame the caller sends after a storage error
(handler.rs:1366-1378): what was gathered but not flushed is lost. -/
def foldCerts (s : CertBatch C) : List (Option C) → List F
  | [] => s.finish c
  | some a :: xs => foldCerts (s.push c a) xs
  | none :: _ => s.frames ++ [.err .internal]

/-- `send_sync_certificates_over_stream` (sync_codec.rs:378-428): the frames written. -/
def certFrames (certs : List (Option C)) : List F := .ack :: foldCerts c ⟨[], [], 0⟩ (scanCap c 0 certs)

/-- `read_sync_certificates` (sync_codec.rs:546-615): `acc` and `n` are the state of the fold. The outcome is the list
of certificates, or `none` for an error. A timeout may end the reading at any point. -/
inductive CertRead (k : Block) : Bytes → List C → Nat → Option (List C) → Prop where
  | timeout (s : Bytes) (acc : List C) (n : Nat) : CertRead k s acc n none
  | done {s s1 : Bytes} {st : Rd} {acc : List C} {n : Nat} : Run certFrameMax s st s1 →
      finish k (frame request) st = some .done → CertRead k s acc n (some acc)
  | broken {s s1 : Bytes} {st : Rd} {acc : List C} {n : Nat} : Run certFrameMax s st s1 →
      packNext (finish k (frame request) st) = none → CertRead k s acc n none
  | over {s s1 : Bytes} {st : Rd} {acc : List C} {n : Nat} {b : Bytes} : Run certFrameMax s st s1 →
      finish k (frame request) st = some (.data b) → acceptCap < n + b.length → CertRead k s acc n none
  | malformed {s s1 : Bytes} {st : Rd} {acc : List C} {n : Nat} {b : Bytes} : Run certFrameMax s st s1 →
      finish k (frame request) st = some (.data b) → n + b.length ≤ acceptCap →
      (Codec.seq c).fromBytes b = none → CertRead k s acc n none
  | data {s s1 : Bytes} {st : Rd} {acc : List C} {n : Nat} {b : Bytes} {as : List C} {r : Option (List C)} :
      Run certFrameMax s st s1 → finish k (frame request) st = some (.data b) → n + b.length ≤ acceptCap →
      (Codec.seq c).fromBytes b = some as → CertRead k s1 (acc ++ as) (n + b.length) r → CertRead k s acc n r

/-- `fetch_certificates` after the request has been written (network/mod.rs:468-519). -/
inductive CertFetch (k : Block) : Bytes → Option (List C) → Prop where
  | timeout (s : Bytes) : CertFetch k s none
  | ack {s s1 : Bytes} {st : Rd} {r : Option (List C)} : Run certFrameMax s st s1 →
      finish k (frame request) st = some .ack → CertRead c k s1 [] 0 r → CertFetch k s r
  | refused {s s1 : Bytes} {st : Rd} : Run certFrameMax s st s1 →
      finish k (frame request) st ≠ some .ack → CertFetch k s none

end

/-! ### What is sent -/

section
variable {C : Type} {c : Codec.Codec C}

/-- The specification of the cap: `sent` is the shortest beginning of `certs` that reaches the cap, or all of them. -/
def Capped (c : Codec.Codec C) (certs sent : List C) : Prop :=
  sent <+: certs ∧ (sent = certs ∨ respCap ≤ total c sent) ∧ ∀ q, q <+: sent → q ≠ sent → total c q < respCap

theorem total_append (as bs : List C) : total c (as ++ bs) = total c as + total c bs := by
  simp [total, List.sum_append]

theorem total_cons (a : C) (as : List C) : total c (a :: as) = size c a + total c as := by simp [total]

/-- The part that passes the scan, in terms of plain certificates. -/
theorem scanCap_some (n : Nat) (certs : List C) :
    ∃ sent, scanCap c n (certs.map some) = sent.map some ∧ sent <+: certs ∧
      (sent = certs ∨ respCap ≤ n + total c sent) ∧ ∀ q, q <+: sent → q ≠ sent → n + total c q < respCap := by
  induction certs generalizing n with
  | nil => exact ⟨[], rfl, List.nil_prefix, .inl rfl, fun q hq hne => absurd (List.prefix_nil.mp hq) hne⟩
  | cons a as ih =>
    by_cases h : n < respCap
    · obtain ⟨sent, h1, h2, h3, h4⟩ := ih (n + size c a)
      refine ⟨a :: sent, ?_, List.cons_prefix_cons.mpr ⟨rfl, h2⟩, ?_, ?_⟩
      · simp only [List.map_cons, scanCap]
        rw [if_pos h, h1]
      · rcases h3 with h3 | h3
        · exact .inl (by rw [h3])
        · right; rw [total_cons]; omega
      · intro q hq hne
        cases q with
        | nil => simpa [total] using h
        | cons b q =>
          obtain ⟨rfl, hq'⟩ := List.cons_prefix_cons.mp hq
          have := h4 q hq' (fun he => hne (by rw [he]))
          rw [total_cons]; omega
    · refine ⟨[], ?_, List.nil_prefix, .inr (by simp only [total, List.map_nil, List.sum_nil]; omega), ?_⟩
      · simp only [List.map_cons, scanCap]
        rw [if_neg h]
        rfl
      · intro q hq hne; exact absurd (List.prefix_nil.mp hq) hne

/-- A storage error reaches the fold unless the cap is met first. -/
theorem scanCap_error (n : Nat) (certs : List C) (xs : List (Option C)) (h : n + total c certs < respCap) :
    ∃ ys, scanCap c n (certs.map some ++ none :: xs) = certs.map some ++ none :: ys := by
  induction certs generalizing n with
  | nil =>
    simp only [total, List.map_nil, List.sum_nil] at h
    exact ⟨scanCap c n xs, by simp only [List.map_nil, List.nil_append, scanCap]; rw [if_pos (by omega)]⟩
  | cons a as ih =>
    rw [total_cons] at h
    obtain ⟨ys, hy⟩ := ih (n + size c a) (by omega)
    exact ⟨ys, by simp only [List.map_cons, List.cons_append, scanCap]; rw [if_pos (by omega), hy]⟩

/-- The frames of a sequence of batches. -/
def batchFrames (c : Codec.Codec C) (bs : List (List C)) : List F := bs.map (fun b => .data ((Codec.seq c).enc b))

/-- The batches flushed so far and the batch in hand. `m` bounds the size of a certificate. -/
structure Folded (c : Codec.Codec C) (m : Nat) (s : CertBatch C) (bs : List (List C)) (sofar : List C) : Prop where
  frames : s.frames = batchFrames c bs
  all : bs.flatten ++ s.batch = sofar
  bytes : s.bytes = total c s.batch
  small : s.bytes < batchTarget
  full : ∀ b ∈ bs, batchTarget ≤ total c b ∧ total c b < batchTarget + m

theorem folded_push {m : Nat} {s : CertBatch C} {bs : List (List C)} {sofar : List C} (h : Folded c m s bs sofar)
    {a : C} (ha : size c a ≤ m) : ∃ bs', Folded c m (s.push c a) bs' (sofar ++ [a]) := by
  have ht : total c (s.batch ++ [a]) = s.bytes + size c a := by
    rw [total_append, h.bytes]; simp [total]
  have hs := h.small
  unfold CertBatch.push
  dsimp only
  split
  · rename_i hge
    refine ⟨bs ++ [s.batch ++ [a]], ?_, ?_, rfl, by simp [CertBatch.flush, batchTarget], ?_⟩
    · simp [CertBatch.flush, h.frames, batchFrames]
    · simp [CertBatch.flush, ← h.all, List.flatten_append]
    · intro b hb
      rcases List.mem_append.mp hb with hb | hb
      · exact h.full b hb
      · rw [List.mem_singleton] at hb
        subst hb
        rw [ht]
        omega
  · rename_i hlt
    have hlt' : s.bytes + size c a < batchTarget := Nat.lt_of_not_le hlt
    exact ⟨bs, h.frames, by rw [← h.all, List.append_assoc], ht.symm, hlt', h.full⟩

/-- The frames written are batches of what was to be sent, in order, then the end. -/
theorem foldCerts_some {m : Nat} {s : CertBatch C} {bs : List (List C)} {sofar : List C} (h : Folded c m s bs sofar)
    (hm : 0 < m) {as : List C} (has : ∀ a ∈ as, size c a ≤ m) :
    ∃ full last : List (List C), foldCerts c s (as.map some) = batchFrames c (full ++ last) ++ [.done] ∧
      (full ++ last).flatten = sofar ++ as ∧ last.length ≤ 1 ∧ (∀ b ∈ full, batchTarget ≤ total c b) ∧
      ∀ b ∈ full ++ last, total c b < batchTarget + m := by
  induction as generalizing s bs sofar with
  | nil =>
    simp only [List.map_nil, foldCerts, CertBatch.finish, List.append_nil]
    by_cases he : s.batch = []
    · refine ⟨bs, [], ?_, ?_, by simp, fun b hb => (h.full b hb).1, fun b hb => ?_⟩
      · rw [if_pos he, h.frames, List.append_nil]
      · rw [← h.all, he, List.append_nil, List.append_nil]
      · rw [List.append_nil] at hb; exact (h.full b hb).2
    · refine ⟨bs, [s.batch], ?_, ?_, by simp, fun b hb => (h.full b hb).1, fun b hb => ?_⟩
      · rw [if_neg he]
        simp [CertBatch.flush, h.frames, batchFrames]
      · rw [← h.all, List.flatten_append]; simp
      · rcases List.mem_append.mp hb with hb | hb
        · exact (h.full b hb).2
        · rw [List.mem_singleton] at hb
          subst hb
          have := h.small
          have := h.bytes
          omega
  | cons a as ih =>
    obtain ⟨bs', h'⟩ := folded_push h (has a (by simp))
    obtain ⟨full, last, h1, h2, h3, h4, h5⟩ := ih h' (fun b hb => has b (by simp [hb]))
    refine ⟨full, last, ?_, ?_, h3, h4, h5⟩
    · simpa only [List.map_cons, foldCerts] using h1
    · rw [h2, List.append_assoc]; rfl

/-- With a storage error: some batches, then the error. -/
theorem foldCerts_error {m : Nat} {s : CertBatch C} {bs : List (List C)} {sofar : List C} (h : Folded c m s bs sofar)
    {as : List C} (has : ∀ a ∈ as, size c a ≤ m) (ys : List (Option C)) :
    ∃ bs' : List (List C), foldCerts c s (as.map some ++ none :: ys) = batchFrames c bs' ++ [.err .internal] ∧
      (∃ t, sofar ++ as = bs'.flatten ++ t) ∧ ∀ b ∈ bs', total c b < batchTarget + m := by
  induction as generalizing s bs sofar with
  | nil =>
    refine ⟨bs, ?_, ⟨s.batch, by rw [h.all, List.append_nil]⟩, fun b hb => (h.full b hb).2⟩
    simp only [List.map_nil, List.nil_append, foldCerts, h.frames]
  | cons a as ih =>
    obtain ⟨bs', h'⟩ := folded_push h (has a (by simp))
    obtain ⟨bs2, h1, ⟨t, h2⟩, h3⟩ := ih h' (fun b hb => has b (by simp [hb]))
    refine ⟨bs2, ?_, ⟨t, ?_⟩, h3⟩
    · simpa only [List.map_cons, List.cons_append, foldCerts] using h1
    · rw [← h2, List.append_assoc]; rfl

theorem folded_start (c : Codec.Codec C) (m : Nat) : Folded c m ⟨[], [], 0⟩ [] [] :=
  ⟨rfl, rfl, rfl, by simp [batchTarget], fun b hb => by cases hb⟩

theorem manyEnc_length (as : List C) : (Codec.manyEnc c as).length = total c as := by
  induction as with
  | nil => rfl
  | cons a as ih => rw [total_cons, ← ih]; simp [Codec.manyEnc, size]

theorem seqEnc_length (as : List C) :
    total c as + 1 ≤ ((Codec.seq c).enc as).length ∧ ((Codec.seq c).enc as).length ≤ total c as + 5 := by
  have h : (Codec.seq c).enc as = Codec.len.enc as.length ++ Codec.manyEnc c as := rfl
  have h1 := lenEnc_le as.length
  have h2 : 1 ≤ (Codec.len.enc as.length).length := Codec.ulebEnc_pos 5 as.length (by omega)
  rw [h, List.length_append, manyEnc_length]
  omega

/-- The largest certificate for which the frames of every batch fit: just under 256 KiB. -/
def certMax : Nat := 262133

/-- What is assumed of the certificates: they can be encoded, none is empty, none is larger than `certMax`. -/
def CertOk (c : Codec.Codec C) (P : C → Prop) (a : C) : Prop := P a ∧ 0 < size c a ∧ size c a ≤ certMax

theorem length_le_total {P : C → Prop} {as : List C} (h : ∀ a ∈ as, CertOk c P a) : as.length ≤ total c as := by
  induction as with
  | nil => simp [total]
  | cons a as ih =>
    have := ih (fun b hb => h b (by simp [hb]))
    have := (h a (by simp)).2.1
    rw [total_cons, List.length_cons]
    omega

/-- Every frame of a batch can be sent and read, and its payload decodes to the batch. -/
theorem batch_fits {P : C → Prop} (hc : c.Ok P) {b : List C} (hb : ∀ a ∈ b, CertOk c P a)
    (ht : total c b < batchTarget + certMax) :
    Frame.Fits Request.Fits (.data ((Codec.seq c).enc b) : F) ∧
      ((frame request).enc (.data ((Codec.seq c).enc b))).length ≤ certFrameMax ∧
      (Codec.seq c).fromBytes ((Codec.seq c).enc b) = some b := by
  have e1 : batchTarget = 262144 := rfl
  have e2 : certFrameMax = 524288 := rfl
  have e3 : certMax = 262133 := rfl
  have e4 : Codec.maxLen = 2147483647 := rfl
  have h1 := (seqEnc_length (c := c) b).2
  have h2 := data_length request ((Codec.seq c).enc b)
  have h3 := length_le_total hb
  refine ⟨?_, by omega, ?_⟩
  · show ((Codec.seq c).enc b).length ≤ Codec.maxLen
    omega
  · have := Codec.seq_ok hc b ⟨by omega, fun a ha => (hb a ha).1⟩ []
    rw [List.append_nil] at this
    simp only [Codec.Codec.fromBytes, this]

theorem total_flatten (bs : List (List C)) : total c bs.flatten = (bs.map (total c)).sum := by
  induction bs with
  | nil => rfl
  | cons b bs ih => rw [List.flatten_cons, total_append, ih]; simp

/-- The sizes of the payloads. -/
def payload (c : Codec.Codec C) (bs : List (List C)) : Nat := (bs.map (fun b => ((Codec.seq c).enc b).length)).sum

theorem payload_le (bs : List (List C)) : payload c bs ≤ total c bs.flatten + 5 * bs.length := by
  induction bs with
  | nil => simp [payload]
  | cons b bs ih =>
    have h1 := (seqEnc_length (c := c) b).2
    simp only [payload, List.map_cons, List.sum_cons, List.flatten_cons, total_append, List.length_cons] at *
    omega

theorem full_count {bs : List (List C)} (h : ∀ b ∈ bs, batchTarget ≤ total c b) :
    bs.length * batchTarget ≤ total c bs.flatten := by
  induction bs with
  | nil => simp
  | cons b bs ih =>
    have := ih (fun x hx => h x (by simp [hx]))
    have := h b (by simp)
    rw [List.length_cons, List.flatten_cons, total_append, Nat.succ_mul]
    omega

/-- What the cap leaves is less than the cap and one more certificate. -/
theorem capped_total {P : C → Prop} {certs sent : List C} (h : Capped c certs sent) (hok : ∀ a ∈ certs, CertOk c P a) :
    total c sent < respCap + certMax := by
  by_cases he : sent = []
  · subst he; simp only [total, List.map_nil, List.sum_nil]; decide
  · obtain ⟨a, ha⟩ : ∃ a, sent = sent.dropLast ++ [a] := ⟨sent.getLast he, (List.dropLast_concat_getLast he).symm⟩
    have hlt := h.2.2 sent.dropLast (List.dropLast_prefix sent) (by
      intro h'; have := congrArg List.length ha
      rw [h'] at this; simp at this)
    have hmem : a ∈ certs := h.1.subset (by rw [ha]; simp)
    have := (hok a hmem).2.2
    rw [ha, total_append]
    simp only [total, List.map_cons, List.map_nil, List.sum_cons, List.sum_nil] at *
    omega

/-- The frames of an answer without a storage error. -/
theorem certFrames_some {P : C → Prop} {certs : List C} (hok : ∀ a ∈ certs, CertOk c P a) :
    ∃ sent, Capped c certs sent ∧ ∃ bs : List (List C),
      certFrames c (certs.map some) = .ack :: (batchFrames c bs ++ [.done]) ∧ bs.flatten = sent ∧
      (∀ b ∈ bs, total c b < batchTarget + certMax) ∧ payload c bs ≤ acceptCap := by
  obtain ⟨sent, h1, h2, h3, h4⟩ := scanCap_some (c := c) 0 certs
  have hcap : Capped c certs sent := ⟨h2, by simpa using h3, by simpa using h4⟩
  have hs : ∀ a ∈ sent, size c a ≤ certMax := fun a ha => (hok a (h2.subset ha)).2.2
  obtain ⟨full, last, f1, f2, f3, f4, f5⟩ := foldCerts_some (folded_start c certMax) (by decide) hs
  refine ⟨sent, hcap, full ++ last, ?_, by simpa using f2, f5, ?_⟩
  · unfold certFrames; rw [h1, f1]
  · have p1 := payload_le (c := c) (full ++ last)
    have p2 := full_count f4
    have p3 := capped_total hcap hok
    rw [List.nil_append] at f2
    have p4 : total c full.flatten ≤ total c sent := by
      rw [← f2, List.flatten_append, total_append]; omega
    rw [f2, List.length_append] at p1
    have e1 : batchTarget = 262144 := rfl
    have e2 : certFrameMax = 524288 := rfl
    have e3 : certMax = 262133 := rfl
    have e4 : respCap = 67108864 := rfl
    have e5 : acceptCap = 67108864 + 524288 := rfl
    rw [e1] at p2
    omega

/-! ### What is read -/

/-- A successful reading read the batches of its result and the end. -/
theorem certRead_reads {k : Block} {s : Bytes} {acc : List C} {n : Nat} {r : Option (List C)} (h : CertRead c k s acc n r)
    {as : List C} (hr : r = some as) :
    ∃ (ps : List Bytes) (bs : List (List C)) (s' : Bytes), Reads k (frame request) certFrameMax s (packFrames ps) s' ∧
      ps.map (Codec.seq c).fromBytes = bs.map some ∧ as = acc ++ bs.flatten ∧ n + (ps.map List.length).sum ≤ max n acceptCap := by
  induction h with
  | timeout | broken | over | malformed => cases hr
  | done hrun hf =>
    cases hr
    exact ⟨[], [], _, .cons hrun hf (.nil _), rfl, by simp, by simp; omega⟩
  | @data _ _ _ _ _ b ds _ hrun hf hle hdec _ ih =>
    obtain ⟨ps, bs, s', h1, h2, h3, h4⟩ := ih hr
    refine ⟨b :: ps, ds :: bs, s', .cons hrun hf h1, ?_, ?_, ?_⟩
    · rw [List.map_cons, hdec, h2]; rfl
    · rw [h3, List.flatten_cons, List.append_assoc]
    · simp only [List.map_cons, List.sum_cons]; omega

theorem certFetch_reads {k : Block} {s : Bytes} {as : List C} (h : CertFetch c k s (some as)) :
    ∃ (ps : List Bytes) (bs : List (List C)) (s' : Bytes),
      Reads k (frame request) certFrameMax s (.ack :: packFrames ps) s' ∧
      ps.map (Codec.seq c).fromBytes = bs.map some ∧ as = bs.flatten ∧ (ps.map List.length).sum ≤ acceptCap := by
  cases h with
  | ack hrun hf hr =>
    obtain ⟨ps, bs, s', h1, h2, h3, h4⟩ := certRead_reads hr rfl
    exact ⟨ps, bs, s', .cons hrun hf h1, h2, by simpa using h3, by omega⟩

theorem batchFrames_pack (bs : List (List C)) :
    batchFrames c bs ++ [.done] = packFrames (bs.map (Codec.seq c).enc) := by
  simp [batchFrames, packFrames, Function.comp_def]

theorem certFrameMax_ok : 32 + certFrameMax + certFrameMax / 6 ≤ 4294967295 := by decide

theorem map_some_inj {bs cs : List (List C)} (h : bs.map some = cs.map some) : bs = cs := by
  induction bs generalizing cs with
  | nil => cases cs with
    | nil => rfl
    | cons c cs => cases h
  | cons b bs ih => cases cs with
    | nil => cases h
    | cons c cs =>
      simp only [List.map_cons, List.cons.injEq, Option.some.injEq] at h
      rw [h.1, ih h.2]

/-- **An answer arrives whole, or as an error.** `certs`: what the responder has to send; all of it, up to the response
cap, can be sent. However the bytes that arrive are fragmented and wherever the connection breaks, the requester either
gets exactly the certificates sent, in order (only if nothing was lost), or an error: it never acts on a part. -/
theorem certs_transferred {k : Block} (hk : k.Ok) {P : C → Prop} (hc : c.Ok P) {certs : List C}
    (hok : ∀ a ∈ certs, CertOk c P a) :
    ∃ sent w, Capped c certs sent ∧
      encodeAll k (frame request) certFrameMax (certFrames c (certs.map some)) = some w ∧
      (∀ p q, w = p ++ q → ∀ r, CertFetch c k p r → r = none ∨ (r = some sent ∧ q = [])) ∧
      ∀ rest, CertFetch c k (w ++ rest) (some sent) ∧ ∀ as, CertFetch c k (w ++ rest) (some as) → as = sent := by
  obtain ⟨sent, hcap, bs, hfr, hsent, hsz, hpay⟩ := certFrames_some hok
  have hmem : ∀ b ∈ bs, ∀ a ∈ b, CertOk c P a := by
    intro b hb a ha
    refine hok a (hcap.1.subset ?_)
    rw [← hsent]
    exact List.mem_flatten.mpr ⟨b, hb, ha⟩
  have hfit : ∀ f ∈ certFrames c (certs.map some),
      Frame.Fits Request.Fits f ∧ ((frame request).enc f).length ≤ certFrameMax := by
    intro f hf
    rw [hfr] at hf
    rcases List.mem_cons.mp hf with rfl | hf
    · exact ⟨trivial, by show 1 ≤ certFrameMax; decide⟩
    rcases List.mem_append.mp hf with hf | hf
    · obtain ⟨b, hb, rfl⟩ := List.mem_map.mp hf
      have := batch_fits hc (hmem b hb) (hsz b hb)
      exact ⟨this.1, this.2.1⟩
    · rw [List.mem_singleton] at hf
      subst hf
      exact ⟨trivial, by show 1 ≤ certFrameMax; decide⟩
  have hdec : (bs.map (Codec.seq c).enc).map (Codec.seq c).fromBytes = bs.map some := by
    rw [List.map_map]
    apply List.map_congr_left
    intro b hb
    exact (batch_fits hc (hmem b hb) (hsz b hb)).2.2
  obtain ⟨w, hw⟩ := encodeAll_some (k := k) (c := frame request) (fun a ha => (hfit a ha).2)
  have hPf : ∀ a ∈ certFrames c (certs.map some), Frame.Fits Request.Fits a := fun a ha => (hfit a ha).1
  have hfr' : certFrames c (certs.map some) = .ack :: packFrames (bs.map (Codec.seq c).enc) := by
    rw [hfr, batchFrames_pack]
  refine ⟨sent, w, hcap, hw, ?_, ?_⟩
  · intro p q hpq r hr
    cases r with
    | none => exact .inl rfl
    | some as =>
      right
      obtain ⟨ps, ds, s', h1, h2, h3, _⟩ := certFetch_reads hr
      have := part_received hk (frame_ok request_ok) certFrameMax_ok hPf hw hpq h1
      rw [hfr'] at this
      have hps := done_last (List.cons_prefix_cons.mp this.1).2
      subst hps
      rw [h2] at hdec
      have := map_some_inj hdec
      subst this
      exact ⟨by rw [h3, hsent], this.2 rfl (by simp)⟩
  · intro rest
    obtain ⟨hread, _⟩ := sequence_received hk (frame_ok request_ok) certFrameMax_ok hPf hw rest
    rw [hfr'] at hread
    refine ⟨?_, ?_⟩
    · have build : ∀ (ds : List (List C)) (acc : List C) (n : Nat) (s s' : Bytes), (∀ b ∈ ds, b ∈ bs) →
          n + payload c ds ≤ acceptCap →
          Reads k (frame request) certFrameMax s (packFrames (ds.map (Codec.seq c).enc)) s' →
          CertRead c k s acc n (some (acc ++ ds.flatten)) := by
        intro ds
        induction ds with
        | nil =>
          intro acc n s s' _ _ h
          cases h with
          | cons hrun hf _ => simpa using CertRead.done hrun hf
        | cons d ds ih =>
          intro acc n s s' hds hn h
          cases h with
          | cons hrun hf hr =>
            simp only [payload, List.map_cons, List.sum_cons] at hn
            have := ih (acc ++ d) (n + ((Codec.seq c).enc d).length) _ _ (fun b hb => hds b (by simp [hb]))
              (by unfold payload; omega) hr
            rw [List.append_assoc, ← List.flatten_cons] at this
            have hd := hds d (by simp)
            exact .data hrun hf (by omega) (batch_fits hc (hmem d hd) (hsz d hd)).2.2 this
      cases hread with
      | cons hrun hf hr =>
        have := build bs [] 0 _ _ (fun b hb => hb) (by omega) hr
        rw [List.nil_append, hsent] at this
        exact .ack hrun hf this
    · intro as has
      obtain ⟨ps, ds, s', h1, h2, h3, _⟩ := certFetch_reads has
      have hps : ps = bs.map (Codec.seq c).enc := by
        rcases Nat.le_total ((.ack : F) :: packFrames ps : List F).length
          ((.ack : F) :: packFrames (bs.map (Codec.seq c).enc) : List F).length with hl | hl
        · exact done_last (List.cons_prefix_cons.mp (reads_prefix h1 hread hl)).2
        · exact (done_last (List.cons_prefix_cons.mp (reads_prefix hread h1 hl)).2).symm
      subst hps
      rw [h2] at hdec
      have := map_some_inj hdec
      subst this
      rw [h3, hsent]

/-- **After a storage error the requester acts on nothing.** `certs`: what was read before the error, with less than
the response cap. Whatever part of the answer arrives, there is no result. -/
theorem storage_error_aborts {k : Block} (hk : k.Ok) {P : C → Prop} (hc : c.Ok P) {certs : List C}
    (hok : ∀ a ∈ certs, CertOk c P a) (hlt : total c certs < respCap) (xs : List (Option C)) :
    ∃ w, encodeAll k (frame request) certFrameMax (certFrames c (certs.map some ++ none :: xs)) = some w ∧
      ∀ p q, w = p ++ q → ∀ r, CertFetch c k p r → r = none := by
  obtain ⟨ys, hy⟩ := scanCap_error (c := c) 0 certs xs (by omega)
  obtain ⟨bs, h1, ⟨t, h2⟩, h3⟩ := foldCerts_error (folded_start c certMax) (fun a ha => (hok a ha).2.2) ys
  rw [List.nil_append] at h2
  have hfr : certFrames c (certs.map some ++ none :: xs) = .ack :: (batchFrames c bs ++ [.err .internal]) := by
    unfold certFrames; rw [hy, h1]
  have hfit : ∀ f ∈ certFrames c (certs.map some ++ none :: xs),
      Frame.Fits Request.Fits f ∧ ((frame request).enc f).length ≤ certFrameMax := by
    intro f hf
    rw [hfr] at hf
    rcases List.mem_cons.mp hf with rfl | hf
    · exact ⟨trivial, by show 1 ≤ certFrameMax; decide⟩
    rcases List.mem_append.mp hf with hf | hf
    · obtain ⟨b, hb, rfl⟩ := List.mem_map.mp hf
      have := batch_fits hc (fun a ha => hok a (by
        rw [h2]; exact List.mem_append_left _ (List.mem_flatten.mpr ⟨b, hb, ha⟩))) (h3 b hb)
      exact ⟨this.1, this.2.1⟩
    · rw [List.mem_singleton] at hf
      subst hf
      exact ⟨trivial, by show 2 ≤ certFrameMax; decide⟩
  obtain ⟨w, hw⟩ := encodeAll_some (k := k) (c := frame request) (fun a ha => (hfit a ha).2)
  refine ⟨w, hw, ?_⟩
  intro p q hpq r hr
  cases r with
  | none => rfl
  | some as =>
    exfalso
    obtain ⟨ps, ds, s', r1, _, _, _⟩ := certFetch_reads hr
    have := (part_received hk (frame_ok request_ok) certFrameMax_ok (fun a ha => (hfit a ha).1) hw hpq r1).1
    rw [hfr] at this
    have hm : (.done : F) ∈ batchFrames c bs ++ [.err .internal] :=
      (List.cons_prefix_cons.mp this).2.subset (by simp [packFrames])
    rcases List.mem_append.mp hm with hm | hm
    · obtain ⟨b, _, hb⟩ := List.mem_map.mp hm
      cases hb
    · rw [List.mem_singleton] at hm; cases hm

theorem manyDec_count {b r : Bytes} {n : Nat} {as : List C} (hpos : ∀ b a r, c.dec b = some (a, r) → r.length < b.length)
    (h : Codec.manyDec c n b = some (as, r)) : as.length + r.length ≤ b.length := by
  induction n generalizing b as r with
  | zero => simp only [Codec.manyDec] at h; cases h; simp
  | succ n ih =>
    simp only [Codec.manyDec] at h
    split at h
    · cases h
    · rename_i a r1 h1
      split at h
      · cases h
      · rename_i as' r2 h2
        cases h
        have := ih h2
        have := hpos _ _ _ h1
        rw [List.length_cons]
        omega

/-- **No peer can make the requester gather more than the acceptance cap**: whatever the stream, the payloads that make
up a result have at most 64 MiB + 512 KiB, so it has no more certificates than that, and no piece of it was larger than
one frame. -/
theorem fetched_bounded {k : Block} (hpos : ∀ b a r, c.dec b = some (a, r) → r.length < b.length) {s : Bytes}
    {as : List C} (h : CertFetch c k s (some as)) :
    ∃ (ps : List Bytes) (bs : List (List C)), ps.map (Codec.seq c).fromBytes = bs.map some ∧ as = bs.flatten ∧
      (ps.map List.length).sum ≤ acceptCap ∧ as.length ≤ acceptCap := by
  obtain ⟨ps, bs, s', _, h2, h3, h4⟩ := certFetch_reads h
  refine ⟨ps, bs, h2, h3, h4, ?_⟩
  have key : ∀ (ps : List Bytes) (bs : List (List C)), ps.map (Codec.seq c).fromBytes = bs.map some →
      bs.flatten.length ≤ (ps.map List.length).sum := by
    intro ps
    induction ps with
    | nil =>
      intro bs hb
      cases bs with
      | nil => simp
      | cons b bs => cases hb
    | cons p ps ih =>
      intro bs hb
      cases bs with
      | nil => simp
      | cons b bs =>
        simp only [List.map_cons, List.cons.injEq] at hb
        have := ih bs hb.2
        have hp : b.length ≤ p.length := by
          have h1 := hb.1
          unfold Codec.Codec.fromBytes at h1
          split at h1
          · rename_i x hd
            cases h1
            simp only [Codec.seq] at hd
            split at hd
            · cases hd
            · rename_i n r hl
              have := lenDec_le hl
              have := manyDec_count hpos hd
              omega
          · cases h1
        simp only [List.flatten_cons, List.length_append, List.map_cons, List.sum_cons]
        omega
  rw [h3]
  exact Nat.le_trans (key ps bs h2) h4

end
end Wire
end Verif
