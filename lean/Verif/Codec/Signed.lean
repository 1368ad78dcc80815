import Verif.Codec.Golden
/-
Everything a validator signs with its BLS key, as bytes, and property C36: a signature given for one purpose is
never valid for another purpose or another content.
-/
namespace Verif
namespace Codec

/-- `EpochRecord` (crates/types/src/primary/epoch.rs:22-41). -/
structure WRecord where
  epoch : Nat
  committee : List Bytes
  nextCommittee : List Bytes
  parentHash : Bytes
  stateNumber : Nat
  stateHash : Bytes
  consensusNumber : Nat
  consensusHash : Bytes
deriving DecidableEq, Repr

/-- `BlsPublicKey`: a byte string of 96 bytes (bls_public_key.rs:230-297; that it is a point is not modelled). -/
def keyC : Codec Bytes := bytesN 96

def recordC : Codec WRecord :=
  conv (pair (uint 4) (pair (seq keyC) (pair (seq keyC) (pair (bytesN 32) (pair (uint 8) (pair (bytesN 32)
      (pair (uint 8) (bytesN 32))))))))
    (fun x => some ⟨x.1, x.2.1, x.2.2.1, x.2.2.2.1, x.2.2.2.2.1, x.2.2.2.2.2.1, x.2.2.2.2.2.2.1, x.2.2.2.2.2.2.2⟩)
    (fun r => (r.epoch, r.committee, r.nextCommittee, r.parentHash, r.stateNumber, r.stateHash, r.consensusNumber,
      r.consensusHash))

structure WRecord.WF (r : WRecord) : Prop where
  epoch : r.epoch < 2 ^ 32
  committee : r.committee.length ≤ maxLen ∧ ∀ k ∈ r.committee, k.length = 96
  nextCommittee : r.nextCommittee.length ≤ maxLen ∧ ∀ k ∈ r.nextCommittee, k.length = 96
  parentHash : r.parentHash.length = 32
  stateNumber : r.stateNumber < 2 ^ 64
  stateHash : r.stateHash.length = 32
  consensusNumber : r.consensusNumber < 2 ^ 64
  consensusHash : r.consensusHash.length = 32

theorem recordC_ok : recordC.Ok WRecord.WF :=
  conv_ok (pair_ok (uint_ok 4) (pair_ok (seq_ok (bytesN_ok (k := 96) (by decide))) (pair_ok
    (seq_ok (bytesN_ok (k := 96) (by decide))) (pair_ok (bytesN_ok (k := 32) (by decide)) (pair_ok (uint_ok 8)
    (pair_ok (bytesN_ok (k := 32) (by decide)) (pair_ok (uint_ok 8) (bytesN_ok (k := 32) (by decide)))))))))
    (fun x hx => ⟨⟨hx.epoch, hx.committee, hx.nextCommittee, hx.parentHash, hx.stateNumber, hx.stateHash,
      hx.consensusNumber, hx.consensusHash⟩, rfl⟩)

/-- What a validator signs. -/
inductive Msg where
  /-- A vote for a header, also the author's own (vote.rs:32-50). -/
  | vote (h : WHeader)
  /-- A consensus result to be gossiped (block.rs:149-166, subscriber.rs:303-310). -/
  | result (epoch round number : Nat) (hash : Bytes)
  /-- An epoch record (epoch.rs:50-58). -/
  | record (r : WRecord)
  /-- The seed of a round (epoch.rs:258-296). -/
  | seed (epoch round : Nat) (prior : Bytes)
  /-- Proof of possession of the key (bls_signature.rs:206-214). -/
  | possession (key address : Bytes)
  /-- The record of the node's network addresses, without intent (network-libp2p/src/types.rs:894-907). `key`: the
  network key's protobuf bytes; `tail`: the rest of the encoding. -/
  | nodeInfo (key tail : Bytes)

/-- Intent prefixes (intent.rs:53-112): scope, version, application. -/
def intent (scope app : Byte) : Bytes := [scope, 0, app]

/-- `n` in `k` bytes, most significant first. -/
def beBytes (k n : Nat) : Bytes := (leBytes k n).reverse

/-- `ConsensusResult::digest_data`'s input (block.rs:149-161). -/
def resultPre (epoch round number : Nat) (hash : Bytes) : Bytes :=
  beBytes 4 epoch ++ (beBytes 4 round ++ (beBytes 8 number ++ hash))

/-- A digest in an intent message (`Digest` is encoded with its length, mod.rs:40-52). -/
def digestMsg (scope : Byte) (d : Bytes) : Bytes := intent scope 1 ++ (bytesN 32).enc d

variable (H : Bytes → Bytes) (B : Build)

/-- The bytes that are signed. Scopes: 0 possession, 1 epoch boundary, 2 consensus digest, 4 seed; application 1 is
`Consensus`, 0 `Telcoin`. -/
def Msg.signed : Msg → Bytes
  | .vote h => digestMsg 2 (H (encHeader B h))
  | .result e r n hash => digestMsg 2 (H (resultPre e r n hash))
  | .record r => digestMsg 1 (H (recordC.enc r))
  | .seed e r prior => intent 4 1 ++ (uint 4).enc e ++ (uint 4).enc r ++ (bytesN 32).enc prior
  | .possession key addr => intent 0 0 ++ key ++ addr
  | .nodeInfo key tail => bytes.enc key ++ tail

/-- Specification: well-formed contents. The network key's protobuf form has at least five bytes (an Ed25519 key has
36). -/
def Msg.WF : Msg → Prop
  | .vote h => h.WF B
  | .result e r n hash => e < 2 ^ 32 ∧ r < 2 ^ 32 ∧ n < 2 ^ 64 ∧ hash.length = 32
  | .record r => r.WF
  | .seed e r prior => e < 2 ^ 32 ∧ r < 2 ^ 32 ∧ prior.length = 32
  | .possession key addr => key.length = 96 ∧ addr.length = 20
  | .nodeInfo key _ => 5 ≤ key.length ∧ key.length ≤ maxLen

/-- Specification: the same purpose and the same content. -/
def Msg.Same : Msg → Msg → Prop
  | .vote h, .vote k => h.seen B = k.seen B
  | .vote _, _ => False
  | m, m' => m = m'

/-- The inputs of the hash function in a message. -/
def Msg.preimages : Msg → List Bytes
  | .vote h => [encHeader B h]
  | .result e r n hash => [resultPre e r n hash]
  | .record r => [recordC.enc r]
  | _ => []

variable {H B}

theorem beBytes_length (k n : Nat) : (beBytes k n).length = k := by
  unfold beBytes; rw [List.length_reverse, leBytes_length]

theorem beBytes_inj {k n m : Nat} (hn : n < 256 ^ k) (hm : m < 256 ^ k) (h : beBytes k n = beBytes k m) : n = m := by
  unfold beBytes at h
  have h1 := List.reverse_inj.mp h
  rw [← leNat_leBytes k n hn, h1, leNat_leBytes k m hm]

theorem resultPre_length {e r n : Nat} {hash : Bytes} (h : hash.length = 32) : (resultPre e r n hash).length = 48 := by
  unfold resultPre
  simp only [List.length_append, beBytes_length, h]

theorem resultPre_inj {e r n e' r' n' : Nat} {hash hash' : Bytes} (h1 : e < 2 ^ 32) (h2 : r < 2 ^ 32)
    (h3 : n < 2 ^ 64) (h1' : e' < 2 ^ 32) (h2' : r' < 2 ^ 32) (h3' : n' < 2 ^ 64)
    (h : resultPre e r n hash = resultPre e' r' n' hash') : e = e' ∧ r = r' ∧ n = n' ∧ hash = hash' := by
  unfold resultPre at h
  obtain ⟨a1, b1⟩ := List.append_inj h (by rw [beBytes_length, beBytes_length])
  obtain ⟨a2, b2⟩ := List.append_inj b1 (by rw [beBytes_length, beBytes_length])
  obtain ⟨a3, b3⟩ := List.append_inj b2 (by rw [beBytes_length, beBytes_length])
  exact ⟨beBytes_inj (k := 4) h1 h1' a1, beBytes_inj (k := 4) h2 h2' a2, beBytes_inj (k := 8) h3 h3' a3, b3⟩

theorem bytesN_enc_length {k : Nat} {b : Bytes} (h : b.length = k) (hk : k < 128) :
    ((bytesN k).enc b).length = k + 1 := by
  show (len.enc b.length ++ b).length = k + 1
  rw [List.length_append, h, len_small hk]
  simp only [List.length_cons, List.length_nil]
  omega

theorem uint_enc_length (k n : Nat) : ((uint k).enc n).length = k := leBytes_length k n

/-- The encoding of a header is longer than the input of a consensus result's digest. -/
theorem encHeader_long {h : WHeader} (hw : h.WF B) : 91 ≤ (encHeader B h).length := by
  have hp : 1 ≤ (payloadC.enc h.payload).length := by
    show 1 ≤ (len.enc h.payload.length ++ manyEnc _ h.payload).length
    rw [List.length_append]
    have := ulebEnc_pos 5 h.payload.length (by omega)
    show 1 ≤ (ulebEnc 5 h.payload.length).length + _
    omega
  have hq : 1 ≤ (parentsC.enc h.parents).length := by
    show 1 ≤ (len.enc h.parents.length ++ manyEnc _ h.parents).length
    rw [List.length_append]
    have := ulebEnc_pos 5 h.parents.length (by omega)
    show 1 ≤ (ulebEnc 5 h.parents.length).length + _
    omega
  have hl : (legacyC.enc h.fields).length = 32 + (4 + (4 + (8 + ((payloadC.enc h.payload).length +
      ((parentsC.enc h.parents).length + (8 + 33)))))) := by
    have e1 : (raw 32).enc h.author = h.author := rfl
    simp only [legacyC, pair, WHeader.fields, List.length_append, uint_enc_length, e1, hw.author,
      bytesN_enc_length hw.execHash (by decide)]
  unfold encHeader encLayout
  rw [List.length_append, hl]
  omega

theorem digestMsg_inj {s s' : Byte} {d d' : Bytes} (h : digestMsg s d = digestMsg s' d') (hd : d.length = 32)
    (hd' : d'.length = 32) : s = s' ∧ d = d' := by
  unfold digestMsg intent at h
  simp only [List.cons_append, List.nil_append, List.cons.injEq, true_and] at h
  exact ⟨h.1, (bytesN_ok (k := 32) (by decide)).inj hd hd' h.2⟩

/-- The first byte: the scope, or for a node record at least 5. -/
theorem bytes_first {key : Bytes} (h : 5 ≤ key.length) : ∃ b tl, bytes.enc key = b :: tl ∧ 5 ≤ b.val := by
  show ∃ b tl, ulebEnc 5 key.length ++ key = b :: tl ∧ 5 ≤ b.val
  generalize key.length = n at h
  unfold ulebEnc
  split
  · exact ⟨_, _, rfl, by dsimp only; omega⟩
  · refine ⟨_, _, rfl, ?_⟩
    show 5 ≤ (n % 128 + 128) % 256
    omega

/-- **C36** Messages signed for different purposes or with different contents are different byte strings: the hash
may not collide on the inputs of the two messages. -/
theorem signed_separated (hH : ∀ x, (H x).length = 32) {m m' : Msg} (hm : m.WF B) (hm' : m'.WF B)
    (hc : ∀ x ∈ m.preimages B, ∀ y ∈ m'.preimages B, H x = H y → x = y)
    (h : m.signed H B = m'.signed H B) : m.Same B m' := by
  have node : ∀ {key tail : Bytes} {b : Byte} {tl : Bytes}, 5 ≤ key.length → b.val < 5 →
      bytes.enc key ++ tail ≠ b :: tl := by
    intro key tail b tl hk hb he
    obtain ⟨c, tl', hc, h5⟩ := bytes_first hk
    rw [hc] at he
    simp only [List.cons_append, List.cons.injEq] at he
    rw [he.1] at h5
    omega
  have dig : ∀ {s : Byte} {d : Bytes}, digestMsg s d = s :: (0 :: 1 :: (bytesN 32).enc d) := fun {s d} => rfl
  cases m with
  | vote x =>
    cases m' with
    | vote y =>
      exact encHeader_inj hm hm' (hc _ (by simp [Msg.preimages]) _ (by simp [Msg.preimages])
        (digestMsg_inj h (hH _) (hH _)).2)
    | result e r n hash =>
      have := hc _ (by simp [Msg.preimages]) _ (by simp [Msg.preimages]) (digestMsg_inj h (hH _) (hH _)).2
      have hl := encHeader_long hm
      rw [this, resultPre_length hm'.2.2.2] at hl
      omega
    | record r => exact absurd (digestMsg_inj h (hH _) (hH _)).1 (by decide)
    | seed e r prior => exact absurd (List.cons.inj h).1 (by decide)
    | possession key addr => exact absurd (List.cons.inj h).1 (by decide)
    | nodeInfo key tail => exact absurd h.symm (node hm'.1 (by decide))
  | result e r n hash =>
    cases m' with
    | vote y =>
      have := hc _ (by simp [Msg.preimages]) _ (by simp [Msg.preimages]) (digestMsg_inj h (hH _) (hH _)).2
      have hl := encHeader_long hm'
      rw [← this, resultPre_length hm.2.2.2] at hl
      omega
    | result e' r' n' hash' =>
      have := hc _ (by simp [Msg.preimages]) _ (by simp [Msg.preimages]) (digestMsg_inj h (hH _) (hH _)).2
      obtain ⟨rfl, rfl, rfl, rfl⟩ := resultPre_inj hm.1 hm.2.1 hm.2.2.1 hm'.1 hm'.2.1 hm'.2.2.1 this
      rfl
    | record r => exact absurd (digestMsg_inj h (hH _) (hH _)).1 (by decide)
    | seed e r prior => exact absurd (List.cons.inj h).1 (by decide)
    | possession key addr => exact absurd (List.cons.inj h).1 (by decide)
    | nodeInfo key tail => exact absurd h.symm (node hm'.1 (by decide))
  | record r =>
    cases m' with
    | vote y => exact absurd (digestMsg_inj h (hH _) (hH _)).1 (by decide)
    | result e' r' n' hash' => exact absurd (digestMsg_inj h (hH _) (hH _)).1 (by decide)
    | record r' =>
      have := hc _ (by simp [Msg.preimages]) _ (by simp [Msg.preimages]) (digestMsg_inj h (hH _) (hH _)).2
      have := recordC_ok.inj hm hm' this
      subst this
      rfl
    | seed e r prior => exact absurd (List.cons.inj h).1 (by decide)
    | possession key addr => exact absurd (List.cons.inj h).1 (by decide)
    | nodeInfo key tail => exact absurd h.symm (node hm'.1 (by decide))
  | seed e r prior =>
    cases m' with
    | vote y => exact absurd (List.cons.inj h).1 (by decide)
    | result e' r' n' hash' => exact absurd (List.cons.inj h).1 (by decide)
    | record r' => exact absurd (List.cons.inj h).1 (by decide)
    | seed e' r' prior' =>
      simp only [Msg.signed, List.append_assoc] at h
      have h1 := List.append_cancel_left h
      obtain ⟨a1, b1⟩ := List.append_inj h1 (by rw [uint_enc_length, uint_enc_length])
      obtain ⟨a2, b2⟩ := List.append_inj b1 (by rw [uint_enc_length, uint_enc_length])
      have := (uint_ok 4).inj hm.1 hm'.1 a1
      have := (uint_ok 4).inj hm.2.1 hm'.2.1 a2
      have := (bytesN_ok (k := 32) (by decide)).inj hm.2.2 hm'.2.2 b2
      subst_vars
      rfl
    | possession key addr => exact absurd (List.cons.inj h).1 (by decide)
    | nodeInfo key tail => exact absurd h.symm (node hm'.1 (by decide))
  | possession key addr =>
    cases m' with
    | vote y => exact absurd (List.cons.inj h).1 (by decide)
    | result e' r' n' hash' => exact absurd (List.cons.inj h).1 (by decide)
    | record r' => exact absurd (List.cons.inj h).1 (by decide)
    | seed e r prior => exact absurd (List.cons.inj h).1 (by decide)
    | possession key' addr' =>
      simp only [Msg.signed, List.append_assoc] at h
      have h1 := List.append_cancel_left h
      obtain ⟨a1, b1⟩ := List.append_inj h1 (by rw [hm.1, hm'.1])
      subst a1 b1
      rfl
    | nodeInfo key tail => exact absurd h.symm (node hm'.1 (by decide))
  | nodeInfo key tail =>
    cases m' with
    | vote y => exact absurd h (node hm.1 (by decide))
    | result e' r' n' hash' => exact absurd h (node hm.1 (by decide))
    | record r' => exact absurd h (node hm.1 (by decide))
    | seed e r prior => exact absurd h (node hm.1 (by decide))
    | possession key' addr' => exact absurd h (node hm.1 (by decide))
    | nodeInfo key' tail' =>
      obtain ⟨a1, b1⟩ := bytes_ok.prefix_free hm.2 hm'.2 h
      subst a1 b1
      rfl

/-- **C36** A signature that verifies for a message under an honest member's key was given by that member for this
purpose and this content. `given`: what the member has signed; `unforged`: nothing else verifies under its key. -/
theorem no_replay (hH : ∀ x, (H x).length = 32) {verify : Bytes → Bytes → Bool} {given : Msg → Prop}
    (hg : ∀ m, given m → m.WF B) (unforged : ∀ s b, verify s b = true → ∃ m, given m ∧ m.signed H B = b)
    {m : Msg} (hm : m.WF B)
    (hc : ∀ m', given m' → ∀ x ∈ m'.preimages B, ∀ y ∈ m.preimages B, H x = H y → x = y)
    {s : Bytes} (hv : verify s (m.signed H B) = true) : ∃ m', given m' ∧ m'.Same B m := by
  obtain ⟨m', h1, h2⟩ := unforged s _ hv
  exact ⟨m', h1, signed_separated hH (hg m' h1) hm (hc m' h1) h2⟩

/-- The length of a signed digest is 36: `INTENT_MESSAGE_LENGTH` (mod.rs:269) is 35, so the conversion
`From<VoteDigest> for Digest<INTENT_MESSAGE_LENGTH>` (vote.rs:112-119), which is not used, would always panic. -/
theorem digestMsg_length {s : Byte} {d : Bytes} (h : d.length = 32) : (digestMsg s d).length = 36 := by
  unfold digestMsg
  rw [List.length_append, bytesN_enc_length h (by decide)]
  rfl

/-- The hypotheses hold for a concrete hash without collisions on the inputs at hand, and the messages do differ. -/
example : ¬ (Msg.vote Golden.legacy).Same Golden.adiri (.result 0 3 7 (List.replicate 32 1)) ∧
    (Msg.vote Golden.legacy).WF Golden.adiri ∧ (Msg.result 0 3 7 (List.replicate 32 1)).WF Golden.adiri :=
  ⟨fun h => h, Golden.legacy_wf, by decide, by decide, by decide, by decide⟩

end Codec
end Verif
