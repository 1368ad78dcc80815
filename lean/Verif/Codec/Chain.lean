import Verif.Codec.Signed
/-
The digests of committed sub-dags and consensus headers (crates/types/src/primary/output.rs:557-572,
block.rs:58-82), property C37: the digest of a consensus header commits to the whole consensus chain before it.
-/
namespace Verif
namespace Codec

/-- `CommittedSubDagInner` (output.rs:303-327) as far as its digest sees it: the headers by their digests. -/
structure WSubDag where
  headers : List Bytes
  /-- `ReputationScores`: authority and score in key order, final flag (reputation.rs:8-18). -/
  scores : List (Bytes × Nat)
  final : Bool
  timestamp : Nat
  randomness : Bytes
deriving DecidableEq, Repr

structure WSubDag.WF (s : WSubDag) : Prop where
  headers : ∀ d ∈ s.headers, d.length = 32
  scoresLen : s.scores.length ≤ maxLen
  scores : ∀ x ∈ s.scores, x.1.length = 32 ∧ x.2 < 2 ^ 64
  timestamp : s.timestamp < 2 ^ 64
  randomness : s.randomness.length = 32

/-- `encode(&reputation_scores)`: a map of fixed-size authority identifiers to `u64`, then the flag. -/
def scoresC : Codec (List (Bytes × Nat) × Bool) := pair (seq (pair (raw 32) (uint 8))) bool

/-- The input of `CommittedSubDag::digest` (output.rs:557-572): the header digests one after the other, without their
number, then scores, timestamp, randomness. -/
def subDagPre (s : WSubDag) : Bytes :=
  s.headers.flatten ++ (scoresC.enc (s.scores, s.final) ++ ((uint 8).enc s.timestamp ++ s.randomness))

theorem flatten_length {l : List Bytes} (h : ∀ d ∈ l, d.length = 32) : l.flatten.length = 32 * l.length := by
  induction l with
  | nil => rfl
  | cons x xs ih =>
    rw [List.flatten_cons, List.length_append, h x (by simp), ih (fun d hd => h d (List.mem_cons_of_mem _ hd)),
      List.length_cons]
    omega

theorem flatten_inj {l m : List Bytes} (hl : ∀ d ∈ l, d.length = 32) (hm : ∀ d ∈ m, d.length = 32)
    (h : l.flatten = m.flatten) : l = m := by
  induction l generalizing m with
  | nil =>
    cases m with
    | nil => rfl
    | cons y ys =>
      have := congrArg List.length h
      rw [flatten_length hm] at this
      simp at this
  | cons x xs ih =>
    cases m with
    | nil =>
      have := congrArg List.length h
      rw [flatten_length hl] at this
      simp at this
    | cons y ys =>
      rw [List.flatten_cons, List.flatten_cons] at h
      obtain ⟨h1, h2⟩ := List.append_inj h (by rw [hl x (by simp), hm y (by simp)])
      rw [h1, ih (fun d hd => hl d (List.mem_cons_of_mem _ hd)) (fun d hd => hm d (List.mem_cons_of_mem _ hd)) h2]

theorem manyEnc_length {l : List (Bytes × Nat)} (h : ∀ x ∈ l, x.1.length = 32) :
    (manyEnc (pair (raw 32) (uint 8)) l).length = 40 * l.length := by
  induction l with
  | nil => rfl
  | cons x xs ih =>
    have e1 : (pair (raw 32) (uint 8)).enc x = x.1 ++ leBytes 8 x.2 := rfl
    simp only [manyEnc, List.length_append, List.length_cons, e1, leBytes_length, h x (by simp),
      ih (fun y hy => h y (List.mem_cons_of_mem _ hy))]
    omega

theorem scoresC_ok : scoresC.Ok (fun x => (x.1.length ≤ maxLen ∧ ∀ y ∈ x.1, y.1.length = 32 ∧ y.2 < 256 ^ 8) ∧ True) :=
  pair_ok (seq_ok (pair_ok (raw_ok 32) (uint_ok 8))) bool_ok

theorem scores_enc_length {l : List (Bytes × Nat)} {b : Bool} (h : ∀ x ∈ l, x.1.length = 32) :
    (scoresC.enc (l, b)).length = (len.enc l.length).length + 40 * l.length + 1 := by
  show ((len.enc l.length ++ manyEnc (pair (raw 32) (uint 8)) l) ++ bool.enc b).length = _
  rw [List.length_append, List.length_append, manyEnc_length h]
  cases b <;> rfl

/-- The digest's input determines the sub-dag among those with the same number of scored authorities (the committee's
size, reputation.rs:23-28: within one epoch it is always the same). -/
theorem subDagPre_inj {s t : WSubDag} (hs : s.WF) (ht : t.WF) (hk : s.scores.length = t.scores.length)
    (h : subDagPre s = subDagPre t) : s = t := by
  have hl := congrArg List.length h
  unfold subDagPre at h hl
  simp only [List.length_append, flatten_length hs.headers, flatten_length ht.headers,
    scores_enc_length (fun x hx => (hs.scores x hx).1), scores_enc_length (fun x hx => (ht.scores x hx).1), hk,
    uint_enc_length, hs.randomness, ht.randomness] at hl
  obtain ⟨h1, h2⟩ := List.append_inj h (by
    rw [flatten_length hs.headers, flatten_length ht.headers]; omega)
  obtain ⟨h3, h4⟩ := scoresC_ok.prefix_free ⟨⟨hs.scoresLen, hs.scores⟩, trivial⟩ ⟨⟨ht.scoresLen, ht.scores⟩, trivial⟩ h2
  obtain ⟨h5, h6⟩ := (uint_ok 8).prefix_free hs.timestamp ht.timestamp h4
  have h7 := flatten_inj hs.headers ht.headers h1
  obtain ⟨s1, s2, s3, s4, s5⟩ := s
  obtain ⟨t1, t2, t3, t4, t5⟩ := t
  simp only [Prod.mk.injEq] at h3
  dsimp only at h5 h6 h7
  rw [h7, h3.1, h3.2, h5, h6]

/-- Without that the input is ambiguous: the number of headers is not part of it. A sub-dag with 5 headers and one
with none have the same digest, whatever the hash function. (Five header digests must spell out scores, so this is not
an attack as long as header digests cannot be chosen.) -/
theorem subDagPre_ambiguous : ∃ s t : WSubDag, s.WF ∧ t.WF ∧ s ≠ t ∧ s.headers.length = 5 ∧ t.headers = [] ∧
    subDagPre s = subDagPre t := by
  refine ⟨⟨[4 :: List.replicate 31 0, List.replicate 32 0, List.replicate 32 0, List.replicate 32 0,
      List.replicate 32 0], [], false, 0, List.replicate 32 0⟩,
    ⟨[], [(List.replicate 32 0, 0), (List.replicate 32 0, 0), (List.replicate 32 0, 0), (List.replicate 32 0, 0)],
      false, 0, List.replicate 32 0⟩, ?_, ?_, by decide, rfl, rfl, by decide +kernel⟩
  · exact ⟨by decide, by decide, by decide, by decide, by decide⟩
  · exact ⟨by decide, by decide, by decide, by decide, by decide⟩

/-- The input of `ConsensusHeader::digest_from_parts` (block.rs:66-81). -/
def chainPre (parent subDigest : Bytes) (number : Nat) : Bytes :=
  parent ++ (subDigest ++ ((uint 8).enc number ++ List.replicate 32 0))

variable (H : Bytes → Bytes)

/-- One consensus header: its sub-dag and number (`extra` is not covered by the digest). -/
structure Link where
  sub : WSubDag
  number : Nat

def Link.WF (k : Nat) (l : Link) : Prop := l.sub.WF ∧ l.sub.scores.length = k ∧ l.number < 2 ^ 64

def linkDigest (parent : Bytes) (l : Link) : Bytes := H (chainPre parent (H (subDagPre l.sub)) l.number)

/-- The digest of the last header of a chain that starts after `anchor` (output.rs:87-131, subscriber: each output's
parent is the digest of the one before). -/
def chainDigest (anchor : Bytes) (ls : List Link) : Bytes := ls.foldl (linkDigest H) anchor

/-- All inputs of the hash function in a chain. -/
def chainInputs (anchor : Bytes) : List Link → List Bytes
  | [] => []
  | l :: ls => subDagPre l.sub :: chainPre anchor (H (subDagPre l.sub)) l.number ::
      chainInputs (linkDigest H anchor l) ls

variable {H}

theorem chainPre_inj {p d p' d' : Bytes} {n n' : Nat} (hp : p.length = 32) (hp' : p'.length = 32) (hd : d.length = 32)
    (hd' : d'.length = 32) (hn : n < 2 ^ 64) (hn' : n' < 2 ^ 64) (h : chainPre p d n = chainPre p' d' n') :
    p = p' ∧ d = d' ∧ n = n' := by
  unfold chainPre at h
  obtain ⟨h1, h2⟩ := List.append_inj h (by rw [hp, hp'])
  obtain ⟨h3, h4⟩ := List.append_inj h2 (by rw [hd, hd'])
  obtain ⟨h5, h6⟩ := (uint_ok 8).prefix_free hn hn' h4
  exact ⟨h1, h3, h5⟩

theorem chainInputs_append (anchor : Bytes) (xs ys : List Link) :
    chainInputs H anchor (xs ++ ys) = chainInputs H anchor xs ++ chainInputs H (chainDigest H anchor xs) ys := by
  induction xs generalizing anchor with
  | nil => rfl
  | cons x xs ih =>
    simp only [List.cons_append, chainInputs, ih]
    rfl

theorem chainDigest_length (hH : ∀ x, (H x).length = 32) {anchor : Bytes} (ha : anchor.length = 32) (ls : List Link) :
    (chainDigest H anchor ls).length = 32 := by
  unfold chainDigest
  induction ls generalizing anchor with
  | nil => exact ha
  | cons l ls ih => exact ih (hH _)

/-- **C37** Two chains of the same length, over the same number of authorities, that end in the same digest are equal in
every link (header digests and their order, scores, timestamps, randomness, numbers) and start after the same
header. The hash may not collide on the inputs of the two chains. -/
theorem chain_commits {k : Nat} (hH : ∀ x, (H x).length = 32) {a b : Bytes} (ha : a.length = 32) (hb : b.length = 32)
    {xs ys : List Link} (hx : ∀ l ∈ xs, l.WF k) (hy : ∀ l ∈ ys, l.WF k) (hlen : xs.length = ys.length)
    (hc : ∀ x ∈ chainInputs H a xs, ∀ y ∈ chainInputs H b ys, H x = H y → x = y)
    (h : chainDigest H a xs = chainDigest H b ys) : xs = ys ∧ a = b := by
  induction xs generalizing a b ys with
  | nil =>
    cases ys with
    | nil => exact ⟨rfl, h⟩
    | cons => simp at hlen
  | cons x xs ih =>
    cases ys with
    | nil => simp at hlen
    | cons y ys =>
      obtain ⟨e1, e2⟩ := ih (a := linkDigest H a x) (b := linkDigest H b y) (hH _) (hH _)
        (fun l hl => hx l (List.mem_cons_of_mem _ hl)) (fun l hl => hy l (List.mem_cons_of_mem _ hl))
        (by simpa using hlen)
        (fun u hu v hv => hc u (by simp [chainInputs, hu]) v (by simp [chainInputs, hv])) h
      have hx1 := hx x (by simp)
      have hy1 := hy y (by simp)
      have e3 := hc _ (by simp [chainInputs]) _ (by simp [chainInputs]) e2
      obtain ⟨e4, e5, e6⟩ := chainPre_inj ha hb (hH _) (hH _) hx1.2.2 hy1.2.2 e3
      have e7 := hc _ (by simp [chainInputs]) _ (by simp [chainInputs]) e5
      have e8 := subDagPre_inj hx1.1 hy1.1 (by rw [hx1.2.1, hy1.2.1]) e7
      refine ⟨?_, e4⟩
      obtain ⟨x1, x2⟩ := x
      obtain ⟨y1, y2⟩ := y
      dsimp only at e6 e8
      rw [e1, e6, e8]

/-- **C37** Without the same length: the shorter chain is a suffix of the longer one. -/
theorem chain_commits_suffix {k : Nat} (hH : ∀ x, (H x).length = 32) {a b : Bytes} (ha : a.length = 32)
    (hb : b.length = 32) {xs ys : List Link} (hx : ∀ l ∈ xs, l.WF k) (hy : ∀ l ∈ ys, l.WF k)
    (hlen : xs.length ≤ ys.length)
    (hc : ∀ x ∈ chainInputs H a xs, ∀ y ∈ chainInputs H b ys, H x = H y → x = y)
    (h : chainDigest H a xs = chainDigest H b ys) :
    ∃ zs, ys = zs ++ xs ∧ a = chainDigest H b zs := by
  have hsplit := (List.take_append_drop (ys.length - xs.length) ys).symm
  refine ⟨ys.take (ys.length - xs.length), ?_⟩
  have hl : xs.length = (ys.drop (ys.length - xs.length)).length := by rw [List.length_drop]; omega
  have hd : chainDigest H b ys = chainDigest H (chainDigest H b (ys.take (ys.length - xs.length)))
      (ys.drop (ys.length - xs.length)) := by
    unfold chainDigest
    rw [← List.foldl_append, ← hsplit]
  rw [hd] at h
  obtain ⟨e1, e2⟩ := chain_commits hH ha (chainDigest_length hH hb _) hx
    (fun l hl => hy l (List.mem_of_mem_drop hl)) hl
    (fun u hu v hv => hc u hu v (by
      rw [hsplit, chainInputs_append]
      exact List.mem_append_right _ hv)) h
  exact ⟨hsplit.trans (congrArg (List.take _ ys ++ ·) e1.symm), e2⟩

/-- **C37** Numbers that count up from the epoch's first output tell where a header is: chains with the same anchor
number and the same final digest and final number are the same chain. -/
theorem chain_of_number {k n : Nat} (hH : ∀ x, (H x).length = 32) {a b : Bytes} (ha : a.length = 32)
    (hb : b.length = 32) {xs ys : List Link} (hx : ∀ l ∈ xs, l.WF k) (hy : ∀ l ∈ ys, l.WF k)
    (nx : ∀ i l, xs[i]? = some l → l.number = n + 1 + i) (ny : ∀ i l, ys[i]? = some l → l.number = n + 1 + i)
    (hne : xs ≠ []) (hne' : ys ≠ [])
    (hc : ∀ x ∈ chainInputs H a xs, ∀ y ∈ chainInputs H b ys, H x = H y → x = y)
    (hc' : ∀ x ∈ chainInputs H b ys, ∀ y ∈ chainInputs H a xs, H x = H y → x = y)
    (h : chainDigest H a xs = chainDigest H b ys) : xs = ys ∧ a = b := by
  have key : ∀ {a b : Bytes} {xs ys : List Link}, a.length = 32 → b.length = 32 → (∀ l ∈ xs, l.WF k) →
      (∀ l ∈ ys, l.WF k) → (∀ i l, xs[i]? = some l → l.number = n + 1 + i) →
      (∀ i l, ys[i]? = some l → l.number = n + 1 + i) → xs ≠ [] → xs.length ≤ ys.length →
      (∀ x ∈ chainInputs H a xs, ∀ y ∈ chainInputs H b ys, H x = H y → x = y) →
      chainDigest H a xs = chainDigest H b ys → xs = ys ∧ a = b := by
    intro a b xs ys ha hb hx hy nx ny hne hle hc h
    obtain ⟨zs, rfl, e⟩ := chain_commits_suffix hH ha hb hx hy hle hc h
    cases xs with
    | nil => exact absurd rfl hne
    | cons x xs =>
      have h1 := nx 0 x rfl
      have h2 := ny zs.length x (by rw [List.getElem?_append_right (Nat.le_refl _)]; simp)
      have : zs = [] := List.eq_nil_of_length_eq_zero (by omega)
      subst this
      exact ⟨rfl, e⟩
  rcases Nat.le_total xs.length ys.length with hle | hle
  · exact key ha hb hx hy nx ny hne hle hc h
  · obtain ⟨h1, h2⟩ := key hb ha hy hx ny nx hne' hle hc' h.symm
    exact ⟨h1.symm, h2.symm⟩

/-- A hash without collisions on a small chain: the hypotheses can be met. -/
example : ∃ (H : Bytes → Bytes) (a : Bytes) (xs : List Link), (∀ x, (H x).length = 32) ∧ a.length = 32 ∧ xs ≠ [] ∧
    (∀ l ∈ xs, l.WF 0) ∧ ∀ x ∈ chainInputs H a xs, ∀ y ∈ chainInputs H a xs, H x = H y → x = y := by
  refine ⟨fun x => if x.length ≤ 90 then List.replicate 32 7 else List.replicate 32 9, List.replicate 32 0,
    [⟨⟨[List.replicate 32 3], [], true, 5, List.replicate 32 1⟩, 1⟩], ?_, by decide, by decide, ?_, ?_⟩
  · intro x; dsimp only; split <;> decide
  · intro l hl
    rw [List.mem_singleton] at hl
    subst hl
    exact ⟨⟨by decide, by decide, by decide, by decide, by decide⟩, by decide, by decide⟩
  · decide +kernel

end Codec
end Verif
