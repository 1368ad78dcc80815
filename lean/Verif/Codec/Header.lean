import Verif.Codec.Bcs
/-
The wire form of `Header` (crates/types/src/primary/header.rs:20-369) and property C27.
-/
namespace Verif
namespace Codec

/-! ### Ordered sets and insertion-ordered maps -/

/-- Lexicographic order of byte strings. -/
def ltB : Bytes → Bytes → Bool
  | _, [] => false
  | [], _ :: _ => true
  | a :: as, b :: bs => if a.val < b.val then true else if b.val < a.val then false else ltB as bs

theorem ltB_irrefl (a : Bytes) : ltB a a = false := by
  induction a with
  | nil => rfl
  | cons x xs ih => simp only [ltB, Nat.lt_irrefl, if_false, ih]

theorem ltB_trans {a b c : Bytes} (h1 : ltB a b = true) (h2 : ltB b c = true) : ltB a c = true := by
  induction a generalizing b c with
  | nil =>
    cases c with
    | nil => cases b <;> simp [ltB] at h2
    | cons => rfl
  | cons x xs ih =>
    cases b with
    | nil => simp [ltB] at h1
    | cons y ys =>
      cases c with
      | nil => simp [ltB] at h2
      | cons z zs =>
        simp only [ltB] at h1 h2 ⊢
        by_cases hxy : x.val < y.val
        · by_cases hyz : y.val < z.val
          · rw [if_pos (by omega)]
          · rw [if_neg hyz] at h2
            by_cases hzy : z.val < y.val
            · rw [if_pos hzy] at h2; cases h2
            · rw [if_pos (by omega)]
        · rw [if_neg hxy] at h1
          by_cases hyx : y.val < x.val
          · rw [if_pos hyx] at h1; cases h1
          · rw [if_neg hyx] at h1
            by_cases hyz : y.val < z.val
            · rw [if_pos (by omega)]
            · rw [if_neg hyz] at h2
              by_cases hzy : z.val < y.val
              · rw [if_pos hzy] at h2; cases h2
              · rw [if_neg hzy] at h2
                rw [if_neg (by omega), if_neg (by omega)]
                exact ih h1 h2

theorem ltB_trichotomy {a b : Bytes} (h1 : ltB a b = false) (h2 : ltB b a = false) : a = b := by
  induction a generalizing b with
  | nil =>
    cases b with
    | nil => rfl
    | cons => simp [ltB] at h1
  | cons x xs ih =>
    cases b with
    | nil => simp [ltB] at h2
    | cons y ys =>
      simp only [ltB] at h1 h2
      by_cases hxy : x.val < y.val
      · rw [if_pos hxy] at h1; cases h1
      · rw [if_neg hxy] at h1
        by_cases hyx : y.val < x.val
        · rw [if_pos hyx] at h2; cases h2
        · rw [if_neg hyx] at h1 h2
          rw [if_neg hxy] at h2
          rw [ih h1 h2, Fin.ext (show x.val = y.val by omega)]

/-- The elements of a `BTreeSet`, ascending. -/
def SortedB (l : List Bytes) : Prop := l.Pairwise (fun a b => ltB a b = true)

/-- `BTreeSet::insert`. -/
def insertB (x : Bytes) : List Bytes → List Bytes
  | [] => [x]
  | y :: ys => if ltB x y then x :: y :: ys else if ltB y x then y :: insertB x ys else y :: ys

/-- Decoding a `BTreeSet` inserts the elements in the order they come (serde); neither their order nor
repetitions are checked. -/
def setOf (l : List Bytes) : List Bytes := l.foldl (fun s x => insertB x s) []

theorem mem_insertB {x y : Bytes} {l : List Bytes} : y ∈ insertB x l ↔ y = x ∨ y ∈ l := by
  induction l with
  | nil => simp [insertB]
  | cons z zs ih =>
    unfold insertB
    split
    · simp
    · split
      · simp only [List.mem_cons, ih]
        constructor
        · rintro (h | h | h)
          · exact .inr (.inl h)
          · exact .inl h
          · exact .inr (.inr h)
        · rintro (h | h | h)
          · exact .inr (.inl h)
          · exact .inl h
          · exact .inr (.inr h)
      · rename_i h1 h2
        have : x = z := ltB_trichotomy (by simpa using h1) (by simpa using h2)
        subst this
        simp

theorem insertB_sorted {x : Bytes} {l : List Bytes} (h : SortedB l) : SortedB (insertB x l) := by
  induction l with
  | nil => simp [insertB, SortedB]
  | cons z zs ih =>
    unfold SortedB at h ih ⊢
    rw [List.pairwise_cons] at h
    unfold insertB
    split
    · rename_i hxz
      rw [List.pairwise_cons, List.pairwise_cons]
      refine ⟨?_, h⟩
      intro y hy
      rcases List.mem_cons.mp hy with rfl | hy
      · exact hxz
      · exact ltB_trans hxz (h.1 y hy)
    · split
      · rename_i hzx
        rw [List.pairwise_cons]
        refine ⟨?_, ih h.2⟩
        intro y hy
        rcases mem_insertB.mp hy with rfl | hy
        · exact hzx
        · exact h.1 y hy
      · rw [List.pairwise_cons]; exact h

theorem insertB_last {x : Bytes} {l : List Bytes} (h : ∀ y ∈ l, ltB y x = true) : insertB x l = l ++ [x] := by
  induction l with
  | nil => rfl
  | cons z zs ih =>
    have hz := h z (by simp)
    unfold insertB
    rw [if_neg, if_pos hz, ih (fun y hy => h y (List.mem_cons_of_mem _ hy))]
    · rfl
    · intro hx
      have := ltB_trans hz hx
      rw [ltB_irrefl] at this
      cases this

theorem foldl_insertB (l s : List Bytes) (h : SortedB (s ++ l)) : l.foldl (fun s x => insertB x s) s = s ++ l := by
  induction l generalizing s with
  | nil => simp
  | cons x xs ih =>
    simp only [List.foldl_cons]
    have hx : ∀ y ∈ s, ltB y x = true := by
      intro y hy
      unfold SortedB at h
      rw [List.pairwise_append] at h
      exact h.2.2 y hy x (by simp)
    rw [insertB_last hx, ih (s ++ [x]) (by rw [List.append_assoc]; exact h)]
    rw [List.append_assoc]; rfl

/-- A set that is already in order is read as it is. -/
theorem setOf_sorted {l : List Bytes} (h : SortedB l) : setOf l = l :=
  foldl_insertB l [] h

theorem foldl_insertB_inv (l s : List Bytes) (hs : SortedB s) : SortedB (l.foldl (fun s x => insertB x s) s) ∧
    (∀ y, y ∈ l.foldl (fun s x => insertB x s) s ↔ y ∈ s ∨ y ∈ l) := by
  induction l generalizing s with
  | nil => simp [hs]
  | cons x xs ih =>
    simp only [List.foldl_cons]
    obtain ⟨h1, h2⟩ := ih _ (insertB_sorted (x := x) hs)
    refine ⟨h1, ?_⟩
    intro y
    rw [h2, mem_insertB, List.mem_cons]
    constructor
    · rintro ((h | h) | h)
      · exact .inr (.inl h)
      · exact .inl h
      · exact .inr (.inr h)
    · rintro (h | h | h)
      · exact .inl (.inr h)
      · exact .inl (.inl h)
      · exact .inr h

theorem setOf_spec (l : List Bytes) : SortedB (setOf l) ∧ ∀ y, y ∈ setOf l ↔ y ∈ l := by
  obtain ⟨h1, h2⟩ := foldl_insertB_inv l [] (by simp [SortedB])
  exact ⟨h1, fun y => by unfold setOf; rw [h2]; simp⟩

theorem insertB_length (x : Bytes) (l : List Bytes) : (insertB x l).length ≤ l.length + 1 := by
  induction l with
  | nil => simp [insertB]
  | cons z zs ih =>
    unfold insertB
    split
    · simp
    · split
      · simp only [List.length_cons]; omega
      · simp

theorem setOf_length (l : List Bytes) : (setOf l).length ≤ l.length := by
  have : ∀ s : List Bytes, (l.foldl (fun s x => insertB x s) s).length ≤ s.length + l.length := by
    induction l with
    | nil => intro s; simp
    | cons x xs ih =>
      intro s
      simp only [List.foldl_cons, List.length_cons]
      have h1 := ih (insertB x s)
      have h2 := insertB_length x s
      omega
  have := this []
  simpa [setOf] using this

/-- `IndexMap::insert`: a key that is present keeps its place and gets the new value. -/
def imInsert (k : Bytes) (v : Nat) : List (Bytes × Nat) → List (Bytes × Nat)
  | [] => [(k, v)]
  | (k', v') :: m => if k' = k then (k', v) :: m else (k', v') :: imInsert k v m

/-- Decoding the payload (`indexmap::map::serde_seq`) inserts the pairs in order. -/
def imOf (l : List (Bytes × Nat)) : List (Bytes × Nat) := l.foldl (fun m x => imInsert x.1 x.2 m) []

theorem imInsert_new {k : Bytes} {v : Nat} {m : List (Bytes × Nat)} (h : k ∉ m.map (·.1)) :
    imInsert k v m = m ++ [(k, v)] := by
  induction m with
  | nil => rfl
  | cons x xs ih =>
    obtain ⟨k', v'⟩ := x
    simp only [List.map_cons, List.mem_cons, not_or] at h
    unfold imInsert
    rw [if_neg (fun he => h.1 he.symm), ih h.2]
    rfl

theorem foldl_imInsert (l m : List (Bytes × Nat)) (h : ((m ++ l).map (·.1)).Nodup) :
    l.foldl (fun m x => imInsert x.1 x.2 m) m = m ++ l := by
  induction l generalizing m with
  | nil => simp
  | cons x xs ih =>
    simp only [List.foldl_cons]
    have hx : x.1 ∉ m.map (·.1) := by
      rw [List.map_append, List.nodup_append] at h
      intro hm
      exact h.2.2 _ hm x.1 (by simp) rfl
    rw [imInsert_new hx, ih (m ++ [(x.1, x.2)]) (by rw [List.append_assoc]; exact h)]
    rw [List.append_assoc]; rfl

theorem imOf_nodup {l : List (Bytes × Nat)} (h : (l.map (·.1)).Nodup) : imOf l = l :=
  foldl_imInsert l [] h

theorem mem_imInsert {k : Bytes} {v : Nat} {m : List (Bytes × Nat)} {x : Bytes × Nat} (h : x ∈ imInsert k v m) :
    x = (k, v) ∨ x ∈ m := by
  induction m with
  | nil => exact .inl (by simpa [imInsert] using h)
  | cons y ys ih =>
    obtain ⟨k', v'⟩ := y
    unfold imInsert at h
    split at h
    · rename_i hk
      rcases List.mem_cons.mp h with h | h
      · exact .inl (by rw [h, hk])
      · exact .inr (List.mem_cons_of_mem _ h)
    · rcases List.mem_cons.mp h with h | h
      · exact .inr (by rw [h]; simp)
      · rcases ih h with h | h
        · exact .inl h
        · exact .inr (List.mem_cons_of_mem _ h)

theorem imInsert_keys {k : Bytes} {v : Nat} {m : List (Bytes × Nat)} :
    (imInsert k v m).map (·.1) = if k ∈ m.map (·.1) then m.map (·.1) else m.map (·.1) ++ [k] := by
  induction m with
  | nil => simp [imInsert]
  | cons y ys ih =>
    obtain ⟨k', v'⟩ := y
    unfold imInsert
    split
    · rename_i hk
      subst hk
      rw [if_pos (by simp)]
      rfl
    · rename_i hk
      simp only [List.map_cons, ih, List.mem_cons]
      by_cases hm : k ∈ ys.map (·.1)
      · rw [if_pos hm, if_pos (.inr hm)]
      · rw [if_neg hm, if_neg (by rintro (h | h); exact hk h.symm; exact hm h)]
        rfl

theorem imInsert_nodup {k : Bytes} {v : Nat} {m : List (Bytes × Nat)} (h : (m.map (·.1)).Nodup) :
    ((imInsert k v m).map (·.1)).Nodup := by
  rw [imInsert_keys]
  split
  · exact h
  · rename_i hk
    rw [List.nodup_append]
    exact ⟨h, by simp, fun a ha b hb => by
      rw [List.mem_singleton] at hb
      rintro rfl
      exact hk (hb ▸ ha)⟩

theorem imOf_spec (l : List (Bytes × Nat)) : ((imOf l).map (·.1)).Nodup ∧ (∀ x ∈ imOf l, x ∈ l) ∧
    (imOf l).length ≤ l.length := by
  have : ∀ (l m : List (Bytes × Nat)), (m.map (·.1)).Nodup →
      ((l.foldl (fun m x => imInsert x.1 x.2 m) m).map (·.1)).Nodup ∧
      (∀ x ∈ l.foldl (fun m x => imInsert x.1 x.2 m) m, x ∈ m ∨ x ∈ l) ∧
      (l.foldl (fun m x => imInsert x.1 x.2 m) m).length ≤ m.length + l.length := by
    intro l
    induction l with
    | nil => intro m hm; exact ⟨hm, fun x hx => .inl hx, by simp⟩
    | cons y ys ih =>
      intro m hm
      simp only [List.foldl_cons]
      obtain ⟨h1, h2, h3⟩ := ih _ (imInsert_nodup (k := y.1) (v := y.2) hm)
      refine ⟨h1, ?_, ?_⟩
      · intro x hx
        rcases h2 x hx with h | h
        · rcases mem_imInsert h with h | h
          · exact .inr (by rw [h]; simp)
          · exact .inl h
        · exact .inr (List.mem_cons_of_mem _ h)
      · have hl : (imInsert y.1 y.2 m).length ≤ m.length + 1 := by
          have := congrArg List.length (imInsert_keys (k := y.1) (v := y.2) (m := m))
          rw [List.length_map] at this
          rw [this]
          split <;> simp
        simp only [List.length_cons]
        omega
  obtain ⟨h1, h2, h3⟩ := this l [] (by simp)
  exact ⟨h1, fun x hx => by rcases h2 x hx with h | h; cases h; exact h, by simpa [imOf] using h3⟩

/-! ### The header -/

/-- The fields of a header (header.rs:20-60, without the cached digest). Digests and identifiers are byte
strings. -/
structure WHeader where
  author : Bytes
  round : Nat
  epoch : Nat
  createdAt : Nat
  payload : List (Bytes × Nat)
  parents : List Bytes
  execNumber : Nat
  execHash : Bytes
  seedSig : Bytes
deriving DecidableEq, Repr

/-- What the build fixes: from which epoch on the seed signature is on the wire (`seed_signature_active`,
forks.rs:235-262), which 48 byte strings are signatures (`CoreBlsSignature::from_bytes`), the default signature. -/
structure Build where
  active : Nat → Bool
  validSig : Bytes → Bool
  sig0 : Bytes

/-- The fields a header can have: sizes of the Rust types, sets in order, keys once. -/
structure WHeader.WF (B : Build) (h : WHeader) : Prop where
  author : h.author.length = 32
  round : h.round < 2 ^ 32
  epoch : h.epoch < 2 ^ 32
  createdAt : h.createdAt < 2 ^ 64
  payloadLen : h.payload.length ≤ maxLen
  payload : ∀ x ∈ h.payload, x.1.length = 32 ∧ x.2 < 2 ^ 16
  payloadKeys : (h.payload.map (·.1)).Nodup
  parentsLen : h.parents.length ≤ maxLen
  parents : ∀ x ∈ h.parents, x.length = 32
  sorted : SortedB h.parents
  execNumber : h.execNumber < 2 ^ 64
  execHash : h.execHash.length = 32
  seedSig : h.seedSig.length = 48 ∧ B.validSig h.seedSig = true

/-- `BlsSignature` (bls_signature.rs:291-347): a byte string of 48 bytes that is a point. -/
def sigC (B : Build) : Codec Bytes :=
  conv (bytesN 48) (fun b => if B.validSig b then some b else none) id

/-- The payload (header.rs:275-296): pairs in order. -/
def payloadC : Codec (List (Bytes × Nat)) :=
  conv (seq (pair (bytesN 32) (uint 2))) (fun l => some (imOf l)) id

/-- The parents: a sequence of digests. -/
def parentsC : Codec (List Bytes) := conv (seq (bytesN 32)) (fun l => some (setOf l)) id

/-- The seven fields before the seed signature, in order (header.rs:239-255, 331-338). -/
def legacyC : Codec (Bytes × Nat × Nat × Nat × List (Bytes × Nat) × List Bytes × Nat × Bytes) :=
  pair (raw 32) (pair (uint 4) (pair (uint 4) (pair (uint 8) (pair payloadC (pair parentsC (pair (uint 8) (bytesN 32)))))))

def WHeader.fields (h : WHeader) : Bytes × Nat × Nat × Nat × List (Bytes × Nat) × List Bytes × Nat × Bytes :=
  (h.author, h.round, h.epoch, h.createdAt, h.payload, h.parents, h.execNumber, h.execHash)

/-- The two layouts. -/
def encLayout (B : Build) (v1 : Bool) (h : WHeader) : Bytes :=
  legacyC.enc h.fields ++ (if v1 then (sigC B).enc h.seedSig else [])

/-- `HeaderRef::serialize` (header.rs:239-267): the seed signature only when active for the header's epoch. -/
def encHeader (B : Build) (h : WHeader) : Bytes := encLayout B (B.active h.epoch) h

/-- `Header::deserialize` (header.rs:317-369). -/
def decHeader (B : Build) (b : Bytes) : Option (WHeader × Bytes) :=
  match legacyC.dec b with
  | none => none
  | some ((author, round, epoch, createdAt, payload, parents, execNumber, execHash), r) =>
    if B.active epoch then
      match (sigC B).dec r with
      | none => none
      | some (s, r) => some (⟨author, round, epoch, createdAt, payload, parents, execNumber, execHash, s⟩, r)
    else some (⟨author, round, epoch, createdAt, payload, parents, execNumber, execHash, B.sig0⟩, r)

def headerC (B : Build) : Codec WHeader := ⟨encHeader B, decHeader B⟩

/-- Specification: what the accessors of `Header` show (header.rs:175-236): everything but the seed signature
of epochs before the fork, which reads as `None`. -/
def WHeader.seen (B : Build) (h : WHeader) : WHeader × Option Bytes :=
  ({ h with seedSig := [] }, if B.active h.epoch then some h.seedSig else none)

/-- A header as it comes back: the default signature before the fork. -/
def WHeader.norm (B : Build) (h : WHeader) : WHeader :=
  if B.active h.epoch then h else { h with seedSig := B.sig0 }

theorem WHeader.seen_norm (B : Build) (h : WHeader) : (h.norm B).seen B = h.seen B := by
  unfold WHeader.norm
  split
  · rfl
  · rename_i ha
    unfold WHeader.seen
    dsimp only
    rw [if_neg ha, if_neg ha]

theorem sigC_ok (B : Build) : (sigC B).Ok (fun b => b.length = 48 ∧ B.validSig b = true) :=
  conv_ok (bytesN_ok (k := 48) (by decide)) (fun x hx => ⟨hx.1, by simp only [id, hx.2, if_true]⟩)

theorem payloadC_ok : payloadC.Ok (fun l => (l.length ≤ maxLen ∧ ∀ x ∈ l, x.1.length = 32 ∧ x.2 < 256 ^ 2) ∧
    (l.map (·.1)).Nodup) :=
  conv_ok (seq_ok (pair_ok (bytesN_ok (k := 32) (by decide)) (uint_ok 2)))
    (fun x hx => ⟨hx.1, by simp only [id, imOf_nodup hx.2]⟩)

theorem parentsC_ok : parentsC.Ok (fun l => (l.length ≤ maxLen ∧ ∀ x ∈ l, x.length = 32) ∧ SortedB l) :=
  conv_ok (seq_ok (bytesN_ok (k := 32) (by decide))) (fun x hx => ⟨hx.1, by simp only [id, setOf_sorted hx.2]⟩)

theorem legacyC_ok : legacyC.Ok (fun x => x.1.length = 32 ∧ x.2.1 < 256 ^ 4 ∧ x.2.2.1 < 256 ^ 4 ∧ x.2.2.2.1 < 256 ^ 8 ∧
    ((x.2.2.2.2.1.length ≤ maxLen ∧ ∀ y ∈ x.2.2.2.2.1, y.1.length = 32 ∧ y.2 < 256 ^ 2) ∧
      (x.2.2.2.2.1.map (·.1)).Nodup) ∧
    ((x.2.2.2.2.2.1.length ≤ maxLen ∧ ∀ y ∈ x.2.2.2.2.2.1, y.length = 32) ∧ SortedB x.2.2.2.2.2.1) ∧
    x.2.2.2.2.2.2.1 < 256 ^ 8 ∧ x.2.2.2.2.2.2.2.length = 32) :=
  pair_ok (raw_ok 32) (pair_ok (uint_ok 4) (pair_ok (uint_ok 4) (pair_ok (uint_ok 8) (pair_ok payloadC_ok
    (pair_ok parentsC_ok (pair_ok (uint_ok 8) (bytesN_ok (by decide))))))))

theorem WHeader.WF.fields {B : Build} {h : WHeader} (hw : h.WF B) (rest : Bytes) :
    legacyC.dec (legacyC.enc h.fields ++ rest) = some (h.fields, rest) :=
  legacyC_ok h.fields ⟨hw.author, hw.round, hw.epoch, hw.createdAt, ⟨⟨hw.payloadLen, hw.payload⟩, hw.payloadKeys⟩,
    ⟨⟨hw.parentsLen, hw.parents⟩, hw.sorted⟩, hw.execNumber, hw.execHash⟩ rest

/-- Reading the encoding of a header, whatever follows. -/
theorem decHeader_enc {B : Build} {h : WHeader} (hw : h.WF B) (rest : Bytes) :
    decHeader B (encHeader B h ++ rest) = some (h.norm B, rest) := by
  unfold encHeader encLayout decHeader
  rw [List.append_assoc, hw.fields]
  unfold WHeader.fields WHeader.norm
  dsimp only
  by_cases ha : B.active h.epoch = true
  · rw [if_pos ha, if_pos ha, if_pos ha, sigC_ok B h.seedSig hw.seedSig]
  · rw [if_neg ha, if_neg ha, if_neg ha]
    rfl

/-- **C27** (1) Encoding then decoding a header gives back a header that shows the same in every field, before
and after the fork, also in the middle of other data. -/
theorem header_roundtrip {B : Build} {h : WHeader} (hw : h.WF B) (rest : Bytes) :
    ∃ h', decHeader B (encHeader B h ++ rest) = some (h', rest) ∧ h'.seen B = h.seen B :=
  ⟨_, decHeader_enc hw rest, h.seen_norm B⟩

theorem header_fromBytes {B : Build} {h : WHeader} (hw : h.WF B) :
    ∃ h', (headerC B).fromBytes (encHeader B h) = some h' ∧ h'.seen B = h.seen B := by
  have := decHeader_enc hw []
  rw [List.append_nil] at this
  exact ⟨h.norm B, by unfold Codec.fromBytes headerC; dsimp only; rw [this], h.seen_norm B⟩

/-- **C27** (2) Different headers have different encodings; no encoding is a prefix of another. -/
theorem header_prefix_free {B : Build} {h k : WHeader} (hh : h.WF B) (hk : k.WF B) {x y : Bytes}
    (he : encHeader B h ++ x = encHeader B k ++ y) : h.seen B = k.seen B ∧ x = y := by
  have h1 := decHeader_enc hh x
  rw [he, decHeader_enc hk y] at h1
  have h2 := Option.some.inj h1
  rw [Prod.mk.injEq] at h2
  rw [← h.seen_norm B, ← k.seen_norm B, h2.1]
  exact ⟨rfl, h2.2.symm⟩

theorem encHeader_inj {B : Build} {h k : WHeader} (hh : h.WF B) (hk : k.WF B) (he : encHeader B h = encHeader B k) :
    h.seen B = k.seen B :=
  (header_prefix_free hh hk (x := []) (y := []) (by rw [he])).1

/-- Conversely headers that show the same have the same encoding: one wire form. -/
theorem encHeader_seen {B : Build} {h k : WHeader} (he : h.seen B = k.seen B) : encHeader B h = encHeader B k := by
  obtain ⟨h1, h2, h3, h4, h5, h6, h7, h8, h9⟩ := h
  obtain ⟨k1, k2, k3, k4, k5, k6, k7, k8, k9⟩ := k
  unfold WHeader.seen at he
  simp only [Prod.mk.injEq, WHeader.mk.injEq] at he
  obtain ⟨⟨rfl, rfl, rfl, rfl, rfl, rfl, rfl, rfl, -⟩, he⟩ := he
  unfold encHeader encLayout WHeader.fields
  dsimp only
  by_cases ha : B.active h3 = true
  · rw [if_pos ha, if_pos ha] at he
    cases he
    rfl
  · rw [if_neg ha, if_neg ha]

/-- **C27** (3) Bytes of one layout are never read under the other: a header with the signature appended although
its epoch is before the fork, or without it although the epoch is after, does not decode. -/
theorem wrong_layout {B : Build} {h : WHeader} (hw : h.WF B) :
    (headerC B).fromBytes (encLayout B (!B.active h.epoch) h) = none := by
  unfold Codec.fromBytes headerC decHeader encLayout
  dsimp only
  rw [hw.fields]
  unfold WHeader.fields
  dsimp only
  by_cases ha : B.active h.epoch = true
  · rw [ha, if_pos rfl]
    rfl
  · have hf : B.active h.epoch = false := by simpa using ha
    rw [if_neg ha, hf]
    have : (sigC B).enc h.seedSig ≠ [] := by
      simp only [sigC, conv, bytesN, bytes, id]
      intro h0
      have := congrArg List.length h0
      rw [List.length_append, hw.seedSig.1] at this
      simp only [List.length_nil] at this
      omega
    simp only [Bool.not_false, if_true]
    split
    · rename_i heq
      exact absurd (Option.some.inj heq |> Prod.mk.inj |>.2) this
    · rfl

/-- The digest (header.rs:526-536): the hash of the wire bytes. -/
def headerDigest (H : Bytes → Bytes) (B : Build) (h : WHeader) : Bytes := H (encHeader B h)

/-- **C27** (4) Two headers share a digest only if they show the same in every field, provided the hash
does not collide on their encodings. -/
theorem digest_identifies {H : Bytes → Bytes} {B : Build} {h k : WHeader} (hh : h.WF B) (hk : k.WF B)
    (hc : H (encHeader B h) = H (encHeader B k) → encHeader B h = encHeader B k)
    (he : headerDigest H B h = headerDigest H B k) : h.seen B = k.seen B :=
  encHeader_inj hh hk (hc he)

/-- A decoded header keeps its digest: the digest recomputed by the reader is that of the writer. -/
theorem digest_roundtrip {H : Bytes → Bytes} {B : Build} {h h' : WHeader} (hw : h.WF B) {rest r : Bytes}
    (hd : decHeader B (encHeader B h ++ rest) = some (h', r)) : headerDigest H B h' = headerDigest H B h := by
  rw [decHeader_enc hw rest] at hd
  cases hd
  unfold headerDigest
  rw [encHeader_seen (h.seen_norm B)]

/-! ### What decoding can produce -/

theorem sigC_sound (B : Build) : (sigC B).Sound (fun b => b.length = 48 ∧ B.validSig b = true) :=
  conv_sound (bytesN_sound 48) (fun a x ha hf => by
    split at hf
    · rename_i hv; cases hf; exact ⟨ha, hv⟩
    · cases hf)

theorem payloadC_sound : payloadC.Sound (fun l => (l.length ≤ maxLen ∧ ∀ x ∈ l, x.1.length = 32 ∧ x.2 < 256 ^ 2) ∧
    (l.map (·.1)).Nodup) :=
  conv_sound (seq_sound (pair_sound (bytesN_sound 32) (uint_sound 2))) (fun a x ha hf => by
    cases hf
    obtain ⟨h1, h2, h3⟩ := imOf_spec a
    exact ⟨⟨Nat.le_trans h3 ha.1, fun y hy => ha.2 y (h2 y hy)⟩, h1⟩)

theorem parentsC_sound : parentsC.Sound (fun l => (l.length ≤ maxLen ∧ ∀ x ∈ l, x.length = 32) ∧ SortedB l) :=
  conv_sound (seq_sound (bytesN_sound 32)) (fun a x ha hf => by
    cases hf
    obtain ⟨h1, h2⟩ := setOf_spec a
    exact ⟨⟨Nat.le_trans (setOf_length a) ha.1, fun y hy => ha.2 y ((h2 y).mp hy)⟩, h1⟩)

theorem legacyC_sound : legacyC.Sound (fun x => x.1.length = 32 ∧ x.2.1 < 256 ^ 4 ∧ x.2.2.1 < 256 ^ 4 ∧
    x.2.2.2.1 < 256 ^ 8 ∧ ((x.2.2.2.2.1.length ≤ maxLen ∧ ∀ y ∈ x.2.2.2.2.1, y.1.length = 32 ∧ y.2 < 256 ^ 2) ∧
      (x.2.2.2.2.1.map (·.1)).Nodup) ∧
    ((x.2.2.2.2.2.1.length ≤ maxLen ∧ ∀ y ∈ x.2.2.2.2.2.1, y.length = 32) ∧ SortedB x.2.2.2.2.2.1) ∧
    x.2.2.2.2.2.2.1 < 256 ^ 8 ∧ x.2.2.2.2.2.2.2.length = 32) :=
  pair_sound (raw_sound 32) (pair_sound (uint_sound 4) (pair_sound (uint_sound 4) (pair_sound (uint_sound 8)
    (pair_sound payloadC_sound (pair_sound parentsC_sound (pair_sound (uint_sound 8) (bytesN_sound 32)))))))

/-- **C27** (5) Whatever bytes a peer sends, a header that decodes has well-formed fields, so it is covered by the
theorems above (given that the default signature is well-formed where it is used). -/
theorem decoded_wf {B : Build} (h0 : (∀ e, B.active e = true) ∨ (B.sig0.length = 48 ∧ B.validSig B.sig0 = true))
    {b : Bytes} {h : WHeader} {rest : Bytes} (hd : decHeader B b = some (h, rest)) : h.WF B := by
  unfold decHeader at hd
  split at hd
  · cases hd
  · rename_i heq
    have hs := legacyC_sound _ _ _ heq
    obtain ⟨a1, a2, a3, a4, ⟨⟨a5, a6⟩, a7⟩, ⟨⟨a8, a9⟩, a10⟩, a11, a12⟩ := hs
    split at hd
    · split at hd
      · cases hd
      · rename_i hsig
        cases hd
        exact ⟨a1, a2, a3, a4, a5, a6, a7, a8, a9, a10, a11, a12, sigC_sound B _ _ _ hsig⟩
    · rename_i ha
      cases hd
      refine ⟨a1, a2, a3, a4, a5, a6, a7, a8, a9, a10, a11, a12, ?_⟩
      rcases h0 with h0 | h0
      · exact absurd (h0 _) ha
      · exact h0

end Codec
end Verif
