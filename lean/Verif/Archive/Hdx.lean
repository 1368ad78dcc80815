/-
Model of the digest index of a pack file (a linear hash table on disk):
`crates/storage/src/archive/digest_index/index.rs` (`HdxIndex`: `save`, `load`, `split_one_bucket`,
`hash_to_bucket`, `save_to_bucket_buffer`, `fetch_position`, `sync`), `bucket_iter.rs` (iteration over a
bucket and its overflow records) and `bloom.rs`.

Simplifications: digests, positions and hashes are numbers; a bucket is its current page and the list of
its overflow pages (on disk the latter are immutable records of the overflow log, written before the
bucket that refers to them, so a reference is always readable); checksums never fail (a failed checksum is
an error of the real code, not a wrong answer); the bucket cache is transparent.
-/
namespace Verif
namespace Hdx

/-- A (digest, record position) pair. -/
abbrev Entry := Nat × Nat

/-- A bucket: the current page, oldest entry first, and the overflow pages, newest first. -/
structure Bucket where
  page : List Entry := []
  over : List (List Entry) := []

/-- The order in which `BucketIter` yields the entries, bucket_iter.rs:141-170. -/
def Bucket.entries (b : Bucket) : List Entry := b.page ++ b.over.flatten

/-- `BUCKET_ELEMENTS`, index.rs:270. -/
def pageSize : Nat := 32

/-- Overwriting an entry of the page in place, index.rs:693-702. -/
def overwrite (k p : Nat) : List Entry → List Entry
  | [] => []
  | e :: es => if e.1 = k then (k, p) :: es else e :: overwrite k p es

/-- `save_to_bucket_buffer`, index.rs:651-715. -/
def Bucket.save (b : Bucket) (k p : Nat) : Bucket :=
  if pageSize ≤ b.page.length then { page := [(k, p)], over := b.page :: b.over }
  else if b.page.any (fun e => e.1 == k) then { b with page := overwrite k p b.page }
  else { b with page := b.page ++ [(k, p)] }

/-- First entry with the key. -/
def find (k : Nat) : List Entry → Option Nat
  | [] => none
  | e :: es => if e.1 = k then some e.2 else find k es

/-- `fetch_position` in one bucket, index.rs:612-647. -/
def Bucket.get (b : Bucket) (k : Nat) : Option Nat := find k b.entries

/-- `u32::next_power_of_two`. -/
def nextPow2 (n : Nat) : Nat := if n ≤ 1 then 1 else 2 ^ (Nat.log2 (n - 1) + 1)

/-- The modulus for a number of buckets, index.rs:379 and 556. -/
def modulus (buckets : Nat) : Nat := nextPow2 (buckets + 1)

/-- `hash_to_bucket`, index.rs:529-543, on the hash of the key. -/
def bucketOf (buckets x : Nat) : Nat :=
  if buckets ≤ x % modulus buckets then x % modulus buckets - modulus buckets / 2
  else x % modulus buckets

/-- The index. `bits`: the bloom filter. -/
structure Idx where
  buckets : Nat
  tbl : Nat → Bucket := fun _ => {}
  values : Nat := 0
  bits : Nat → Bool := fun _ => false

/-- The parameters: the key hash, the bit positions of a key in the filter (8 of them), the number of
values at which a table of so many buckets is expanded (`capacity * load_factor`, a float computation). -/
structure Params where
  hash : Nat → Nat
  bit : Nat → Nat → Nat
  limit : Nat → Nat

/-- The bucket of a split entry list: entries are visited newest first, repeated keys are dropped, the
rest is stored in the old (`lo`) or the new (`hi`) bucket; a third bucket is a panic (`none`),
index.rs:571-590. -/
def distribute (P : Params) (buckets lo hi : Nat) : List Entry → List Nat → Bucket → Bucket →
    Option (Bucket × Bucket)
  | [], _, a, b => some (a, b)
  | e :: es, seen, a, b =>
    if seen.contains e.1 then distribute P buckets lo hi es seen a b
    else if bucketOf buckets (P.hash e.1) = lo then
      distribute P buckets lo hi es (e.1 :: seen) (a.save e.1 e.2) b
    else if bucketOf buckets (P.hash e.1) = hi then
      distribute P buckets lo hi es (e.1 :: seen) a (b.save e.1 e.2)
    else none

/-- The table with two buckets replaced. -/
def put2 (t : Nat → Bucket) (lo hi : Nat) (a b : Bucket) (i : Nat) : Bucket :=
  if i = lo then a else if i = hi then b else t i

/-- The bucket that the next split divides, index.rs:549. -/
def splitAt (buckets : Nat) : Nat := buckets - modulus buckets / 2

/-- `split_one_bucket`, index.rs:546-598. -/
def Idx.split (P : Params) (s : Idx) : Option Idx :=
  match distribute P (s.buckets + 1) (splitAt s.buckets) s.buckets
      (s.tbl (splitAt s.buckets)).entries [] {} {} with
  | none => none
  | some (a, b) => some { s with
      buckets := s.buckets + 1, tbl := put2 s.tbl (splitAt s.buckets) s.buckets a b }

/-- `expand_buckets`, index.rs:440-446, with a bound on the number of splits. -/
def Idx.expand (P : Params) : Nat → Idx → Option Idx
  | 0, s => some s
  | n + 1, s =>
    if P.limit s.buckets ≤ s.values then
      match s.split P with
      | none => none
      | some s' => Idx.expand P n s'
    else some s

/-- Whether a save adds a value (does not overwrite in place), index.rs:679-713. -/
def Bucket.adds (b : Bucket) (k : Nat) : Bool :=
  decide (pageSize ≤ b.page.length) || !(b.page.any (fun e => e.1 == k))

/-- The table with one bucket replaced. -/
def put1 (t : Nat → Bucket) (i : Nat) (b : Bucket) (j : Nat) : Bucket := if j = i then b else t j

/-- `Bloom::accrue`, bloom.rs:85-97. -/
def accrue (P : Params) (bits : Nat → Bool) (k i : Nat) : Bool :=
  bits i || (List.range 8).any (fun j => P.bit k j == i)

/-- `Bloom::contains`, bloom.rs:66-82. -/
def contains (P : Params) (bits : Nat → Bool) (k : Nat) : Bool :=
  (List.range 8).all (fun j => bits (P.bit k j))

/-- `HdxIndex::save`, index.rs:762-773. `fuel` bounds the splits of one save. -/
def Idx.save (P : Params) (fuel : Nat) (s : Idx) (k p : Nat) : Option Idx :=
  match s.expand P fuel with
  | none => none
  | some s =>
    some { s with
      bits := accrue P s.bits k,
      tbl := put1 s.tbl (bucketOf s.buckets (P.hash k))
        ((s.tbl (bucketOf s.buckets (P.hash k))).save k p),
      values := if (s.tbl (bucketOf s.buckets (P.hash k))).adds k then s.values + 1 else s.values }

/-- `HdxIndex::load`, index.rs:775-782. -/
def Idx.load (P : Params) (s : Idx) (k : Nat) : Option Nat :=
  if contains P s.bits k then (s.tbl (bucketOf s.buckets (P.hash k))).get k else none

/-- A fresh index with `n` buckets (`INITIAL_BUCKETS` is 1000, index.rs:268). -/
def fresh (n : Nat) : Idx := { buckets := n }

/-- A history of saves, oldest first. -/
def Idx.saves (P : Params) (fuel : Nat) (s : Idx) : List Entry → Option Idx
  | [] => some s
  | e :: es => match s.save P fuel e.1 e.2 with
    | none => none
    | some s' => Idx.saves P fuel s' es

/-! ## Specification: the last position saved for a digest. -/

/-- The position of the last save of `k` in the history. -/
def lastSaved (hist : List Entry) (k : Nat) : Option Nat := find k hist.reverse

/-! ## Buckets -/

theorem find_append (k : Nat) (a b : List Entry) :
    find k (a ++ b) = (find k a).or (find k b) := by
  induction a with
  | nil => rfl
  | cons e es ih =>
    simp only [List.cons_append, find]
    by_cases h : e.1 = k
    · rw [if_pos h, if_pos h]; rfl
    · rw [if_neg h, if_neg h, ih]

theorem find_none_iff (k : Nat) (l : List Entry) : find k l = none ↔ ∀ e ∈ l, e.1 ≠ k := by
  induction l with
  | nil => simp [find]
  | cons e es ih =>
    simp only [find]
    by_cases h : e.1 = k
    · rw [if_pos h]; simp [h]
    · rw [if_neg h, ih]; simp [h]

theorem find_overwrite (k p k' : Nat) (l : List Entry) :
    find k' (overwrite k p l) = if k' = k then (find k l).map (fun _ => p) else find k' l := by
  induction l with
  | nil => simp [overwrite, find]
  | cons e es ih =>
    simp only [overwrite]
    by_cases h : e.1 = k
    · rw [if_pos h]
      by_cases h' : k' = k
      · subst h'; rw [if_pos rfl]; simp [find, h]
      · rw [if_neg h']
        have h1 : ¬ k = k' := fun e => h' e.symm
        have h2 : ¬ e.1 = k' := by omega
        simp only [find, if_neg h1, if_neg h2]
    · rw [if_neg h]
      simp only [find]
      by_cases h' : e.1 = k'
      · rw [if_pos h']
        have : ¬ k' = k := by omega
        rw [if_neg this]
        rw [if_pos h']
      · rw [if_neg h', ih]
        by_cases h2 : k' = k
        · subst h2; rw [if_pos rfl, if_pos rfl, if_neg h]
        · rw [if_neg h2, if_neg h2, if_neg h']

theorem any_iff_find (k : Nat) (l : List Entry) :
    l.any (fun e => e.1 == k) = (find k l).isSome := by
  induction l with
  | nil => rfl
  | cons e es ih =>
    simp only [List.any_cons, find, ih]
    by_cases h : e.1 = k
    · rw [if_pos h]; simp [h]
    · rw [if_neg h]; simp [h]

/-- Saving into a bucket changes the answer for that key only. -/
theorem Bucket.get_save (b : Bucket) (k p k' : Nat) :
    (b.save k p).get k' = if k' = k then some p else b.get k' := by
  unfold Bucket.save Bucket.get Bucket.entries
  by_cases h1 : pageSize ≤ b.page.length
  · rw [if_pos h1]
    simp only [List.flatten_cons, List.cons_append, List.nil_append, find]
    by_cases h : k' = k
    · rw [if_pos h, if_pos h.symm]
    · rw [if_neg h, if_neg (fun e => h e.symm)]
  · rw [if_neg h1]
    by_cases h2 : b.page.any (fun e => e.1 == k) = true
    · rw [if_pos h2]
      simp only [find_append, find_overwrite]
      rw [any_iff_find] at h2
      by_cases h : k' = k
      · subst h; rw [if_pos rfl, if_pos rfl]
        obtain ⟨v, hv⟩ := Option.isSome_iff_exists.mp h2
        rw [hv]; rfl
      · rw [if_neg h, if_neg h]
    · rw [if_neg h2]
      rw [any_iff_find] at h2
      have hn : find k b.page = none := by
        cases hf : find k b.page with
        | none => rfl
        | some v => rw [hf] at h2; simp at h2
      simp only [find_append]
      by_cases h : k' = k
      · subst h; rw [if_pos rfl, hn]; simp [find]
      · rw [if_neg h]
        have : find k' [(k, p)] = none := by
          simp only [find]; rw [if_neg (fun e : k = k' => h e.symm)]
        rw [this]; simp

theorem overwrite_keys (k p : Nat) (l : List Entry) (f : Nat → Prop) :
    (∀ e ∈ overwrite k p l, f e.1) → ∀ e ∈ l, f e.1 := by
  induction l with
  | nil => simp
  | cons e es ih =>
    simp only [overwrite]
    by_cases h : e.1 = k
    · rw [if_pos h]; intro hh x hx
      rcases List.mem_cons.mp hx with rfl | hx
      · rw [h]; exact hh (k, p) (by simp)
      · exact hh x (by simp [hx])
    · rw [if_neg h]; intro hh x hx
      rcases List.mem_cons.mp hx with rfl | hx
      · exact hh _ (by simp)
      · exact ih (fun y hy => hh y (by simp [hy])) x hx

theorem overwrite_keys' (k p : Nat) (l : List Entry) (f : Nat → Prop) :
    (∀ e ∈ l, f e.1) → ∀ e ∈ overwrite k p l, f e.1 := by
  induction l with
  | nil => simp [overwrite]
  | cons e es ih =>
    simp only [overwrite]
    by_cases h : e.1 = k
    · rw [if_pos h]; intro hh x hx
      rcases List.mem_cons.mp hx with rfl | hx
      · exact h ▸ hh e (by simp)
      · exact hh x (by simp [hx])
    · rw [if_neg h]; intro hh x hx
      rcases List.mem_cons.mp hx with rfl | hx
      · exact hh _ (by simp)
      · exact ih (fun y hy => hh y (by simp [hy])) x hx

theorem Bucket.save_keys (b : Bucket) (k p : Nat) (f : Nat → Prop) (hk : f k)
    (h : ∀ e ∈ b.entries, f e.1) : ∀ e ∈ (b.save k p).entries, f e.1 := by
  have h1 : ∀ e ∈ b.page, f e.1 := fun e he => h e (by unfold Bucket.entries; simp [he])
  have h2 : ∀ e ∈ b.over.flatten, f e.1 := fun e he => h e (List.mem_append_right _ he)
  unfold Bucket.save
  by_cases c1 : pageSize ≤ b.page.length
  · rw [if_pos c1]; unfold Bucket.entries
    intro e he
    simp only [List.flatten_cons, List.cons_append, List.nil_append, List.mem_cons,
      List.mem_append] at he
    rcases he with rfl | he | he
    · exact hk
    · exact h1 e he
    · exact h2 e he
  · rw [if_neg c1]
    by_cases c2 : b.page.any (fun e => e.1 == k) = true
    · rw [if_pos c2]; unfold Bucket.entries
      intro e he
      rcases List.mem_append.mp he with he | he
      · exact overwrite_keys' k p _ f h1 e he
      · exact h2 e he
    · rw [if_neg c2]; unfold Bucket.entries
      intro e he
      rcases List.mem_append.mp he with he | he
      · rcases List.mem_append.mp he with he | he
        · exact h1 e he
        · simp at he; rw [he]; exact hk
      · exact h2 e he

/-! ## Addressing -/

theorem modulus_bounds (b : Nat) (hb : 1 ≤ b) :
    modulus b = 2 * (modulus b / 2) ∧ modulus b / 2 ≤ b ∧ b < modulus b := by
  have hm : modulus b = 2 ^ (Nat.log2 b + 1) := by
    unfold modulus nextPow2; rw [if_neg (by omega)]; rfl
  have hd : 2 ^ (Nat.log2 b + 1) / 2 = 2 ^ Nat.log2 b := by
    rw [Nat.pow_succ]; omega
  refine ⟨?_, ?_, ?_⟩
  · rw [hm, hd, Nat.pow_succ]; omega
  · rw [hm, hd]; exact Nat.log2_self_le (by omega)
  · rw [hm]; exact Nat.lt_log2_self

theorem modulus_unique (b k : Nat) (hb : 1 ≤ b) (h1 : 2 ^ k ≤ b) (h2 : b < 2 ^ (k + 1)) :
    modulus b = 2 ^ (k + 1) := by
  unfold modulus nextPow2; rw [if_neg (by omega)]
  have : Nat.log2 b = k := by
    have h3 : k ≤ Nat.log2 b := (Nat.le_log2 (by omega)).mpr h1
    have h4 : Nat.log2 b < k + 1 := (Nat.log2_lt (by omega)).mpr h2
    omega
  show 2 ^ (Nat.log2 b + 1) = _
  rw [this]

theorem modulus_succ (b : Nat) (hb : 1 ≤ b) :
    modulus (b + 1) = if b + 1 = modulus b then 2 * modulus b else modulus b := by
  have hm : modulus b = 2 ^ (Nat.log2 b + 1) := by
    unfold modulus nextPow2; rw [if_neg (by omega)]; rfl
  obtain ⟨h1, h2, h3⟩ := modulus_bounds b hb
  by_cases h : b + 1 = modulus b
  · rw [if_pos h]
    rw [hm] at h ⊢
    rw [modulus_unique (b + 1) (Nat.log2 b + 1) (by omega) (by omega) (by rw [Nat.pow_succ]; omega)]
    rw [Nat.pow_succ 2 (Nat.log2 b + 1)]; omega
  · rw [if_neg h]
    rw [hm] at h h3 ⊢
    have : 2 ^ Nat.log2 b ≤ b := Nat.log2_self_le (by omega)
    exact modulus_unique (b + 1) (Nat.log2 b) (by omega) (by omega) (by omega)

/-- Every hash has a bucket inside the table. -/
theorem bucketOf_lt (b x : Nat) (hb : 1 ≤ b) : bucketOf b x < b := by
  obtain ⟨h1, h2, h3⟩ := modulus_bounds b hb
  have : x % modulus b < modulus b := Nat.mod_lt _ (by omega)
  unfold bucketOf
  by_cases h : b ≤ x % modulus b
  · rw [if_pos h]; omega
  · rw [if_neg h]; omega

/-- Adding one bucket moves keys only from the split bucket, and only to the new one. -/
theorem bucketOf_succ (b x : Nat) (hb : 1 ≤ b) :
    (bucketOf b x ≠ splitAt b → bucketOf (b + 1) x = bucketOf b x) ∧
    (bucketOf b x = splitAt b → bucketOf (b + 1) x = splitAt b ∨ bucketOf (b + 1) x = b) := by
  obtain ⟨h1, h2, h3⟩ := modulus_bounds b hb
  have hr : x % modulus b < modulus b := Nat.mod_lt _ (by omega)
  unfold splitAt bucketOf
  rw [modulus_succ b hb]
  by_cases he : b + 1 = modulus b
  · rw [if_pos he]
    have hmm : x % (2 * modulus b) = x % modulus b ∨
        x % (2 * modulus b) = x % modulus b + modulus b := by
      have := Nat.mod_mul_right_mod x (modulus b) 2
      have hlt : x % (2 * modulus b) < 2 * modulus b := Nat.mod_lt _ (by omega)
      rw [Nat.mul_comm] at this
      generalize x % (2 * modulus b) = y at *
      rcases Nat.lt_or_ge y (modulus b) with h | h
      · left; rw [Nat.mod_eq_of_lt h] at this; exact this
      · right
        have : (y - modulus b) % modulus b = x % modulus b := by
          rw [← this, Nat.mod_eq_sub_mod h]
        rw [Nat.mod_eq_of_lt (by omega)] at this; omega
    generalize x % (2 * modulus b) = y at *
    generalize x % modulus b = r at *
    generalize modulus b = m at *
    by_cases c1 : b ≤ r
    · rw [if_pos c1]
      by_cases c2 : b + 1 ≤ y
      · rw [if_pos c2]; omega
      · rw [if_neg c2]; omega
    · rw [if_neg c1]
      by_cases c2 : b + 1 ≤ y
      · rw [if_pos c2]; omega
      · rw [if_neg c2]; omega
  · rw [if_neg he]
    generalize x % modulus b = r at *
    generalize modulus b = m at *
    by_cases c1 : b ≤ r
    · rw [if_pos c1]
      by_cases c2 : b + 1 ≤ r
      · rw [if_pos c2]; omega
      · rw [if_neg c2]; omega
    · rw [if_neg c1, if_neg (by omega)]; omega

/-! ## Splitting -/

theorem distribute_some (P : Params) (b lo hi : Nat) : ∀ (l : List Entry) (seen : List Nat)
    (x y : Bucket),
    (∀ e ∈ l, bucketOf b (P.hash e.1) = lo ∨ bucketOf b (P.hash e.1) = hi) →
    ∃ x' y', distribute P b lo hi l seen x y = some (x', y') := by
  intro l
  induction l with
  | nil => intro seen x y _; exact ⟨x, y, rfl⟩
  | cons e es ih =>
    intro seen x y h
    have ht : ∀ e ∈ es, bucketOf b (P.hash e.1) = lo ∨ bucketOf b (P.hash e.1) = hi :=
      fun e he => h e (by simp [he])
    simp only [distribute]
    by_cases c : seen.contains e.1 = true
    · rw [if_pos c]; exact ih _ _ _ ht
    · rw [if_neg c]
      by_cases c1 : bucketOf b (P.hash e.1) = lo
      · rw [if_pos c1]; exact ih _ _ _ ht
      · rw [if_neg c1]
        have c2 : bucketOf b (P.hash e.1) = hi := (h e (by simp)).resolve_left c1
        rw [if_pos c2]; exact ih _ _ _ ht

theorem distribute_get (P : Params) (b lo hi : Nat) (hne : lo ≠ hi) : ∀ (l : List Entry)
    (seen : List Nat) (x y x' y' : Bucket),
    distribute P b lo hi l seen x y = some (x', y') →
    ∀ k, (bucketOf b (P.hash k) = lo →
        x'.get k = if seen.contains k then x.get k else (find k l).or (x.get k)) ∧
      (bucketOf b (P.hash k) = hi →
        y'.get k = if seen.contains k then y.get k else (find k l).or (y.get k)) := by
  intro l
  induction l with
  | nil =>
    intro seen x y x' y' h k
    simp only [distribute, Option.some.injEq, Prod.mk.injEq] at h
    obtain ⟨rfl, rfl⟩ := h
    simp [find]
  | cons e es ih =>
    intro seen x y x' y' h k
    simp only [distribute] at h
    by_cases c : seen.contains e.1 = true
    · rw [if_pos c] at h
      have := ih _ _ _ _ _ h k
      have key : ∀ v : Option Nat, (if seen.contains k = true then v else (find k (e :: es)).or v) =
          (if seen.contains k = true then v else (find k es).or v) := by
        intro v
        by_cases ck : seen.contains k = true
        · rw [if_pos ck, if_pos ck]
        · rw [if_neg ck, if_neg ck]
          have : ¬ e.1 = k := by rintro rfl; exact ck c
          simp only [find, if_neg this]
      rw [key, key]; exact this
    · rw [if_neg c] at h
      have key : ∀ v w : Option Nat, (k = e.1 → w = some e.2) → (k ≠ e.1 → w = v) →
          (if (e.1 :: seen).contains k = true then w else (find k es).or w) =
          (if seen.contains k = true then v else (find k (e :: es)).or v) := by
        intro v w h1 h2
        by_cases ck : k = e.1
        · subst ck
          rw [if_pos (by simp), if_neg c, h1 rfl]
          simp [find]
        · rw [h2 ck]
          have h3 : ((e.1 :: seen).contains k = true) ↔ (seen.contains k = true) := by
            simp [ck]
          have h4 : ¬ e.1 = k := fun e => ck e.symm
          by_cases cs : seen.contains k = true
          · rw [if_pos (h3.mpr cs), if_pos cs]
          · rw [if_neg (fun hh => cs (h3.mp hh)), if_neg cs]
            simp only [find, if_neg h4]
      by_cases c1 : bucketOf b (P.hash e.1) = lo
      · rw [if_pos c1] at h
        obtain ⟨ih1, ih2⟩ := ih _ _ _ _ _ h k
        refine ⟨fun hk => ?_, fun hk => ?_⟩
        · rw [ih1 hk]
          exact key (x.get k) _ (fun e => by rw [Bucket.get_save, if_pos e])
            (fun e => by rw [Bucket.get_save, if_neg e])
        · rw [ih2 hk]
          have hk' : k ≠ e.1 := by rintro rfl; exact hne (c1.symm.trans hk)
          exact key (y.get k) _ (fun e => absurd e hk') (fun _ => rfl)
      · rw [if_neg c1] at h
        by_cases c2 : bucketOf b (P.hash e.1) = hi
        · rw [if_pos c2] at h
          obtain ⟨ih1, ih2⟩ := ih _ _ _ _ _ h k
          refine ⟨fun hk => ?_, fun hk => ?_⟩
          · rw [ih1 hk]
            have hk' : k ≠ e.1 := by rintro rfl; exact hne (hk.symm.trans c2)
            exact key (x.get k) _ (fun e => absurd e hk') (fun _ => rfl)
          · rw [ih2 hk]
            exact key (y.get k) _ (fun e => by rw [Bucket.get_save, if_pos e])
              (fun e => by rw [Bucket.get_save, if_neg e])
        · rw [if_neg c2] at h; cases h

theorem distribute_keys (P : Params) (b lo hi : Nat) : ∀ (l : List Entry)
    (seen : List Nat) (x y x' y' : Bucket),
    distribute P b lo hi l seen x y = some (x', y') →
    (∀ e ∈ x.entries, bucketOf b (P.hash e.1) = lo) →
    (∀ e ∈ y.entries, bucketOf b (P.hash e.1) = hi) →
    (∀ e ∈ x'.entries, bucketOf b (P.hash e.1) = lo) ∧
    (∀ e ∈ y'.entries, bucketOf b (P.hash e.1) = hi) := by
  intro l
  induction l with
  | nil =>
    intro seen x y x' y' h hx hy
    simp only [distribute, Option.some.injEq, Prod.mk.injEq] at h
    obtain ⟨rfl, rfl⟩ := h
    exact ⟨hx, hy⟩
  | cons e es ih =>
    intro seen x y x' y' h hx hy
    simp only [distribute] at h
    by_cases c : seen.contains e.1 = true
    · rw [if_pos c] at h; exact ih _ _ _ _ _ h hx hy
    · rw [if_neg c] at h
      by_cases c1 : bucketOf b (P.hash e.1) = lo
      · rw [if_pos c1] at h
        exact ih _ _ _ _ _ h
          (Bucket.save_keys _ _ _ (fun k => bucketOf b (P.hash k) = lo) c1 hx) hy
      · rw [if_neg c1] at h
        by_cases c2 : bucketOf b (P.hash e.1) = hi
        · rw [if_pos c2] at h
          exact ih _ _ _ _ _ h hx
            (Bucket.save_keys _ _ _ (fun k => bucketOf b (P.hash k) = hi) c2 hy)
        · rw [if_neg c2] at h; cases h

/-! ## The index -/

/-- The answer without the filter. -/
def Idx.raw (P : Params) (s : Idx) (k : Nat) : Option Nat :=
  (s.tbl (bucketOf s.buckets (P.hash k))).get k

/-- Every entry is in the bucket of its key. -/
structure Idx.Placed (P : Params) (s : Idx) : Prop where
  pos : 1 ≤ s.buckets
  placed : ∀ i, i < s.buckets → ∀ e ∈ (s.tbl i).entries, bucketOf s.buckets (P.hash e.1) = i

/-- And every key of the table is in the filter. -/
structure Idx.Inv (P : Params) (s : Idx) : Prop extends s.Placed P where
  seen : ∀ k p, s.raw P k = some p → contains P s.bits k = true

theorem splitAt_lt (b : Nat) (hb : 1 ≤ b) : splitAt b < b := by
  obtain ⟨h1, h2, h3⟩ := modulus_bounds b hb
  unfold splitAt; omega

theorem split_ok {P : Params} {s : Idx} (hi : s.Placed P) :
    ∃ s', s.split P = some s' ∧ s'.Placed P ∧ s'.bits = s.bits ∧ s'.values = s.values ∧
      ∀ k, s'.raw P k = s.raw P k := by
  have hlt := splitAt_lt s.buckets hi.pos
  have hd : ∀ e ∈ (s.tbl (splitAt s.buckets)).entries,
      bucketOf (s.buckets + 1) (P.hash e.1) = splitAt s.buckets ∨
      bucketOf (s.buckets + 1) (P.hash e.1) = s.buckets := fun e he =>
    (bucketOf_succ s.buckets (P.hash e.1) hi.pos).2 (hi.placed _ hlt e he)
  obtain ⟨a, b, hab⟩ := distribute_some P (s.buckets + 1) (splitAt s.buckets) s.buckets _ [] {} {} hd
  have hg := distribute_get P (s.buckets + 1) (splitAt s.buckets) s.buckets (by omega) _ _ _ _ _ _ hab
  have hk := distribute_keys P (s.buckets + 1) (splitAt s.buckets) s.buckets _ _ _ _ _ _ hab
    (by simp [Bucket.entries]) (by simp [Bucket.entries])
  have hraw : ∀ k, (put2 s.tbl (splitAt s.buckets) s.buckets a b
      (bucketOf (s.buckets + 1) (P.hash k))).get k = s.raw P k := by
    intro k
    obtain ⟨m1, m2⟩ := bucketOf_succ s.buckets (P.hash k) hi.pos
    obtain ⟨g1, g2⟩ := hg k
    have hemp : ({} : Bucket).get k = none := rfl
    by_cases c : bucketOf s.buckets (P.hash k) = splitAt s.buckets
    · have hfind : (find k (s.tbl (splitAt s.buckets)).entries).or none = s.raw P k := by
        unfold Idx.raw; rw [c]; simp [Bucket.get]
      rcases m2 c with h | h
      · have := g1 h
        rw [hemp] at this
        unfold put2; rw [if_pos h, this]
        rw [if_neg (by simp)]; exact hfind
      · have := g2 h
        rw [hemp] at this
        unfold put2; rw [if_neg (by omega), if_pos h, this]
        rw [if_neg (by simp)]; exact hfind
    · have hlt2 := bucketOf_lt s.buckets (P.hash k) hi.pos
      unfold put2; rw [m1 c, if_neg c, if_neg (by omega)]; rfl
  refine ⟨{ s with
      buckets := s.buckets + 1, tbl := put2 s.tbl (splitAt s.buckets) s.buckets a b }, ?_, ?_, rfl, rfl, hraw⟩
  · unfold Idx.split; rw [hab]
  · refine ⟨by show 1 ≤ s.buckets + 1; omega, ?_⟩
    · intro i hlt' e he
      show bucketOf (s.buckets + 1) (P.hash e.1) = i
      have he' : e ∈ (put2 s.tbl (splitAt s.buckets) s.buckets a b i).entries := he
      have hlt'' : i < s.buckets + 1 := hlt'
      unfold put2 at he'
      by_cases c1 : i = splitAt s.buckets
      · rw [if_pos c1] at he'; rw [c1]; exact hk.1 e he'
      · rw [if_neg c1] at he'
        by_cases c2 : i = s.buckets
        · rw [if_pos c2] at he'; rw [c2]; exact hk.2 e he'
        · rw [if_neg c2] at he'
          have h0 := hi.placed i (by omega) e he'
          rw [(bucketOf_succ s.buckets (P.hash e.1) hi.pos).1 (by rw [h0]; exact c1), h0]

theorem expand_ok {P : Params} : ∀ (n : Nat) {s : Idx}, s.Placed P →
    ∃ s', s.expand P n = some s' ∧ s'.Placed P ∧ s'.bits = s.bits ∧ s'.values = s.values ∧
      ∀ k, s'.raw P k = s.raw P k := by
  intro n
  induction n with
  | zero => intro s hi; exact ⟨s, rfl, hi, rfl, rfl, fun _ => rfl⟩
  | succ n ih =>
    intro s hi
    simp only [Idx.expand]
    by_cases c : P.limit s.buckets ≤ s.values
    · rw [if_pos c]
      obtain ⟨s1, e1, i1, b1, v1, r1⟩ := split_ok hi
      rw [e1]
      obtain ⟨s2, e2, i2, b2, v2, r2⟩ := ih i1
      exact ⟨s2, e2, i2, b2.trans b1, v2.trans v1, fun k => (r2 k).trans (r1 k)⟩
    · rw [if_neg c]; exact ⟨s, rfl, hi, rfl, rfl, fun _ => rfl⟩

theorem contains_accrue (P : Params) (bits : Nat → Bool) (k k' : Nat)
    (h : k' = k ∨ contains P bits k' = true) : contains P (accrue P bits k) k' = true := by
  unfold contains at *
  rw [List.all_eq_true]
  intro j hj
  unfold accrue
  rcases h with rfl | h
  · apply Bool.or_eq_true _ _ |>.mpr
    right; rw [List.any_eq_true]; exact ⟨j, hj, by simp⟩
  · rw [List.all_eq_true] at h
    rw [h j hj]; rfl

theorem save_placed {P : Params} {fuel : Nat} {s : Idx} (hi : s.Placed P) (k p : Nat) :
    ∃ s', s.save P fuel k p = some s' ∧ s'.Placed P ∧ s'.bits = accrue P s.bits k ∧
      ∀ k', s'.raw P k' = if k' = k then some p else s.raw P k' := by
  obtain ⟨s1, e1, i1, b1, v1, r1⟩ := expand_ok fuel hi
  have hraw : ∀ k', (put1 s1.tbl (bucketOf s1.buckets (P.hash k))
        ((s1.tbl (bucketOf s1.buckets (P.hash k))).save k p)
        (bucketOf s1.buckets (P.hash k'))).get k' = if k' = k then some p else s.raw P k' := by
    intro k'
    unfold put1
    by_cases c : bucketOf s1.buckets (P.hash k') = bucketOf s1.buckets (P.hash k)
    · rw [if_pos c, Bucket.get_save]
      by_cases ck : k' = k
      · rw [if_pos ck, if_pos ck]
      · rw [if_neg ck, if_neg ck, ← c]; exact r1 k'
    · rw [if_neg c]
      have ck : k' ≠ k := by rintro rfl; exact c rfl
      rw [if_neg ck]; exact r1 k'
  refine ⟨{ s1 with
      bits := accrue P s1.bits k,
      tbl := put1 s1.tbl (bucketOf s1.buckets (P.hash k))
        ((s1.tbl (bucketOf s1.buckets (P.hash k))).save k p),
      values := if (s1.tbl (bucketOf s1.buckets (P.hash k))).adds k then s1.values + 1
        else s1.values }, by unfold Idx.save; rw [e1], ⟨i1.pos, ?_⟩,
    by show accrue P s1.bits k = _; rw [b1], hraw⟩
  · intro i hlt e he
    have he' : e ∈ (put1 s1.tbl (bucketOf s1.buckets (P.hash k))
        ((s1.tbl (bucketOf s1.buckets (P.hash k))).save k p) i).entries := he
    show bucketOf s1.buckets (P.hash e.1) = i
    unfold put1 at he'
    by_cases c : i = bucketOf s1.buckets (P.hash k)
    · rw [if_pos c, ← c] at he'
      exact Bucket.save_keys _ _ _ (fun x => bucketOf s1.buckets (P.hash x) = i) c.symm
        (i1.placed i hlt) e he'
    · rw [if_neg c] at he'; exact i1.placed i hlt e he'

theorem save_ok {P : Params} {fuel : Nat} {s : Idx} (hi : s.Inv P) (k p : Nat) :
    ∃ s', s.save P fuel k p = some s' ∧ s'.Inv P ∧
      ∀ k', s'.raw P k' = if k' = k then some p else s.raw P k' := by
  obtain ⟨s', e, pl, hb, hr⟩ := save_placed (fuel := fuel) hi.toPlaced k p
  refine ⟨s', e, ⟨pl, fun k' p' hp' => ?_⟩, hr⟩
  rw [hb]
  apply contains_accrue
  by_cases ck : k' = k
  · exact Or.inl ck
  · right
    rw [hr k', if_neg ck] at hp'
    exact hi.seen k' p' hp'

theorem load_eq_raw {P : Params} {s : Idx} (hi : s.Inv P) (k : Nat) : s.load P k = s.raw P k := by
  unfold Idx.load
  by_cases c : contains P s.bits k = true
  · rw [if_pos c]; rfl
  · rw [if_neg c]
    cases h : s.raw P k with
    | none => rfl
    | some p => exact absurd (hi.seen k p h) c

theorem fresh_inv (P : Params) (n : Nat) (hn : 1 ≤ n) : (fresh n).Inv P :=
  ⟨⟨hn, by intro i _ e he; simp [fresh, Bucket.entries] at he⟩,
    by intro k p h; simp [fresh, Idx.raw, Bucket.get, Bucket.entries, find] at h⟩

theorem saves_ok {P : Params} {fuel : Nat} : ∀ (hist : List Entry) {s : Idx}, s.Inv P →
    ∃ s', s.saves P fuel hist = some s' ∧ s'.Inv P ∧
      ∀ k, s'.raw P k = (lastSaved hist k).or (s.raw P k) := by
  intro hist
  induction hist with
  | nil => intro s hi; exact ⟨s, rfl, hi, fun k => by simp [lastSaved, find]⟩
  | cons e es ih =>
    intro s hi
    obtain ⟨s1, e1, i1, r1⟩ := save_ok (fuel := fuel) hi e.1 e.2
    obtain ⟨s2, e2, i2, r2⟩ := ih i1
    refine ⟨s2, by simp only [Idx.saves]; rw [e1]; exact e2, i2, fun k => ?_⟩
    rw [r2, r1]
    unfold lastSaved
    rw [List.reverse_cons, find_append]
    cases h : find k es.reverse with
    | some v => simp
    | none =>
      simp only [Option.none_or, find]
      by_cases c : k = e.1
      · rw [if_pos c, if_pos c.symm]; simp
      · rw [if_neg c, if_neg (fun x => c x.symm)]; simp

/-- **C46.** The index is a map: whatever the hash function, the filter bits, the number of initial
buckets, the expansion threshold and the sequence of saves (so whatever splits and overflow pages they
cause), no save panics and a lookup returns the position of the last save of that digest, or nothing
exactly when the digest was never saved. -/
theorem index_is_map (P : Params) (fuel n : Nat) (hn : 1 ≤ n) (hist : List Entry) :
    ∃ s, (fresh n).saves P fuel hist = some s ∧ ∀ k, s.load P k = lastSaved hist k := by
  obtain ⟨s, e, i, r⟩ := saves_ok (P := P) (fuel := fuel) hist (fresh_inv P n hn)
  refine ⟨s, e, fun k => ?_⟩
  rw [load_eq_raw i, r k]
  have : (fresh n).raw P k = none := by simp [fresh, Idx.raw, Bucket.get, Bucket.entries, find]
  rw [this]; simp

theorem index_absent (P : Params) (fuel n : Nat) (hn : 1 ≤ n) (hist : List Entry) (s : Idx)
    (h : (fresh n).saves P fuel hist = some s) (k : Nat) :
    s.load P k = none ↔ ∀ e ∈ hist, e.1 ≠ k := by
  obtain ⟨s', e, r⟩ := index_is_map P fuel n hn hist
  rw [h] at e; cases e
  rw [r k, lastSaved, find_none_iff]; simp

end Hdx
end Verif
