import Verif.Follow.WaitExec
/-
The tips of the persisted outputs, what a restart restores, what the ring holds.
-/
namespace Verif.Wex

/-- The last blocks of the outputs in a chain starting at number `n`. -/
def tips : Nat → List Blk → List (Nat × Blk)
  | _, [] => []
  | n, [b] => [(n, b)]
  | n, b :: c :: l => if b.nonce = c.nonce then tips (n + 1) (c :: l) else (n, b) :: tips (n + 1) (c :: l)

/-- The last `k` elements. -/
def lastK {α : Type} (k : Nat) (l : List α) : List α := l.drop (l.length - k)

/-- A block is a tip iff the next one, if any, belongs to another output. -/
theorem mem_tips (l : List Blk) : ∀ (n m : Nat) (b : Blk), (m, b) ∈ tips n l ↔
    n ≤ m ∧ l[m - n]? = some b ∧ ∀ c, l[m - n + 1]? = some c → c.nonce ≠ b.nonce := by
  induction l with
  | nil => intro n m b; simp [tips]
  | cons x l ih =>
    intro n m b
    cases l with
    | nil =>
      simp only [tips, List.mem_singleton, Prod.mk.injEq]
      constructor
      · rintro ⟨rfl, rfl⟩; simp
      · rintro ⟨h1, h2, -⟩
        by_cases e : m = n
        · subst e; simp at h2; exact ⟨rfl, h2.symm⟩
        · have : m - n = (m - n - 1) + 1 := by omega
          rw [this] at h2; simp at h2
    | cons c l =>
      by_cases e : m = n
      · subst e
        have hno : (m, b) ∉ tips (m + 1) (c :: l) := fun h => by have := ((ih _ _ _).mp h).1; omega
        simp only [tips]
        split
        · rename_i hn
          constructor
          · intro h; exact absurd h hno
          · rintro ⟨-, h2, h3⟩
            simp at h2 h3
            subst h2
            exact absurd hn.symm h3
        · rename_i hn
          rw [List.mem_cons]
          constructor
          · rintro (h | h)
            · cases h; simp; exact fun h => hn h.symm
            · exact absurd h hno
          · rintro ⟨-, h2, -⟩
            simp at h2; subst h2; exact .inl rfl
      · have hrec : ((m, b) ∈ tips (n + 1) (c :: l)) ↔
            n ≤ m ∧ (x :: c :: l)[m - n]? = some b ∧ ∀ d, (x :: c :: l)[m - n + 1]? = some d → d.nonce ≠ b.nonce := by
          rw [ih]
          constructor
          · rintro ⟨h1, h2, h3⟩
            have : m - n = (m - (n + 1)) + 1 := by omega
            rw [this]
            exact ⟨by omega, h2, h3⟩
          · rintro ⟨h1, h2, h3⟩
            have : m - n = (m - (n + 1)) + 1 := by omega
            rw [this] at h2 h3
            exact ⟨by omega, h2, h3⟩
        rw [← hrec]
        simp only [tips]
        split
        · exact Iff.rfl
        · rw [List.mem_cons]
          constructor
          · rintro (h | h)
            · cases h; exact absurd rfl e
            · exact h
          · exact .inr

theorem tips_append (l : List Blk) : ∀ (n : Nat) (g : List Blk) (hl : l ≠ []),
    (∀ b ∈ l.getLast?, ∀ c ∈ g.head?, b.nonce ≠ c.nonce) → tips n (l ++ g) = tips n l ++ tips (n + l.length) g := by
  induction l with
  | nil => intro n g hl; exact absurd rfl hl
  | cons x l ih =>
    intro n g _ h
    cases l with
    | nil =>
      cases g with
      | nil => simp [tips]
      | cons c g =>
        have : x.nonce ≠ c.nonce := h x (by simp) c (by simp)
        simp [tips, this]
    | cons c l =>
      have := ih (n + 1) g (by simp) (fun b hb d hd => h b (by rw [List.getLast?_cons_cons]; exact hb) d hd)
      simp only [List.cons_append, tips] at this ⊢
      have e : n + (x :: c :: l).length = n + 1 + (c :: l).length := by simp; omega
      rw [e]
      split
      · exact this
      · rw [this]; rfl

/-- The blocks of one output have one tip, the last. -/
theorem tips_group (hs : List Nat) (h nonce ch : Nat) : ∀ n, tips n (group hs h nonce ch) =
    [(n + hs.length, { hash := h, nonce, root := some ch })] := by
  induction hs with
  | nil => intro n; rfl
  | cons x hs ih =>
    intro n
    have := ih (n + 1)
    cases hs with
    | nil => simp [group, tips]
    | cons y hs =>
      simp only [group, List.cons_append, List.map_cons, tips, if_true] at this ⊢
      rw [this]
      simp; omega

theorem tips_ne {l : List Blk} (h : l ≠ []) (n : Nat) : tips n l ≠ [] := by
  induction l generalizing n with
  | nil => exact absurd rfl h
  | cons x l ih =>
    cases l with
    | nil => simp [tips]
    | cons c l =>
      simp only [tips]
      split
      · exact ih (by simp) _
      · simp

/-- Adding one block to a chain: the old tip stays a tip iff the new block belongs to another output. -/
theorem tips_snoc (l : List Blk) : ∀ (n : Nat) (x : Blk), ∀ b ∈ l.getLast?,
    tips n (l ++ [x]) = (if b.nonce = x.nonce then (tips n l).dropLast else tips n l) ++ [(n + l.length, x)] := by
  induction l with
  | nil => intro n x b hb; simp at hb
  | cons y l ih =>
    intro n x b hb
    cases l with
    | nil =>
      simp at hb; subst hb
      simp only [List.cons_append, List.nil_append, tips, List.length_singleton]
      split <;> simp
    | cons c l =>
      rw [List.getLast?_cons_cons] at hb
      have := ih (n + 1) x b hb
      have hne := tips_ne (l := c :: l) (by simp) (n + 1)
      have e : n + (y :: c :: l).length = n + 1 + (c :: l).length := by simp; omega
      rw [e]
      simp only [List.cons_append, tips] at this ⊢
      rw [this]
      split
      · rfl
      · split
        · rw [List.dropLast_cons_of_ne_nil hne]; rfl
        · rfl

theorem tips_last (l : List Blk) : ∀ (n : Nat), ∀ b ∈ l.getLast?, (tips n l).getLast? = some (n + l.length - 1, b) := by
  induction l with
  | nil => intro n b hb; simp at hb
  | cons x l ih =>
    intro n b hb
    cases l with
    | nil => simp at hb; subst hb; simp [tips]
    | cons c l =>
      rw [List.getLast?_cons_cons] at hb
      have := ih (n + 1) b hb
      have hne := tips_ne (l := c :: l) (by simp) (n + 1)
      have e : n + (x :: c :: l).length - 1 = n + 1 + (c :: l).length - 1 := by simp; omega
      rw [e]
      simp only [tips]
      split
      · exact this
      · rw [List.getLast?_cons, this]; rfl

theorem dropLast_snoc {α : Type} {l : List α} {a : α} (h : a ∈ l.getLast?) : l.dropLast ++ [a] = l := by
  have hne : l ≠ [] := by rintro rfl; simp at h
  rw [List.getLast?_eq_some_getLast hne] at h
  cases h
  exact List.dropLast_concat_getLast hne

theorem lastK_zero {α : Type} (l : List α) : lastK 0 l = [] := by simp [lastK]

theorem lastK_snoc {α : Type} (k : Nat) (l : List α) (a : α) : lastK (k + 1) (l ++ [a]) = lastK k l ++ [a] := by
  unfold lastK
  rw [List.length_append, List.length_singleton]
  have : l.length + 1 - (k + 1) = l.length - k := by omega
  rw [this, List.drop_append_of_le_length (by omega)]

/-- What the loop of `last_executed_output_blocks` computes. -/
theorem restoreGo_spec (db : List Blk) : ∀ (num k last : Nat) (acc : List (Nat × Blk)) (b : Blk),
    db[num]? = some b → b.nonce = last →
    restoreGo db num k last acc = some (lastK k (tips 0 (db.take (num + 1))).dropLast ++ acc) := by
  intro num
  induction num with
  | zero =>
    intro k last acc b hb _
    have : db.take 1 = [b] := by
      cases db with
      | nil => simp at hb
      | cons x l => simp at hb; simp [hb]
    simp [restoreGo, this, tips, lastK]
  | succ num ih =>
    intro k last acc b hb hn
    have hlt : num + 1 < db.length := (List.getElem?_eq_some_iff.mp hb).1
    obtain ⟨h, hh⟩ : ∃ h, db[num]? = some h := ⟨_, List.getElem?_eq_getElem (by omega)⟩
    have htake : db.take (num + 2) = db.take (num + 1) ++ [b] := by
      rw [List.take_succ, hb]; rfl
    have hlast : (db.take (num + 1)).getLast? = some h := by
      rw [List.take_succ, hh]; simp
    have hlen : (db.take (num + 1)).length = num + 1 := by rw [List.length_take]; omega
    have htips := tips_snoc (db.take (num + 1)) 0 b h (by rw [hlast]; rfl)
    have htl := tips_last (db.take (num + 1)) 0 h (by rw [hlast]; rfl)
    rw [hlen] at htips htl
    rw [show num + 1 + 1 = num + 2 from rfl, htake, htips, List.dropLast_concat]
    have hsplit : tips 0 (db.take (num + 1)) = (tips 0 (db.take (num + 1))).dropLast ++ [(num, h)] := by
      have := dropLast_snoc (show (num, h) ∈ (tips 0 (db.take (num + 1))).getLast? by rw [htl]; simp)
      exact this.symm
    rw [restoreGo]
    by_cases hk : k = 0
    · rw [if_pos hk, hk, lastK_zero]; rfl
    · rw [if_neg hk, hh]
      simp only
      by_cases hne : h.nonce ≠ last
      · rw [if_pos hne, ih (k - 1) h.nonce _ h hh rfl]
        have : ¬ h.nonce = b.nonce := by rw [hn]; exact hne
        rw [if_neg this]
        conv_rhs => rw [hsplit]
        obtain ⟨j, rfl⟩ : ∃ j, k = j + 1 := ⟨k - 1, by omega⟩
        rw [lastK_snoc]; simp
      · have he : h.nonce = last := by simpa using hne
        rw [if_neg hne, ih k last _ h hh he, if_pos (he.trans hn.symm)]

/-- **A restart restores the last outputs' tips**, in order, as many as the ring holds. -/
theorem restore_spec {db : List Blk} (h : db ≠ []) (k : Nat) : restore db k = some (lastK k (tips 0 db)) := by
  unfold restore
  have hlen : 0 < db.length := List.length_pos_iff.mpr h
  split
  · rename_i e; rw [e, lastK_zero]
  · rename_i hk
    have hb : db[db.length - 1]? = some (db.getLast h) := by rw [← List.getLast?_eq_getElem?, List.getLast?_eq_some_getLast h]
    rw [hb]
    simp only
    rw [restoreGo_spec db _ _ _ _ _ hb rfl]
    have e : db.length - 1 + 1 = db.length := by omega
    rw [e, List.take_length]
    have htl := tips_last db 0 (db.getLast h) (by rw [List.getLast?_eq_some_getLast h]; rfl)
    rw [Nat.zero_add] at htl
    have := (dropLast_snoc (show (db.length - 1, db.getLast h) ∈ (tips 0 db).getLast? by rw [htl]; simp))
    conv_rhs => rw [← this]
    obtain ⟨j, rfl⟩ : ∃ j, k = j + 1 := ⟨k - 1, by omega⟩
    rw [lastK_snoc]; rfl

/-- The tips are in order of their numbers. -/
theorem tips_sorted (l : List Blk) : ∀ n, ((tips n l).map (·.1)).Pairwise (· < ·) := by
  induction l with
  | nil => intro n; simp [tips]
  | cons x l ih =>
    intro n
    cases l with
    | nil => simp [tips]
    | cons c l =>
      simp only [tips]
      split
      · exact ih (n + 1)
      · rw [List.map_cons, List.pairwise_cons]
        refine ⟨?_, ih (n + 1)⟩
        intro m hm
        obtain ⟨⟨a, b⟩, hab, rfl⟩ := List.mem_map.mp hm
        have := ((mem_tips (c :: l) (n + 1) a b).mp hab).1
        show n < a
        omega

theorem pushBack_len {α : Type} {cap : Nat} {l : List α} (a : α) (hc : 0 < cap) (h : l.length ≤ cap) :
    (pushBack cap l a).length ≤ cap := by
  unfold pushBack
  split <;> simp <;> omega

/-- Pushing keeps the last `cap` of everything pushed. -/
theorem pushBack_suffix {α : Type} {cap : Nat} {pre l : List α} (a : α) (hc : 0 < cap) (h : l.length ≤ cap)
    (hf : pre = [] ∨ l.length = cap) :
    ∃ pre', pre' ++ pushBack cap l a = pre ++ l ++ [a] ∧ (pre' = [] ∨ (pushBack cap l a).length = cap) := by
  unfold pushBack
  split
  · rename_i hge
    cases l with
    | nil => simp at hge; omega
    | cons x l =>
      refine ⟨pre ++ [x], by simp, .inr ?_⟩
      simp at hge h ⊢; omega
  · rename_i hlt
    rcases hf with rfl | hf
    · exact ⟨[], by simp, .inl rfl⟩
    · exact absurd hf (by omega)

end Verif.Wex
