import Verif.Storage.Certs
/-
Property C35: the certificate store's indexes agree with its contents and its queries are exact.
-/
namespace Verif
namespace CertStore

/-- Specification: the certificates of the epoch are identified by their digest, and by author and round. -/
structure Uniq (U : Header → Prop) : Prop where
  inj : ∀ {a b}, U a → U b → a.digest = b.digest → a = b
  unique : ∀ {a b}, U a → U b → a.author = b.author → a.round = b.round → a = b

/-- Specification: certificate `c` is in the store. -/
def Stored (db : Db) (c : Certificate) : Prop := read db c.header.digest = some c

variable {U : Header → Prop} {keep : Nat}

/-- The three tables agree. -/
structure Ok (U : Header → Prop) (db : Db) : Prop where
  s1 : SMap.Sorted db.certs
  s2 : PMap.Sorted db.byRound
  s3 : PMap.Sorted db.byOrigin
  key : ∀ d c, SMap.get? d db.certs = some c → c.header.digest = d ∧ U c.header
  round : ∀ r o d, PMap.get? (r, o) db.byRound = some d ↔
    ∃ c, SMap.get? d db.certs = some c ∧ c.header.round = r ∧ c.header.author = o
  origin : ∀ r o d, PMap.get? (o, r) db.byOrigin = some d ↔ PMap.get? (r, o) db.byRound = some d

theorem Ok.empty : Ok U {} :=
  ⟨SMap.sorted_nil, PMap.sorted_nil, PMap.sorted_nil, fun d c h => (by cases h),
    fun r o d => (by simp [PMap.get?, SMap.get?]), fun r o d => (by simp [PMap.get?])⟩

theorem Ok.stored {db : Db} (h : Ok U db) {d : Digest} {c : Certificate} :
    SMap.get? d db.certs = some c ↔ Stored db c ∧ c.header.digest = d := by
  constructor
  · intro hc
    obtain ⟨h1, -⟩ := h.key d c hc
    exact ⟨by unfold Stored read; rw [h1]; exact hc, h1⟩
  · rintro ⟨h1, rfl⟩; exact h1

theorem save_ok (hU : Uniq U) {db : Db} (h : Ok U db) {c : Certificate} (hc : U c.header) : Ok U (save db c) := by
  refine ⟨SMap.sorted_insert h.s1, PMap.sorted_insert h.s2, PMap.sorted_insert h.s3, ?_, ?_, ?_⟩
  · intro d x hx
    unfold save at hx
    dsimp only at hx
    rw [SMap.get?_insert] at hx
    split at hx
    · rename_i hd; cases hx; exact ⟨hd.symm, hc⟩
    · exact h.key d x hx
  · intro r o d
    unfold save
    dsimp only
    rw [PMap.get?_insert]
    split
    · rename_i hk
      cases hk
      constructor
      · intro hd
        cases hd
        exact ⟨c, by rw [SMap.get?_insert, if_pos rfl], rfl, rfl⟩
      · rintro ⟨x, hx, h1, h2⟩
        rw [SMap.get?_insert] at hx
        split at hx
        · rename_i hd; rw [hd]
        · obtain ⟨h3, h4⟩ := h.key d x hx
          rw [← h3, hU.unique h4 hc h2 h1]
    · rename_i hk
      rw [h.round]
      constructor
      · rintro ⟨x, hx, h1, h2⟩
        refine ⟨x, ?_, h1, h2⟩
        rw [SMap.get?_insert, if_neg]
        · exact hx
        · intro hd
          obtain ⟨h3, h4⟩ := h.key d x hx
          have := hU.inj h4 hc (h3.trans hd)
          exact hk (by rw [← h1, ← h2, this])
      · rintro ⟨x, hx, h1, h2⟩
        rw [SMap.get?_insert] at hx
        split at hx
        · cases hx
          exact absurd (by rw [← h1, ← h2]) hk
        · exact ⟨x, hx, h1, h2⟩
  · intro r o d
    unfold save
    dsimp only
    rw [PMap.get?_insert, PMap.get?_insert]
    by_cases hk : (r, o) = (c.header.round, c.header.author)
    · rw [if_pos hk, if_pos (by cases hk; rfl)]
    · rw [if_neg hk, if_neg (fun e => hk (by cases e; rfl))]
      exact h.origin r o d

theorem stored_save {db : Db} {c x : Certificate} :
    Stored (save db c) x ↔ x = c ∨ (Stored db x ∧ x.header.digest ≠ c.header.digest) := by
  unfold Stored read save
  dsimp only
  rw [SMap.get?_insert]
  split
  · rename_i h
    constructor
    · intro e; cases e; exact .inl rfl
    · rintro (rfl | h')
      · rfl
      · exact absurd h h'.2
  · rename_i h
    constructor
    · exact fun e => .inr ⟨e, h⟩
    · rintro (rfl | h')
      · exact absurd rfl h
      · exact h'.1

theorem removeRow_ok (hU : Uniq U) {db : Db} (h : Ok U db) {r : Round} {o : AuthorityId} {d : Digest}
    (hk : PMap.get? (r, o) db.byRound = some d) : Ok U (removeRow db r o d) ∧
    ∀ x, Stored (removeRow db r o d) x ↔ Stored db x ∧ ¬ (x.header.round = r ∧ x.header.author = o) := by
  obtain ⟨c, hc, hr, ho⟩ := (h.round r o d).mp hk
  obtain ⟨hcd, hcU⟩ := h.key d c hc
  have hget : ∀ y, SMap.get? y (SMap.erase d db.certs) = if y = d then none else SMap.get? y db.certs :=
    fun y => SMap.get?_erase h.s1
  have same : ∀ y x, SMap.get? y db.certs = some x → (y = d ↔ x.header.round = r ∧ x.header.author = o) := by
    intro y x hx
    obtain ⟨h1, h2⟩ := h.key y x hx
    constructor
    · intro hy
      have := hU.inj h2 hcU (by rw [h1, hcd, hy])
      rw [this]; exact ⟨hr, ho⟩
    · rintro ⟨h3, h4⟩
      have := hU.unique h2 hcU (h4.trans ho.symm) (h3.trans hr.symm)
      rw [← h1, this, hcd]
  refine ⟨⟨SMap.sorted_erase h.s1, PMap.sorted_erase h.s2, PMap.sorted_erase h.s3, ?_, ?_, ?_⟩, ?_⟩
  · intro y x hx
    unfold removeRow at hx
    dsimp only at hx
    rw [hget] at hx
    split at hx
    · cases hx
    · exact h.key y x hx
  · intro r' o' d'
    unfold removeRow
    dsimp only
    rw [PMap.get?_erase h.s2]
    constructor
    · intro h1
      split at h1
      · cases h1
      · rename_i hne
        obtain ⟨x, hx, h2, h3⟩ := (h.round r' o' d').mp h1
        refine ⟨x, ?_, h2, h3⟩
        rw [hget, if_neg]
        · exact hx
        · intro hd
          obtain ⟨h4, h5⟩ := (same d' x hx).mp hd
          exact hne (by rw [← h2, ← h3, h4, h5])
    · rintro ⟨x, hx, h2, h3⟩
      rw [hget] at hx
      split at hx
      · cases hx
      · rename_i hne
        rw [if_neg]
        · exact (h.round r' o' d').mpr ⟨x, hx, h2, h3⟩
        · intro he
          cases he
          exact hne ((same d' x hx).mpr ⟨h2, h3⟩)
  · intro r' o' d'
    unfold removeRow
    dsimp only
    rw [PMap.get?_erase h.s2, PMap.get?_erase h.s3]
    by_cases hk : (r', o') = (r, o)
    · rw [if_pos hk, if_pos (by cases hk; rfl)]
    · rw [if_neg hk, if_neg (fun e => hk (by cases e; rfl))]
      exact h.origin r' o' d'
  · intro x
    unfold Stored read removeRow
    dsimp only
    rw [hget]
    constructor
    · intro h1
      split at h1
      · cases h1
      · rename_i hne
        exact ⟨h1, fun h2 => hne ((same _ x h1).mpr h2)⟩
    · rintro ⟨h1, h2⟩
      rw [if_neg (fun e => h2 ((same _ x h1).mp e))]
      exact h1

theorem removeRows_ok (hU : Uniq U) {rows : List ((Round × AuthorityId) × Digest)} {db : Db} (h : Ok U db)
    (hk : ∀ kd ∈ rows, PMap.get? kd.1 db.byRound = some kd.2) (hn : (rows.map (·.1)).Nodup) :
    Ok U (removeRows rows db) ∧
    ∀ x, Stored (removeRows rows db) x ↔ Stored db x ∧ (x.header.round, x.header.author) ∉ rows.map (·.1) := by
  induction rows generalizing db with
  | nil => exact ⟨h, fun x => by simp [removeRows]⟩
  | cons kd rest ih =>
    obtain ⟨⟨r, o⟩, d⟩ := kd
    have hn' := List.nodup_cons.mp hn
    obtain ⟨h1, h2⟩ := removeRow_ok hU h (hk ((r, o), d) (List.mem_cons_self ..))
    obtain ⟨h3, h4⟩ := ih h1 (fun kd hkd => by
      unfold removeRow
      dsimp only
      rw [PMap.get?_erase h.s2, if_neg]
      · exact hk kd (List.mem_cons_of_mem _ hkd)
      · intro e; exact hn'.1 (by simp only; rw [← e]; exact List.mem_map_of_mem hkd)) hn'.2
    refine ⟨h3, ?_⟩
    intro x
    show Stored (removeRows rest (removeRow db r o d)) x ↔ _
    rw [h4, h2, List.map_cons, List.mem_cons, not_or, and_assoc]
    simp only [Prod.mk.injEq]

/-- In a map sorted by (round, ..) the rows below a round come first. -/
theorem mem_takeWhile_lt {β : Type} {m : List ((Nat × Nat) × β)} (hs : PMap.Sorted m) {t : Nat}
    {x : (Nat × Nat) × β} : x ∈ m.takeWhile (fun kv => decide (kv.1.1 < t)) ↔ x ∈ m ∧ x.1.1 < t := by
  induction m with
  | nil => simp
  | cons y m ih =>
    by_cases hy : y.1.1 < t
    · rw [List.takeWhile_cons_of_pos (by simpa using hy), List.mem_cons, List.mem_cons, ih hs.tail]
      constructor
      · rintro (rfl | h)
        · exact ⟨.inl rfl, hy⟩
        · exact ⟨.inr h.1, h.2⟩
      · rintro ⟨rfl | h, h2⟩
        · exact .inl rfl
        · exact .inr ⟨h, h2⟩
    · rw [List.takeWhile_cons_of_neg (by simpa using hy)]
      constructor
      · intro h; cases h
      · rintro ⟨h, h2⟩
        exfalso
        rcases List.mem_cons.mp h with rfl | h
        · exact hy h2
        · have := hs.head x h
          unfold PMap.Lt at this
          omega

theorem nodup_keys {β : Type} {m : List ((Nat × Nat) × β)} (hs : PMap.Sorted m) : (m.map (·.1)).Nodup :=
  List.Pairwise.imp (fun h => PMap.Lt.ne h) hs

theorem gcRounds_ok (hU : Uniq U) {db : Db} (h : Ok U db) (target : Round) : Ok U (gcRounds keep target db) ∧
    ∀ x, Stored (gcRounds keep target db) x ↔ Stored db x ∧ target ≤ x.header.round + keep := by
  unfold gcRounds
  split
  · rename_i ht
    exact ⟨h, fun x => ⟨fun hx => ⟨hx, by omega⟩, fun hx => hx.1⟩⟩
  · rename_i ht
    obtain ⟨h1, h2⟩ := removeRows_ok hU (rows := db.byRound.takeWhile (fun kv => decide (kv.1.1 < target - keep))) h
      (fun kd hkd => PMap.get?_of_mem h.s2 ((mem_takeWhile_lt h.s2).mp hkd).1)
      ((nodup_keys h.s2).sublist ((List.takeWhile_sublist _).map _))
    refine ⟨h1, ?_⟩
    intro x
    rw [h2]
    constructor
    · rintro ⟨hx, hn⟩
      refine ⟨hx, ?_⟩
      by_contra hlt
      refine hn (List.mem_map.mpr ⟨((x.header.round, x.header.author), x.header.digest), ?_, rfl⟩)
      exact (mem_takeWhile_lt h.s2).mpr ⟨(PMap.mem_iff h.s2).mpr
        ((h.round _ _ _).mpr ⟨x, hx, rfl, rfl⟩), by dsimp only; omega⟩
    · rintro ⟨hx, hr⟩
      refine ⟨hx, ?_⟩
      intro hm
      obtain ⟨kd, hkd, hke⟩ := List.mem_map.mp hm
      have := ((mem_takeWhile_lt h.s2).mp hkd).2
      rw [hke] at this
      dsimp only at this
      omega

theorem saveAll_ok (hU : Uniq U) {cs : List Certificate} {db : Db} (h : Ok U db) (hc : ∀ c ∈ cs, U c.header) :
    Ok U (saveAll cs db) := by
  induction cs generalizing db with
  | nil => exact h
  | cons c cs ih =>
    exact ih (save_ok hU h (hc c (List.mem_cons_self ..))) (fun c hc' => hc c (List.mem_cons_of_mem _ hc'))

theorem delete_ok (hU : Uniq U) {db : Db} (h : Ok U db) (d : Digest) : Ok U (delete d db) ∧
    ∀ x, Stored (delete d db) x ↔ Stored db x ∧ x.header.digest ≠ d := by
  unfold delete
  cases hg : SMap.get? d db.certs with
  | none =>
    refine ⟨h, fun x => ⟨fun hx => ⟨hx, ?_⟩, fun hx => hx.1⟩⟩
    rintro rfl
    unfold Stored read at hx
    rw [hg] at hx; cases hx
  | some c =>
    obtain ⟨h1, h2⟩ := h.key d c hg
    have hk := (h.round c.header.round c.header.author d).mpr ⟨c, hg, rfl, rfl⟩
    obtain ⟨h3, h4⟩ := removeRow_ok hU h hk
    refine ⟨h3, ?_⟩
    intro x
    rw [h4]
    constructor
    · rintro ⟨hx, hn⟩
      refine ⟨hx, ?_⟩
      intro e
      obtain ⟨-, hxU⟩ := h.key _ x hx
      have := hU.inj hxU h2 (e.trans h1.symm)
      exact hn (by rw [this]; exact ⟨rfl, rfl⟩)
    · rintro ⟨hx, hn⟩
      refine ⟨hx, ?_⟩
      rintro ⟨e1, e2⟩
      obtain ⟨-, hxU⟩ := h.key _ x hx
      exact hn (by rw [hU.unique hxU h2 e2 e1, h1])

theorem Reach.ok (hU : Uniq U) {db : Db} (h : Reach U keep db) : Ok U db := by
  induction h with
  | empty => exact .empty
  | save cs _ hc ih => exact saveAll_ok hU ih hc
  | gc target _ ih => exact (gcRounds_ok hU ih target).1
  | delete d _ ih => exact (delete_ok hU ih d).1

/-! ### Queries -/

/-- The rows looked at, after dropping those too old, are exactly those from `round` on. -/
theorem rowsFrom_filter {db : Db} (hs : PMap.Sorted db.byRound) (round : Round) :
    (rowsFrom db round).filter (fun kv => decide (round ≤ kv.1.1)) =
      db.byRound.filter (fun kv => decide (round ≤ kv.1.1)) := by
  unfold rowsFrom
  split
  · rename_i hr
    unfold skipTo
    generalize db.byRound = m at hs
    induction m with
    | nil => rfl
    | cons y m ih =>
      by_cases hy : PMap.Lt y.1 (round - 1, 0)
      · have hlt : ¬ round ≤ y.1.1 := by unfold PMap.Lt at hy; simp only at hy; omega
        rw [List.dropWhile_cons_of_pos (by simpa using hy), List.filter_cons_of_neg (by simpa using hlt)]
        exact ih hs.tail
      · rw [List.dropWhile_cons_of_neg (by simpa using hy)]
  · rfl

theorem afterLoop_eq (certs : List (Digest × Certificate)) (round : Round)
    (rows : List ((Round × AuthorityId) × Digest)) : afterLoop certs round rows =
      (rows.filter (fun kv => decide (round ≤ kv.1.1))).mapM (fun kv => SMap.get? kv.2 certs) := by
  induction rows with
  | nil => rfl
  | cons y rows ih =>
    obtain ⟨⟨r, o⟩, d⟩ := y
    unfold afterLoop
    split
    · rename_i hr
      rw [List.filter_cons_of_pos (by simpa using hr), List.mapM_cons, ih]
      cases SMap.get? d certs with
      | none => rfl
      | some c =>
        dsimp only
        cases List.mapM (fun kv : (Nat × Nat) × Nat => SMap.get? kv.2 certs)
          (rows.filter (fun kv => decide (round ≤ kv.1.1))) <;> rfl
    · rename_i hr
      rw [List.filter_cons_of_neg (by simpa using hr), ih]

/-- Rows of the index resolve to the certificates they name. -/
theorem resolve {db : Db} (h : Ok U db) {rows : List ((Round × AuthorityId) × Digest)}
    (hr : ∀ kd ∈ rows, kd ∈ db.byRound) : ∃ cs, rows.mapM (fun kv => SMap.get? kv.2 db.certs) = some cs ∧
      cs.map (fun c => ((c.header.round, c.header.author), c.header.digest)) = rows ∧ ∀ c ∈ cs, Stored db c := by
  induction rows with
  | nil => exact ⟨[], rfl, rfl, by simp⟩
  | cons kd rows ih =>
    obtain ⟨⟨r, o⟩, d⟩ := kd
    obtain ⟨cs, h1, h2, h3⟩ := ih (fun x hx => hr x (List.mem_cons_of_mem _ hx))
    obtain ⟨c, hc, hcr, hco⟩ := (h.round r o d).mp (PMap.get?_of_mem h.s2 (hr _ (List.mem_cons_self ..)))
    obtain ⟨hs, hd⟩ := h.stored.mp hc
    refine ⟨c :: cs, ?_, ?_, ?_⟩
    · rw [List.mapM_cons, h1, hc]; rfl
    · rw [List.map_cons, h2, hcr, hco, hd]
    · intro x hx
      rcases List.mem_cons.mp hx with rfl | hx
      · exact hs
      · exact h3 x hx

/-- Specification: `cs` lists exactly the stored certificates with `p`, in ascending order of round and origin. -/
def Lists (db : Db) (p : Certificate → Prop) (cs : List Certificate) : Prop :=
  (∀ c, c ∈ cs ↔ Stored db c ∧ p c) ∧
  cs.Pairwise (fun a b => a.header.round < b.header.round ∨
    (a.header.round = b.header.round ∧ a.header.author < b.header.author))

theorem mem_of_rows {db : Db} (h : Ok U db) {rows : List ((Round × AuthorityId) × Digest)} {p : Round → Prop}
    (hm : ∀ kd, kd ∈ rows ↔ kd ∈ db.byRound ∧ p kd.1.1) :
    ∃ cs, rows.mapM (fun kv => SMap.get? kv.2 db.certs) = some cs ∧
      (∀ c, c ∈ cs ↔ Stored db c ∧ p c.header.round) ∧
      cs.map (fun c => (c.header.round, c.header.author)) = rows.map (·.1) := by
  obtain ⟨cs, h1, h2, h3⟩ := resolve h (fun kd hkd => ((hm kd).mp hkd).1)
  refine ⟨cs, h1, ?_, ?_⟩
  · intro c
    constructor
    · intro hc
      have : ((c.header.round, c.header.author), c.header.digest) ∈ rows := by
        rw [← h2]; exact List.mem_map.mpr ⟨c, hc, rfl⟩
      exact ⟨h3 c hc, ((hm _).mp this).2⟩
    · rintro ⟨hc, hp⟩
      have : ((c.header.round, c.header.author), c.header.digest) ∈ rows :=
        (hm _).mpr ⟨(PMap.mem_iff h.s2).mpr ((h.round _ _ _).mpr ⟨c, hc, rfl, rfl⟩), hp⟩
      rw [← h2] at this
      obtain ⟨x, hx, he⟩ := List.mem_map.mp this
      have hd : x.header.digest = c.header.digest := congrArg Prod.snd he
      have hx' := h3 x hx
      unfold Stored at hx' hc
      rw [hd, hc] at hx'
      cases hx'
      exact hx
  · rw [← h2, List.map_map]; rfl

theorem lists_of_rows {db : Db} (h : Ok U db) {rows : List ((Round × AuthorityId) × Digest)} {p : Round → Prop}
    (hm : ∀ kd, kd ∈ rows ↔ kd ∈ db.byRound ∧ p kd.1.1) (hs : PMap.Sorted rows) :
    ∃ cs, rows.mapM (fun kv => SMap.get? kv.2 db.certs) = some cs ∧ Lists db (fun c => p c.header.round) cs := by
  obtain ⟨cs, h1, h2, h3⟩ := mem_of_rows h hm
  refine ⟨cs, h1, h2, ?_⟩
  unfold PMap.Sorted at hs
  rw [← h3, List.pairwise_map] at hs
  exact hs

section
variable {db : Db}

/-- **C35** `after_round` never fails and returns exactly the stored certificates from that round on, ordered. -/
theorem afterRound_exact (hU : Uniq U) (h : Reach U keep db) (round : Round) :
    ∃ cs, afterRound db round = some cs ∧ Lists db (fun c => round ≤ c.header.round) cs := by
  have hk := h.ok hU
  unfold afterRound
  rw [afterLoop_eq, rowsFrom_filter hk.s2]
  refine lists_of_rows hk (p := fun r => round ≤ r) ?_ ?_
  · intro kd; rw [List.mem_filter]; simp
  · exact hk.s2.sublist ((List.filter_sublist ..).map _)

/-- **C35** `origins_after_round` lists exactly who has a certificate stored for which round. -/
theorem originsAfterRound_exact (hU : Uniq U) (h : Reach U keep db) (round r : Round) (o : AuthorityId) :
    (r, o) ∈ originsAfterRound db round ↔ round ≤ r ∧ ∃ c, Stored db c ∧ c.header.round = r ∧ c.header.author = o := by
  have hk := h.ok hU
  unfold originsAfterRound
  rw [rowsFrom_filter hk.s2]
  constructor
  · intro hm
    obtain ⟨kd, hkd, he⟩ := List.mem_map.mp hm
    obtain ⟨h1, h2⟩ := List.mem_filter.mp hkd
    obtain ⟨⟨r', o'⟩, d⟩ := kd
    cases he
    obtain ⟨c, hc, e1, e2⟩ := (hk.round _ _ _).mp (PMap.get?_of_mem hk.s2 h1)
    exact ⟨by simpa using h2, c, (hk.stored.mp hc).1, e1, e2⟩
  · rintro ⟨hr, c, hc, rfl, rfl⟩
    refine List.mem_map.mpr ⟨((c.header.round, c.header.author), c.header.digest), ?_, rfl⟩
    exact List.mem_filter.mpr ⟨(PMap.mem_iff hk.s2).mpr ((hk.round _ _ _).mpr ⟨c, hc, rfl, rfl⟩), by simpa using hr⟩

/-- **C35** `highest_round_number` is the highest round of a stored certificate, 0 if there is none. -/
theorem highestRound_exact (hU : Uniq U) (h : Reach U keep db) :
    (∀ c, Stored db c → c.header.round ≤ highestRound db) ∧
    ((∃ c, Stored db c ∧ c.header.round = highestRound db) ∨ (highestRound db = 0 ∧ ∀ c, ¬ Stored db c)) := by
  have hk := h.ok hU
  unfold highestRound
  have hrev : ∀ kd, kd ∈ db.byRound ↔ kd ∈ db.byRound.reverse := fun kd => by simp
  have hsort : db.byRound.reverse.Pairwise (fun a b => PMap.Lt b.1 a.1) := by
    rw [List.pairwise_reverse]
    have := hk.s2
    unfold PMap.Sorted at this
    rw [List.pairwise_map] at this
    exact this
  have row : ∀ c, Stored db c → ((c.header.round, c.header.author), c.header.digest) ∈ db.byRound := fun c hc =>
    (PMap.mem_iff hk.s2).mpr ((hk.round _ _ _).mpr ⟨c, hc, rfl, rfl⟩)
  cases hb : db.byRound.reverse with
  | nil =>
    have : ∀ c, ¬ Stored db c := fun c hc => by
      have := (hrev _).mp (row c hc)
      rw [hb] at this; cases this
    exact ⟨fun c hc => absurd hc (this c), .inr ⟨rfl, this⟩⟩
  | cons y rest =>
    obtain ⟨⟨r, o⟩, d⟩ := y
    rw [hb] at hsort
    have h1 := (List.pairwise_cons.mp hsort).1
    refine ⟨?_, .inl ?_⟩
    · intro c hc
      have := (hrev _).mp (row c hc)
      rw [hb] at this
      rcases List.mem_cons.mp this with he | he
      · cases he; exact Nat.le_refl _
      · have := h1 _ he
        unfold PMap.Lt at this
        simp only at this ⊢
        omega
    · have : ((r, o), d) ∈ db.byRound := (hrev _).mpr (by rw [hb]; exact List.mem_cons_self ..)
      obtain ⟨c, hc, e1, e2⟩ := (hk.round _ _ _).mp (PMap.get?_of_mem hk.s2 this)
      exact ⟨c, (hk.stored.mp hc).1, e1⟩

/-- Going down a list ordered by descending round, the loop takes what is at most one round below the first. -/
theorem lastTwoLoop_eq (certs : List (Digest × Certificate)) (round : Round)
    (rows : List ((Round × AuthorityId) × Digest)) (hs : rows.Pairwise (fun a b => PMap.Lt b.1 a.1))
    (hr : round ≠ 0 ∨ ∀ kd ∈ rows, kd.1.1 = 0) : lastTwoLoop certs round rows =
      (rows.filter (fun kv => decide (round ≤ kv.1.1 + 1))).mapM (fun kv => SMap.get? kv.2 certs) := by
  induction rows with
  | nil => rfl
  | cons y rows ih =>
    obtain ⟨⟨r, o⟩, d⟩ := y
    have hs' := List.pairwise_cons.mp hs
    unfold lastTwoLoop
    split
    · rename_i hc
      rw [List.filter_eq_nil_iff.mpr]
      · rfl
      · intro kd hkd
        rcases List.mem_cons.mp hkd with rfl | hkd
        · simp only [decide_eq_true_eq]; omega
        · have := hs'.1 kd hkd
          unfold PMap.Lt at this
          simp only [decide_eq_true_eq] at this ⊢
          omega
    · rename_i hc
      have hge : round ≤ r + 1 := by
        rcases hr with h | h
        · omega
        · have := h _ (List.mem_cons_self ..); simp only at this; omega
      have hround : (if round = 0 then r else round) = round := by
        split
        · rename_i h0
          rcases hr with h | h
          · exact absurd h0 h
          · rw [h0]; exact h ((r, o), d) (List.mem_cons_self ..)
        · rfl
      rw [List.filter_cons_of_pos (by simpa using hge), List.mapM_cons, hround,
        ih hs'.2 (hr.imp id (fun h kd hkd => h kd (List.mem_cons_of_mem _ hkd)))]
      cases SMap.get? d certs with
      | none => rfl
      | some c =>
        dsimp only
        cases List.mapM (fun kv : (Nat × Nat) × Nat => SMap.get? kv.2 certs)
          (rows.filter (fun kv => decide (round ≤ kv.1.1 + 1))) <;> rfl

theorem lastTwoLoop_first (certs : List (Digest × Certificate)) (r o d : Nat)
    (rows : List ((Round × AuthorityId) × Digest)) :
    lastTwoLoop certs 0 (((r, o), d) :: rows) = lastTwoLoop certs r (((r, o), d) :: rows) := by
  conv_lhs => unfold lastTwoLoop
  conv_rhs => unfold lastTwoLoop
  have h1 : ¬ ((0 : Nat) ≠ 0 ∧ r < 0 - 1) := by omega
  have h2 : ¬ (r ≠ 0 ∧ r < r - 1) := by omega
  rw [if_neg h1, if_neg h2, if_pos rfl, ite_self]

/-- **C35** `last_two_rounds_certs` never fails and returns exactly the stored certificates of the highest round and the
one before, highest first. -/
theorem lastTwoRoundsCerts_exact (hU : Uniq U) (h : Reach U keep db) : ∃ cs, lastTwoRoundsCerts db = some cs ∧
    Lists db (fun c => highestRound db ≤ c.header.round + 1) cs.reverse := by
  have hk := h.ok hU
  have hsort : db.byRound.reverse.Pairwise (fun a b => PMap.Lt b.1 a.1) := by
    rw [List.pairwise_reverse]
    have := hk.s2
    unfold PMap.Sorted at this
    rw [List.pairwise_map] at this
    exact this
  have heq : lastTwoRoundsCerts db = (db.byRound.reverse.filter
      (fun kv => decide (highestRound db ≤ kv.1.1 + 1))).mapM (fun kv => SMap.get? kv.2 db.certs) := by
    unfold lastTwoRoundsCerts highestRound
    cases hb : db.byRound.reverse with
    | nil => rfl
    | cons y rows =>
      obtain ⟨⟨r, o⟩, d⟩ := y
      rw [hb] at hsort
      dsimp only
      rw [lastTwoLoop_first, lastTwoLoop_eq _ _ _ hsort]
      by_cases hr : r = 0
      · right
        intro kd hkd
        rcases List.mem_cons.mp hkd with rfl | hkd
        · exact hr
        · have := (List.pairwise_cons.mp hsort).1 kd hkd
          unfold PMap.Lt at this
          simp only at this
          omega
      · exact .inl hr
  rw [heq]
  obtain ⟨cs, h1, h2, h3⟩ := mem_of_rows hk (rows := db.byRound.reverse.filter
      (fun kv => decide (highestRound db ≤ kv.1.1 + 1))) (p := fun r => highestRound db ≤ r + 1)
    (fun kd => by rw [List.mem_filter]; simp)
  refine ⟨cs, h1, fun c => by rw [List.mem_reverse]; exact h2 c, ?_⟩
  have hs := (hsort.sublist (List.filter_sublist (p := fun kv => decide (highestRound db ≤ kv.1.1 + 1))))
  have : (cs.map (fun c => (c.header.round, c.header.author))).Pairwise (fun a b => PMap.Lt b a) := by
    rw [h3, List.pairwise_map]; exact hs
  rw [List.pairwise_map] at this
  rw [List.pairwise_reverse]
  exact this

/-- In a sorted map, `record_prior_to` finds the largest key below. -/
theorem recordPriorTo_spec {β : Type} {m : List ((Nat × Nat) × β)} (hs : PMap.Sorted m) (k : Nat × Nat) :
    match recordPriorTo k m with
    | none => ∀ x ∈ m, ¬ PMap.Lt x.1 k
    | some y => y ∈ m ∧ PMap.Lt y.1 k ∧ ∀ x ∈ m, PMap.Lt x.1 k → x = y ∨ PMap.Lt x.1 y.1 := by
  unfold recordPriorTo
  induction m with
  | nil => simp
  | cons z m ih =>
    by_cases hz : PMap.Lt z.1 k
    · rw [List.takeWhile_cons_of_pos (by simpa using hz)]
      have ih' := ih hs.tail
      cases hg : (m.takeWhile (fun kv => decide (PMap.Lt kv.1 k))).getLast? with
      | none =>
        rw [hg] at ih'
        rw [List.getLast?_eq_none_iff] at hg
        rw [hg]
        refine ⟨List.mem_cons_self .., hz, ?_⟩
        intro x hx hlt
        rcases List.mem_cons.mp hx with rfl | hx
        · exact .inl rfl
        · exact absurd hlt (ih' x hx)
      | some y =>
        rw [hg] at ih'
        rw [List.getLast?_cons, hg]
        obtain ⟨h1, h2, h3⟩ := ih'
        refine ⟨List.mem_cons_of_mem _ h1, h2, ?_⟩
        intro x hx hlt
        rcases List.mem_cons.mp hx with rfl | hx
        · exact .inr (hs.head y h1)
        · exact h3 x hx hlt
    · rw [List.takeWhile_cons_of_neg (by simpa using hz)]
      intro x hx hlt
      rcases List.mem_cons.mp hx with rfl | hx
      · exact hz hlt
      · exact hz ((hs.head x hx).trans hlt)

/-- In a sorted map, `skip_to` finds the least key not below. -/
theorem skipTo_spec {β : Type} {m : List ((Nat × Nat) × β)} (hs : PMap.Sorted m) (k : Nat × Nat) :
    match skipTo k m with
    | [] => ∀ x ∈ m, PMap.Lt x.1 k
    | y :: _ => y ∈ m ∧ ¬ PMap.Lt y.1 k ∧ ∀ x ∈ m, ¬ PMap.Lt x.1 k → x = y ∨ PMap.Lt y.1 x.1 := by
  unfold skipTo
  induction m with
  | nil => simp
  | cons z m ih =>
    by_cases hz : PMap.Lt z.1 k
    · rw [List.dropWhile_cons_of_pos (by simpa using hz)]
      have ih' := ih hs.tail
      cases hg : m.dropWhile (fun kv => decide (PMap.Lt kv.1 k)) with
      | nil =>
        rw [hg] at ih'
        intro x hx
        rcases List.mem_cons.mp hx with rfl | hx
        · exact hz
        · exact ih' x hx
      | cons y ys =>
        rw [hg] at ih'
        obtain ⟨h1, h2, h3⟩ := ih'
        refine ⟨List.mem_cons_of_mem _ h1, h2, ?_⟩
        intro x hx hlt
        rcases List.mem_cons.mp hx with rfl | hx
        · exact absurd hz hlt
        · exact h3 x hx hlt
    · rw [List.dropWhile_cons_of_neg (by simpa using hz)]
      refine ⟨List.mem_cons_self .., hz, ?_⟩
      intro x hx hlt
      rcases List.mem_cons.mp hx with rfl | hx
      · exact .inl rfl
      · exact .inr (hs.head x hx)

theorem origin_row (hk : Ok U db) {c : Certificate} (hc : Stored db c) :
    ((c.header.author, c.header.round), c.header.digest) ∈ db.byOrigin :=
  (PMap.mem_iff hk.s3).mpr ((hk.origin _ _ _).mpr ((hk.round _ _ _).mpr ⟨c, hc, rfl, rfl⟩))

theorem row_origin (hk : Ok U db) {o r d : Nat} (h : ((o, r), d) ∈ db.byOrigin) :
    ∃ c, Stored db c ∧ c.header.author = o ∧ c.header.round = r ∧ c.header.digest = d := by
  obtain ⟨c, hc, h1, h2⟩ := (hk.round _ _ _).mp ((hk.origin _ _ _).mp (PMap.get?_of_mem hk.s3 h))
  obtain ⟨h3, h4⟩ := hk.stored.mp hc
  exact ⟨c, h3, h2, h1, h4⟩

/-- **C35** `last_round` returns the stored certificate of the author with the highest round, nothing if there is none;
`last_round_number` its round. -/
theorem lastRound_exact (hU : Uniq U) (h : Reach U keep db) (hmax : ∀ x, U x → x.round < roundMax) (o : AuthorityId) :
    lastRoundNumber db o = (lastRound db o).map (·.header.round) ∧
    match lastRound db o with
    | none => ∀ c, Stored db c → c.header.author ≠ o
    | some c => Stored db c ∧ c.header.author = o ∧
        ∀ x, Stored db x → x.header.author = o → x.header.round ≤ c.header.round := by
  have hk := h.ok hU
  have hspec := recordPriorTo_spec hk.s3 (o, roundMax)
  have low : ∀ c, Stored db c → c.header.author = o → PMap.Lt (c.header.author, c.header.round) (o, roundMax) := by
    intro c hc ho
    have := hmax _ (hk.key _ c hc).2
    unfold PMap.Lt
    simp only
    omega
  unfold lastRound lastRoundNumber
  cases hp : recordPriorTo (o, roundMax) db.byOrigin with
  | none =>
    rw [hp] at hspec
    exact ⟨rfl, fun c hc ho => hspec _ (origin_row hk hc) (low c hc ho)⟩
  | some y =>
    obtain ⟨⟨o', r⟩, d⟩ := y
    rw [hp] at hspec
    obtain ⟨h1, h2, h3⟩ := hspec
    dsimp only
    obtain ⟨c, hc, hc1, hc2, hc3⟩ := row_origin hk h1
    by_cases ho : o' = o
    · rw [if_pos ho, if_pos ho]
      have : read db d = some c := by rw [← hc3]; exact hc
      rw [this]
      refine ⟨by simp [hc2], hc, hc1.trans ho, ?_⟩
      intro x hx hxo
      rcases h3 _ (origin_row hk hx) (low x hx hxo) with h4 | h4
      · have := congrArg (·.1.2) h4; simp only at this; omega
      · unfold PMap.Lt at h4; simp only at h4; omega
    · rw [if_neg ho, if_neg ho]
      refine ⟨rfl, fun x hx hxo => ?_⟩
      rcases h3 _ (origin_row hk hx) (low x hx hxo) with h4 | h4
      · have := congrArg (·.1.1) h4; simp only at this; exact ho (by rw [← this, hxo])
      · unfold PMap.Lt at h4 h2; simp only at h4 h2; omega

/-- **C35** `next_round_number` is the lowest round above the given one for which the author has a stored
certificate. -/
theorem nextRoundNumber_exact (hU : Uniq U) (h : Reach U keep db) (o : AuthorityId) (r : Round) :
    match nextRoundNumber db o r with
    | none => ∀ c, Stored db c → c.header.author = o → c.header.round ≤ r
    | some n => r < n ∧ (∃ c, Stored db c ∧ c.header.author = o ∧ c.header.round = n) ∧
        ∀ c, Stored db c → c.header.author = o → r < c.header.round → n ≤ c.header.round := by
  have hk := h.ok hU
  have hspec := skipTo_spec hk.s3 (o, r + 1)
  unfold nextRoundNumber
  cases hp : skipTo (o, r + 1) db.byOrigin with
  | nil =>
    rw [hp] at hspec
    intro c hc ho
    have := hspec _ (origin_row hk hc)
    unfold PMap.Lt at this
    simp only at this
    omega
  | cons y ys =>
    obtain ⟨⟨o', r'⟩, d⟩ := y
    rw [hp] at hspec
    obtain ⟨h1, h2, h3⟩ := hspec
    dsimp only
    by_cases ho : o' = o
    · rw [if_pos ho]
      obtain ⟨c, hc, hc1, hc2, hc3⟩ := row_origin hk h1
      refine ⟨?_, ⟨c, hc, hc1.trans ho, hc2⟩, ?_⟩
      · unfold PMap.Lt at h2; simp only at h2; omega
      · intro x hx hxo hlt
        rcases h3 _ (origin_row hk hx) (by unfold PMap.Lt; simp only; omega) with h4 | h4
        · have := congrArg (·.1.2) h4; simp only at this; omega
        · unfold PMap.Lt at h4; simp only at h4; omega
    · rw [if_neg ho]
      intro x hx hxo
      by_contra hlt
      rcases h3 _ (origin_row hk hx) (by unfold PMap.Lt; simp only; omega) with h4 | h4
      · have := congrArg (·.1.1) h4; simp only at this; omega
      · unfold PMap.Lt at h4 h2; simp only at h4 h2; omega

/-- **C35** Looking up by author and round finds the stored certificate, and only that. -/
theorem readByIndex_exact (hU : Uniq U) (h : Reach U keep db) (o : AuthorityId) (r : Round) (c : Certificate) :
    readByIndex db o r = some c ↔ Stored db c ∧ c.header.author = o ∧ c.header.round = r := by
  have hk := h.ok hU
  unfold readByIndex
  cases hg : PMap.get? (o, r) db.byOrigin with
  | none =>
    constructor
    · intro h; cases h
    · rintro ⟨h1, rfl, rfl⟩
      rw [(PMap.mem_iff hk.s3).mp (origin_row hk h1)] at hg
      cases hg
  | some d =>
    dsimp only
    obtain ⟨x, hx, h1, h2, h3⟩ := row_origin hk ((PMap.mem_iff hk.s3).mpr hg)
    have hx' : read db d = some x := by rw [← h3]; exact hx
    rw [hx']
    constructor
    · intro e; cases e; exact ⟨hx, h1, h2⟩
    · rintro ⟨h4, h5, h6⟩
      have := hU.unique (hk.key _ x hx).2 (hk.key _ c h4).2 (h1.trans h5.symm) (h2.trans h6.symm)
      unfold Stored at hx h4
      rw [this, h4] at hx
      exact hx.symm

/-- The headers in the store. -/
def headers (db : Db) : List Header := db.certs.map (·.2.header)

theorem mem_headers (hk : Ok U db) {x : Header} : x ∈ headers db ↔ ∃ c, Stored db c ∧ c.header = x := by
  unfold headers
  constructor
  · intro h
    obtain ⟨⟨d, c⟩, hm, rfl⟩ := List.mem_map.mp h
    exact ⟨c, (hk.stored.mp (SMap.get?_of_mem hk.s1 hm)).1, rfl⟩
  · rintro ⟨c, hc, rfl⟩
    exact List.mem_map.mpr ⟨(c.header.digest, c), SMap.mem_of_get? hc, rfl⟩

theorem mem_headers_saveAll (hU : Uniq U) {cs : List Certificate} {db : Db} (hk : Ok U db) (hc : ∀ c ∈ cs, U c.header)
    {x : Header} : x ∈ headers (saveAll cs db) ↔ x ∈ cs.map (·.header) ∨ x ∈ headers db := by
  induction cs generalizing db with
  | nil => simp [saveAll]
  | cons c cs ih =>
    have hcU := hc c (List.mem_cons_self ..)
    have hk' := save_ok hU hk hcU
    show x ∈ headers (saveAll cs (save db c)) ↔ _
    rw [ih hk' (fun c hc' => hc c (List.mem_cons_of_mem _ hc')), List.map_cons, List.mem_cons, mem_headers hk',
      mem_headers hk]
    constructor
    · rintro (h | ⟨y, hy, rfl⟩)
      · exact .inl (.inr h)
      · rcases stored_save.mp hy with rfl | ⟨h, -⟩
        · exact .inl (.inl rfl)
        · exact .inr ⟨y, h, rfl⟩
    · rintro ((h | h) | ⟨y, hy, rfl⟩)
      · exact .inr ⟨c, stored_save.mpr (.inl rfl), h.symm⟩
      · exact .inl h
      · right
        by_cases hd : y.header.digest = c.header.digest
        · have := hU.inj (hk.key _ y hy).2 hcU hd
          exact ⟨c, stored_save.mpr (.inl rfl), this.symm⟩
        · exact ⟨y, stored_save.mpr (.inr ⟨hy, hd⟩), rfl⟩

/-- **C35** What a write leaves in the store: the new certificates and the old ones, without those more than `keep` (64)
rounds below the highest just written. This is the store of the certificate manager's model
(`Sync.writeAll`). -/
theorem writeAll_exact (hU : Uniq U) (h : Reach U keep db) {cs : List Certificate} (hc : ∀ c ∈ cs, U c.header)
    (x : Header) : (x ∈ headers (writeAll keep cs db) ↔
      (x ∈ cs.map (·.header) ∨ x ∈ headers db) ∧ Sync.maxRound cs ≤ x.round + keep) ∧
    (x ∈ headers (writeAll keep cs db) ↔ x ∈ Sync.writeAll keep (headers db) cs) := by
  have hk := h.ok hU
  have hk' := saveAll_ok hU hk hc
  have key : x ∈ headers (writeAll keep cs db) ↔
      (x ∈ cs.map (·.header) ∨ x ∈ headers db) ∧ Sync.maxRound cs ≤ x.round + keep := by
    unfold writeAll
    obtain ⟨h1, h2⟩ := gcRounds_ok (keep := keep) hU hk' (Sync.maxRound cs)
    rw [mem_headers h1, ← mem_headers_saveAll hU hk hc, mem_headers hk']
    constructor
    · rintro ⟨y, hy, rfl⟩
      exact ⟨⟨y, ((h2 y).mp hy).1, rfl⟩, ((h2 y).mp hy).2⟩
    · rintro ⟨⟨y, hy, rfl⟩, hr⟩
      exact ⟨y, (h2 y).mpr ⟨hy, hr⟩, rfl⟩
  refine ⟨key, ?_⟩
  rw [key]
  unfold Sync.writeAll
  dsimp only
  split
  · rename_i hle
    rw [List.mem_append]
    constructor
    · exact fun h => h.1
    · exact fun h => ⟨h, by omega⟩
  · rename_i hle
    rw [List.mem_filter, List.mem_append]
    simp only [decide_eq_true_eq]
    constructor
    · exact fun h => ⟨h.1, by omega⟩
    · exact fun h => ⟨h.1, by omega⟩

/-- `write` is `write_all` of one. -/
theorem write_eq (c : Certificate) (db : Db) : write keep c db = writeAll keep [c] db := by
  unfold write writeAll saveAll saveAll Sync.maxRound Sync.maxRound
  rw [Nat.max_zero]

end

/-! ### An example -/
namespace Example

def hdr (a r d : Nat) : Header := { author := a, round := r, epoch := 1, digest := d }
def mk (h : Header) : Certificate := ⟨h, .verifiedDirectly 0, []⟩

def all : List Header := [hdr 1 1 11, hdr 2 1 21, hdr 1 2 12, hdr 2 2 22, hdr 1 3 13]

theorem uniq : Uniq (· ∈ all) where
  inj := by
    intro a b ha hb
    have : ∀ a ∈ all, ∀ b ∈ all, a.digest = b.digest → a = b := by decide
    exact this a ha b hb
  unique := by
    intro a b ha hb
    have : ∀ a ∈ all, ∀ b ∈ all, a.author = b.author → a.round = b.round → a = b := by decide
    exact this a ha b hb

/-- All five are written, two rounds are kept. -/
def db : Db := writeAll 1 (all.map mk) {}

theorem run : Reach (· ∈ all) 1 db := by
  show Reach (· ∈ all) 1 (gcRounds 1 (Sync.maxRound (all.map mk)) (saveAll (all.map mk) {}))
  exact .gc _ (.save (all.map mk) .empty (by
    intro c hc
    obtain ⟨h, hh, rfl⟩ := List.mem_map.mp hc
    exact hh))

example : (headers db).map (·.digest) = [12, 13, 22] ∧
    ((afterRound db 3).map (·.map (·.header.digest))) = some [13] ∧
    ((lastTwoRoundsCerts db).map (·.map (·.header.digest))) = some [13, 22, 12] ∧
    highestRound db = 3 ∧ lastRoundNumber db 2 = some 2 ∧ nextRoundNumber db 1 2 = some 3 ∧
    nextRoundNumber db 2 2 = none := by decide

example : ∃ cs, lastTwoRoundsCerts db = some cs ∧ Lists db (fun c => 3 ≤ c.header.round + 1) cs.reverse :=
  lastTwoRoundsCerts_exact uniq run

end Example
end CertStore
end Verif
