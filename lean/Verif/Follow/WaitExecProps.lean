import Verif.Follow.WaitExecRing
/-
Invariant of the consensus layer's view of execution.
-/
namespace Verif.Wex

/-- Tips on their way into the ring. -/
def pendTips (s : S) : List (Nat × Blk) :=
  s.prime ++ s.queue.filterMap (·.tip) ++ (s.ann.bind (·.tip)).toList

/-- The digest is the default, that of a persisted block's output, or that of a skipped output. -/
def Known (dflt : Nat) (sk : Nat → Prop) (db : List Blk) (ch : Nat) : Prop :=
  ch = dflt ∨ sk ch ∨ ∃ (n : Nat) (b : Blk), db[n]? = some b ∧ b.root = some ch

/-- A call of `wait_for_execution` is where it should be. -/
structure WOk (db : List Blk) (ring : Ring) (version : Nat) (x : W) : Prop where
  seen : x.seen ≤ version
  ew : x.ph = .emptyWait → x.seen = version → ring.tips = []
  nw : x.ph = .numWait → x.seen = version → latestNum ring < x.num
  ne : x.ph = .readNum ∨ x.ph = .numWait ∨ x.ph = .readRing ∨ x.ph = .readDb → ring.tips ≠ []
  le : x.ph = .readRing ∨ x.ph = .readDb → x.num ≤ latestNum ring
  ok : x.ph = .done true → ∃ (n : Nat) (b : Blk), db[n]? = some b ∧ b.hash = x.hash

/-- A call of `wait_for_consensus_execution` is where it should be. -/
structure COk (dflt : Nat) (sk : Nat → Prop) (db : List Blk) (ring : Ring) (version : Nat) (x : C) : Prop where
  seen : x.seen ≤ version
  wait : x.ph = .wait → x.seen = version → containsCons ring x.ch = false
  ok : x.ph = .done → Known dflt sk db x.ch

/-- The invariant; `sk` are the skipped outputs' digests. -/
structure Inv (cap dflt : Nat) (sk : Nat → Prop) (s : S) : Prop where
  ne : s.db ≠ []
  len : s.ring.tips.length + s.prime.length ≤ cap
  quiet : s.prime ≠ [] → s.queue = [] ∧ s.ann = none
  ring : ∃ pre, tips 0 s.db = pre ++ s.ring.tips ++ pendTips s ∧
    (pre = [] ∨ s.ring.tips.length + s.prime.length = cap)
  upd : ∀ u, u ∈ s.queue ∨ u ∈ s.ann → (u.tip = none → sk u.ch) ∧ ∀ t, u.tip = some t → t.2.root = some u.ch
  cons : ∀ c ∈ s.ring.cons, Known dflt sk s.db c
  ws : ∀ x ∈ s.ws, WOk s.db s.ring s.version x
  cs : ∀ x ∈ s.cs, COk dflt sk s.db s.ring s.version x

variable {cap dflt : Nat} {sk : Nat → Prop}

theorem Inv.tip_mem {s : S} (i : Inv cap dflt sk s) {n : Nat} {b : Blk}
    (h : (n, b) ∈ s.ring.tips ∨ (n, b) ∈ pendTips s) : s.db[n]? = some b := by
  obtain ⟨pre, h1, -⟩ := i.ring
  have : (n, b) ∈ tips 0 s.db := by
    rw [h1]
    rcases h with h | h
    · exact List.mem_append_left _ (List.mem_append_right _ h)
    · exact List.mem_append_right _ h
  have := ((mem_tips s.db 0 n b).mp this).2.1
  rwa [Nat.sub_zero] at this

theorem latest_mem {r : Ring} (h : r.tips ≠ []) : ∃ b, (latestNum r, b) ∈ r.tips := by
  have h1 := List.getLast?_eq_some_getLast h
  refine ⟨(r.tips.getLast h).2, ?_⟩
  have : latestNum r = (r.tips.getLast h).1 := by unfold latestNum; rw [h1]; rfl
  rw [this]
  exact List.getLast_mem h

theorem Inv.latest_lt {s : S} (i : Inv cap dflt sk s) (h : s.ring.tips ≠ []) : latestNum s.ring < s.db.length := by
  obtain ⟨b, hb⟩ := latest_mem h
  exact (List.getElem?_eq_some_iff.mp (i.tip_mem (.inl hb))).1

theorem Known.mono {db db' : List Blk} (hd : ∀ (n : Nat) b, db[n]? = some b → db'[n]? = some b)
    {sk' : Nat → Prop} (hs : ∀ c, sk c → sk' c) {c : Nat} (h : Known dflt sk db c) : Known dflt sk' db' c := by
  rcases h with h | h | ⟨n, b, h1, h2⟩
  · exact .inl h
  · exact .inr (.inl (hs c h))
  · exact .inr (.inr ⟨n, b, hd n b h1, h2⟩)

/-- The ring after one more push. -/
theorem latest_push (r : Ring) (u : Upd) {t : Nat × Blk} (h : u.tip = some t) : latestNum (pushLatest cap r u) = t.1 := by
  unfold latestNum pushLatest pushBack
  rw [h]
  simp

theorem push_none (r : Ring) (u : Upd) (h : u.tip = none) : (pushLatest cap r u).tips = r.tips := by
  unfold pushLatest; rw [h]

theorem push_some (r : Ring) (u : Upd) {t : Nat × Blk} (h : u.tip = some t) :
    (pushLatest cap r u).tips = pushBack cap r.tips t := by
  unfold pushLatest; rw [h]

theorem mem_pushBack {α : Type} {l : List α} {a x : α} (h : x ∈ pushBack cap l a) : x ∈ l ∨ x = a := by
  unfold pushBack at h
  rcases List.mem_append.mp h with h | h
  · split at h
    · exact .inl (List.mem_of_mem_drop h)
    · exact .inl h
  · exact .inr (List.mem_singleton.mp h)

theorem pushBack_ne {α : Type} {l : List α} {a : α} : pushBack cap l a ≠ [] := by simp [pushBack]

/-- In a sorted chain of tips the next one has a larger number. -/
theorem sorted_next {db : List Blk} {pre rest : List (Nat × Blk)} {r : Ring} {t : Nat × Blk} (hr : r.tips ≠ [])
    (h : tips 0 db = pre ++ r.tips ++ t :: rest) : latestNum r < t.1 := by
  obtain ⟨b, hb⟩ := latest_mem hr
  have hs := tips_sorted db 0
  rw [h, List.map_append, List.pairwise_append] at hs
  refine hs.2.2 _ ?_ t.1 (by simp)
  exact List.mem_map.mpr ⟨_, List.mem_append_right _ hb, rfl⟩

/-- A change of the ring that only moves forward. -/
theorem WOk.push {db : List Blk} {r r' : Ring} {v : Nat} {x : W} (h : WOk db r v x)
    (hne : r.tips ≠ [] → r'.tips ≠ [] ∧ latestNum r ≤ latestNum r') : WOk db r' (v + 1) x where
  seen := by have := h.seen; omega
  ew := fun _ e => by have := h.seen; omega
  nw := fun _ e => by have := h.seen; omega
  ne := fun hp => (hne (h.ne hp)).1
  le := fun hp => Nat.le_trans (h.le hp)
    (hne (h.ne (by rcases hp with e | e <;> simp [e]))).2
  ok := h.ok

theorem WOk.db {db db' : List Blk} {r : Ring} {v : Nat} {x : W} (h : WOk db r v x)
    (hd : ∀ (n : Nat) b, db[n]? = some b → db'[n]? = some b) : WOk db' r v x :=
  { h with ok := fun hp => by obtain ⟨n, b, h1, h2⟩ := h.ok hp; exact ⟨n, b, hd n b h1, h2⟩ }

theorem COk.push {db : List Blk} {r r' : Ring} {v : Nat} {x : C} (h : COk dflt sk db r v x) :
    COk dflt sk db r' (v + 1) x where
  seen := by have := h.seen; omega
  wait := fun _ e => by have := h.seen; omega
  ok := h.ok

theorem COk.mono {db db' : List Blk} {r : Ring} {v : Nat} {x : C} {sk' : Nat → Prop} (h : COk dflt sk db r v x)
    (hd : ∀ (n : Nat) b, db[n]? = some b → db'[n]? = some b) (hs : ∀ c, sk c → sk' c) : COk dflt sk' db' r v x :=
  { h with ok := fun hp => (h.ok hp).mono hd hs }

theorem append_get {l g : List Blk} (n : Nat) (b : Blk) (h : l[n]? = some b) : (l ++ g)[n]? = some b := by
  rw [List.getElem?_append_left (List.getElem?_eq_some_iff.mp h).1]; exact h

/-- The state of a process that comes up. -/
theorem Inv.start {db : List Blk} {l : List (Nat × Blk)} {reader : Bool} {v : Nat} (h : db ≠ [])
    (hr : restore db cap = some l) : Inv cap dflt sk { db, prime := l, reader, version := v } := by
  rw [restore_spec h] at hr
  cases hr
  refine ⟨h, ?_, fun _ => ⟨rfl, rfl⟩, ?_, ?_, ?_, ?_, ?_⟩
  · simp [lastK]; omega
  · refine ⟨(tips 0 db).take ((tips 0 db).length - cap), ?_, ?_⟩
    · simp [pendTips, lastK]
    · simp only [lastK, List.length_drop, List.length_nil, Nat.zero_add]
      by_cases e : (tips 0 db).length ≤ cap
      · left; rw [show (tips 0 db).length - cap = 0 by omega]; rfl
      · right; omega
  · intro u hu; rcases hu with hu | hu <;> cases hu
  · intro c hc; cases hc
  · intro x hx; cases hx
  · intro x hx; cases hx

/-- The extra set of skipped outputs. -/
def addSk (sk : Nat → Prop) : Ev → Nat → Prop
  | .skip ch, c => c = ch ∨ sk c
  | _, c => sk c

theorem addSk_of {e : Ev} {c : Nat} (h : sk c) : addSk sk e c := by
  cases e <;> first | exact h | exact .inr h

/-- A push of a restored block. -/
theorem Inv.primed {s : S} (i : Inv cap dflt sk s) {t : Nat × Blk} {l : List (Nat × Blk)} (hp : s.prime = t :: l) :
    Inv cap dflt sk { s with prime := l, ring := primeOne cap dflt s.ring t, version := s.version + 1 } := by
  obtain ⟨hq, ha⟩ := i.quiet (by rw [hp]; simp)
  obtain ⟨pre, h1, h2⟩ := i.ring
  have hlen := i.len
  rw [hp, List.length_cons] at hlen h2
  have hpt : pendTips s = t :: l := by simp [pendTips, hp, hq, ha]
  have htips : (primeOne cap dflt s.ring t).tips = s.ring.tips ++ [t] := by
    unfold primeOne
    rw [push_some _ _ rfl]
    unfold pushBack
    rw [if_neg (by omega)]
  have hlast : latestNum (primeOne cap dflt s.ring t) = t.1 := latest_push _ _ rfl
  rw [hpt] at h1
  refine { ne := i.ne, len := ?_, quiet := fun _ => ⟨hq, ha⟩, ring := ⟨pre, ?_, ?_⟩, upd := i.upd, cons := ?_,
           ws := ?_, cs := ?_ }
  · show (primeOne cap dflt s.ring t).tips.length + l.length ≤ cap
    rw [htips, List.length_append, List.length_singleton]; omega
  · show tips 0 s.db = pre ++ (primeOne cap dflt s.ring t).tips ++ pendTips _
    rw [htips, h1]; simp [pendTips, hq, ha]
  · rcases h2 with h2 | h2
    · exact .inl h2
    · right
      show (primeOne cap dflt s.ring t).tips.length + l.length = cap
      rw [htips, List.length_append, List.length_singleton]; omega
  · intro c hc
    have hc : c ∈ pushBack cap s.ring.cons (rootOr dflt t.2) := hc
    rcases mem_pushBack hc with hc | rfl
    · exact i.cons c hc
    · unfold rootOr
      have hdb := i.tip_mem (n := t.1) (b := t.2) (.inr (by rw [hpt]; exact List.mem_cons_self))
      cases hroot : t.2.root with
      | none => exact .inl rfl
      | some r => exact .inr (.inr ⟨t.1, t.2, hdb, hroot⟩)
  · intro x hx
    refine (i.ws x hx).push (fun hne => ⟨by rw [htips]; simp, ?_⟩)
    rw [hlast]; exact Nat.le_of_lt (sorted_next hne h1)
  · intro x hx; exact (i.cs x hx).push

/-- A report arrives. -/
theorem Inv.deliver (hc : 0 < cap) {s : S} (i : Inv cap dflt sk s) {u : Upd} {q : List Upd} (hq : s.queue = u :: q) :
    Inv cap dflt sk { s with queue := q, ring := pushLatest cap s.ring u, version := s.version + 1 } := by
  have hp : s.prime = [] := by
    by_contra h
    have := (i.quiet h).1
    rw [hq] at this; cases this
  obtain ⟨pre, h1, h2⟩ := i.ring
  have hlen := i.len
  obtain ⟨hu0, hu1⟩ := i.upd u (.inl (by rw [hq]; exact List.mem_cons_self))
  rw [hp] at hlen h2
  simp only [List.length_nil, Nat.add_zero] at hlen h2
  have hcons : ∀ c ∈ (pushLatest cap s.ring u).cons, Known dflt sk s.db c := by
    intro c hc
    rcases mem_pushBack hc with hc | rfl
    · exact i.cons c hc
    · cases ht : u.tip with
      | none => exact .inr (.inl (hu0 ht))
      | some t =>
        have hdb := i.tip_mem (n := t.1) (b := t.2) (.inr (by
          simp only [pendTips, hp, hq, List.filterMap_cons, ht, List.nil_append]
          exact List.mem_cons_self))
        exact .inr (.inr ⟨t.1, t.2, hdb, hu1 t ht⟩)
  have hupd : ∀ u', u' ∈ q ∨ u' ∈ s.ann → (u'.tip = none → sk u'.ch) ∧ ∀ t, u'.tip = some t → t.2.root = some u'.ch := by
    intro u' h
    rcases h with h | h
    · exact i.upd u' (.inl (by rw [hq]; exact List.mem_cons_of_mem _ h))
    · exact i.upd u' (.inr h)
  cases ht : u.tip with
  | none =>
    have htips := push_none (cap := cap) s.ring u ht
    have hpt : pendTips { s with queue := q, ring := pushLatest cap s.ring u, version := s.version + 1 } = pendTips s := by
      simp [pendTips, hq, ht]
    refine { ne := i.ne, len := ?_, quiet := fun h => absurd hp h, ring := ⟨pre, ?_, ?_⟩, upd := hupd, cons := hcons,
             ws := ?_, cs := ?_ }
    · show (pushLatest cap s.ring u).tips.length + s.prime.length ≤ cap
      rw [htips]; exact i.len
    · show tips 0 s.db = pre ++ (pushLatest cap s.ring u).tips ++ pendTips _
      rw [htips, hpt]; exact h1
    · rcases h2 with h2 | h2
      · exact .inl h2
      · right
        show (pushLatest cap s.ring u).tips.length + s.prime.length = cap
        rw [htips, hp]; exact h2
    · intro x hx
      refine (i.ws x hx).push (fun hne => ⟨by rw [htips]; exact hne, ?_⟩)
      show latestNum s.ring ≤ latestNum (pushLatest cap s.ring u)
      unfold latestNum; rw [htips]; exact Nat.le_refl _
    · intro x hx; exact (i.cs x hx).push
  | some t =>
    have htips := push_some (cap := cap) s.ring u ht
    have hpt : pendTips s = t :: pendTips { s with queue := q, ring := pushLatest cap s.ring u, version := s.version + 1 } := by
      simp [pendTips, hp, hq, ht]
    rw [hpt] at h1
    obtain ⟨pre', k1, k2⟩ := pushBack_suffix (pre := pre) t hc hlen (by
      rcases h2 with h2 | h2
      · exact .inl h2
      · exact .inr h2)
    refine { ne := i.ne, len := ?_, quiet := fun h => absurd hp h, ring := ⟨pre', ?_, ?_⟩, upd := hupd,
             cons := hcons, ws := ?_, cs := ?_ }
    · show (pushLatest cap s.ring u).tips.length + s.prime.length ≤ cap
      rw [htips, hp]; exact pushBack_len t hc hlen
    · show tips 0 s.db = pre' ++ (pushLatest cap s.ring u).tips ++ _
      rw [htips, k1, h1]; simp
    · rcases k2 with k2 | k2
      · exact .inl k2
      · right
        show (pushLatest cap s.ring u).tips.length + s.prime.length = cap
        rw [htips, hp]; exact k2
    · intro x hx
      refine (i.ws x hx).push (fun hne => ⟨by rw [htips]; exact pushBack_ne, ?_⟩)
      rw [latest_push _ _ ht]; exact Nat.le_of_lt (sorted_next hne h1)
    · intro x hx; exact (i.cs x hx).push

theorem WOk.go {s : S} (i : Inv cap dflt sk s) {x y : W} {fail : Bool} (h : WOk s.db s.ring s.version x)
    (hg : goW s x fail = some y) : WOk s.db s.ring s.version y ∧ y.num = x.num ∧ y.hash = x.hash := by
  unfold goW at hg
  split at hg
  · cases hg
    refine ⟨?_, rfl, rfl⟩
    by_cases he : s.ring.tips.isEmpty = true
    · simp only [he, if_true]
      have he' : s.ring.tips = [] := by simpa using he
      exact ⟨h.seen, fun _ _ => he', fun e => by (cases e), fun e => by (rcases e with e | e | e | e <;> cases e),
        fun e => by (rcases e with e | e <;> cases e), fun e => by (cases e)⟩
    · have he' : s.ring.tips ≠ [] := by simpa using he
      simp only [if_neg he]
      exact ⟨h.seen, fun e => by (cases e), fun e => by (cases e), fun _ => he',
        fun e => by (rcases e with e | e <;> cases e), fun e => by (cases e)⟩
  · split at hg
    · cases hg
      exact ⟨⟨Nat.le_refl _, fun e => by (cases e), fun e => by (cases e),
        fun e => by (rcases e with e | e | e | e <;> cases e), fun e => by (rcases e with e | e <;> cases e),
        fun e => by (cases e)⟩, rfl, rfl⟩
    · cases hg
  · rename_i hp
    cases hg
    refine ⟨?_, rfl, rfl⟩
    have hne := h.ne (.inl hp)
    by_cases hlt : latestNum s.ring < x.num
    · simp only [if_pos hlt]
      exact ⟨h.seen, fun e => by (cases e), fun _ _ => hlt, fun _ => hne,
        fun e => by (rcases e with e | e <;> cases e), fun e => by (cases e)⟩
    · simp only [if_neg hlt]
      exact ⟨h.seen, fun e => by (cases e), fun e => by (cases e), fun _ => hne, fun _ => Nat.le_of_not_lt hlt,
        fun e => by (cases e)⟩
  · rename_i hp
    split at hg
    · cases hg
      exact ⟨⟨Nat.le_refl _, fun e => by (cases e), fun e => by (cases e), fun _ => h.ne (.inr (.inl hp)),
        fun e => by (rcases e with e | e <;> cases e), fun e => by (cases e)⟩, rfl, rfl⟩
    · cases hg
  · rename_i hp
    cases hg
    refine ⟨?_, rfl, rfl⟩
    by_cases hc : containsHash s.ring x.hash = true
    · simp only [if_pos hc]
      refine ⟨h.seen, fun e => by (cases e), fun e => by (cases e),
        fun e => by (rcases e with e | e | e | e <;> cases e), fun e => by (rcases e with e | e <;> cases e), fun _ => ?_⟩
      obtain ⟨⟨n, b⟩, h1, h2⟩ := List.any_eq_true.mp hc
      exact ⟨n, b, i.tip_mem (.inl h1), by simpa using h2⟩
    · simp only [if_neg hc]
      exact ⟨h.seen, fun e => by (cases e), fun e => by (cases e), fun _ => h.ne (.inr (.inr (.inl hp))),
        fun _ => h.le (.inl hp), fun e => by (cases e)⟩
  · cases hg
    refine ⟨⟨h.seen, fun e => by (cases e), fun e => by (cases e),
        fun e => by (rcases e with e | e | e | e <;> cases e), fun e => by (rcases e with e | e <;> cases e), fun e => ?_⟩,
        rfl, rfl⟩
    have e : Ph.done (confirms s x.num x.hash fail) = .done true := e
    have hc : confirms s x.num x.hash fail = true := by injection e
    unfold confirms at hc
    simp only [Bool.and_eq_true] at hc
    obtain ⟨-, hc⟩ := hc
    split at hc
    · rename_i b hb; exact ⟨x.num, b, hb, by simpa using hc⟩
    · cases hc
  · cases hg

theorem COk.go {s : S} (i : Inv cap dflt sk s) {x y : C} (h : COk dflt sk s.db s.ring s.version x)
    (hg : goCons s x = some y) : COk dflt sk s.db s.ring s.version y ∧ y.ch = x.ch := by
  unfold goCons at hg
  split at hg
  · cases hg
    refine ⟨?_, rfl⟩
    by_cases hc : containsCons s.ring x.ch = true
    · simp only [if_pos hc]
      refine ⟨h.seen, fun e => by (cases e), fun _ => ?_⟩
      unfold containsCons at hc
      rcases (Bool.or_eq_true _ _).mp hc with hc | hc
      · obtain ⟨c, h1, h2⟩ := List.any_eq_true.mp hc
        have : c = x.ch := by simpa using h2
        rw [← this]; exact i.cons c h1
      · obtain ⟨⟨n, b⟩, h1, h2⟩ := List.any_eq_true.mp hc
        exact .inr (.inr ⟨n, b, i.tip_mem (.inl h1), by simpa using h2⟩)
    · simp only [if_neg hc]
      exact ⟨h.seen, fun _ _ => by simpa using hc, fun e => by (cases e)⟩
  · split at hg
    · cases hg; exact ⟨⟨Nat.le_refl _, fun e => by (cases e), fun e => by (cases e)⟩, rfl⟩
    · cases hg
  · cases hg

theorem mem_set' {α : Type} {l : List α} {i : Nat} {b o : α} (h : o ∈ l.set i b) : o = b ∨ o ∈ l := by
  rcases List.mem_or_eq_of_mem_set h with h | h
  · exact .inr h
  · exact .inl h

/-- Every step keeps the invariant. -/
theorem Inv.step (hc : 0 < cap) {s s' : S} (i : Inv cap dflt sk s) (e : Ev) (h : step cap dflt s e = some s') :
    Inv cap dflt (addSk sk e) s' := by
  cases e with
  | persist hs hh nonce ch =>
    dsimp only [Wex.step] at h
    split at h
    · rename_i hcond
      obtain ⟨hp, ha, hn⟩ := hcond
      cases h
      have hd : ∀ (n : Nat) b, s.db[n]? = some b → (s.db ++ group hs hh nonce ch)[n]? = some b := fun n b => append_get n b
      obtain ⟨pre, h1, h2⟩ := i.ring
      have ht : tips 0 (s.db ++ group hs hh nonce ch) = tips 0 s.db ++
          [(s.db.length + hs.length, { hash := hh, nonce, root := some ch })] := by
        rw [tips_append _ _ _ i.ne, tips_group, Nat.zero_add]
        intro b hb c hc' e
        refine hn b hb (e.trans ?_)
        have : c ∈ group hs hh nonce ch := List.mem_of_mem_head? hc'
        obtain ⟨z, -, rfl⟩ := List.mem_map.mp this
        rfl
      refine { ne := by simp [i.ne], len := i.len, quiet := fun h => absurd hp h, ring := ⟨pre, ?_, h2⟩, upd := ?_,
               cons := fun c hc' => (i.cons c hc').mono hd (fun _ h => h),
               ws := fun x hx => (i.ws x hx).db hd, cs := fun x hx => (i.cs x hx).mono hd (fun _ h => h) }
      · show tips 0 (s.db ++ group hs hh nonce ch) = _
        rw [ht, h1]
        simp [pendTips, ha]
      · intro u hu
        rcases hu with hu | hu
        · exact i.upd u (.inl hu)
        · cases hu
          refine ⟨fun h => by (cases h), fun t ht => ?_⟩
          cases ht; rfl
    · cases h
  | announce =>
    dsimp only [Wex.step] at h
    split at h
    · rename_i u hu
      cases h
      have hp : s.prime = [] := by
        by_contra hne
        have := (i.quiet hne).2
        rw [hu] at this; cases this
      obtain ⟨pre, h1, h2⟩ := i.ring
      refine { i with quiet := fun h => absurd hp h, ring := ⟨pre, ?_, h2⟩, upd := ?_ }
      · rw [h1]
        simp only [pendTips, hu, List.filterMap_append, Option.bind_some, Option.bind_none, Option.toList_none]
        cases ht : u.tip <;> simp [ht]
      · intro u' hu'
        rcases hu' with hu' | hu'
        · rcases List.mem_append.mp hu' with hu' | hu'
          · exact i.upd u' (.inl hu')
          · rw [List.mem_singleton.mp hu']; exact i.upd u (.inr (by rw [hu]; rfl))
        · cases hu'
    · cases h
  | skip ch =>
    dsimp only [Wex.step] at h
    split at h
    · rename_i hcond
      cases h
      obtain ⟨pre, h1, h2⟩ := i.ring
      have hs : ∀ c, sk c → addSk sk (.skip ch) c := fun c h => .inr h
      refine { ne := i.ne, len := i.len, quiet := fun h => absurd hcond.1 h, ring := ⟨pre, ?_, h2⟩, upd := ?_,
               cons := fun c hc' => (i.cons c hc').mono (fun _ _ h => h) hs, ws := i.ws,
               cs := fun x hx => (i.cs x hx).mono (fun _ _ h => h) hs }
      · rw [h1]; simp [pendTips]
      · intro u' hu'
        rcases hu' with hu' | hu'
        · rcases List.mem_append.mp hu' with hu' | hu'
          · exact ⟨fun h => hs _ ((i.upd u' (.inl hu')).1 h), (i.upd u' (.inl hu')).2⟩
          · rw [List.mem_singleton.mp hu']
            exact ⟨fun _ => .inl rfl, fun t ht => by cases ht⟩
        · exact ⟨fun h => hs _ ((i.upd u' (.inr hu')).1 h), (i.upd u' (.inr hu')).2⟩
    · cases h
  | deliver =>
    dsimp only [Wex.step] at h
    split at h
    · rename_i u q hq; cases h; exact i.deliver hc hq
    · cases h
  | install => dsimp only [Wex.step] at h; cases h; exact { i with }
  | restart =>
    dsimp only [Wex.step] at h
    split at h
    · rename_i l hl; cases h; exact Inv.start i.ne hl
    · cases h
  | primed =>
    dsimp only [Wex.step] at h
    split at h
    · rename_i t l hp; cases h; exact i.primed hp
    · cases h
  | ask num hash =>
    dsimp only [Wex.step] at h; cases h
    refine { i with ws := ?_ }
    intro x hx
    rcases List.mem_append.mp hx with hx | hx
    · exact i.ws x hx
    · rw [List.mem_singleton.mp hx]
      exact ⟨Nat.le_refl _, fun e => by (cases e), fun e => by (cases e),
        fun e => by (rcases e with e | e | e | e <;> cases e), fun e => by (rcases e with e | e <;> cases e),
        fun e => by (cases e)⟩
  | go w fail =>
    dsimp only [Wex.step] at h
    split at h
    · rename_i x hw
      obtain ⟨y, hy, rfl⟩ := Option.map_eq_some_iff.mp h
      refine { i with ws := ?_ }
      intro z hz
      rcases mem_set' hz with rfl | hz
      · exact (WOk.go i (i.ws x (List.mem_of_getElem? hw)) hy).1
      · exact i.ws z hz
    · cases h
  | askC ch =>
    dsimp only [Wex.step] at h; cases h
    refine { i with cs := ?_ }
    intro x hx
    rcases List.mem_append.mp hx with hx | hx
    · exact i.cs x hx
    · rw [List.mem_singleton.mp hx]
      exact ⟨Nat.le_refl _, fun e => by (cases e), fun e => by (cases e)⟩
  | goC w =>
    dsimp only [Wex.step] at h
    split at h
    · rename_i x hw
      obtain ⟨y, hy, rfl⟩ := Option.map_eq_some_iff.mp h
      refine { i with cs := ?_ }
      intro z hz
      rcases mem_set' hz with rfl | hz
      · exact (COk.go i (i.cs x (List.mem_of_getElem? hw)) hy).1
      · exact i.cs z hz
    · cases h

theorem Inv.init {s : S} (h : Init cap s) : Inv cap dflt sk s := by
  have := Inv.start (dflt := dflt) (sk := sk) (reader := s.reader) (v := s.version) h.db h.prime
  obtain ⟨db, ann, queue, prime, ring, version, reader, ws, cs⟩ := s
  have e1 := h.ann; have e2 := h.queue; have e3 := h.ring; have e4 := h.ws; have e5 := h.cs
  simp only at e1 e2 e3 e4 e5
  subst e1; subst e2; subst e3; subst e4; subst e5
  exact this

theorem Inv.weaken {s : S} {sk' : Nat → Prop} (i : Inv cap dflt sk s) (h : ∀ c, sk c → sk' c) : Inv cap dflt sk' s :=
  { i with upd := fun u hu => ⟨fun e => h _ ((i.upd u hu).1 e), (i.upd u hu).2⟩
           cons := fun c hc => (i.cons c hc).mono (fun _ _ h => h) h
           cs := fun x hx => (i.cs x hx).mono (fun _ _ h => h) h }

theorem Inv.runs (hc : 0 < cap) : ∀ (es : List Ev) {sk : Nat → Prop} {s s' : S}, Inv cap dflt sk s →
    runs cap dflt s es = some s' → Inv cap dflt (fun c => sk c ∨ Ev.skip c ∈ es) s' := by
  intro es
  induction es with
  | nil => intro sk s s' i h; cases h; exact i.weaken (fun _ h => .inl h)
  | cons e es ih =>
    intro sk s s' i h
    obtain ⟨s1, h1, h2⟩ := Option.bind_eq_some_iff.mp h
    refine (ih (i.step hc e h1) h2).weaken ?_
    rintro c (h | h)
    · by_cases he : ∃ ch, e = .skip ch
      · obtain ⟨ch, rfl⟩ := he
        rcases h with rfl | h
        · exact .inr List.mem_cons_self
        · exact .inl h
      · left
        cases e <;> first | exact h | exact absurd ⟨_, rfl⟩ he
    · exact .inr (List.mem_cons_of_mem _ h)

theorem Reach.inv (hc : 0 < cap) {s : S} (h : Reach cap dflt s) : ∃ sk, Inv cap dflt sk s := by
  obtain ⟨s0, es, h0, h1⟩ := h
  exact ⟨_, (Inv.init (sk := fun _ => False) h0).runs hc es h1⟩

end Verif.Wex
