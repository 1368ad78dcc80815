import Verif.Storage.BackendsProps
/-
C119: the theorems.
-/
namespace Verif
namespace Bkd
open Codec (Bytes ltB)

section main
variable {K V : Type} [DecidableEq K] {C : Coding K}

/-- The state holds what is written. -/
def Holds (C : Coding K) (ts : List Nat) (s : State V) (T : Nat → K → Option V) : Prop :=
  ∀ t ∈ ts, ∃ m, s t = some m ∧ Good C m ∧ ∀ k, look m (C.enc k) = T t k

theorem apply1_spec {m : Tree V} (h : Good C m) {T : K → Option V} (hT : ∀ k, look m (C.enc k) = T k) (w : W K V) :
    Good C (apply1 C w m) ∧ ∀ k, look (apply1 C w m) (C.enc k) = w.effect w.table k (T k) := by
  cases w with
  | ins t k v =>
    refine ⟨good_ins h k v, fun j => ?_⟩
    unfold apply1 W.effect W.table
    dsimp only
    rw [look_ins h, hT]
    by_cases e : k = j <;> simp [e]
  | rem t k =>
    refine ⟨good_del h _, fun j => ?_⟩
    unfold apply1 W.effect W.table
    dsimp only
    rw [look_del h, hT]
    by_cases e : k = j <;> simp [e]
  | clear t =>
    refine ⟨good_nil, fun j => ?_⟩
    unfold apply1 W.effect W.table
    simp [look]

theorem effect_other (w : W K V) {t : Nat} (h : w.table ≠ t) (k : K) (o : Option V) : w.effect t k o = o := by
  cases w <;> (unfold W.table at h; unfold W.effect; dsimp only at h ⊢; simp [h])

theorem wstep_ok {ts : List Nat} {s : State V} {T : Nat → K → Option V} (h : Holds C ts s T) (kd : Kind) (w : W K V)
    (hw : w.table ∈ ts) :
    (wstep C kd s w).2 = true ∧ Holds C ts (wstep C kd s w).1 (fun t k => w.effect t k (T t k)) := by
  obtain ⟨m, hm, hg, hl⟩ := h w.table hw
  unfold wstep
  rw [hm]
  dsimp only
  refine ⟨rfl, fun t ht => ?_⟩
  unfold set
  by_cases e : t = w.table
  · subst e
    rw [if_pos rfl]
    obtain ⟨h1, h2⟩ := apply1_spec hg hl w
    exact ⟨_, rfl, h1, h2⟩
  · rw [if_neg e]
    obtain ⟨m', h1, h2, h3⟩ := h t ht
    exact ⟨m', h1, h2, fun k => by rw [h3]; exact (effect_other w (Ne.symm e) k _).symm⟩

theorem wsteps_ok {ts : List Nat} (kd : Kind) (ws : List (W K V)) : ∀ {s : State V} {T : Nat → K → Option V},
    Holds C ts s T → (∀ w ∈ ws, w.table ∈ ts) →
    (wsteps C kd s ws).2 = true ∧ Holds C ts (wsteps C kd s ws).1 (fun t k => ws.foldl (W.effect t k) (T t k)) := by
  induction ws with
  | nil => intro s T h _; exact ⟨rfl, h⟩
  | cons w ws ih =>
    intro s T h hw
    obtain ⟨h1, h2⟩ := wstep_ok h kd w (hw w (by simp))
    rw [wsteps, if_pos h1]
    exact ih h2 (fun x hx => hw x (by simp [hx]))

theorem step_holds {ts : List Nat} {s : State V} {T : Nat → K → Option V} (h : Holds C ts s T) (kd : Kind) (o : Op K V)
    (ho : o.Ok kd ts) : Holds C ts (step C kd s o).1 (fun t k => o.effect t k (T t k)) := by
  cases o with
  | openTable t => exact absurd ho id
  | write w => exact (wstep_ok h kd w ho).2
  | txn ws commit =>
    obtain ⟨hc, hw⟩ := ho
    obtain ⟨h1, h2⟩ := wsteps_ok kd ws h hw
    cases commit with
    | true =>
      cases kd with
      | mem => exact h2
      | mdbx => simp only [step, h1, Op.effect, if_true]; exact h2
      | redb => simp only [step, h1, Op.effect, if_true]; exact h2
    | false =>
      cases kd with
      | mem => exact absurd (hc rfl) (by simp)
      | mdbx => simp only [step, h1, Op.effect, if_true, Bool.false_eq_true, if_false]; exact h
      | redb => simp only [step, h1, Op.effect, if_true, Bool.false_eq_true, if_false]; exact h
  | get t k => obtain ⟨m, hm, -⟩ := h t ho; simp only [step, hm]; exact h
  | contains t k => obtain ⟨m, hm, -⟩ := h t ho; simp only [step, hm]; exact h
  | isEmpty t => obtain ⟨m, hm, -⟩ := h t ho; simp only [step, hm]; exact h
  | iter t => exact h
  | reverseIter t => exact h
  | skipTo t k => obtain ⟨m, hm, -⟩ := h t ho; simp only [step, hm]; exact h
  | priorTo t k => obtain ⟨m, hm, -⟩ := h t ho; simp only [step, hm]; exact h
  | last t => obtain ⟨m, hm, -⟩ := h t ho; simp only [step, hm]; exact h

theorem step_right {ts : List Nat} {s : State V} {T : Nat → K → Option V} (h : Holds C ts s T) (kd : Kind) (o : Op K V)
    (ho : o.Ok kd ts) : Right C.lt T o (step C kd s o).2 := by
  cases o with
  | openTable t => exact absurd ho id
  | write w => unfold step Right; dsimp only; rw [if_pos (wstep_ok h kd w ho).1]
  | txn ws commit =>
    obtain ⟨-, hw⟩ := ho
    obtain ⟨h1, -⟩ := wsteps_ok kd ws h hw
    unfold step Right
    dsimp only
    cases kd with
    | mem => rfl
    | mdbx => dsimp only; rw [if_pos h1]
    | redb => dsimp only; rw [if_pos h1]
  | get t k => obtain ⟨m, hm, -, hl⟩ := h t ho; simp only [step, hm, Right, hl]
  | contains t k => obtain ⟨m, hm, -, hl⟩ := h t ho; simp only [step, hm, Right, hl]
  | isEmpty t =>
    obtain ⟨m, hm, hg, hl⟩ := h t ho
    simp only [step, hm, Right]
    refine ⟨_, rfl, ?_⟩
    rw [List.isEmpty_iff]
    constructor
    · rintro rfl k; rw [← hl]; rfl
    · intro hn
      cases m with
      | nil => rfl
      | cons x m =>
        obtain ⟨k, hk⟩ := hg.keys x (by simp)
        have := (mem_iff hg x.1 x.2).mp (by simp)
        rw [hk, hl, hn] at this
        cases this
  | iter t =>
    obtain ⟨m, hm, hg, hl⟩ := h t ho
    have hr := rows_of hg hl
    simp only [step, hm, Right]
    exact ⟨_, rfl, hr.sorted, hr.mem⟩
  | reverseIter t =>
    obtain ⟨m, hm, hg, hl⟩ := h t ho
    have hr := rows_of hg hl
    simp only [step, hm, Right]
    refine ⟨_, rfl, ?_, ?_⟩
    · rw [List.map_reverse, List.pairwise_reverse]; exact hr.sorted
    · intro x; rw [List.map_reverse, List.mem_reverse]; exact hr.mem x
  | skipTo t k =>
    obtain ⟨m, hm, hg, hl⟩ := h t ho
    have hr := rows_of hg hl
    simp only [step, hm, Right]
    refine ⟨_, rfl, ?_⟩
    rw [skip_rows hg, (while_filter hr.sorted k).1]
    refine ⟨hr.sorted.filter _, fun x => ?_⟩
    rw [List.mem_filter, hr.mem, Bool.not_eq_true']
  | priorTo t k =>
    obtain ⟨m, hm, hg, hl⟩ := h t ho
    have hr := rows_of hg hl
    simp only [step, hm, Right]
    refine ⟨_, rfl, fun x => ?_⟩
    rw [prior_rows hg, (while_filter hr.sorted k).2, getLast_iff (hr.sorted.filter _), List.mem_filter, hr.mem]
    constructor
    · rintro ⟨⟨h1, h2⟩, h3⟩
      exact ⟨h1, h2, fun j v hj hk => h3 (j, v) (List.mem_filter.mpr ⟨(hr.mem (j, v)).mpr hj, hk⟩)⟩
    · rintro ⟨h1, h2, h3⟩
      refine ⟨⟨h1, h2⟩, fun y hy => ?_⟩
      obtain ⟨hy, hk⟩ := List.mem_filter.mp hy
      exact h3 y.1 y.2 ((hr.mem y).mp hy) hk
  | last t =>
    obtain ⟨m, hm, hg, hl⟩ := h t ho
    have hr := rows_of hg hl
    simp only [step, hm, Right]
    refine ⟨_, rfl, fun x => ?_⟩
    rw [← List.getLast?_map, getLast_iff hr.sorted, hr.mem]
    constructor
    · rintro ⟨h1, h2⟩; exact ⟨h1, fun j v hj => h2 (j, v) ((hr.mem (j, v)).mpr hj)⟩
    · rintro ⟨h1, h2⟩; exact ⟨h1, fun y hy => h2 y.1 y.2 ((hr.mem y).mp hy)⟩

theorem fresh_holds (ts : List Nat) : Holds C ts (fresh ts : State V) (fun _ _ => none) := by
  intro t ht
  exact ⟨[], by unfold fresh; rw [if_pos ht], good_nil, fun _ => rfl⟩

theorem exec_holds (kd : Kind) {ts : List Nat} (os : List (Op K V)) : ∀ {s : State V} {T : Nat → K → Option V},
    Holds C ts s T → (∀ o ∈ os, o.Ok kd ts) →
    Holds C ts (exec C kd s os) (fun t k => os.foldl (Op.effect t k) (T t k)) := by
  induction os with
  | nil => intro s T h _; exact h
  | cons o os ih =>
    intro s T h ho
    exact ih (step_holds h kd o (ho o (by simp))) (fun x hx => ho x (by simp [hx]))

/-- C119. After any history in which tables are opened once, at its start, and, for the database in memory, every transaction
is committed, each of the three databases answers every call as the interface promises. -/
theorem answer_right (C : Coding K) (kd : Kind) (ts : List Nat) (os : List (Op K V)) (o : Op K V)
    (hos : ∀ x ∈ os, x.Ok kd ts) (ho : o.Ok kd ts) :
    Right C.lt (written os) o (step C kd (exec C kd (fresh ts) os) o).2 :=
  step_right (exec_holds kd os (fresh_holds ts) hos) kd o ho

omit [DecidableEq K] in
theorem answers_get (kd : Kind) (os : List (Op K V)) : ∀ (s : State V) (i : Nat) (h : i < os.length),
    (answers C kd s os)[i]? = some (step C kd (exec C kd s (os.take i)) os[i]).2 := by
  induction os with
  | nil => intro s i h; cases h
  | cons o os ih =>
    intro s i h
    cases i with
    | zero => rfl
    | succ i =>
      rw [answers, List.getElem?_cons_succ]
      exact ih _ i (by simpa using h)

/-! ### The three agree -/

/-- Ascending lists with the same rows are the same. -/
theorem rows_ext {l l' : List (K × V)} (h : l.Pairwise (fun x y => C.lt x.1 y.1 = true))
    (h' : l'.Pairwise (fun x y => C.lt x.1 y.1 = true)) (e : ∀ x, x ∈ l ↔ x ∈ l') : l = l' := by
  induction l generalizing l' with
  | nil =>
    cases l' with
    | nil => rfl
    | cons y l' => exact absurd ((e y).mpr (by simp)) (by simp)
  | cons x l ih =>
    cases l' with
    | nil => exact absurd ((e x).mp (by simp)) (by simp)
    | cons y l' =>
      rw [List.pairwise_cons] at h h'
      have hxy : x = y := by
        rcases List.mem_cons.mp ((e x).mp (by simp)) with h1 | h1
        · exact h1
        · rcases List.mem_cons.mp ((e y).mpr (by simp)) with h2 | h2
          · exact h2.symm
          · have a := C.trans (h'.1 x h1) (h.1 y h2)
            rw [C.irrefl] at a; cases a
      subst hxy
      congr 1
      refine ih h.2 h'.2 (fun z => ?_)
      have hz := e z
      rw [List.mem_cons, List.mem_cons] at hz
      constructor
      · intro hm
        rcases hz.mp (.inr hm) with rfl | h1
        · have a := h.1 z hm; rw [C.irrefl] at a; cases a
        · exact h1
      · intro hm
        rcases hz.mpr (.inr hm) with rfl | h1
        · have a := h'.1 z hm; rw [C.irrefl] at a; cases a
        · exact h1

/-- What the interface promises is one answer. -/
theorem right_unique {T : Nat → K → Option V} {o : Op K V} {a b : Ans K V} (ha : Right C.lt T o a)
    (hb : Right C.lt T o b) : a = b := by
  cases o with
  | openTable t => exact ha.trans hb.symm
  | write w => exact ha.trans hb.symm
  | txn ws c => exact ha.trans hb.symm
  | get t k => exact ha.trans hb.symm
  | contains t k => exact ha.trans hb.symm
  | isEmpty t =>
    obtain ⟨x, rfl, hx⟩ := ha
    obtain ⟨y, rfl, hy⟩ := hb
    rw [Bool.eq_iff_iff.mpr (hx.trans hy.symm)]
  | iter t =>
    obtain ⟨x, rfl, hx, hx'⟩ := ha
    obtain ⟨y, rfl, hy, hy'⟩ := hb
    rw [rows_ext hx hy (fun z => (hx' z).trans (hy' z).symm)]
  | reverseIter t =>
    obtain ⟨x, rfl, hx, hx'⟩ := ha
    obtain ⟨y, rfl, hy, hy'⟩ := hb
    have : x.reverse = y.reverse := rows_ext (List.pairwise_reverse.mpr hx) (List.pairwise_reverse.mpr hy)
      (fun z => by rw [List.mem_reverse, List.mem_reverse]; exact (hx' z).trans (hy' z).symm)
    rw [List.reverse_inj.mp this]
  | skipTo t k =>
    obtain ⟨x, rfl, hx, hx'⟩ := ha
    obtain ⟨y, rfl, hy, hy'⟩ := hb
    rw [rows_ext hx hy (fun z => (hx' z).trans (hy' z).symm)]
  | priorTo t k =>
    obtain ⟨x, rfl, hx⟩ := ha
    obtain ⟨y, rfl, hy⟩ := hb
    rw [opt_ext (fun z => (hx z).trans (hy z).symm)]
  | last t =>
    obtain ⟨x, rfl, hx⟩ := ha
    obtain ⟨y, rfl, hy⟩ := hb
    rw [opt_ext (fun z => (hx z).trans (hy z).symm)]

/-- C119. For such a history two databases give the same answers. -/
theorem agree (C : Coding K) (kd kd' : Kind) (ts : List Nat) (os : List (Op K V)) (hos : ∀ x ∈ os, x.Ok kd ts)
    (hos' : ∀ x ∈ os, x.Ok kd' ts) :
    answers C kd (fresh ts) os = answers C kd' (fresh ts) os := by
  apply List.ext_getElem?
  intro i
  by_cases h : i < os.length
  · rw [answers_get kd os _ i h, answers_get kd' os _ i h]
    have h1 : ∀ x ∈ os.take i, x.Ok kd ts := fun x hx => hos x (List.mem_of_mem_take hx)
    have h2 : ∀ x ∈ os.take i, x.Ok kd' ts := fun x hx => hos' x (List.mem_of_mem_take hx)
    rw [right_unique (answer_right C kd ts (os.take i) os[i] h1 (hos _ (List.getElem_mem h)))
      (answer_right C kd' ts (os.take i) os[i] h2 (hos' _ (List.getElem_mem h)))]
  · have hlen : ∀ (kd : Kind) (os : List (Op K V)) (s : State V), (answers C kd s os).length = os.length := by
      intro kd os
      induction os with
      | nil => intro s; rfl
      | cons o os ih => intro s; rw [answers, List.length_cons, ih, List.length_cons]
    rw [List.getElem?_eq_none (by rw [hlen]; omega), List.getElem?_eq_none (by rw [hlen]; omega)]

/-- C119. Opening tables of an empty database, each answered without an error, leaves `fresh`. -/
theorem opened (C : Coding K) (kd : Kind) (ts : List Nat) :
    exec C kd (fun _ => none) (ts.map Op.openTable) = (fresh ts : State V) ∧
    ∀ a ∈ answers C kd (fun _ => none : State V) (ts.map Op.openTable), a = .done := by
  have key : ∀ (us : List Nat) (ss : List Nat),
      exec C kd (fresh ss : State V) (us.map Op.openTable) = (fresh (ss ++ us) : State V) ∧
      ∀ a ∈ answers C kd (fresh ss : State V) (us.map Op.openTable), a = .done := by
    intro us
    induction us with
    | nil => intro ss; exact ⟨by rw [List.append_nil]; rfl, fun a ha => by cases ha⟩
    | cons u us ih =>
      intro ss
      have e : (step C kd (fresh ss : State V) (.openTable u)) = ((fresh (ss ++ [u]) : State V), .done) := by
        have f : (set (fresh ss) u [] : State V) = fresh (ss ++ [u]) := by
          funext t
          unfold set fresh
          by_cases h : t = u
          · simp [h]
          · simp [h]
        have g : u ∈ ss → (fresh ss : State V) = fresh (ss ++ [u]) := by
          intro h
          funext t
          unfold fresh
          by_cases h' : t = u
          · subst h'; simp [h]
          · simp [h']
        by_cases h : u ∈ ss
        · have h0 : (fresh ss : State V) u = some [] := by unfold fresh; rw [if_pos h]
          cases kd with
          | mem => simp only [step]; rw [f]
          | mdbx => simp only [step, h0]; rw [g h]
          | redb => simp only [step, h0]; rw [g h]
        · have h0 : (fresh ss : State V) u = none := by unfold fresh; rw [if_neg h]
          cases kd with
          | mem => simp only [step]; rw [f]
          | mdbx => simp only [step, h0]; rw [f]
          | redb => simp only [step, h0]; rw [f]
      obtain ⟨h1, h2⟩ := ih (ss ++ [u])
      rw [List.append_assoc] at h1
      refine ⟨?_, ?_⟩
      · rw [List.map_cons]
        unfold exec at h1 ⊢
        rw [List.foldl_cons, e]
        exact h1
      · intro a ha
        rw [List.map_cons, answers, e] at ha
        rcases List.mem_cons.mp ha with rfl | ha
        · rfl
        · exact h2 a ha
  have := key ts []
  rw [List.nil_append] at this
  have h0 : (fresh [] : State V) = fun _ => none := by funext t; unfold fresh; simp
  rwa [h0] at this

end main

/-! ### The keys of the tables -/

/-- The decoding of an encoding that tells keys apart. -/
noncomputable def Coding.of {K : Type} [Inhabited K] (enc : K → Bytes) (lt : K → K → Bool)
    (inj : ∀ a b, enc a = enc b → a = b) (mono : ∀ k j, ltB (enc k) (enc j) = lt k j) : Coding K where
  enc := enc
  dec b := open Classical in if h : ∃ k, enc k = b then h.choose else default
  lt := lt
  dec_enc k := by
    have h : ∃ j, enc j = enc k := ⟨k, rfl⟩
    rw [dif_pos h]
    exact inj _ _ h.choose_spec
  mono := mono

/-- `u64`, the key of `ConsensusCache`, lib.rs:110. -/
noncomputable def u64Key : Coding (Fin (256 ^ 8)) :=
  Coding.of (fun k => Codec.beBytes 8 k.val) (fun a b => decide (a.val < b.val))
    (fun a b h => Fin.ext (Codec.beBytes_inj a.isLt b.isLt h))
    (fun k j => by
      have := Codec.beBytes_lt 8 k.isLt j.isLt
      rw [Bool.eq_iff_iff, this, decide_eq_true_iff])

/-- An `AuthorityIdentifier` or a digest: 32 bytes. -/
abbrev Bytes32 := { b : Bytes // b.length = 32 }

instance : Inhabited Bytes32 := ⟨⟨List.replicate 32 0, List.length_replicate⟩⟩

/-- A digest, the key of `Certificates`, `NodeBatchesCache` and the like, lib.rs:98-115. Simplified: if its
encoding has a length in front, that is the same for all. -/
noncomputable def digestKey : Coding Bytes32 :=
  Coding.of (fun k => k.val) (fun a b => ltB a.val b.val) (fun _ _ h => Subtype.ext h) (fun _ _ => rfl)

/-- `(Round, AuthorityIdentifier)`, the key of `CertificateDigestByRound`, lib.rs:100. -/
noncomputable def byRoundKey : Coding (Fin (2 ^ 32) × Bytes32) :=
  Coding.of (fun k => Codec.roundKey k.1.val k.2.val)
    (fun a b => decide (a.1.val < b.1.val ∨ (a.1.val = b.1.val ∧ ltB a.2.val b.2.val = true)))
    (fun a b h => by
      obtain ⟨h1, h2⟩ := Codec.roundKey_inj a.1.isLt b.1.isLt h
      exact Prod.ext (Fin.ext h1) (Subtype.ext h2))
    (fun k j => by
      rw [Bool.eq_iff_iff, Codec.roundKey_lt k.1.isLt j.1.isLt, decide_eq_true_iff])

/-- `(AuthorityIdentifier, Round)`, the key of `CertificateDigestByOrigin`, lib.rs:101. -/
noncomputable def byOriginKey : Coding (Bytes32 × Fin (2 ^ 32)) :=
  Coding.of (fun k => Codec.originKey k.1.val k.2.val)
    (fun a b => decide (ltB a.1.val b.1.val = true ∨ (a.1.val = b.1.val ∧ a.2.val < b.2.val)))
    (fun a b h => by
      unfold Codec.originKey at h
      obtain ⟨h1, h2⟩ := List.append_inj h (a.1.2.trans b.1.2.symm)
      exact Prod.ext (Subtype.ext h1) (Fin.ext (Codec.beBytes_inj (k := 4) a.2.isLt b.2.isLt h2)))
    (fun k j => by
      rw [Bool.eq_iff_iff, Codec.originKey_lt k.2.isLt j.2.isLt (k.1.2.trans j.1.2.symm), decide_eq_true_iff])

/-- C119. Rows of the index by round: `record_prior_to` and `skip_to` of each database go by round. -/
theorem by_round (kd : Kind) (ts : List Nat) (os : List (Op (Fin (2 ^ 32) × Bytes32) Bytes32)) (t : Nat)
    (hos : ∀ x ∈ os, x.Ok kd ts) (ht : t ∈ ts) (r : Fin (2 ^ 32)) :
    ∃ l, (step byRoundKey kd (exec byRoundKey kd (fresh ts) os)
        (.skipTo t (r, ⟨List.replicate 32 0, List.length_replicate⟩))).2 = .rows l ∧
      ∀ x, x ∈ l ↔ written os t x.1 = some x.2 ∧ r ≤ x.1.1 := by
  have h := answer_right byRoundKey kd ts os (.skipTo t (r, ⟨List.replicate 32 0, List.length_replicate⟩)) hos ht
  obtain ⟨l, h1, -, h2⟩ := h
  refine ⟨l, h1, fun x => ?_⟩
  rw [h2]
  have hz : ∀ (n : Nat) (a : Bytes), a.length = n → ltB a (List.replicate n 0) = false := by
    intro n
    induction n with
    | zero => intro a ha; rw [List.length_eq_zero_iff.mp ha]; rfl
    | succ n ih =>
      intro a ha
      cases a with
      | nil => cases ha
      | cons b a =>
        rw [List.replicate_succ, ltB]
        have := ih a (by simpa using ha)
        simp [this]
  have : byRoundKey.lt x.1 (r, ⟨List.replicate 32 0, List.length_replicate⟩) = false ↔ r ≤ x.1.1 := by
    show decide _ = false ↔ _
    rw [decide_eq_false_iff_not, hz 32 x.1.2.val x.1.2.2]
    simp [Fin.le_def]
  rw [this]

/-! ### Cases -/

namespace Ex

/-- Keys of one byte. -/
def C : Coding (Fin 256) where
  enc k := [k]
  dec b := b.headD 0
  lt a b := decide (a < b)
  dec_enc _ := rfl
  mono k j := by
    show ltB [k] [j] = decide (k < j)
    simp [ltB, Fin.lt_def]

/-- Tables 1 and 2. -/
def os : List (Op (Fin 256) Nat) :=
  [.write (.ins 1 7 70), .txn [.ins 1 3 30, .ins 2 9 90, .rem 1 8] true, .write (.ins 1 5 50), .get 1 3, .skipTo 1 4,
   .priorTo 1 7, .last 1, .reverseIter 1, .write (.rem 1 5), .contains 1 5, .txn [.clear 2] true, .isEmpty 2, .iter 1]

theorem os_ok (kd : Kind) : ∀ x ∈ os, x.Ok kd [1, 2] := by
  unfold os
  simp [Op.Ok, W.table]

example : answers C .mdbx (fresh [1, 2]) os =
    [.done, .done, .done, .value (some 30), .rows [(5, 50), (7, 70)], .row (some (5, 50)), .row (some (7, 70)),
     .rows [(7, 70), (5, 50), (3, 30)], .done, .yes false, .done, .yes true, .rows [(3, 30), (7, 70)]] := by decide +kernel

example (kd : Kind) : answers C kd (fresh [1, 2]) os = answers C .mdbx (fresh [1, 2]) os := agree C kd .mdbx [1, 2] os (os_ok kd) (os_ok .mdbx)

/-- With a transaction that is dropped, the databases in files still agree. -/
example : answers C .mdbx (fresh [1]) [.txn [.ins 1 3 30] false, .write (.ins 1 4 40), .iter 1] =
    answers C .redb (fresh [1]) [.txn [.ins 1 3 30] false, .write (.ins 1 4 40), .iter 1] :=
  agree C .mdbx .redb [1] _ (by simp [Op.Ok, W.table]) (by simp [Op.Ok, W.table])

/-- A transaction that is dropped: the databases in files forget it, the one in memory does not. -/
theorem dropped :
    answers C .mem (fresh [1]) [.txn [.ins 1 3 30] false, .get 1 3] = [.done, .value (some 30)] ∧
    ∀ kd, kd ≠ .mem → answers C kd (fresh [1]) [.txn [.ins 1 3 30] false, .get 1 3] = [.done, .value (none : Option Nat)] := by
  refine ⟨by decide +kernel, fun kd h => ?_⟩
  cases kd with
  | mem => exact absurd rfl h
  | mdbx => decide +kernel
  | redb => decide +kernel

/-- Opening a table again: the database in memory empties it. -/
theorem reopened :
    answers C .mem (fresh [1]) [.write (.ins 1 3 30), .openTable 1, .get 1 3] = [.done, .done, .value (none : Option Nat)] ∧
    ∀ kd, kd ≠ .mem →
      answers C kd (fresh [1]) [.write (.ins 1 3 30), .openTable 1, .get 1 3] = [.done, .done, .value (some 30)] := by
  refine ⟨by decide +kernel, fun kd h => ?_⟩
  cases kd with
  | mem => exact absurd rfl h
  | mdbx => decide +kernel
  | redb => decide +kernel

/-- A table that was not opened: the database in memory loses the write without an error, mdbx fails, redb makes the table. -/
theorem unopened :
    answers C .mem (fresh []) [.write (.ins 1 3 30), .get 1 3] = [.done, .value (none : Option Nat)] ∧
    answers C .mdbx (fresh []) [.write (.ins 1 3 30), .get 1 3] = [.err, (.err : Ans (Fin 256) Nat)] ∧
    answers C .redb (fresh []) [.write (.ins 1 3 30), .get 1 3] = [.done, .value (some 30)] := by
  decide +kernel

end Ex

end Bkd
end Verif
