import Verif.Tx.ForwardMain
/-
C62: what becomes of the transactions of a batch, and which batches and endpoints are admitted.
-/
namespace Verif
namespace Tx

/-! ### A batch -/

/-- Handed back to the pool. -/
def Fate.back : Fate → Bool
  | .delivered => false
  | .rejected => false
  | _ => true

/-- The tallies belong to the fates. -/
structure TOk (b : Tally) : Prop where
  delivered : b.delivered = b.fates.countP (fun x => x.2 == .delivered)
  rejected : b.rejected = b.fates.countP (fun x => x.2 == .rejected)
  unreached : b.unreached = b.fates.countP (fun x => x.2 == .unreached)
  requeued : b.requeued = (b.fates.filter fun x => x.2.back).map Prod.fst
  noVerdict : b.noVerdict = b.requeued.length

theorem TOk.add {b : Tally} (h : TOk b) (t : FTx) {f : Fate} (hf : f ≠ .notTried) : TOk (b.add t f) := by
  obtain ⟨h1, h2, h3, h4, h5⟩ := h
  cases f with
  | notTried => exact absurd rfl hf
  | _ =>
    refine ⟨?_, ?_, ?_, ?_, ?_⟩ <;>
      simp [Tally.add, h1, h2, h3, h4, h5, List.countP_append, List.filter_append, Fate.back, List.countP_cons]

theorem TOk.tail {b : Tally} (h : TOk b) (ts : List FTx) : TOk (b.tail ts) := by
  obtain ⟨h1, h2, h3, h4, h5⟩ := h
  have hf : ∀ (f : Fate), f ≠ .notTried →
      (ts.map fun t => (t, Fate.notTried)).countP (fun x => x.2 == f) = 0 := by
    intro f hf
    rw [List.countP_eq_zero]
    intro x hx
    obtain ⟨t, _, rfl⟩ := List.mem_map.mp hx
    simp [Ne.symm hf]
  have hfil : ((ts.map fun t => (t, Fate.notTried)).filter fun x => x.2.back) = ts.map fun t => (t, Fate.notTried) := by
    rw [List.filter_eq_self]
    intro x hx
    obtain ⟨t, _, rfl⟩ := List.mem_map.mp hx
    rfl
  refine ⟨?_, ?_, ?_, ?_, ?_⟩
  · simp only [Tally.tail, List.countP_append, hf .delivered (by simp), h1, Nat.add_zero]
  · simp only [Tally.tail, List.countP_append, hf .rejected (by simp), h2, Nat.add_zero]
  · simp only [Tally.tail, List.countP_append, hf .unreached (by simp), h3, Nat.add_zero]
  · simp only [Tally.tail, List.filter_append, hfil, List.map_append, h4]
    simp [Function.comp_def]
  · simp [Tally.tail, h5]

theorem fateOf_ne (o : Outcome) (x c : Bool) : fateOf o x c ≠ .notTried := by
  unfold fateOf
  split <;> try simp
  split <;> simp

theorem add_fates (b : Tally) (t : FTx) (f : Fate) : (b.add t f).fates = b.fates ++ [(t, f)] := by
  cases f <;> rfl

theorem run_ok (slots fallbacks : List Nat) (prov : Nat → Option Nat) : ∀ (ts : List FTx) (es : List TxEnv) (b : Tally),
    TOk b → TOk (run slots fallbacks prov ts es b) ∧
      (run slots fallbacks prov ts es b).fates.map Prod.fst = b.fates.map Prod.fst ++ ts := by
  intro ts
  induction ts with
  | nil => intro es b h; rw [run]; exact ⟨h, by simp⟩
  | cons t ts ih =>
    intro es b h
    cases es with
    | nil => rw [run]; exact ⟨h.tail _, by simp [Tally.tail, Function.comp_def]⟩
    | cons e es =>
      rw [run]
      have hb : TOk { b with
          unreachable := (walk prov e.ans ((owner slots t).toList ++ fallbacks)
            { unreachable := b.unreachable, cut := e.cut }).2.2.unreachable
          effects := b.effects ++ (walk prov e.ans ((owner slots t).toList ++ fallbacks)
            { unreachable := b.unreachable, cut := e.cut }).2.2.effects } := ⟨h.1, h.2, h.3, h.4, h.5⟩
      obtain ⟨h1, h2⟩ := ih es _ (hb.add t (fateOf_ne (walk prov e.ans ((owner slots t).toList ++ fallbacks)
            { unreachable := b.unreachable, cut := e.cut }).1 (walk prov e.ans ((owner slots t).toList ++ fallbacks)
            { unreachable := b.unreachable, cut := e.cut }).2.1 e.clamped))
      exact ⟨h1, by rw [h2, add_fates]; simp⟩

theorem tok_init : TOk {} := ⟨rfl, rfl, rfl, rfl, rfl⟩

/-- The transactions of a given kind of fate. -/
def Tally.those (b : Tally) (p : Fate → Bool) : List FTx := (b.fates.filter fun x => p x.2).map Prod.fst

/-- **C62 (i).** Every transaction of an admitted batch is, once, either delivered, rejected, or handed back to the
node's own pool; the tallies count them, and `abandoned` counts those that the batch's deadline cut off. -/
theorem batch_accounts (slots fallbacks : List Nat) (prov : Nat → Option Nat) (ts : List FTx) (es : List TxEnv) :
    let b := run slots fallbacks prov ts es {}
    (b.those (· == .delivered) ++ b.those (· == .rejected) ++ b.requeued).Perm ts ∧
    b.delivered = (b.those (· == .delivered)).length ∧ b.rejected = (b.those (· == .rejected)).length ∧
    b.noVerdict = b.requeued.length ∧
    b.delivered + b.rejected + b.noVerdict = ts.length ∧
    b.abandoned ts.length = (b.those fun f => f == .cutShort || f == .notTried).length := by
  intro b
  obtain ⟨h, hf⟩ := run_ok slots fallbacks prov ts es {} tok_init
  change TOk b at h
  change b.fates.map Prod.fst = _ at hf
  rw [List.map_nil, List.nil_append] at hf
  have hcount : ∀ p : Fate → Bool, (b.those p).length = b.fates.countP (fun x => p x.2) := by
    intro p; unfold Tally.those; rw [List.length_map, List.countP_eq_length_filter]
  have hlen : b.fates.length = ts.length := by rw [← hf, List.length_map]
  have hsum : ∀ l : List (FTx × Fate), l.countP (fun x => x.2 == .delivered) + l.countP (fun x => x.2 == .rejected) +
      l.countP (fun x => x.2 == .unreached) + l.countP (fun x => x.2 == .cutShort || x.2 == .notTried) = l.length := by
    intro l
    induction l with
    | nil => rfl
    | cons x l ih =>
      obtain ⟨t, f⟩ := x
      simp only [List.countP_cons, List.length_cons]
      cases f <;> simp <;> omega
  have hback : ∀ l : List (FTx × Fate), l.countP (fun x => x.2 == .delivered) + l.countP (fun x => x.2 == .rejected) +
      l.countP (fun x => x.2.back) = l.length := by
    intro l
    induction l with
    | nil => rfl
    | cons x l ih =>
      obtain ⟨t, f⟩ := x
      simp only [List.countP_cons, List.length_cons]
      have b1 : Fate.delivered.back = false := rfl
      have b2 : Fate.rejected.back = false := rfl
      have b3 : Fate.unreached.back = true := rfl
      have b4 : Fate.cutShort.back = true := rfl
      have b5 : Fate.notTried.back = true := rfl
      cases f <;> simp [b1, b2, b3, b4, b5] <;> omega
  have hreq : b.requeued.length = b.fates.countP (fun x => x.2.back) := by
    rw [h.requeued, List.length_map, List.countP_eq_length_filter]
  refine ⟨?_, ?_, ?_, h.noVerdict, ?_, ?_⟩
  · rw [h.requeued, ← hf]
    unfold Tally.those
    rw [← List.map_append, ← List.map_append]
    apply List.Perm.map
    have hperm : ∀ l : List (FTx × Fate), ((l.filter fun x => x.2 == .delivered) ++ (l.filter fun x => x.2 == .rejected) ++
        l.filter fun x => x.2.back).Perm l := by
      intro l
      have e1 := List.filter_append_perm (fun x : FTx × Fate => x.2.back) l
      have e2 := List.filter_append_perm (fun x : FTx × Fate => x.2 == .delivered) (l.filter fun x => !x.2.back)
      have c1 : (l.filter fun x => !x.2.back).filter (fun x => x.2 == .delivered) = l.filter fun x => x.2 == .delivered := by
        rw [List.filter_filter]
        apply List.filter_congr
        rintro ⟨t, f⟩ _
        cases f <;> rfl
      have c2 : (l.filter fun x => !x.2.back).filter (fun x => !(x.2 == .delivered)) = l.filter fun x => x.2 == .rejected := by
        rw [List.filter_filter]
        apply List.filter_congr
        rintro ⟨t, f⟩ _
        cases f <;> rfl
      rw [c1, c2] at e2
      exact ((e2.append_right _).trans List.perm_append_comm).trans e1
    exact hperm b.fates
  · rw [h.delivered, hcount]
  · rw [h.rejected, hcount]
  · rw [h.delivered, h.rejected, h.noVerdict, hreq, hback, hlen]
  · unfold Tally.abandoned
    have := hsum b.fates
    rw [hcount, ← hlen, h.delivered, h.rejected, h.unreached]
    omega

/-- The verdict on the i-th transaction of a batch: by its own walk, with the endpoints that the walks before it
found unreachable. -/
theorem run_fate (slots fallbacks : List Nat) (prov : Nat → Option Nat) : ∀ (ts : List FTx) (es : List TxEnv) (b : Tally)
    (i : Nat) (t : FTx), ts[i]? = some t →
    (es[i]? = none ∧ (run slots fallbacks prov ts es b).fates[b.fates.length + i]? = some (t, .notTried)) ∨
    ∃ (e : TxEnv) (u0 : List Nat), es[i]? = some e ∧ (∀ u ∈ b.unreachable, u ∈ u0) ∧
      (run slots fallbacks prov ts es b).fates[b.fates.length + i]? =
        some (t, fateOf (outcome prov e.ans ((owner slots t).toList ++ fallbacks) u0 e.cut)
          (expired prov e.ans ((owner slots t).toList ++ fallbacks) u0 e.cut) e.clamped) := by
  have hkeep : ∀ (ts : List FTx) (es : List TxEnv) (b : Tally), b.fates <+: (run slots fallbacks prov ts es b).fates := by
    intro ts
    induction ts with
    | nil => intro es b; rw [run]
    | cons t ts ih =>
      intro es b
      cases es with
      | nil => rw [run]; exact List.prefix_append _ _
      | cons e es =>
        rw [run]
        refine List.IsPrefix.trans ?_ (ih es _)
        rw [add_fates]
        exact List.prefix_append _ _
  intro ts
  induction ts with
  | nil => intro es b i t h; simp at h
  | cons t ts ih =>
    intro es b i x hx
    cases es with
    | nil =>
      left
      refine ⟨by simp, ?_⟩
      rw [run]
      have : (b.tail (t :: ts)).fates = b.fates ++ (t :: ts).map fun t => (t, Fate.notTried) := rfl
      rw [this, List.getElem?_append_right (by omega), Nat.add_sub_cancel_left, List.getElem?_map, hx]
      rfl
    | cons e es =>
      rw [run]
      cases i with
      | zero =>
        right
        have hx : t = x := by simpa using hx
        subst hx
        refine ⟨e, b.unreachable, rfl, fun u h => h, ?_⟩
        have hf : ∀ b' : Tally, b'.fates = b.fates →
            (run slots fallbacks prov ts es (b'.add t
              (fateOf (outcome prov e.ans ((owner slots t).toList ++ fallbacks) b.unreachable e.cut)
                (expired prov e.ans ((owner slots t).toList ++ fallbacks) b.unreachable e.cut) e.clamped))).fates[
                  b.fates.length + 0]? =
              some (t, fateOf (outcome prov e.ans ((owner slots t).toList ++ fallbacks) b.unreachable e.cut)
                (expired prov e.ans ((owner slots t).toList ++ fallbacks) b.unreachable e.cut) e.clamped) := by
          intro b' hb'
          obtain ⟨r, hr⟩ := hkeep ts es (b'.add t
              (fateOf (outcome prov e.ans ((owner slots t).toList ++ fallbacks) b.unreachable e.cut)
                (expired prov e.ans ((owner slots t).toList ++ fallbacks) b.unreachable e.cut) e.clamped))
          rw [← hr, add_fates, hb']
          simp
        exact hf _ rfl
      | succ i =>
        have hx : ts[i]? = some x := by simpa using hx
        have hun : ∀ u ∈ b.unreachable, u ∈ (walkFrom prov e.ans ((owner slots t).toList ++ fallbacks)
            b.unreachable e.cut).2.2.unreachable := by
          intro u hu
          exact ((walk_effects prov e.ans ((owner slots t).toList ++ fallbacks) b.unreachable e.cut).2 u).mpr (.inl hu)
        have hadd : ∀ (b : Tally) (f : Fate), (b.add t f).unreachable = b.unreachable := by
          intro b f; cases f <;> rfl
        rcases ih es _ i x hx with ⟨h1, h2⟩ | ⟨e', u0, h1, h2, h3⟩
        · left
          refine ⟨by simpa using h1, ?_⟩
          rw [← h2, add_fates, List.length_append]
          congr 1
          simp only [List.length_singleton]
          omega
        · right
          refine ⟨e', u0, by simpa using h1, ?_, ?_⟩
          · intro u hu
            apply h2
            rw [hadd]
            exact hun u hu
          · rw [← h3, add_fates, List.length_append]
            congr 1
            simp only [List.length_singleton]
            omega

/-- **C62 (j).** A transaction that is not handed back has a verdict of a validator: it was accepted by one, or
rejected by one. -/
theorem verdict_sound (slots fallbacks : List Nat) (prov : Nat → Option Nat) (ts : List FTx) (es : List TxEnv)
    (i : Nat) (t : FTx) (f : Fate) (h : (run slots fallbacks prov ts es {}).fates[i]? = some (t, f)) :
    (f = .delivered → ∃ (e : TxEnv) (k : Nat), es[i]? = some e ∧ e.ans k = .delivered) ∧
    (f = .rejected → ∃ (e : TxEnv) (k : Nat), es[i]? = some e ∧ IsRej (e.ans k)) := by
  have hts : ts[i]? = some t := by
    have := (run_ok slots fallbacks prov ts es {} tok_init).2
    rw [List.map_nil, List.nil_append] at this
    rw [← this, List.getElem?_map, h]; rfl
  have hf := run_fate slots fallbacks prov ts es {} i t hts
  simp only [List.length_nil, Nat.zero_add] at hf
  rw [h] at hf
  rcases hf with ⟨_, hf⟩ | ⟨e, u0, he, _, hf⟩
  · have hf : f = .notTried := by simpa using hf
    subst hf
    exact ⟨by simp, by simp⟩
  · have hf : f = _ := (Prod.mk.inj (Option.some.inj hf)).2
    unfold fateOf at hf
    generalize ho : outcome prov e.ans ((owner slots t).toList ++ fallbacks) u0 e.cut = o at hf
    constructor
    · intro hd
      rw [hd] at hf
      cases o with
      | delivered =>
        obtain ⟨k, _, hk⟩ := (delivered_iff ..).mp ho
        exact ⟨e, k, he, hk⟩
      | rejected r => cases hf
      | noEndpoint => dsimp only at hf; split at hf <;> cases hf
    · intro hd
      rw [hd] at hf
      cases o with
      | delivered => cases hf
      | rejected r =>
        rcases rejected_only _ _ _ _ _ ho with ⟨k, _, _, _, _, hk, _⟩ | ⟨⟨k, _, hk⟩, _⟩
        · exact ⟨e, k, he, hk⟩
        · exact ⟨e, k, he, r, hk⟩
      | noEndpoint => dsimp only at hf; split at hf <;> cases hf

/-- **C62 (k).** In a whole batch no demotion is lifted, and every demoted endpoint is one of a usable validator. -/
theorem batch_effects (slots fallbacks : List Nat) (prov : Nat → Option Nat) : ∀ (ts : List FTx) (es : List TxEnv) (b : Tally),
    ∀ e ∈ (run slots fallbacks prov ts es b).effects, e ∈ b.effects ∨ ∃ u k, e = .demote u ∧ prov k = some u := by
  intro ts
  induction ts with
  | nil => intro es b e he; rw [run] at he; exact .inl he
  | cons t ts ih =>
    intro es b e he
    cases es with
    | nil => rw [run] at he; exact .inl he
    | cons x es =>
      rw [run] at he
      have hadd : ∀ (b : Tally) (f : Fate), (b.add t f).effects = b.effects := by
        intro b f; cases f <;> rfl
      rcases ih es _ e he with h | h
      · rw [hadd] at h
        rcases List.mem_append.mp h with h | h
        · exact .inl h
        · obtain ⟨u, h1, k, _, h2, _⟩ := ((walk_effects prov x.ans ((owner slots t).toList ++ fallbacks) b.unreachable
            x.cut).1 e).mp h
          exact .inr ⟨u, k, h1, h2⟩
      · exact .inr h

/-! ### Owner and order -/

/-- **C62 (l).** Exactly one committee slot owns a transaction whose sender is known; it is the slot for which a
validator would accept it as its own; and it depends on the sender only. -/
theorem owner_unique (slots : List Nat) (hs : slots ≠ []) (t : FTx) {s : List Nat} (ht : t.sender = some s) :
    ∃ i, i < slots.length ∧ owner slots t = slots[i]? ∧ ∀ j, submitIfMine slots.length j t = true ↔ j = i := by
  refine ⟨le64 s % slots.length, Nat.mod_lt _ (List.length_pos_iff.mpr hs), ?_, ?_⟩
  · unfold owner; rw [ht]
  · intro j
    unfold submitIfMine
    rw [ht]
    simp only [beq_iff_eq]
    exact eq_comm

theorem owner_sender (slots : List Nat) {t t' : FTx} (h : t.sender = t'.sender) : owner slots t = owner slots t' := by
  unfold owner; rw [h]

theorem rotate_eq (l : List Nat) (c : Nat) : rotate l c = l.rotate c := by
  unfold rotate
  split
  next h => rw [List.length_eq_zero_iff.mp h]; simp
  next h => rw [List.rotate_eq_drop_append_take_mod]

/-- **C62 (m).** The fallback order of a forward has every usable validator once; and among as many consecutive
forwards as there are usable validators, each of them comes first exactly once. -/
theorem rotate_fair (l : List Nat) (c : Nat) : (rotate l c).Perm l ∧
    ((List.range l.length).map fun i => (rotate l (c + i)).head?).Perm (l.map some) := by
  refine ⟨by rw [rotate_eq]; exact List.rotate_perm l c, ?_⟩
  have e : ((List.range l.length).map fun i => (rotate l (c + i)).head?) = (l.rotate c).map some := by
    apply List.ext_getElem
    · simp
    · intro i h1 h2
      have hi : i < l.length := by simpa using h1
      rw [List.getElem_map, List.getElem_map, List.getElem_range, rotate_eq, ← List.rotate_mod,
        List.head?_rotate (Nat.mod_lt _ (by omega)), List.getElem_rotate, List.getElem?_eq_getElem]
      · simp only [Nat.add_comm c i]
      · exact Nat.mod_lt _ (by omega)
  rw [e]
  exact (List.rotate_perm l c).map some

/-! ### Admission -/

/-- Only endpoints that the policy admits are cached. -/
def FOk (f : Fwd) : Prop := ∀ u ∈ f.cached, f.creatable u = true

theorem resolveAll_eq : ∀ (l : List (Nat × Nat)) (f : Fwd), FOk f →
    FOk (f.resolveAll l).1 ∧ (f.resolveAll l).1.demoted = f.demoted ∧ (f.resolveAll l).1.live = f.live ∧
    (f.resolveAll l).1.counter = f.counter ∧ (∀ u, (f.resolveAll l).1.creatable u = f.creatable u) ∧
    (f.resolveAll l).2 = l.filter fun x => decide (x.2 ∉ f.demoted.map Prod.fst) && f.creatable x.2 := by
  intro l
  induction l with
  | nil => intro f h; exact ⟨h, rfl, rfl, rfl, fun _ => rfl, rfl⟩
  | cons x l ih =>
    intro f h
    obtain ⟨k, u⟩ := x
    have hr : FOk (f.resolve u).1 ∧ (f.resolve u).1.demoted = f.demoted ∧ (f.resolve u).1.live = f.live ∧
        (f.resolve u).1.counter = f.counter ∧ (∀ v, (f.resolve u).1.creatable v = f.creatable v) ∧
        (f.resolve u).2 = (decide (u ∉ f.demoted.map Prod.fst) && f.creatable u) := by
      unfold Fwd.resolve
      by_cases h1 : u ∈ f.demoted.map Prod.fst
      · rw [if_pos h1]; exact ⟨h, rfl, rfl, rfl, fun _ => rfl, by simp [h1]⟩
      rw [if_neg h1]
      by_cases h2 : u ∈ f.cached
      · rw [if_pos h2]; exact ⟨h, rfl, rfl, rfl, fun _ => rfl, by simp [h1, h u h2]⟩
      rw [if_neg h2]
      by_cases h3 : f.creatable u = true
      · rw [if_pos h3]
        refine ⟨?_, rfl, rfl, rfl, fun _ => rfl, by simp [h1, h3]⟩
        intro v hv
        change f.creatable v = true
        rcases List.mem_cons.mp hv with hv | hv
        · rw [hv]; exact h3
        · exact h v hv
      · rw [if_neg h3]; exact ⟨h, rfl, rfl, rfl, fun _ => rfl, by simp [h3]⟩
    obtain ⟨r1, r2, r3, r4, r5, r6⟩ := hr
    obtain ⟨i1, i2, i3, i4, i5, i6⟩ := ih _ r1
    rw [Fwd.resolveAll]
    dsimp only
    refine ⟨i1, by rw [i2, r2], by rw [i3, r3], by rw [i4, r4], fun v => by rw [i5, r5], ?_⟩
    rw [i6, r6, r2, List.filter_cons]
    dsimp only
    simp only [r5]

/-- An endpoint is demoted if it was found unreachable less than 30 s ago. -/
def Demoted (f : Fwd) (now u : Nat) : Prop := ∃ t, (u, t) ∈ f.demoted ∧ now - t < cooldown

theorem providers_spec {f : Fwd} (h : FOk f) (now : Nat) (rpcs : List (Nat × Nat)) :
    FOk (f.providers now rpcs).1 ∧ (f.providers now rpcs).1.live = f.live ∧
    (f.providers now rpcs).1.counter = f.counter ∧ (∀ u, (f.providers now rpcs).1.creatable u = f.creatable u) ∧
    SMap.Sorted (f.providers now rpcs).2 ∧
    (∀ k u, (k, u) ∈ (f.providers now rpcs).2 → (k, u) ∈ rpcs ∧ f.creatable u = true ∧ ¬ Demoted f now u) ∧
    ∀ k u, (k, u) ∈ rpcs → f.creatable u = true → ¬ Demoted f now u →
      k ∈ (f.providers now rpcs).2.map Prod.fst := by
  have he : FOk (f.evict now (rpcs.map Prod.snd)) := by
    intro u hu
    exact h u (List.mem_filter.mp hu).1
  obtain ⟨i1, i2, i3, i4, i5, i6⟩ := resolveAll_eq rpcs _ he
  have hdem : ∀ k u, (k, u) ∈ rpcs →
      (u ∈ (f.evict now (rpcs.map Prod.snd)).demoted.map Prod.fst ↔ Demoted f now u) := by
    intro k u hku
    rw [List.mem_map]
    constructor
    · rintro ⟨⟨v, t⟩, hx, rfl⟩
      have := List.mem_filter.mp hx
      refine ⟨t, this.1, ?_⟩
      have h2 := this.2
      simp only [Bool.and_eq_true, decide_eq_true_eq] at h2
      exact h2.2
    · rintro ⟨t, ht, hn⟩
      refine ⟨(u, t), List.mem_filter.mpr ⟨ht, ?_⟩, rfl⟩
      simp only [Bool.and_eq_true, decide_eq_true_eq]
      exact ⟨List.mem_map.mpr ⟨_, hku, rfl⟩, hn⟩
  refine ⟨i1, i3, i4, i5, SMap.sorted_ofList _, ?_, ?_⟩
  · intro k u hku
    have hm := SMap.mem_of_mem_ofList hku
    rw [i6] at hm
    obtain ⟨h1, h2⟩ := List.mem_filter.mp hm
    simp only [Bool.and_eq_true, decide_eq_true_eq] at h2
    exact ⟨h1, h2.2, fun hd => h2.1 ((hdem k u h1).mpr hd)⟩
  · intro k u hku hc hd
    have hm : (k, u) ∈ ((f.evict now (rpcs.map Prod.snd)).resolveAll rpcs).2 := by
      rw [i6]
      refine List.mem_filter.mpr ⟨hku, ?_⟩
      simp only [Bool.and_eq_true, decide_eq_true_eq]
      exact ⟨fun hh => hd ((hdem k u hku).mp hh), hc⟩
    exact (SMap.mem_keys_ofList).mpr (List.mem_map.mpr ⟨_, hm, rfl⟩)

/-- The batch is admissible: there is something to forward, a committee, an advertised endpoint that the policy admits
and that was not found unreachable less than 30 s ago, and fewer than 64 forwards are alive. -/
def Admissible (f : Fwd) (now : Nat) (txs : List FTx) (slots : List Nat) (rpcs : List (Nat × Nat)) : Prop :=
  txs ≠ [] ∧ slots ≠ [] ∧ f.live < maxForwards ∧
    ∃ k u, (k, u) ∈ rpcs ∧ f.creatable u = true ∧ ¬ Demoted f now u

/-- **C62 (n).** A batch is admitted exactly if it is admissible. -/
theorem admitted_iff {f : Fwd} (h : FOk f) (now : Nat) (txs : List FTx) (slots : List Nat) (rpcs : List (Nat × Nat)) :
    (f.forward now txs slots rpcs).2.isSome = true ↔ Admissible f now txs slots rpcs := by
  obtain ⟨_, p2, _, _, _, p6, p7⟩ := providers_spec h now rpcs
  unfold Fwd.forward Admissible
  by_cases h1 : txs.length = 0 ∨ slots.length = 0 ∨ rpcs.length = 0
  · rw [if_pos h1]
    simp only [Option.isSome_none, Bool.false_eq_true, false_iff]
    rintro ⟨g1, g2, _, k, u, g3, _⟩
    rcases h1 with h1 | h1 | h1
    · exact g1 (List.length_eq_zero_iff.mp h1)
    · exact g2 (List.length_eq_zero_iff.mp h1)
    · rw [List.length_eq_zero_iff.mp h1] at g3; cases g3
  rw [if_neg h1]
  dsimp only
  by_cases h2 : (f.providers now rpcs).2.length = 0
  · rw [if_pos h2]
    simp only [Option.isSome_none, Bool.false_eq_true, false_iff]
    rintro ⟨_, _, _, k, u, g3, g4, g5⟩
    have := p7 k u g3 g4 g5
    rw [List.length_eq_zero_iff.mp h2] at this
    cases this
  rw [if_neg h2]
  by_cases h3 : maxForwards ≤ (f.providers now rpcs).1.live
  · rw [if_pos h3]
    simp only [Option.isSome_none, Bool.false_eq_true, false_iff]
    rintro ⟨_, _, g, _⟩
    rw [p2] at h3
    omega
  rw [if_neg h3]
  simp only [Option.isSome_some, true_iff]
  rw [p2] at h3
  refine ⟨fun he => h1 (.inl (by rw [he]; rfl)), fun he => h1 (.inr (.inl (by rw [he]; rfl))), by omega, ?_⟩
  have hne : (f.providers now rpcs).2 ≠ [] := fun he => h2 (by rw [he]; rfl)
  obtain ⟨x, hx⟩ := List.exists_mem_of_ne_nil _ hne
  exact ⟨x.1, x.2, p6 x.1 x.2 hx⟩

/-- **C62 (o).** The forward of an admitted batch has all its transactions, and as usable validators those that
advertise an endpoint that the policy admits and that was not found unreachable less than 30 s ago; its fallback order
has each of them once. -/
theorem job_spec {f : Fwd} (h : FOk f) (now : Nat) (txs : List FTx) (slots : List Nat) (rpcs : List (Nat × Nat)) {j : Job}
    (hj : (f.forward now txs slots rpcs).2 = some j) :
    j.txs = txs ∧ j.slots = slots ∧ j.order.Perm (j.provs.map Prod.fst) ∧ j.order.Nodup ∧
    (∀ k u, SMap.get? k j.provs = some u → (k, u) ∈ rpcs ∧ f.creatable u = true ∧ ¬ Demoted f now u) ∧
    ∀ k u, (k, u) ∈ rpcs → f.creatable u = true → ¬ Demoted f now u → k ∈ j.order := by
  obtain ⟨_, p2, p3, _, p5, p6, p7⟩ := providers_spec h now rpcs
  unfold Fwd.forward at hj
  split at hj
  · cases hj
  dsimp only at hj
  split at hj
  · cases hj
  split at hj
  · cases hj
  have hj := Option.some.inj hj
  subst hj
  dsimp only
  have hperm := (rotate_fair ((f.providers now rpcs).2.map Prod.fst) (f.providers now rpcs).1.counter).1
  refine ⟨rfl, rfl, hperm, hperm.nodup_iff.mpr (SMap.nodup_keys p5), ?_, ?_⟩
  · intro k u hk
    exact p6 k u (SMap.mem_of_get? hk)
  · intro k u h1 h2 h3
    exact hperm.mem_iff.mpr (p7 k u h1 h2 h3)

/-- What happens to a forwarder. -/
inductive FStep : Fwd → Fwd → Prop
  | forward (f : Fwd) (now : Nat) (txs : List FTx) (slots : List Nat) (rpcs : List (Nat × Nat)) :
      FStep f (f.forward now txs slots rpcs).1
  | effect (f : Fwd) (now : Nat) (e : Eff) : FStep f (f.effect now e)
  | finish (f : Fwd) (h : 0 < f.live) : FStep f f.finish

/-- The states of a forwarder of a node with this policy. -/
inductive FReach (allowPrivate : Bool) (host : Nat → Option Host) (parses : Nat → Bool) : Fwd → Prop
  | start (c : Nat) : FReach allowPrivate host parses
      { allowPrivate := allowPrivate, host := host, parses := parses, counter := c }
  | step {f f' : Fwd} (h : FReach allowPrivate host parses f) (hs : FStep f f') : FReach allowPrivate host parses f'

theorem forward_keeps {f : Fwd} (h : FOk f) (now : Nat) (txs : List FTx) (slots : List Nat) (rpcs : List (Nat × Nat)) :
    FOk (f.forward now txs slots rpcs).1 ∧ (∀ u, (f.forward now txs slots rpcs).1.creatable u = f.creatable u) ∧
    (f.live ≤ maxForwards → (f.forward now txs slots rpcs).1.live ≤ maxForwards) := by
  obtain ⟨p1, p2, _, p4, _⟩ := providers_spec h now rpcs
  unfold Fwd.forward
  split
  · exact ⟨h, fun _ => rfl, fun h => h⟩
  dsimp only
  split
  · exact ⟨p1, p4, fun h => by rw [p2]; exact h⟩
  split
  · exact ⟨p1, p4, fun h => by rw [p2]; exact h⟩
  next h1 h2 h3 =>
    refine ⟨p1, p4, fun _ => ?_⟩
    dsimp only
    omega

/-- **C62 (p).** In every history at most 64 forwards are alive, and only endpoints the policy admits are cached. -/
theorem reach_ok {allowPrivate : Bool} {host : Nat → Option Host} {parses : Nat → Bool} {f : Fwd}
    (h : FReach allowPrivate host parses f) : f.live ≤ maxForwards ∧ FOk f ∧
      ∀ u, f.creatable u = true ↔ checkTarget allowPrivate (host u) = .ok () ∧ parses u = true := by
  have hc : ∀ x, isOk x = true ↔ x = .ok () := by
    intro x
    cases x with
    | ok v => simp [isOk]
    | error e => simp [isOk]
  induction h with
  | start c =>
    refine ⟨Nat.zero_le _, (by intro u hu; cases hu), ?_⟩
    intro u
    unfold Fwd.creatable
    dsimp only
    rw [Bool.and_eq_true, hc]
  | @step f f' _ hs ih =>
    obtain ⟨i1, i2, i3⟩ := ih
    cases hs with
    | forward now txs slots rpcs =>
      obtain ⟨k1, k2, k3⟩ := forward_keeps i2 now txs slots rpcs
      exact ⟨k3 i1, k1, fun u => by rw [k2]; exact i3 u⟩
    | effect now e =>
      cases e with
      | demote u => exact ⟨i1, i2, i3⟩
      | lift u => exact ⟨i1, i2, i3⟩
    | finish hl => exact ⟨Nat.le_trans (Nat.sub_le _ _) i1, i2, i3⟩

/-- **C62 (q).** Whoever is asked in a forward, in every history of the node, has advertised an endpoint whose host the
node's policy admits. -/
theorem asked_public {allowPrivate : Bool} {host : Nat → Option Host} {parses : Nat → Bool} {f : Fwd}
    (h : FReach allowPrivate host parses f) (now : Nat) (txs : List FTx) (slots : List Nat) (rpcs : List (Nat × Nat))
    {j : Job} (hj : (f.forward now txs slots rpcs).2 = some j) (ans : Nat → Disp) (keys u0 : List Nat)
    (c0 : Option Nat) {k : Nat} (hk : k ∈ asked (fun k => SMap.get? k j.provs) ans keys u0 c0) :
    ∃ u, (k, u) ∈ rpcs ∧ checkTarget allowPrivate (host u) = .ok () := by
  obtain ⟨_, h2, h3⟩ := reach_ok h
  obtain ⟨_, u, hu, _⟩ := (asked_ok (fun k => SMap.get? k j.provs) ans keys u0 c0).2 k hk
  obtain ⟨_, _, _, _, h4, _⟩ := job_spec h2 now txs slots rpcs hj
  obtain ⟨h5, h6, _⟩ := h4 k u hu
  exact ⟨u, h5, ((h3 u).mp h6).1⟩

/-- **C62 (r).** An endpoint that a walk demotes at time `t` is not used by a forward admitted in the next 30 s. -/
theorem demoted_unused {f : Fwd} (h : FOk f) (t now u : Nat) (ht : now < t + cooldown) (txs : List FTx)
    (slots : List Nat) (rpcs : List (Nat × Nat)) {j : Job}
    (hj : ((f.effect t (.demote u)).forward now txs slots rpcs).2 = some j) :
    ∀ k, SMap.get? k j.provs ≠ some u := by
  have h' : FOk (f.effect t (.demote u)) := h
  obtain ⟨_, _, _, _, h4, _⟩ := job_spec h' now txs slots rpcs hj
  intro k hk
  apply (h4 k u hk).2.2
  refine ⟨t, List.mem_cons_self .., ?_⟩
  unfold cooldown at *
  omega

/-! ### Replies -/

/-- A string contains another. -/
theorem contains_iff (n s : List Char) : contains n s = true ↔ n <:+: s := by
  unfold contains
  rw [List.any_eq_true]
  constructor
  · rintro ⟨t, ht, hp⟩
    exact List.infix_iff_prefix_suffix.mpr ⟨t, List.isPrefixOf_iff_prefix.mp hp, (List.mem_tails ..).mp ht⟩
  · intro h
    obtain ⟨t, h1, h2⟩ := List.infix_iff_prefix_suffix.mp h
    exact ⟨t, (List.mem_tails ..).mpr h2, List.isPrefixOf_iff_prefix.mpr h1⟩

/-- **C62 (s).** What counts as a considered rejection: an error response of the server with a code other than -32003
and -32603, whose message does not say that the transaction is already known and, for the code -32000, is none of the
node's own refusals. In particular nothing but a response of the server is one. -/
theorem rejection_iff (r : Reply) : IsRej (classify r) ↔ ∃ code msg, r = .errorResp code msg ∧ code ≠ -32003 ∧
    code ≠ -32603 ∧ ¬ "already known".toList <:+: msg.map Char.toLower ∧
    (code = -32000 → ∀ n ∈ nodeLocal, ¬ n <:+: msg.map Char.toLower) := by
  cases r with
  | success => simp [classify, IsRej]
  | localFault => simp [classify, IsRej]
  | noVerdict => simp [classify, IsRej]
  | timedOut => simp [classify, IsRej]
  | errorResp code msg =>
    have hx : (nodeLocal.any fun n => contains n (msg.map Char.toLower)) = true ↔
        ∃ n ∈ nodeLocal, n <:+: msg.map Char.toLower := by
      rw [List.any_eq_true]
      simp only [contains_iff]
    have hy := contains_iff "already known".toList (msg.map Char.toLower)
    have ht : code ∈ transientCodes ↔ code = -32003 ∨ code = -32603 := by simp [transientCodes]
    constructor
    · rintro ⟨r, hr⟩
      refine ⟨code, msg, rfl, ?_⟩
      unfold classify classifyServer at hr
      dsimp only at hr
      split at hr
      · cases hr
      split at hr
      · cases hr
      split at hr
      · cases hr
      next h1 h2 h3 =>
      rw [ht, not_or] at h1
      refine ⟨h1.1, h1.2, fun h => h2 (hy.mpr h), fun hc n hn hi => h3 ⟨hc, hx.mpr ⟨n, hn, hi⟩⟩⟩
    · rintro ⟨code', msg', he, h1, h2, h3, h4⟩
      cases he
      refine ⟨0, ?_⟩
      unfold classify classifyServer
      dsimp only
      rw [if_neg (by rw [ht]; tauto), if_neg (fun h => h3 (hy.mp h)), if_neg]
      rintro ⟨hc, hh⟩
      obtain ⟨n, hn, hi⟩ := hx.mp hh
      exact h4 hc n hn hi

/-- **C62 (t).** What counts as delivered: success, or an error response with a code other than -32003 and -32603 that
says (in any case) that the transaction is already known. -/
theorem delivery_iff (r : Reply) : classify r = .delivered ↔ r = .success ∨ ∃ code msg, r = .errorResp code msg ∧
    code ≠ -32003 ∧ code ≠ -32603 ∧ "already known".toList <:+: msg.map Char.toLower := by
  cases r with
  | success => simp [classify]
  | localFault => simp [classify]
  | noVerdict => simp [classify]
  | timedOut => simp [classify]
  | errorResp code msg =>
    have hy := contains_iff "already known".toList (msg.map Char.toLower)
    have ht : code ∈ transientCodes ↔ code = -32003 ∨ code = -32603 := by simp [transientCodes]
    constructor
    · intro hr
      refine .inr ⟨code, msg, rfl, ?_⟩
      unfold classify classifyServer at hr
      dsimp only at hr
      split at hr
      · cases hr
      split at hr
      next h1 h2 =>
        rw [ht, not_or] at h1
        exact ⟨h1.1, h1.2, hy.mp h2⟩
      · split at hr <;> cases hr
    · rintro (h | ⟨code', msg', he, h1, h2, h3⟩)
      · cases h
      · cases he
        unfold classify classifyServer
        dsimp only
        rw [if_neg (by rw [ht]; tauto), if_pos (hy.mpr h3)]

/-! ### Examples -/

def exHost : Nat → Option Host
  | 100 => some (.v4 ⟨8, 8, 8, 8⟩)
  | 200 => some (.v4 ⟨9, 9, 9, 9⟩)
  | 300 => some (.v4 ⟨10, 0, 0, 1⟩)
  | 400 => some (.domain "rpc.example.org".toList)
  | _ => none

def exFwd : Fwd := { allowPrivate := false, host := exHost, parses := fun _ => true, counter := 5 }

def exTx : FTx := { id := 1, sender := some [2, 0, 0, 0, 0, 0, 0, 0, 77] }
def exTx' : FTx := { id := 2, sender := none }

/-- Four validators advertise; the one with a private address is not used; the order is rotated by 5 mod 3. -/
example : (exFwd.forward 1000 [exTx, exTx'] [1, 2, 3, 4] [(1, 100), (2, 200), (3, 300), (4, 400)]).2 =
    some { txs := [exTx, exTx'], slots := [1, 2, 3, 4], provs := [(1, 100), (2, 200), (4, 400)], order := [4, 1, 2] } := by
  decide +kernel

example : owner [1, 2, 3, 4] exTx = some 3 := by decide

/-- The owner (validator 1, say) rejects, the next accepts: delivered. -/
example : outcome (fun k => if k ≤ 4 then some (100 * k) else none)
    (fun k => if k = 1 then .rejected 7 else .delivered) [1, 4, 1, 2] [] none = .delivered := by decide

/-- The owner rejects, the next gives no verdict, the third rejects: rejected. -/
example : outcome (fun k => if k ≤ 4 then some (100 * k) else none)
    (fun k => if k = 4 then .unreachable else .rejected k) [1, 4, 1, 2] [] none = .rejected 2 := by decide

/-- Two keys with one endpoint: one server's word counts as two verdicts, although validator 2 would accept. -/
theorem shared_endpoint : ∃ (prov : Nat → Option Nat) (ans : Nat → Disp) (keys : List Nat),
    prov 1 = prov 4 ∧ ans 2 = .delivered ∧ 2 ∈ keys ∧ (prov 2).isSome = true ∧
    outcome prov ans keys [] none = .rejected 7 :=
  ⟨fun k => if k = 2 then some 200 else some 100, fun k => if k = 2 then .delivered else .rejected 7, [1, 4, 2],
    by decide, by decide, by decide, by decide, by decide⟩

/-- A batch of two: the first is delivered, the deadline of the batch cuts the second off, which is handed back. -/
def exTally : Tally :=
  run [1, 2, 3, 4] [4, 1, 2] (fun k => if k ≤ 4 then some (100 * k) else none) [exTx, exTx']
    [⟨fun k => if k = 3 then .unreachable else .delivered, none, false⟩] {}

example : exTally.delivered = 1 ∧ exTally.requeued = [exTx'] ∧ exTally.effects = [.demote 300] ∧
    exTally.abandoned 2 = 1 := by decide

example : FReach false exHost (fun _ => true)
    (exFwd.forward 1000 [exTx, exTx'] [1, 2, 3, 4] [(1, 100), (2, 200), (3, 300), (4, 400)]).1 :=
  .step (.start 5) (.forward ..)

example : classify (.errorResp (-32000) "Already Known".toList) = .delivered := by decide +kernel
example : classify (.errorResp (-32000) "nonce too low".toList) = .rejected 0 := by decide +kernel
example : classify (.errorResp (-32000) "replacement transaction underpriced".toList) = .tryNext := by decide +kernel

end Tx
end Verif
