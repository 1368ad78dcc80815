import Verif.Follow.WaitExecSpec
/-
The epoch's closing block, and concrete histories (C101).
-/
namespace Verif.Wex

variable {cap dflt : Nat}

/-- The ring is what the pushes `us` made it. -/
structure RingOf (cap : Nat) (r : Ring) (us : List Upd) : Prop where
  cons : r.cons = lastK cap (us.map (·.ch))
  tips : r.tips = lastK cap (us.filterMap (·.tip))

theorem pushBack_lastK {α : Type} (hc : 0 < cap) (l : List α) (a : α) :
    pushBack cap (lastK cap l) a = lastK cap (l ++ [a]) := by
  obtain ⟨k, rfl⟩ : ∃ k, cap = k + 1 := ⟨cap - 1, by omega⟩
  rw [lastK_snoc]
  unfold pushBack
  by_cases h : (lastK (k + 1) l).length ≥ k + 1
  · rw [if_pos h]
    unfold lastK at h ⊢
    rw [List.length_drop] at h
    rw [List.drop_drop, show l.length - (k + 1) + 1 = l.length - k by omega]
  · rw [if_neg h]
    unfold lastK at h ⊢
    rw [List.length_drop] at h
    rw [show l.length - (k + 1) = 0 by omega, show l.length - k = 0 by omega]

theorem RingOf.push (hc : 0 < cap) {r : Ring} {us : List Upd} (h : RingOf cap r us) (u : Upd) :
    RingOf cap (pushLatest cap r u) (us ++ [u]) where
  cons := by
    show pushBack cap r.cons u.ch = _
    rw [h.cons, pushBack_lastK hc]; simp
  tips := by
    cases ht : u.tip with
    | none => rw [push_none _ _ ht, h.tips, List.filterMap_append]; simp [ht]
    | some t =>
      rw [push_some _ _ ht, h.tips, pushBack_lastK hc, List.filterMap_append]; simp [ht]

/-- Digest and tip of a report belong together. -/
def UOk (dflt : Nat) (sk : Nat → Prop) (u : Upd) : Prop :=
  (u.tip = none → sk u.ch) ∧ ∀ t, u.tip = some t → rootOr dflt t.2 = u.ch

theorem UOk.weaken {sk sk' : Nat → Prop} {u : Upd} (h : UOk dflt sk u) (hs : ∀ c, sk c → sk' c) : UOk dflt sk' u :=
  ⟨fun e => hs _ (h.1 e), h.2⟩

/-- The ring comes from pushes of well-formed reports. -/
def Hist (cap dflt : Nat) (sk : Nat → Prop) (s : S) : Prop :=
  (∃ us, RingOf cap s.ring us ∧ ∀ u ∈ us, UOk dflt sk u) ∧ ∀ u, u ∈ s.queue ∨ u ∈ s.ann → UOk dflt sk u

theorem Hist.weaken {sk sk' : Nat → Prop} {s : S} (h : Hist cap dflt sk s) (hs : ∀ c, sk c → sk' c) :
    Hist cap dflt sk' s := by
  obtain ⟨⟨us, h1, h2⟩, h3⟩ := h
  exact ⟨⟨us, h1, fun u hu => (h2 u hu).weaken hs⟩, fun u hu => (h3 u hu).weaken hs⟩

theorem Hist.step (hc : 0 < cap) {sk : Nat → Prop} {s s' : S} (i : Hist cap dflt sk s) (e : Ev)
    (h : step cap dflt s e = some s') : Hist cap dflt (addSk sk e) s' := by
  obtain ⟨⟨us, h1, h2⟩, h3⟩ := i
  cases e with
  | persist hs hh nonce ch =>
    dsimp only [Wex.step] at h
    split at h
    · cases h
      refine ⟨⟨us, h1, h2⟩, ?_⟩
      intro u hu
      rcases hu with hu | hu
      · exact h3 u (.inl hu)
      · cases hu
        exact ⟨fun e => by (cases e), fun t ht => by cases ht; rfl⟩
    · cases h
  | announce =>
    dsimp only [Wex.step] at h
    split at h
    · rename_i u hu
      cases h
      refine ⟨⟨us, h1, h2⟩, ?_⟩
      intro u' hu'
      rcases hu' with hu' | hu'
      · rcases List.mem_append.mp hu' with hu' | hu'
        · exact h3 u' (.inl hu')
        · rw [List.mem_singleton.mp hu']; exact h3 u (.inr (by rw [hu]; rfl))
      · cases hu'
    · cases h
  | skip ch =>
    dsimp only [Wex.step] at h
    split at h
    · cases h
      have hs : ∀ c, sk c → addSk sk (.skip ch) c := fun c h => .inr h
      refine ⟨⟨us, h1, fun u hu => (h2 u hu).weaken hs⟩, ?_⟩
      intro u' hu'
      rcases hu' with hu' | hu'
      · rcases List.mem_append.mp hu' with hu' | hu'
        · exact (h3 u' (.inl hu')).weaken hs
        · rw [List.mem_singleton.mp hu']
          exact ⟨fun _ => .inl rfl, fun t ht => by cases ht⟩
      · exact (h3 u' (.inr hu')).weaken hs
    · cases h
  | deliver =>
    dsimp only [Wex.step] at h
    split at h
    · rename_i u q hq
      cases h
      refine ⟨⟨us ++ [u], h1.push hc u, ?_⟩, ?_⟩
      · intro v hv
        rcases List.mem_append.mp hv with hv | hv
        · exact h2 v hv
        · rw [List.mem_singleton.mp hv]; exact h3 u (.inl (by rw [hq]; exact List.mem_cons_self))
      · intro v hv
        rcases hv with hv | hv
        · exact h3 v (.inl (by rw [hq]; exact List.mem_cons_of_mem _ hv))
        · exact h3 v (.inr hv)
    · cases h
  | install => dsimp only [Wex.step] at h; cases h; exact ⟨⟨us, h1, h2⟩, h3⟩
  | restart =>
    dsimp only [Wex.step] at h
    split at h
    · cases h
      exact ⟨⟨[], ⟨by simp [lastK], by simp [lastK]⟩, fun u hu => by cases hu⟩,
        fun u hu => by rcases hu with hu | hu <;> cases hu⟩
    · cases h
  | primed =>
    dsimp only [Wex.step] at h
    split at h
    · rename_i t l hp
      cases h
      have hpush := h1.push hc (⟨rootOr dflt t.2, some t⟩ : Upd)
      refine ⟨⟨us ++ [(⟨rootOr dflt t.2, some t⟩ : Upd)], hpush, ?_⟩, h3⟩
      intro v hv
      rcases List.mem_append.mp hv with hv | hv
      · exact h2 v hv
      · rw [List.mem_singleton.mp hv]
        exact ⟨fun e => by (cases e), fun t ht => by cases ht; rfl⟩
    · cases h
  | ask num hash => dsimp only [Wex.step] at h; cases h; exact ⟨⟨us, h1, h2⟩, h3⟩
  | go w fail =>
    dsimp only [Wex.step] at h
    split at h
    · obtain ⟨y, hy, rfl⟩ := Option.map_eq_some_iff.mp h; exact ⟨⟨us, h1, h2⟩, h3⟩
    · cases h
  | askC ch => dsimp only [Wex.step] at h; cases h; exact ⟨⟨us, h1, h2⟩, h3⟩
  | goC w =>
    dsimp only [Wex.step] at h
    split at h
    · obtain ⟨y, hy, rfl⟩ := Option.map_eq_some_iff.mp h; exact ⟨⟨us, h1, h2⟩, h3⟩
    · cases h

theorem Hist.runs (hc : 0 < cap) : ∀ (es : List Ev) {sk : Nat → Prop} {s s' : S}, Hist cap dflt sk s →
    runs cap dflt s es = some s' → Hist cap dflt (fun c => sk c ∨ Ev.skip c ∈ es) s' := by
  intro es
  induction es with
  | nil => intro sk s s' i h; cases h; exact i.weaken (fun _ h => .inl h)
  | cons e es ih =>
    intro sk s s' i h
    obtain ⟨s1, h1, h2⟩ := Option.bind_eq_some_iff.mp h
    refine (ih (i.step hc e h1) h2).weaken ?_
    rintro c (h | h)
    · by_cases he : ∃ ch, e = .skip ch
      · obtain ⟨ch, rfl⟩ := he
        rcases h with rfl | h
        · exact .inr List.mem_cons_self
        · exact .inl h
      · left
        cases e <;> first | exact h | exact absurd ⟨_, rfl⟩ he
    · exact .inr (List.mem_cons_of_mem _ h)

theorem Hist.init {s : S} (h : Init cap s) : Hist cap dflt (fun _ => False) s := by
  refine ⟨⟨[], ⟨by rw [h.ring]; simp [lastK], by rw [h.ring]; simp [lastK]⟩, fun u hu => by cases hu⟩, ?_⟩
  intro u hu
  rw [h.queue, h.ann] at hu
  rcases hu with hu | hu <;> cases hu

theorem lastK_append {α : Type} (l : List α) : ∃ pre, l = pre ++ lastK cap l ∧ (lastK cap l).length ≤ cap :=
  ⟨l.take (l.length - cap), by simp [lastK], by simp [lastK]; omega⟩

/-- The last `cap` outputs' tips are among the last `cap` tips. -/
theorem mem_lastK_filterMap {us : List Upd} {u : Upd} {t : Nat × Blk} (hu : u ∈ lastK cap us) (ht : u.tip = some t) :
    t ∈ lastK cap (us.filterMap (·.tip)) := by
  obtain ⟨pre, h1, h2⟩ := lastK_append (cap := cap) us
  have hlen : ((lastK cap us).filterMap (·.tip)).length ≤ cap :=
    Nat.le_trans (List.length_filterMap_le _ _) h2
  have he : us.filterMap (·.tip) = pre.filterMap (·.tip) ++ (lastK cap us).filterMap (·.tip) := by
    conv_lhs => rw [h1]
    rw [List.filterMap_append]
  rw [he]
  unfold lastK
  rw [List.length_append]
  have hk : (pre.filterMap (·.tip)).length + ((lastK cap us).filterMap (·.tip)).length - cap ≤
      (pre.filterMap (·.tip)).length := by omega
  have hd : ∀ (a b : List (Nat × Blk)) (k : Nat), k ≤ a.length → t ∈ b → t ∈ (a ++ b).drop k := by
    intro a b k hk hb
    rw [List.drop_append_of_le_length hk]
    exact List.mem_append_right _ hb
  exact hd _ _ _ hk (List.mem_filterMap.mpr ⟨u, hu, ht⟩)

/-- **After the wait for the closing output the latest block is the closing block**: if the ring knows the digest
`c`, and the only output whose blocks carry it is the last persisted one, which ends with `b`, the ring's latest block is that last
persisted block (close_epoch.rs:346-356 relies on it). -/
theorem closing_block (hc : 0 < cap) {s0 s : S} {es : List Ev} (h0 : Init cap s0) (h : runs cap dflt s0 es = some s)
    {c : Nat} (hk : containsCons s.ring c = true) (hd : c ≠ dflt) (hs : Ev.skip c ∉ es) {b : Blk}
    (huniq : ∀ t ∈ tips 0 s.db, t.2.root = some c → t = (s.db.length - 1, b)) :
    s.ring.tips.getLast? = some (s.db.length - 1, b) := by
  have i := (Inv.init (dflt := dflt) (sk := fun _ => False) h0).runs hc es h
  obtain ⟨⟨us, r, hus⟩, -⟩ := (Hist.init (dflt := dflt) h0).runs hc es h
  have ht : ∃ t ∈ s.ring.tips, t.2.root = some c := by
    unfold containsCons at hk
    rcases (Bool.or_eq_true _ _).mp hk with hk | hk
    · obtain ⟨c', h1, h2⟩ := List.any_eq_true.mp hk
      have : c' = c := by simpa using h2
      subst this
      rw [r.cons] at h1
      have h1 : c' ∈ (lastK cap us).map (·.ch) := by
        unfold lastK at h1 ⊢
        rw [List.length_map] at h1
        rw [List.map_drop]; exact h1
      obtain ⟨u, hu, rfl⟩ := List.mem_map.mp h1
      have hm : u ∈ us := by unfold lastK at hu; exact List.mem_of_mem_drop hu
      obtain ⟨k1, k2⟩ := hus u hm
      cases ht : u.tip with
      | none =>
        rcases k1 ht with k | k
        · exact absurd k id
        · exact absurd k hs
      | some t =>
        refine ⟨t, by rw [r.tips]; exact mem_lastK_filterMap hu ht, ?_⟩
        have := k2 t ht
        unfold rootOr at this
        cases hr : t.2.root with
        | none => rw [hr] at this; exact absurd this.symm hd
        | some x => rw [hr] at this; exact congrArg some this
    · obtain ⟨t, h1, h2⟩ := List.any_eq_true.mp hk
      exact ⟨t, h1, by simpa using h2⟩
  obtain ⟨t, h1, h2⟩ := ht
  obtain ⟨pre, k1, -⟩ := i.ring
  have hmem : t ∈ tips 0 s.db := by
    rw [k1]; exact List.mem_append_left _ (List.mem_append_right _ h1)
  have hte := huniq t hmem h2
  subst hte
  have hne : s.ring.tips ≠ [] := by intro e; rw [e] at h1; cases h1
  have hgl := List.getLast?_eq_some_getLast hne
  have hsort := tips_sorted s.db 0
  rw [k1, List.map_append, List.map_append, List.pairwise_append, List.pairwise_append] at hsort
  have hring := hsort.1.2.1
  -- the last of the ring has a number at least that of `t`, and no tip is above the chain's end
  have hsplit := List.dropLast_concat_getLast hne
  by_cases he : (s.db.length - 1, b) = s.ring.tips.getLast hne
  · rw [hgl, ← he]
  · exfalso
    have hin : (s.db.length - 1, b) ∈ s.ring.tips.dropLast := by
      rw [← hsplit] at h1
      rcases List.mem_append.mp h1 with h | h
      · exact h
      · exact absurd (List.mem_singleton.mp h) he
    rw [← hsplit, List.map_append, List.pairwise_append] at hring
    have hlt := hring.2.2 (s.db.length - 1) (List.mem_map.mpr ⟨_, hin, rfl⟩) (s.ring.tips.getLast hne).1 (by simp)
    have hdb := i.tip_mem (n := (s.ring.tips.getLast hne).1) (b := (s.ring.tips.getLast hne).2) (.inl (List.getLast_mem hne))
    have := (List.getElem?_eq_some_iff.mp hdb).1
    omega

/-- A number that does not go with the hash: the answer depends on whether the ring happens to have the hash, not on
the chain. -/
theorem wrong_number (s : S) {x : W} (hp : x.ph = .readRing) {b : Blk} (hb : s.db[x.num]? = some b) (hn : b.hash ≠ x.hash)
    (hr : s.reader = true) :
    goN s 2 x = { x with ph := .done (containsHash s.ring x.hash) } := by
  have h1 : goW s x false = some { x with ph := if containsHash s.ring x.hash then .done true else .readDb } := by
    unfold goW; rw [hp]
  show (match goW s x false with | some y => goN s 1 y | none => x) = _
  rw [h1]
  cases hc : containsHash s.ring x.hash with
  | true => simp [goN, goW]
  | false => simp [goN, goW, confirms, hb, hr, hn]

namespace Example

/-- Genesis. -/
def g : Blk := ⟨0, 0, none⟩

/-- A fresh node, ring of two. -/
def s0 : S := { db := [g], prime := [(0, g)] }

theorem init0 : Init 2 s0 := ⟨by simp [s0], rfl, rfl, rfl, rfl, rfl, rfl⟩

/-- Two outputs (three blocks and one), a skipped one, another; everything delivered. -/
def life : List Ev :=
  [.install, .primed, .persist [11, 12] 13 1 100, .announce, .persist [] 24 2 101, .announce, .deliver, .skip 102, .deliver,
   .deliver, .persist [] 35 3 103, .announce, .deliver]

/-- The state after it. -/
def s1 : S := (runs 2 77 s0 life).getD s0

theorem life_reach : Reach 2 77 s1 := ⟨s0, life, init0, rfl⟩

/-- `ring_exact` applies: intermediate blocks and the older outputs are not in the ring. -/
theorem s1_ring : s1.ring.tips = [(4, ⟨24, 2, some 101⟩), (5, ⟨35, 3, some 103⟩)] ∧ s1.ring.cons = [102, 103] ∧
    s1.prime = [] ∧ s1.queue = [] ∧ s1.ann = none := by decide

/-- The same after a restart: the skipped output is forgotten. -/
theorem s1_restarted : (runs 2 77 s1 [.restart, .primed, .primed]).map (fun s => (s.ring.tips, s.ring.cons)) =
    some ([(4, ⟨24, 2, some 101⟩), (5, ⟨35, 3, some 103⟩)], [101, 103]) := by decide

/-- A call for an evicted block, one for a block inside an output and one for a forked block: the first two are
confirmed by the database, the third fails (`ok_executed`, `err_is_fork` apply). -/
theorem answers : (runs 2 77 s1 [.ask 3 13, .ask 2 12, .ask 3 99, .ask 6 60,
      .go 0 false, .go 0 false, .go 0 false, .go 0 false, .go 1 false, .go 1 false, .go 1 false, .go 1 false,
      .go 2 false, .go 2 false, .go 2 false, .go 2 false, .go 3 false, .go 3 false]).map (fun s => s.ws.map (·.ph)) =
    some [.done true, .done true, .done false, .numWait] := by decide

/-- A failed read of the database makes an evicted block look like a fork. -/
theorem read_failure : (runs 2 77 s1 [.ask 3 13, .go 0 false, .go 0 false, .go 0 false, .go 0 true]).map
    (fun s => s.ws.map (·.ph)) = some [.done false] := by decide

/-- Two nodes with the same chain, the second one output behind. -/
def s2 : S := (runs 2 77 s0 [.install, .primed, .persist [11, 12] 13 1 100, .announce, .deliver]).getD s0

/-- The claim (number 1, hash 35) passes on the node that has executed block 5 and is a fork for the node that has not,
although the second only had to wait. -/
theorem split : (runs 2 77 s1 [.ask 1 35, .go 0 false, .go 0 false, .go 0 false]).map (fun s => s.ws.map (·.ph)) =
      some [.done true] ∧
    (runs 2 77 s2 [.ask 1 35, .go 0 false, .go 0 false, .go 0 false, .go 0 false]).map (fun s => s.ws.map (·.ph)) =
      some [.done false] ∧
    (runs 2 77 s2 [.ask 5 35, .go 0 false, .go 0 false]).map (fun s => s.ws.map (·.ph)) = some [.numWait] ∧
    s2.db <+: s1.db := by decide

/-- A skipped output processed, then two more outputs: a wait for it that begins now has nothing to wait for and waits. -/
theorem skipped_forgotten : (runs 2 77 s1 [.skip 104, .deliver, .skip 105, .deliver, .askC 102, .goC 0]).map
    (fun s => (s.cs.map (·.ph), s.ring.cons)) = some ([.wait], [104, 105]) := by decide

/-- `closing_block` applies to `s1`, digest 103; `consensus_ok` to a wait for it. -/
theorem closing : containsCons s1.ring 103 = true ∧ s1.db.getLast? = some ⟨35, 3, some 103⟩ ∧
    (∀ t ∈ tips 0 s1.db, t.2.root = some 103 → t = (s1.db.length - 1, ⟨35, 3, some 103⟩)) ∧
    (runs 2 77 s1 [.askC 103, .goC 0]).map (fun s => s.cs.map (·.ph)) = some [.done] := by decide

end Example
end Verif.Wex
