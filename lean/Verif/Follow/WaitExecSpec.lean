import Verif.Follow.WaitExecProps
/-
Waiting for execution: what success and failure mean, what the ring holds (C101).
-/
namespace Verif.Wex

variable {cap dflt : Nat}

/-- **The ring is exact**: when every persisted output has been reported and delivered, the ring holds the last blocks
of the last `cap` outputs of the persisted chain, in order. This includes the state after a restart. -/
theorem ring_exact (hc : 0 < cap) {s : S} (h : Reach cap dflt s) (hp : s.prime = []) (hq : s.queue = [])
    (ha : s.ann = none) : s.ring.tips = lastK cap (tips 0 s.db) := by
  obtain ⟨sk, i⟩ := h.inv hc
  obtain ⟨pre, h1, h2⟩ := i.ring
  have hpt : pendTips s = [] := by simp [pendTips, hp, hq, ha]
  rw [hpt, List.append_nil] at h1
  rw [hp] at h2
  have hl := i.len
  rw [hp] at hl
  simp only [List.length_nil, Nat.add_zero] at h2 hl
  rw [h1]
  unfold lastK
  rw [List.length_append]
  rcases h2 with rfl | h2
  · rw [show ([] : List (Nat × Blk)).length + s.ring.tips.length - cap = 0 by simp; omega]; simp
  · rw [show pre.length + s.ring.tips.length - cap = pre.length by omega]; simp

/-- **The ring never leads the database**: every block in it, and every reported block on its way, is the persisted
block with that number. -/
theorem ring_behind (hc : 0 < cap) {s : S} (h : Reach cap dflt s) {n : Nat} {b : Blk}
    (hm : (n, b) ∈ s.ring.tips ∨ ∃ u, (u ∈ s.queue ∨ u ∈ s.ann) ∧ u.tip = some (n, b)) : s.db[n]? = some b := by
  obtain ⟨sk, i⟩ := h.inv hc
  rcases hm with hm | ⟨u, hu, ht⟩
  · exact i.tip_mem (.inl hm)
  · refine i.tip_mem (.inr ?_)
    unfold pendTips
    rcases hu with hu | hu
    · exact List.mem_append_left _ (List.mem_append_right _ (List.mem_filterMap.mpr ⟨u, hu, ht⟩))
    · refine List.mem_append_right _ ?_
      have hu : s.ann = some u := hu
      rw [hu]; simp [ht]

/-- A restart never fails. -/
theorem restart_works (hc : 0 < cap) {s : S} (h : Reach cap dflt s) : ∃ s', step cap dflt s .restart = some s' := by
  obtain ⟨sk, i⟩ := h.inv hc
  refine ⟨{ db := s.db, prime := lastK cap (tips 0 s.db) }, ?_⟩
  dsimp only [step]
  rw [restore_spec i.ne]

/-- **Success means executed**: the hash asked for is that of a persisted block. -/
theorem ok_executed (hc : 0 < cap) {s : S} (h : Reach cap dflt s) {w : Nat} {x : W} (hw : s.ws[w]? = some x)
    (hx : x.ph = .done true) : ∃ (n : Nat) (b : Blk), s.db[n]? = some b ∧ b.hash = x.hash := by
  obtain ⟨sk, i⟩ := h.inv hc
  exact (i.ws x (List.mem_of_getElem? hw)).ok hx

/-- **Failure means a fork**: a call gives up only when another block is persisted at the number asked for, or the
database read failed, or no reader was installed. -/
theorem err_is_fork (hc : 0 < cap) {s s' : S} (h : Reach cap dflt s) {w : Nat} {fail : Bool} {x y : W}
    (hw : s.ws[w]? = some x) (hs : step cap dflt s (.go w fail) = some s')
    (hy : s'.ws[w]? = some y) (he : y.ph = .done false) :
    (∃ b, s.db[x.num]? = some b ∧ b.hash ≠ x.hash) ∨ fail = true ∨ s.reader = false := by
  obtain ⟨sk, i⟩ := h.inv hc
  dsimp only [step] at hs
  rw [hw] at hs
  simp only at hs
  obtain ⟨z, hz, rfl⟩ := Option.map_eq_some_iff.mp hs
  have hzy : z = y := by
    have : (s.ws.set w z)[w]? = some z := List.getElem?_set_self (List.getElem?_eq_some_iff.mp hw).1
    rw [this] at hy; exact Option.some.inj hy
  subst hzy
  have wok := i.ws x (List.mem_of_getElem? hw)
  unfold goW at hz
  split at hz
  · cases hz; exfalso; revert he; show ¬ (if _ then Ph.emptyWait else Ph.readNum) = _; split <;> simp
  · split at hz
    · cases hz; cases he
    · cases hz
  · cases hz; exfalso; revert he; show ¬ (if _ then Ph.numWait else Ph.readRing) = _; split <;> simp
  · split at hz
    · cases hz; cases he
    · cases hz
  · cases hz; exfalso; revert he; show ¬ (if _ then Ph.done true else Ph.readDb) = _; split <;> simp
  · rename_i hp
    cases hz
    have he : Ph.done (confirms s x.num x.hash fail) = .done false := he
    have hcf : confirms s x.num x.hash fail = false := by injection he
    have hlt := Nat.lt_of_le_of_lt (wok.le (.inr hp)) (i.latest_lt (wok.ne (.inr (.inr (.inr hp)))))
    have hb : s.db[x.num]? = some s.db[x.num] := List.getElem?_eq_getElem hlt
    unfold confirms at hcf
    rw [hb] at hcf
    cases fail with
    | true => exact .inr (.inl rfl)
    | false =>
      cases hr : s.reader with
      | false => exact .inr (.inr rfl)
      | true =>
        rw [hr] at hcf
        exact .inl ⟨_, hb, by simpa using hcf⟩
  · cases hz

/-- **An honest header is never refused**: what one node reports as its latest block, another whose chain agrees at
that height never takes for a fork (reads working). -/
theorem own_tip_accepted (hc : 0 < cap) {a : S} (hA : Reach cap dflt a) {n : Nat} {b : Blk}
    (hl : a.ring.tips.getLast? = some (n, b)) {s s' : S} (h : Reach cap dflt s)
    (hagree : ∀ c, s.db[n]? = some c → a.db[n]? = some c) (hr : s.reader = true) {w : Nat} {x y : W}
    (hw : s.ws[w]? = some x) (hxn : x.num = n) (hxh : x.hash = b.hash)
    (hs : step cap dflt s (.go w false) = some s') (hy : s'.ws[w]? = some y) : y.ph ≠ .done false := by
  intro he
  rcases err_is_fork hc h hw hs hy he with ⟨c, h1, h2⟩ | h1 | h1
  · have hab := ring_behind hc hA (.inl (List.mem_of_getLast? hl))
    rw [hxn] at h1
    rw [hagree c h1] at hab
    cases hab
    exact h2 hxh.symm
  · cases h1
  · rw [hr] at h1; cases h1

/-- **A call waits only for what is not there yet**: one that cannot go on faces an empty ring, or one whose latest
block is below the number asked for. -/
theorem blocked_only_behind (hc : 0 < cap) {s : S} (h : Reach cap dflt s) {w : Nat} {x : W} (hw : s.ws[w]? = some x)
    (hb : goW s x false = none) (hx : ∀ r, x.ph ≠ .done r) : s.ring.tips = [] ∨ latestNum s.ring < x.num := by
  obtain ⟨sk, i⟩ := h.inv hc
  have wok := i.ws x (List.mem_of_getElem? hw)
  unfold goW at hb
  split at hb
  · cases hb
  · rename_i hp
    split at hb
    · cases hb
    · rename_i hlt; exact .inl (wok.ew hp (by have := wok.seen; omega))
  · cases hb
  · rename_i hp
    split at hb
    · cases hb
    · rename_i hlt; exact .inr (wok.nw hp (by have := wok.seen; omega))
  · cases hb
  · cases hb
  · rename_i r hp; exact absurd hp (hx r)

/-- The own steps of a call, the ring at rest, all reads working. -/
def goN (s : S) : Nat → W → W
  | 0, x => x
  | k + 1, x => match goW s x false with
    | some y => goN s k y
    | none => x

/-- **A call whose block number is reached returns** after at most six steps of its own. -/
theorem returns_when_reached (hc : 0 < cap) {s : S} (h : Reach cap dflt s) {w : Nat} {x : W} (hw : s.ws[w]? = some x)
    (hne : s.ring.tips ≠ []) (hn : x.num ≤ latestNum s.ring) : ∃ r, (goN s 6 x).ph = .done r := by
  obtain ⟨sk, i⟩ := h.inv hc
  have wok := i.ws x (List.mem_of_getElem? hw)
  have hemp : s.ring.tips.isEmpty = false := by simp [hne]
  have hnlt : ¬ latestNum s.ring < x.num := by omega
  have dn : ∀ k (x : W) r, x.ph = .done r → (goN s k x).ph = .done r := by
    intro k
    induction k with
    | zero => intro x r hp; exact hp
    | succ k _ =>
      intro x r hp
      have : goW s x false = none := by unfold goW; rw [hp]
      show (match goW s x false with | some y => goN s k y | none => x).ph = _
      rw [this]; exact hp
  have s1 : ∀ k (x : W), x.ph = .readDb → ∃ r, (goN s (k + 1) x).ph = .done r := by
    intro k x hp
    have : goW s x false = some { x with ph := .done (confirms s x.num x.hash false) } := by unfold goW; rw [hp]
    show ∃ r, (match goW s x false with | some y => goN s k y | none => x).ph = _
    rw [this]; exact ⟨_, dn k _ _ rfl⟩
  have s2 : ∀ k (x : W), x.ph = .readRing → ∃ r, (goN s (k + 2) x).ph = .done r := by
    intro k x hp
    have : goW s x false = some { x with ph := if containsHash s.ring x.hash then .done true else .readDb } := by
      unfold goW; rw [hp]
    show ∃ r, (match goW s x false with | some y => goN s (k + 1) y | none => x).ph = _
    rw [this]
    by_cases hch : containsHash s.ring x.hash = true
    · exact ⟨true, dn (k + 1) _ _ (by simp [hch])⟩
    · exact s1 k _ (by simp [hch])
  have s3 : ∀ k (x : W), x.num ≤ latestNum s.ring → x.ph = .readNum → ∃ r, (goN s (k + 3) x).ph = .done r := by
    intro k x hn hp
    have hnlt : ¬ latestNum s.ring < x.num := by omega
    have : goW s x false = some { x with ph := .readRing } := by unfold goW; rw [hp]; simp only [if_neg hnlt]
    show ∃ r, (match goW s x false with | some y => goN s (k + 2) y | none => x).ph = _
    rw [this]; exact s2 k _ rfl
  have s4 : ∀ k (x : W), x.num ≤ latestNum s.ring → x.ph = .checkEmpty → ∃ r, (goN s (k + 4) x).ph = .done r := by
    intro k x hn hp
    have : goW s x false = some { x with ph := .readNum } := by
      unfold goW; rw [hp]; simp [hemp]
    show ∃ r, (match goW s x false with | some y => goN s (k + 3) y | none => x).ph = _
    rw [this]; exact s3 k _ hn rfl
  cases hp : x.ph with
  | done r => exact ⟨r, dn 6 x r hp⟩
  | readDb => exact s1 5 x hp
  | readRing => exact s2 4 x hp
  | readNum => exact s3 3 x hn hp
  | checkEmpty => exact s4 2 x hn hp
  | numWait =>
    have hlt : x.seen < s.version := by
      have h1 := wok.seen
      by_contra hge
      exact hnlt (wok.nw hp (by omega))
    have : goW s x false = some { x with ph := .readNum, seen := s.version } := by
      unfold goW; rw [hp]; simp only [if_pos hlt]
    show ∃ r, (match goW s x false with | some y => goN s 5 y | none => x).ph = _
    rw [this]; exact s3 2 _ hn rfl
  | emptyWait =>
    have hlt : x.seen < s.version := by
      have h1 := wok.seen
      by_contra hge
      exact hne (wok.ew hp (by omega))
    have : goW s x false = some { x with ph := .checkEmpty, seen := s.version } := by
      unfold goW; rw [hp]; simp only [if_pos hlt]
    show ∃ r, (match goW s x false with | some y => goN s 5 y | none => x).ph = _
    rw [this]; exact s4 1 _ hn rfl

/-- **Success of a wait for a consensus output means processed**: the output's digest is carried by a persisted
block, or the output was skipped (or it is the default digest, which genesis stands for). -/
theorem consensus_ok (hc : 0 < cap) {s0 s : S} {es : List Ev} (h0 : Init cap s0) (h : runs cap dflt s0 es = some s)
    {c : Nat} {x : C} (hw : s.cs[c]? = some x) (hx : x.ph = .done) :
    x.ch = dflt ∨ Ev.skip x.ch ∈ es ∨ ∃ (n : Nat) (b : Blk), s.db[n]? = some b ∧ b.root = some x.ch := by
  have i := (Inv.init (dflt := dflt) (sk := fun _ => False) h0).runs hc es h
  rcases (i.cs x (List.mem_of_getElem? hw)).ok hx with h | (h | h) | h
  · exact .inl h
  · exact absurd h id
  · exact .inr (.inl h)
  · exact .inr (.inr h)

/-- A wait for a consensus output that cannot go on faces a ring that does not have it. -/
theorem consensus_blocked (hc : 0 < cap) {s : S} (h : Reach cap dflt s) {c : Nat} {x : C} (hw : s.cs[c]? = some x)
    (hb : goCons s x = none) (hx : x.ph ≠ .done) : containsCons s.ring x.ch = false := by
  obtain ⟨sk, i⟩ := h.inv hc
  have cok := i.cs x (List.mem_of_getElem? hw)
  unfold goCons at hb
  split at hb
  · cases hb
  · rename_i hp
    split at hb
    · cases hb
    · rename_i hlt; exact cok.wait hp (by have := cok.seen; omega)
  · rename_i hp; exact absurd hp hx

theorem mem_drop_append {α : Type} {l : List α} {a : α} : a ∈ pushBack cap l a := by simp [pushBack]

/-- The element stays while fewer than `cap` others follow. -/
theorem push_keeps {α : Type} (hc : 0 < cap) (as : List α) : ∀ (l pre : List α) (a : α), l.length ≤ cap →
    (∃ r, l = pre ++ a :: r ∧ r.length + as.length < cap) → a ∈ as.foldl (pushBack cap) l := by
  induction as with
  | nil =>
    rintro l pre a _ ⟨r, rfl, -⟩
    simp
  | cons x as ih =>
    rintro l pre a hl ⟨r, rfl, hlt⟩
    rw [List.length_cons] at hlt
    rw [List.foldl_cons]
    have hlen := pushBack_len (l := pre ++ a :: r) x hc hl
    unfold pushBack at hlen ⊢
    by_cases hge : (pre ++ a :: r).length ≥ cap
    · rw [if_pos hge] at hlen ⊢
      cases pre with
      | nil => simp at hge; omega
      | cons p pre =>
        refine ih _ pre a hlen ⟨r ++ [x], by simp, ?_⟩
        rw [List.length_append, List.length_singleton]; omega
    · rw [if_neg hge] at hlen ⊢
      refine ih _ pre a hlen ⟨r ++ [x], by simp, ?_⟩
      rw [List.length_append, List.length_singleton]; omega

theorem foldl_cons (us : List Upd) (r : Ring) :
    (us.foldl (pushLatest cap) r).cons = (us.map (·.ch)).foldl (pushBack cap) r.cons := by
  induction us generalizing r with
  | nil => rfl
  | cons u us ih => rw [List.foldl_cons, ih]; rfl

theorem foldl_tips (us : List Upd) (r : Ring) :
    (us.foldl (pushLatest cap) r).tips = (us.filterMap (·.tip)).foldl (pushBack cap) r.tips := by
  induction us generalizing r with
  | nil => rfl
  | cons u us ih =>
    rw [List.foldl_cons, ih]
    cases ht : u.tip with
    | none => rw [push_none _ _ ht, List.filterMap_cons, ht]
    | some t => rw [push_some _ _ ht, List.filterMap_cons, ht]; rfl

/-- **How long an output is remembered**: any output while fewer than `cap` outputs follow it; one with blocks while
fewer than `cap` outputs with blocks follow it. -/
theorem remembered (hc : 0 < cap) (r : Ring) (hr : r.cons.length ≤ cap) (hr' : r.tips.length ≤ cap) (u : Upd)
    (us : List Upd) (h : us.length < cap ∨
      ∃ t, u.tip = some t ∧ t.2.root = some u.ch ∧ (us.filterMap (·.tip)).length < cap) :
    containsCons (us.foldl (pushLatest cap) (pushLatest cap r u)) u.ch = true := by
  unfold containsCons
  rw [Bool.or_eq_true]
  rcases h with h | ⟨t, h1, h2, h3⟩
  · left
    rw [foldl_cons]
    refine List.any_eq_true.mpr ⟨u.ch, ?_, by simp⟩
    refine push_keeps hc _ _ (if r.cons.length ≥ cap then r.cons.drop 1 else r.cons) u.ch (pushBack_len u.ch hc hr)
      ⟨[], rfl, ?_⟩
    simp; omega
  · right
    rw [foldl_tips, push_some _ _ h1]
    refine List.any_eq_true.mpr ⟨t, ?_, by simp [h2]⟩
    refine push_keeps hc _ _ (if r.tips.length ≥ cap then r.tips.drop 1 else r.tips) t (pushBack_len t hc hr')
      ⟨[], rfl, ?_⟩
    simp; omega

end Verif.Wex
