import Verif.Tx.Forward
import Mathlib.Data.List.Basic
import Mathlib.Data.List.Rotate
/-
C62: the walk of a transaction along the validators.
-/
namespace Verif
namespace Tx

/-- A considered rejection. -/
def IsRej (d : Disp) : Prop := ∃ r, d = .rejected r

/-- The variables of a walk that has not come to a verdict, after the validators in `seen`; `u0` and `c0` are the
endpoints recorded as unreachable, and the budget, at its start. -/
structure WInv (prov : Nat → Option Nat) (ans : Nat → Disp) (u0 : List Nat) (c0 : Option Nat) (seen : List Nat)
    (w : Walk) : Prop where
  triedSeen : ∀ k, k ∈ w.tried ↔ k ∈ seen
  nodup : w.asked.Nodup
  askedTried : ∀ k ∈ w.asked, k ∈ w.tried
  askedProv : ∀ k ∈ w.asked, ∃ u, prov k = some u ∧ u ∉ u0
  noDeliv : ∀ k ∈ w.asked, ans k ≠ .delivered
  heldNone : w.held = none → ∀ k ∈ w.asked, ¬ IsRej (ans k)
  heldSome : ∀ k r, w.held = some (k, r) →
    k ∈ w.asked ∧ ans k = .rejected r ∧ ∀ k' ∈ w.asked, k' ≠ k → ¬ IsRej (ans k')
  unrOld : ∀ u ∈ u0, u ∈ w.unreachable
  unrNew : ∀ u ∈ w.unreachable, u ∈ u0 ∨ (∃ k ∈ w.asked, prov k = some u ∧ ans k = .unreachable)
  effs : ∀ e ∈ w.effects, ∃ u, e = .demote u ∧ u ∉ u0 ∧ ∃ k ∈ w.asked, prov k = some u ∧ ans k = .unreachable
  effsAll : ∀ k ∈ w.asked, ans k = .unreachable → ∃ u, prov k = some u ∧ u ∈ w.unreachable ∧ Eff.demote u ∈ w.effects
  cover : ∀ k ∈ w.tried, ∀ u, prov k = some u → k ∈ w.asked ∨ u ∈ w.unreachable
  budget : w.cut = c0.map (· - w.asked.length)
  budgetLe : ∀ c, c0 = some c → w.asked.length ≤ c

/-- How a walk along `keys` ends. -/
inductive Ends (prov : Nat → Option Nat) (ans : Nat → Disp) (u0 : List Nat) (c0 : Option Nat) (keys : List Nat) :
    Outcome → Bool → Walk → Prop
  | delivered {seen : List Nat} {w : Walk} {k u : Nat} (h : WInv prov ans u0 c0 seen w) (hk : k ∉ w.asked) (hin : k ∈ keys)
      (hsub : ∀ x ∈ seen, x ∈ keys)
      (hp : prov k = some u) (hu : u ∉ w.unreachable) (hd : ans k = .delivered) :
      Ends prov ans u0 c0 keys .delivered false { w.ask k with tried := k :: w.tried }
  | confirmed {seen : List Nat} {w : Walk} {k u r k' r' : Nat} (h : WInv prov ans u0 c0 seen w) (hk : k ∉ w.asked)
      (hsub : ∀ x ∈ seen, x ∈ keys)
      (hin : k ∈ keys) (hp : prov k = some u) (hu : u ∉ w.unreachable) (hr : ans k = .rejected r)
      (hh : w.held = some (k', r')) :
      Ends prov ans u0 c0 keys (.rejected r) false { w.ask k with tried := k :: w.tried }
  | exhausted {w : Walk} (h : WInv prov ans u0 c0 keys w) : Ends prov ans u0 c0 keys w.standing false w
  | expired {seen : List Nat} {w : Walk} {k u c : Nat} (h : WInv prov ans u0 c0 seen w) (hsub : ∀ x ∈ seen, x ∈ keys) (hin : k ∈ keys)
      (hk : k ∉ w.asked) (hp : prov k = some u) (hu : u ∉ w.unreachable) (hc : c0 = some c) (ha : w.asked.length = c) :
      Ends prov ans u0 c0 keys w.standing true { w with tried := k :: w.tried }

section
variable {prov : Nat → Option Nat} {ans : Nat → Disp} {u0 : List Nat} {c0 : Option Nat}

/-- a validator that is passed over -/
theorem WInv.pass {seen : List Nat} {w : Walk} (h : WInv prov ans u0 c0 seen w) {k : Nat}
    (hc : ∀ u, prov k = some u → u ∈ w.unreachable) :
    WInv prov ans u0 c0 (seen ++ [k]) { w with tried := k :: w.tried } where
  triedSeen := by
    intro x
    simp only [List.mem_cons, List.mem_append, List.mem_singleton, List.not_mem_nil, or_false, h.triedSeen x]
    tauto
  nodup := h.nodup
  askedTried := fun x hx => List.mem_cons_of_mem _ (h.askedTried x hx)
  askedProv := h.askedProv
  noDeliv := h.noDeliv
  heldNone := h.heldNone
  heldSome := h.heldSome
  unrOld := h.unrOld
  unrNew := h.unrNew
  effs := h.effs
  effsAll := h.effsAll
  cover := by
    intro x hx u hu
    rcases List.mem_cons.mp hx with hx | hx
    · subst hx; exact .inr (hc u hu)
    · exact h.cover x hx u hu
  budget := h.budget
  budgetLe := h.budgetLe

/-- a validator seen before -/
theorem WInv.again {seen : List Nat} {w : Walk} (h : WInv prov ans u0 c0 seen w) {k : Nat} (hk : k ∈ w.tried) :
    WInv prov ans u0 c0 (seen ++ [k]) w where
  triedSeen := by
    intro x
    rw [List.mem_append, List.mem_singleton, ← h.triedSeen x]
    constructor
    · exact fun hx => .inl hx
    · rintro (hx | hx)
      · exact hx
      · rw [hx]; exact hk
  nodup := h.nodup
  askedTried := h.askedTried
  askedProv := h.askedProv
  noDeliv := h.noDeliv
  heldNone := h.heldNone
  heldSome := h.heldSome
  unrOld := h.unrOld
  unrNew := h.unrNew
  effs := h.effs
  effsAll := h.effsAll
  cover := h.cover
  budget := h.budget
  budgetLe := h.budgetLe

/-- a validator that is asked and gives no verdict that ends the walk -/
theorem WInv.asks {seen : List Nat} {w : Walk} (h : WInv prov ans u0 c0 seen w) {k u : Nat} (hk : k ∉ w.tried)
    (hp : prov k = some u) (hu : u ∉ w.unreachable) (hcut : w.cut ≠ some 0) (hd : ans k ≠ .delivered)
    {w' : Walk} (ht : w'.tried = k :: w.tried) (ha : w'.asked = w.asked ++ [k]) (hc : w'.cut = w.cut.map (· - 1))
    (hheld : (IsRej (ans k) ∧ w.held = none ∧ ∃ r, ans k = .rejected r ∧ w'.held = some (k, r)) ∨
      (¬ IsRej (ans k) ∧ w'.held = w.held))
    (hun : (ans k = .unreachable ∧ w'.unreachable = u :: w.unreachable ∧ w'.effects = w.effects ++ [.demote u]) ∨
      (ans k ≠ .unreachable ∧ w'.unreachable = w.unreachable ∧ w'.effects = w.effects)) :
    WInv prov ans u0 c0 (seen ++ [k]) w' := by
  have hka : k ∉ w.asked := fun hx => hk (h.askedTried k hx)
  have hu0 : u ∉ u0 := fun hx => hu (h.unrOld u hx)
  have hmono : ∀ x ∈ w.unreachable, x ∈ w'.unreachable := by
    intro x hx
    rcases hun with ⟨_, h2, _⟩ | ⟨_, h2, _⟩
    · rw [h2]; exact List.mem_cons_of_mem _ hx
    · rw [h2]; exact hx
  have hemono : ∀ x ∈ w.effects, x ∈ w'.effects := by
    intro x hx
    rcases hun with ⟨_, _, h2⟩ | ⟨_, _, h2⟩
    · rw [h2]; exact List.mem_append_left _ hx
    · rw [h2]; exact hx
  refine ⟨?_, ?_, ?_, ?_, ?_, ?_, ?_, ?_, ?_, ?_, ?_, ?_, ?_, ?_⟩
  · intro x
    rw [ht]
    simp only [List.mem_cons, List.mem_append, List.mem_singleton, List.not_mem_nil, or_false, h.triedSeen x]
    tauto
  · rw [ha, List.nodup_append]
    refine ⟨h.nodup, List.nodup_singleton k, ?_⟩
    intro x hx y hy hxy
    rw [List.mem_singleton.mp hy] at hxy
    exact hka (hxy ▸ hx)
  · intro x hx
    rw [ha] at hx
    rw [ht]
    rcases List.mem_append.mp hx with hx | hx
    · exact List.mem_cons_of_mem _ (h.askedTried x hx)
    · rw [List.mem_singleton.mp hx]; exact List.mem_cons_self ..
  · intro x hx
    rw [ha] at hx
    rcases List.mem_append.mp hx with hx | hx
    · exact h.askedProv x hx
    · rw [List.mem_singleton.mp hx]; exact ⟨u, hp, hu0⟩
  · intro x hx
    rw [ha] at hx
    rcases List.mem_append.mp hx with hx | hx
    · exact h.noDeliv x hx
    · rw [List.mem_singleton.mp hx]; exact hd
  · intro hn x hx
    rw [ha] at hx
    rcases hheld with ⟨_, _, r, _, hh⟩ | ⟨hnr, hh⟩
    · rw [hh] at hn; cases hn
    · rcases List.mem_append.mp hx with hx | hx
      · exact h.heldNone (by rw [← hh]; exact hn) x hx
      · rw [List.mem_singleton.mp hx]; exact hnr
  · intro x r hx
    rw [ha]
    rcases hheld with ⟨_, hn, r', hr', hh⟩ | ⟨hnr, hh⟩
    · rw [hh] at hx
      cases hx
      refine ⟨by simp, hr', ?_⟩
      intro y hy hne
      rcases List.mem_append.mp hy with hy | hy
      · exact h.heldNone hn y hy
      · exact absurd (List.mem_singleton.mp hy) hne
    · rw [hh] at hx
      obtain ⟨h1, h2, h3⟩ := h.heldSome x r hx
      refine ⟨List.mem_append_left _ h1, h2, ?_⟩
      intro y hy hne
      rcases List.mem_append.mp hy with hy | hy
      · exact h3 y hy hne
      · rw [List.mem_singleton.mp hy]; exact hnr
  · exact fun x hx => hmono x (h.unrOld x hx)
  · intro x hx
    have hold : x ∈ w.unreachable → x ∈ u0 ∨ ∃ k ∈ w'.asked, prov k = some x ∧ ans k = .unreachable := by
      intro hx
      rcases h.unrNew x hx with h1 | ⟨y, h1, h2⟩
      · exact .inl h1
      · exact .inr ⟨y, by rw [ha]; exact List.mem_append_left _ h1, h2⟩
    rcases hun with ⟨h1, h2, _⟩ | ⟨_, h2, _⟩
    · rw [h2] at hx
      rcases List.mem_cons.mp hx with hx | hx
      · exact .inr ⟨k, by rw [ha]; simp, by rw [hx]; exact hp, h1⟩
      · exact hold hx
    · rw [h2] at hx; exact hold hx
  · intro e he
    have hold : e ∈ w.effects → ∃ u, e = .demote u ∧ u ∉ u0 ∧ ∃ k ∈ w'.asked, prov k = some u ∧ ans k = .unreachable := by
      intro he
      obtain ⟨v, h1, h2, y, h3, h4⟩ := h.effs e he
      exact ⟨v, h1, h2, y, by rw [ha]; exact List.mem_append_left _ h3, h4⟩
    rcases hun with ⟨h1, _, h2⟩ | ⟨_, _, h2⟩
    · rw [h2] at he
      rcases List.mem_append.mp he with he | he
      · exact hold he
      · exact ⟨u, List.mem_singleton.mp he, hu0, k, by rw [ha]; simp, hp, h1⟩
    · rw [h2] at he; exact hold he
  · intro x hx hxa
    rw [ha] at hx
    rcases List.mem_append.mp hx with hx | hx
    · obtain ⟨v, h1, h2, h3⟩ := h.effsAll x hx hxa
      exact ⟨v, h1, hmono v h2, hemono _ h3⟩
    · rw [List.mem_singleton.mp hx] at hxa ⊢
      rcases hun with ⟨_, h2, h3⟩ | ⟨h1, _⟩
      · exact ⟨u, hp, by rw [h2]; simp, by rw [h3]; simp⟩
      · exact absurd hxa h1
  · intro x hx v hv
    rw [ht] at hx
    rw [ha]
    rcases List.mem_cons.mp hx with hx | hx
    · left; rw [hx]; simp
    · rcases h.cover x hx v hv with h1 | h1
      · exact .inl (List.mem_append_left _ h1)
      · exact .inr (hmono v h1)
  · rw [hc, h.budget, ha, Option.map_map, List.length_append]
    congr 1
  · intro c hc0
    rw [ha, List.length_append]
    have hb := h.budget
    rw [hc0] at hb
    have : w.cut = some (c - w.asked.length) := hb
    have h1 : c - w.asked.length ≠ 0 := fun h0 => hcut (by rw [this, h0])
    simp only [List.length_singleton]
    omega

theorem walk_ends (keys : List Nat) : ∀ (seen : List Nat) (w : Walk), WInv prov ans u0 c0 seen w →
    Ends prov ans u0 c0 (seen ++ keys) (walk prov ans keys w).1 (walk prov ans keys w).2.1
      (walk prov ans keys w).2.2 := by
  induction keys with
  | nil =>
    intro seen w h
    rw [walk, List.append_nil]
    exact .exhausted h
  | cons k ks ih =>
    intro seen w h
    have hkin : k ∈ seen ++ k :: ks := by simp
    have hsub : ∀ x ∈ seen, x ∈ seen ++ k :: ks := fun x hx => List.mem_append_left _ hx
    have hassoc : seen ++ k :: ks = (seen ++ [k]) ++ ks := by simp
    rw [walk]
    by_cases h1 : k ∈ w.tried
    · rw [if_pos h1, hassoc]
      exact ih _ _ (h.again h1)
    rw [if_neg h1]
    dsimp only
    have hka : k ∉ w.asked := fun hx => h1 (h.askedTried k hx)
    cases hp : prov k with
    | none =>
      dsimp only
      rw [hassoc]
      exact ih _ _ (h.pass (fun u hu => by rw [hp] at hu; cases hu))
    | some u =>
      dsimp only
      by_cases h2 : u ∈ w.unreachable
      · rw [if_pos h2, hassoc]
        exact ih _ _ (h.pass (fun v hv => by rw [hp] at hv; cases hv; exact h2))
      rw [if_neg h2]
      by_cases h3 : w.cut = some 0
      · rw [if_pos h3]
        have hb := h.budget
        rw [h3] at hb
        cases hc : c0 with
        | none => rw [hc] at hb; cases hb
        | some c =>
          rw [hc] at hb
          have hb : 0 = c - w.asked.length := Option.some.inj hb
          have hle := h.budgetLe c hc
          subst hc
          exact .expired h hsub hkin hka hp h2 rfl (by omega)
      rw [if_neg h3]
      cases hd : ans k with
      | delivered =>
        dsimp only
        have hl : Walk.lift (Walk.ask { w with tried := k :: w.tried } k) u = { w.ask k with tried := k :: w.tried } := by
          unfold Walk.lift
          rw [if_neg (by exact h2)]
          rfl
        rw [hl]
        exact .delivered h hka hkin hsub hp h2 hd
      | rejected r =>
        dsimp only
        have hw1 : Walk.ask { w with tried := k :: w.tried } k = { w.ask k with tried := k :: w.tried } := rfl
        generalize Walk.ask { w with tried := k :: w.tried } k = w1 at hw1 ⊢
        have hhe : w1.held = w.held := by rw [hw1]; rfl
        rw [hhe]
        cases hw : w.held with
        | some p =>
          dsimp only
          rw [hw1]
          exact .confirmed h hka hsub hkin hp h2 hd (k' := p.1) (r' := p.2) (by rw [hw])
        | none =>
          dsimp only
          rw [hassoc]
          exact ih _ _ (h.asks h1 hp h2 h3 (by rw [hd]; simp) (by rw [hw1]) (by rw [hw1]; rfl)
            (by rw [hw1]; rfl) (.inl ⟨⟨r, hd⟩, hw, r, hd, rfl⟩)
            (.inr ⟨by rw [hd]; simp, (by rw [hw1]; rfl), (by rw [hw1]; rfl)⟩))
      | tryNext =>
        dsimp only
        rw [hassoc]
        exact ih _ _ (h.asks h1 hp h2 h3 (by rw [hd]; simp) rfl rfl rfl
          (.inr ⟨(by rw [hd]; rintro ⟨r, hr⟩; cases hr), rfl⟩) (.inr ⟨by rw [hd]; simp, rfl, rfl⟩))
      | unreachable =>
        dsimp only
        have hl : Walk.demote (Walk.ask { w with tried := k :: w.tried } k) u =
            { w.ask k with tried := k :: w.tried, unreachable := u :: w.unreachable,
                           effects := w.effects ++ [.demote u] } := by
          unfold Walk.demote
          rw [if_neg (by exact h2)]
          rfl
        rw [hl, hassoc]
        exact ih _ _ (h.asks h1 hp h2 h3 (by rw [hd]; simp) rfl rfl rfl
          (.inr ⟨(by rw [hd]; rintro ⟨r, hr⟩; cases hr), rfl⟩) (.inl ⟨hd, rfl, rfl⟩))

theorem winv_init (u0 : List Nat) (c0 : Option Nat) :
    WInv prov ans u0 c0 [] { unreachable := u0, cut := c0 } where
  triedSeen := by simp
  nodup := List.nodup_nil
  askedTried := by simp
  askedProv := by simp
  noDeliv := by simp
  heldNone := by simp
  heldSome := by intro k r h; cases h
  unrOld := fun _ h => h
  unrNew := fun _ h => .inl h
  effs := by simp
  effsAll := by simp
  cover := by simp
  budget := by cases c0 <;> rfl
  budgetLe := by simp

end

/-- A walk along `keys` from its start. -/
def walkFrom (prov : Nat → Option Nat) (ans : Nat → Disp) (keys u0 : List Nat) (c0 : Option Nat) :
    Outcome × Bool × Walk := walk prov ans keys { unreachable := u0, cut := c0 }

theorem walkFrom_ends (prov : Nat → Option Nat) (ans : Nat → Disp) (keys u0 : List Nat) (c0 : Option Nat) :
    Ends prov ans u0 c0 keys (walkFrom prov ans keys u0 c0).1 (walkFrom prov ans keys u0 c0).2.1
      (walkFrom prov ans keys u0 c0).2.2 := by
  have := walk_ends (prov := prov) (ans := ans) keys [] _ (winv_init u0 c0)
  simpa [walkFrom] using this

end Tx
end Verif
