import Verif.Tx.ForwardProps
/-
C62: the theorems about the forwarding of transactions.
-/
namespace Verif
namespace Tx

section
variable (prov : Nat → Option Nat) (ans : Nat → Disp) (keys u0 : List Nat) (c0 : Option Nat)

/-- The outcome of a walk, whether its budget ran out, the validators asked in order, and the rest. -/
def outcome : Outcome := (walkFrom prov ans keys u0 c0).1
def expired : Bool := (walkFrom prov ans keys u0 c0).2.1
def asked : List Nat := (walkFrom prov ans keys u0 c0).2.2.asked

theorem standing_ne {w : Walk} : w.standing ≠ .delivered := by
  unfold Walk.standing; split <;> simp

/-- **C62 (a).** A validator is asked at most once per transaction, only if it is one of those in the list and
usable, and not at an endpoint this batch has found unreachable. -/
theorem asked_ok : (asked prov ans keys u0 c0).Nodup ∧ ∀ k ∈ asked prov ans keys u0 c0,
    k ∈ keys ∧ ∃ u, prov k = some u ∧ u ∉ u0 := by
  have h := walkFrom_ends prov ans keys u0 c0
  unfold asked
  generalize (walkFrom prov ans keys u0 c0).2.2 = w' at h ⊢
  generalize (walkFrom prov ans keys u0 c0).2.1 = x at h
  generalize (walkFrom prov ans keys u0 c0).1 = o at h
  have key : ∀ {seen : List Nat} {w : Walk} {k u : Nat}, WInv prov ans u0 c0 seen w → k ∉ w.asked → k ∈ keys →
      (∀ x ∈ seen, x ∈ keys) → prov k = some u → u ∉ w.unreachable →
      (w.asked ++ [k]).Nodup ∧ ∀ x ∈ w.asked ++ [k], x ∈ keys ∧ ∃ u, prov x = some u ∧ u ∉ u0 := by
    intro seen w k u h hk hin hsub hp hu
    constructor
    · rw [List.nodup_append]
      refine ⟨h.nodup, List.nodup_singleton k, ?_⟩
      intro x hx y hy hxy
      rw [List.mem_singleton.mp hy] at hxy
      exact hk (hxy ▸ hx)
    · intro x hx
      rcases List.mem_append.mp hx with hx | hx
      · exact ⟨hsub x ((h.triedSeen x).mp (h.askedTried x hx)), h.askedProv x hx⟩
      · rw [List.mem_singleton.mp hx]; exact ⟨hin, u, hp, fun hh => hu (h.unrOld u hh)⟩
  cases h with
  | delivered h hk hin hsub hp hu _ => exact key h hk hin hsub hp hu
  | confirmed h hk hsub hin hp hu _ _ => exact key h hk hin hsub hp hu
  | exhausted h => exact ⟨h.nodup, fun x hx => ⟨(h.triedSeen x).mp (h.askedTried x hx), h.askedProv x hx⟩⟩
  | expired h hsub hin hk hp hu _ _ =>
    exact ⟨h.nodup, fun x hx => ⟨hsub x ((h.triedSeen x).mp (h.askedTried x hx)), h.askedProv x hx⟩⟩

/-- **C62 (b).** A transaction counts as delivered exactly if a validator that was asked has accepted it (or had it
already); nobody is asked after that. -/
theorem delivered_iff : outcome prov ans keys u0 c0 = .delivered ↔
    ∃ k ∈ asked prov ans keys u0 c0, ans k = .delivered := by
  have h := walkFrom_ends prov ans keys u0 c0
  unfold asked outcome
  generalize (walkFrom prov ans keys u0 c0).2.2 = w' at h ⊢
  generalize (walkFrom prov ans keys u0 c0).2.1 = x at h
  generalize (walkFrom prov ans keys u0 c0).1 = o at h ⊢
  cases h with
  | @delivered _ w k _ h hk hin hsub hp hu hd =>
    exact ⟨fun _ => ⟨k, by simp [Walk.ask], hd⟩, fun _ => rfl⟩
  | @confirmed _ w k _ r _ _ h hk hsub hin hp hu hr hh =>
    constructor
    · intro h; cases h
    · rintro ⟨k', hk', hd⟩
      have hk' : k' ∈ w.asked ++ [k] := hk'
      rcases List.mem_append.mp hk' with hk' | hk'
      · exact absurd hd (h.noDeliv k' hk')
      · rw [List.mem_singleton.mp hk', hr] at hd; cases hd
  | exhausted h =>
    exact ⟨fun he => absurd he standing_ne, fun ⟨k', hk', hd⟩ => absurd hd (h.noDeliv k' hk')⟩
  | expired h hsub hin hk hp hu _ _ =>
    exact ⟨fun he => absurd he standing_ne, fun ⟨k', hk', hd⟩ => absurd hd (h.noDeliv k' hk')⟩

theorem standing_none {w : Walk} : w.standing = .noEndpoint ↔ w.held = none := by
  unfold Walk.standing; cases w.held <;> simp

/-- **C62 (c).** It counts as without a verdict exactly if no validator that was asked accepted or rejected it. -/
theorem noEndpoint_iff : outcome prov ans keys u0 c0 = .noEndpoint ↔
    ∀ k ∈ asked prov ans keys u0 c0, ans k = .tryNext ∨ ans k = .unreachable := by
  have h := walkFrom_ends prov ans keys u0 c0
  unfold asked outcome
  generalize (walkFrom prov ans keys u0 c0).2.2 = w' at h ⊢
  generalize (walkFrom prov ans keys u0 c0).2.1 = x at h
  generalize (walkFrom prov ans keys u0 c0).1 = o at h ⊢
  have key : ∀ {seen : List Nat} {w : Walk}, WInv prov ans u0 c0 seen w → (w.standing = .noEndpoint ↔
      ∀ k ∈ w.asked, ans k = .tryNext ∨ ans k = .unreachable) := by
    intro seen w h
    rw [standing_none]
    constructor
    · intro hn k hk
      have h1 := h.noDeliv k hk
      have h2 := h.heldNone hn k hk
      cases hd : ans k with
      | delivered => exact absurd hd h1
      | rejected r => exact absurd ⟨r, hd⟩ h2
      | tryNext => exact .inl rfl
      | unreachable => exact .inr rfl
    · intro hall
      cases hh : w.held with
      | none => rfl
      | some p =>
        obtain ⟨h1, h2, _⟩ := h.heldSome p.1 p.2 hh
        have := hall p.1 h1
        rw [h2] at this
        rcases this with h | h <;> cases h
  cases h with
  | @delivered _ w k _ h hk hin hsub hp hu hd =>
    constructor
    · intro h; cases h
    · intro hall
      have := hall k (by simp [Walk.ask])
      rw [hd] at this
      rcases this with h | h <;> cases h
  | @confirmed _ w k _ r _ _ h hk hsub hin hp hu hr hh =>
    constructor
    · intro h; cases h
    · intro hall
      have := hall k (by simp [Walk.ask])
      rw [hr] at this
      rcases this with h | h <;> cases h
  | exhausted h => exact key h
  | expired h hsub hin hk hp hu _ _ => exact key h

/-- **C62 (d).** A transaction is given up as rejected only if two different validators rejected it, or one did and
either every usable validator was consulted without another verdict (asked, or at an endpoint found unreachable) or
the budget ran out first. -/
theorem rejected_only {r : Nat} (ho : outcome prov ans keys u0 c0 = .rejected r) :
    (∃ k ∈ asked prov ans keys u0 c0, ∃ k' ∈ asked prov ans keys u0 c0, k ≠ k' ∧ IsRej (ans k) ∧ IsRej (ans k')) ∨
    ((∃ k ∈ asked prov ans keys u0 c0, ans k = .rejected r) ∧
      (expired prov ans keys u0 c0 = true ∨
        ∀ k ∈ keys, ∀ u, prov k = some u → k ∈ asked prov ans keys u0 c0 ∨ u ∈ u0 ∨
          ∃ k' ∈ asked prov ans keys u0 c0, prov k' = some u ∧ ans k' = .unreachable)) := by
  have h := walkFrom_ends prov ans keys u0 c0
  unfold outcome at ho
  unfold asked expired
  generalize (walkFrom prov ans keys u0 c0).2.2 = w' at h ⊢
  generalize (walkFrom prov ans keys u0 c0).2.1 = x at h ⊢
  generalize (walkFrom prov ans keys u0 c0).1 = o at h ho
  have key : ∀ {seen : List Nat} {w : Walk}, WInv prov ans u0 c0 seen w → w.standing = .rejected r →
      ∃ k ∈ w.asked, ans k = .rejected r := by
    intro seen w h hs
    unfold Walk.standing at hs
    cases hh : w.held with
    | none => rw [hh] at hs; cases hs
    | some p =>
      rw [hh] at hs
      cases hs
      obtain ⟨h1, h2, _⟩ := h.heldSome p.1 _ hh
      exact ⟨p.1, h1, h2⟩
  cases h with
  | delivered => cases ho
  | @confirmed _ w k _ r k' r' h hk hsub hin hp hu hr hh =>
    left
    obtain ⟨h1, h2, _⟩ := h.heldSome k' r' hh
    refine ⟨k, by simp [Walk.ask], k', ?_, ?_, ⟨_, hr⟩, ⟨_, h2⟩⟩
    · exact List.mem_append_left _ h1
    · rintro rfl; exact hk h1
  | exhausted h =>
    right
    refine ⟨key h ho, .inr ?_⟩
    intro k hk u hu
    rcases h.cover k ((h.triedSeen k).mpr hk) u hu with h1 | h1
    · exact .inl h1
    · exact .inr (h.unrNew u h1)
  | expired h hsub hin hk hp hu _ _ =>
    have := key h ho
    exact .inr ⟨this, .inl rfl⟩

/-- **C62 (e).** One validator cannot make the observer give up a transaction that another usable validator accepts:
if only `b` rejects it, and `g` is usable and accepts it (and no other validator spoils `g`'s endpoint), then within
its budget the transaction is delivered. -/
theorem not_censored {b g u : Nat} (hb : ∀ k, IsRej (ans k) → k = b) (hg : g ∈ keys) (hp : prov g = some u)
    (hu : u ∉ u0) (hd : ans g = .delivered) (hs : ∀ k, prov k = some u → ans k ≠ .unreachable)
    (hx : expired prov ans keys u0 c0 = false) : outcome prov ans keys u0 c0 = .delivered := by
  have h := walkFrom_ends prov ans keys u0 c0
  unfold expired at hx
  unfold outcome
  generalize (walkFrom prov ans keys u0 c0).2.2 = w' at h
  generalize (walkFrom prov ans keys u0 c0).2.1 = x at h hx
  generalize (walkFrom prov ans keys u0 c0).1 = o at h ⊢
  cases h with
  | delivered => rfl
  | @confirmed _ w k _ r k' r' h hk hsub hin hp hu hr hh =>
    obtain ⟨h1, h2, _⟩ := h.heldSome k' r' hh
    have e1 := hb k ⟨_, hr⟩
    have e2 := hb k' ⟨_, h2⟩
    exact absurd h1 (by rw [e2, ← e1]; exact hk)
  | exhausted h =>
    exfalso
    rcases h.cover g ((h.triedSeen g).mpr hg) u hp with h1 | h1
    · exact h.noDeliv g h1 hd
    · rcases h.unrNew u h1 with h2 | ⟨k, _, h2, h3⟩
      · exact hu h2
      · exact hs k h2 h3
  | expired => cases hx

/-- **C62 (f).** The budget runs out only after that many sends, with a usable validator left to ask. -/
theorem expired_after (hx : expired prov ans keys u0 c0 = true) : ∃ c, c0 = some c ∧
    (asked prov ans keys u0 c0).length = c ∧
    ∃ k ∈ keys, ∃ u, k ∉ asked prov ans keys u0 c0 ∧ prov k = some u ∧ u ∉ u0 := by
  have h := walkFrom_ends prov ans keys u0 c0
  unfold expired at hx
  unfold asked
  generalize (walkFrom prov ans keys u0 c0).2.2 = w' at h ⊢
  generalize (walkFrom prov ans keys u0 c0).2.1 = x at h hx
  generalize (walkFrom prov ans keys u0 c0).1 = o at h
  cases h with
  | delivered => cases hx
  | confirmed => cases hx
  | exhausted => cases hx
  | @expired _ w k u c h hsub hin hk hp hu hc ha =>
    exact ⟨c, hc, ha, k, hin, u, hk, hp, fun hh => hu (h.unrOld u hh)⟩

/-- **C62 (g).** Exactly the endpoints that gave no verdict are demoted; a delivery never lifts a demotion (the
code for it is not reached, since a demoted endpoint is not asked again). -/
theorem walk_effects : (∀ e, e ∈ (walkFrom prov ans keys u0 c0).2.2.effects ↔
      ∃ u, e = .demote u ∧ ∃ k ∈ asked prov ans keys u0 c0, prov k = some u ∧ ans k = .unreachable) ∧
    ∀ u, u ∈ (walkFrom prov ans keys u0 c0).2.2.unreachable ↔
      u ∈ u0 ∨ ∃ k ∈ asked prov ans keys u0 c0, prov k = some u ∧ ans k = .unreachable := by
  have h := walkFrom_ends prov ans keys u0 c0
  unfold asked
  generalize (walkFrom prov ans keys u0 c0).2.2 = w' at h ⊢
  generalize (walkFrom prov ans keys u0 c0).2.1 = x at h
  generalize (walkFrom prov ans keys u0 c0).1 = o at h
  have key : ∀ {seen : List Nat} {w : Walk}, WInv prov ans u0 c0 seen w → ∀ l, (∀ k ∈ l, ans k ≠ .unreachable) →
      (∀ e, e ∈ w.effects ↔ ∃ u, e = .demote u ∧ ∃ k ∈ w.asked ++ l, prov k = some u ∧ ans k = .unreachable) ∧
      ∀ u, u ∈ w.unreachable ↔ u ∈ u0 ∨ ∃ k ∈ w.asked ++ l, prov k = some u ∧ ans k = .unreachable := by
    intro seen w h l hl
    constructor
    · intro e
      constructor
      · intro he
        obtain ⟨u, h1, _, k, h2, h3⟩ := h.effs e he
        exact ⟨u, h1, k, List.mem_append_left _ h2, h3⟩
      · rintro ⟨u, rfl, k, hk, hp, ha⟩
        rcases List.mem_append.mp hk with hk | hk
        · obtain ⟨v, h1, _, h3⟩ := h.effsAll k hk ha
          rw [hp] at h1
          cases h1
          exact h3
        · exact absurd ha (hl k hk)
    · intro u
      constructor
      · intro hu
        rcases h.unrNew u hu with h1 | ⟨k, h1, h2⟩
        · exact .inl h1
        · exact .inr ⟨k, List.mem_append_left _ h1, h2⟩
      · rintro (hu | ⟨k, hk, hp, ha⟩)
        · exact h.unrOld u hu
        · rcases List.mem_append.mp hk with hk | hk
          · obtain ⟨v, h1, h2, _⟩ := h.effsAll k hk ha
            rw [hp] at h1
            cases h1
            exact h2
          · exact absurd ha (hl k hk)
  cases h with
  | @delivered _ w k _ h hk hin hsub hp hu hd =>
    exact key h [k] (by intro x hx; rw [List.mem_singleton.mp hx, hd]; simp)
  | @confirmed _ w k _ r k' r' h hk hsub hin hp hu hr hh =>
    exact key h [k] (by intro x hx; rw [List.mem_singleton.mp hx, hr]; simp)
  | exhausted h => simpa using key h [] (by simp)
  | @expired _ w k u c h hsub hin hk hp hu hc ha => simpa using key h [] (by simp)

end

theorem asked_mono (prov : Nat → Option Nat) (ans : Nat → Disp) (keys : List Nat) : ∀ w : Walk,
    w.asked <+: (walk prov ans keys w).2.2.asked := by
  have hlift : ∀ (w : Walk) (u : Nat), (w.lift u).asked = w.asked := by
    intro w u; unfold Walk.lift; split <;> rfl
  have hdem : ∀ (w : Walk) (u : Nat), (w.demote u).asked = w.asked := by
    intro w u; unfold Walk.demote; split <;> rfl
  have hask : ∀ (w : Walk) (k : Nat), w.asked <+: (w.ask k).asked := fun w k => List.prefix_append _ _
  induction keys with
  | nil => intro w; rw [walk]
  | cons k ks ih =>
    intro w
    rw [walk]
    split
    · exact ih w
    dsimp only
    split
    · exact ih { w with tried := k :: w.tried }
    split
    · exact ih { w with tried := k :: w.tried }
    split
    · exact List.prefix_refl _
    split
    · dsimp only; rw [hlift]; exact hask { w with tried := k :: w.tried } k
    · split
      · exact hask { w with tried := k :: w.tried } k
      · exact (hask { w with tried := k :: w.tried } k).trans (ih { (Walk.ask { w with tried := k :: w.tried } k) with held := some (k, _) })
    · exact (hask { w with tried := k :: w.tried } k).trans (ih _)
    · refine (hask { w with tried := k :: w.tried } k).trans ?_
      have := ih (Walk.demote (Walk.ask { w with tried := k :: w.tried } k) ‹Nat›)
      rw [hdem] at this
      exact this

/-- **C62 (h).** The first validator of the list, if it is usable, is the first one asked. -/
theorem first_asked (prov : Nat → Option Nat) (ans : Nat → Disp) (k : Nat) (ks u0 : List Nat) (c0 : Option Nat)
    {u : Nat} (hp : prov k = some u) (hu : u ∉ u0) (hc : c0 ≠ some 0) :
    (asked prov ans (k :: ks) u0 c0).head? = some k := by
  have hpre : ∀ w : Walk, w.asked = [k] → ∀ ks, ((walk prov ans ks w).2.2.asked).head? = some k := by
    intro w hw ks
    obtain ⟨r, hr⟩ := asked_mono prov ans ks w
    rw [← hr, hw]; rfl
  unfold asked walkFrom
  rw [walk, if_neg (by simp)]
  dsimp only
  rw [hp]
  dsimp only
  rw [if_neg hu, if_neg hc]
  cases hd : ans k with
  | delivered =>
    dsimp only
    unfold Walk.lift
    split <;> rfl
  | rejected r => exact hpre _ rfl ks
  | tryNext => exact hpre _ rfl ks
  | unreachable =>
    dsimp only
    apply hpre
    unfold Walk.demote
    split <;> rfl

end Tx
end Verif
