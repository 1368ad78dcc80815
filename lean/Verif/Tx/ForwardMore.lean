import Verif.Tx.ForwardBatch

/-!
# C62, continued: what demotes an endpoint, and what counts as abandoned
-/

namespace Verif.Tx

/-- **C62 (u).** What makes an endpoint unreachable: no usable response, or none in time; never a local fault and
never an answer of the server. -/
theorem unreachable_iff (r : Reply) : classify r = .unreachable ↔ r = .noVerdict ∨ r = .timedOut := by
  cases r with
  | success => simp [classify]
  | localFault => simp [classify]
  | noVerdict => simp [classify]
  | timedOut => simp [classify]
  | errorResp code msg =>
    have : ¬ classify (.errorResp code msg) = .unreachable := by
      unfold classify classifyServer
      dsimp only
      split
      · simp
      split
      · simp
      split <;> simp
    simp [this]

/-- **C62 (v).** A transaction is given up for lack of time only if it was never tried before the deadline of the
batch, or the deadline of the batch had shortened its own budget and that budget ran out in its walk without any verdict.
If its own full budget ran out, or every endpoint was asked, without a verdict, it counts as unreached. -/
theorem cutShort_sound (slots fallbacks : List Nat) (prov : Nat → Option Nat) (ts : List FTx) (es : List TxEnv)
    (i : Nat) (t : FTx) (f : Fate) (h : (run slots fallbacks prov ts es {}).fates[i]? = some (t, f)) :
    (f = .notTried ↔ es[i]? = none) ∧
    (f = .cutShort → ∃ e : TxEnv, es[i]? = some e ∧ e.clamped = true ∧ e.cut ≠ none) ∧
    (∀ e : TxEnv, es[i]? = some e → (e.clamped = false ∨ e.cut = none) →
      f = .delivered ∨ f = .rejected ∨ f = .unreached) := by
  have hts : ts[i]? = some t := by
    have := (run_ok slots fallbacks prov ts es {} tok_init).2
    rw [List.map_nil, List.nil_append] at this
    rw [← this, List.getElem?_map, h]; rfl
  have hf := run_fate slots fallbacks prov ts es {} i t hts
  simp only [List.length_nil, Nat.zero_add] at hf
  rw [h] at hf
  rcases hf with ⟨hn, hf⟩ | ⟨e, u0, he, _, hf⟩
  · have hf : f = .notTried := by simpa using hf
    subst hf
    refine ⟨by simp [hn], by simp, ?_⟩
    intro e he; rw [hn] at he; cases he
  · have hf : f = _ := (Prod.mk.inj (Option.some.inj hf)).2
    have hx := expired_after prov e.ans ((owner slots t).toList ++ fallbacks) u0 e.cut
    generalize outcome prov e.ans ((owner slots t).toList ++ fallbacks) u0 e.cut = o at hf
    generalize expired prov e.ans ((owner slots t).toList ++ fallbacks) u0 e.cut = x at hf hx
    rw [he]
    refine ⟨?_, ?_, ?_⟩
    · constructor
      · intro h1; rw [h1] at hf; exact absurd hf.symm (fateOf_ne _ _ _)
      · intro h1; cases h1
    · intro h1
      rw [h1] at hf
      unfold fateOf at hf
      cases o with
      | delivered => cases hf
      | rejected r => cases hf
      | noEndpoint =>
        dsimp only at hf
        split at hf
        · next hb =>
          rw [Bool.and_eq_true] at hb
          obtain ⟨c, hc, _⟩ := hx hb.1
          exact ⟨e, rfl, hb.2, by rw [hc]; simp⟩
        · cases hf
    · intro e' he' hor
      cases he'
      have hb : (x && e.clamped) = false := by
        rcases hor with h1 | h1
        · rw [h1]; simp
        · cases x with
          | false => rfl
          | true =>
            obtain ⟨c, hc, _⟩ := hx rfl
            rw [h1] at hc; cases hc
      unfold fateOf at hf
      cases o with
      | delivered => exact .inl hf
      | rejected r => exact .inr (.inl hf)
      | noEndpoint =>
        dsimp only at hf
        rw [hb] at hf
        exact .inr (.inr hf)

/-- A batch with all fates: delivered, cut short by the deadline of the batch, unreached within its full budget,
never tried. -/
theorem demo_fates : (run [7, 8] [7, 8] (fun k => some (100 + k))
      [{ id := 1, sender := none }, { id := 2, sender := none }, { id := 3, sender := none }, { id := 4, sender := none }]
      [{ ans := fun _ => .delivered, cut := none, clamped := false },
       { ans := fun _ => .tryNext, cut := some 1, clamped := true },
       { ans := fun _ => .tryNext, cut := some 1, clamped := false }] {}).fates.map Prod.snd =
    [.delivered, .cutShort, .unreached, .notTried] := by
  decide +kernel

end Verif.Tx
