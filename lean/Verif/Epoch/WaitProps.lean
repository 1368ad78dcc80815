import Verif.Epoch.Wait
/-
**C112.** The bounded waits for an epoch's record and certificate: they end, soon after the deadline at the
latest; they return what the database holds; what is stored early enough is returned; and an invalid
certificate or a failed read ends the wait at once.
-/
namespace Verif
namespace Poll

variable {V : Type} {E : Delays} {look : Nat → Option V}

theorem pollFrom_found {d k t : Nat} {v : V} (h : look t = some v) :
    pollFrom E look d k t = ⟨some v, t + E.rt k, [t]⟩ := by
  rw [pollFrom]; simp only [h]

theorem pollFrom_stop {d k t : Nat} (h : look t = none) (h2 : d ≤ t + E.rt k) :
    pollFrom E look d k t = ⟨none, t + E.rt k, [t]⟩ := by
  rw [pollFrom]; simp only [h]; exact dif_pos h2

/-- When the next lookup is sent. -/
def nextAt (E : Delays) (d k t : Nat) : Nat := min d (t + E.rt k + pollInterval) + E.late k

theorem pollFrom_sleep {d k t : Nat} (h : look t = none) (h2 : ¬ d ≤ t + E.rt k) :
    pollFrom E look d k t =
      ⟨(pollFrom E look d (k + 1) (nextAt E d k t)).value,
        (pollFrom E look d (k + 1) (nextAt E d k t)).finish,
        t :: (pollFrom E look d (k + 1) (nextAt E d k t)).sent⟩ := by
  rw [pollFrom]; simp only [h]; exact dif_neg h2

/-- Induction over the lookups of a wait. -/
theorem pollFrom_induct (d : Nat) (P : Nat → Nat → Waited (Option V) → Prop)
    (found : ∀ k t v, look t = some v → P k t ⟨some v, t + E.rt k, [t]⟩)
    (stop : ∀ k t, look t = none → d ≤ t + E.rt k → P k t ⟨none, t + E.rt k, [t]⟩)
    (sleep : ∀ k t r, look t = none → t + E.rt k < d → P (k + 1) (nextAt E d k t) r →
      P k t ⟨r.value, r.finish, t :: r.sent⟩)
    (k t : Nat) : P k t (pollFrom E look d k t) := by
  have hi : 0 < pollInterval := by decide
  suffices H : ∀ n k t, d - t ≤ n → P k t (pollFrom E look d k t) from H (d - t) k t (Nat.le_refl _)
  intro n
  induction n with
  | zero =>
    intro k t hn
    cases hl : look t with
    | some v => rw [pollFrom_found hl]; exact found k t v hl
    | none =>
      have : d ≤ t + E.rt k := by omega
      rw [pollFrom_stop hl this]; exact stop k t hl this
  | succ n ih =>
    intro k t hn
    cases hl : look t with
    | some v => rw [pollFrom_found hl]; exact found k t v hl
    | none =>
      by_cases h2 : d ≤ t + E.rt k
      · rw [pollFrom_stop hl h2]; exact stop k t hl h2
      · rw [pollFrom_sleep hl h2]
        refine sleep k t _ hl (by omega) (ih _ _ ?_)
        unfold nextAt
        omega

/-- **C112**, what is returned is the answer to a lookup the wait sent, and every earlier lookup found
nothing. -/
theorem wait_value (timeout t0 : Nat) :
    ∃ l last, (pollUntil E look timeout t0).sent = l ++ [last] ∧
      (∀ t ∈ l, look t = none) ∧ (pollUntil E look timeout t0).value = look last := by
  unfold pollUntil
  refine pollFrom_induct (E := E) (look := look) (t0 + timeout)
    (fun _ _ r => ∃ l last, r.sent = l ++ [last] ∧ (∀ t ∈ l, look t = none) ∧ r.value = look last)
    ?_ ?_ ?_ 0 t0
  · intro k t v h; exact ⟨[], t, rfl, by simp, h.symm⟩
  · intro k t h _; exact ⟨[], t, rfl, by simp, h.symm⟩
  · rintro k t r h _ ⟨l, last, h1, h2, h3⟩
    refine ⟨t :: l, last, by rw [h1]; rfl, ?_, h3⟩
    intro x hx
    rcases List.mem_cons.mp hx with rfl | hx
    · exact h
    · exact h2 x hx

/-- **C112**, the end of the wait: no later than the deadline, plus the lateness of one timer, plus one round
trip. A timeout shorter than the interval between lookups is not rounded up to it. -/
theorem wait_ends {R J : Nat} (hR : ∀ k, E.rt k ≤ R) (hJ : ∀ k, E.late k ≤ J) (timeout t0 : Nat) :
    (pollUntil E look timeout t0).finish ≤ t0 + timeout + J + R := by
  unfold pollUntil
  refine pollFrom_induct (E := E) (look := look) (t0 + timeout)
    (fun k t r => t ≤ t0 + timeout + J → r.finish ≤ t0 + timeout + J + R) ?_ ?_ ?_ 0 t0 (by omega)
  · intro k t v _ ht; have := hR k; show t + E.rt k ≤ _; omega
  · intro k t _ _ ht; have := hR k; show t + E.rt k ≤ _; omega
  · intro k t r _ _ ih _
    refine ih ?_
    have := hJ k
    unfold nextAt
    omega

/-- **C112**, the wait gives up only once the deadline has passed, and its last lookup was sent at the deadline
or was still on its way when the deadline passed. -/
theorem gives_up (timeout t0 : Nat) (h : (pollUntil E look timeout t0).value = none) :
    t0 + timeout ≤ (pollUntil E look timeout t0).finish ∧
      ∃ l last k, (pollUntil E look timeout t0).sent = l ++ [last] ∧
        (pollUntil E look timeout t0).finish = last + E.rt k ∧ look last = none := by
  revert h
  unfold pollUntil
  refine pollFrom_induct (E := E) (look := look) (t0 + timeout)
    (fun _ _ r => r.value = none → t0 + timeout ≤ r.finish ∧
      ∃ l last k, r.sent = l ++ [last] ∧ r.finish = last + E.rt k ∧ look last = none) ?_ ?_ ?_ 0 t0
  · intro k t v _ h; exact nomatch h
  · intro k t h h2 _; exact ⟨h2, [], t, k, rfl, rfl, h⟩
  · rintro k t r _ _ ih h
    obtain ⟨a, l, last, k', h1, h2, h3⟩ := ih h
    exact ⟨a, t :: l, last, k', by rw [h1]; rfl, h2, h3⟩

/-- The entry stays once it is there: the first certificate of a digest stays (`Inner::save_certificate`). -/
def Stays (look : Nat → Option V) : Prop := ∀ s t v, look s = some v → s ≤ t → look t = some v

/-- **C112**, what a lookup sent one round trip before the deadline would find is returned. -/
theorem in_time {R : Nat} (hR : ∀ k, E.rt k ≤ R) (hs : Stays look) (timeout t0 s : Nat) (v : V)
    (hv : look s = some v) (hd : s + R ≤ t0 + timeout) : (pollUntil E look timeout t0).value = some v := by
  cases hp : (pollUntil E look timeout t0).value with
  | none =>
    obtain ⟨a, l, last, k, _, h2, h3⟩ := gives_up timeout t0 hp
    have := hR k
    have := hs s last v hv (by omega)
    rw [h3] at this; cases this
  | some w =>
    obtain ⟨l, last, _, _, h3⟩ := wait_value (E := E) (look := look) timeout t0
    rw [hp] at h3
    have e : w = v := by
      rcases Nat.le_total s last with h | h
      · have := hs s last v hv h
        rw [this] at h3; exact Option.some.inj h3
      · have := hs last s w h3.symm h
        rw [this] at hv; exact Option.some.inj hv
    rw [e]

/-- **C112**, when answers take no time: the wait returns exactly what a lookup at the deadline would find. -/
theorem instant_exact (hR : ∀ k, E.rt k = 0) (hJ : ∀ k, E.late k = 0) (hs : Stays look) (timeout t0 : Nat) :
    (pollUntil E look timeout t0).value = look (t0 + timeout) := by
  cases hv : look (t0 + timeout) with
  | some v => exact in_time (R := 0) (fun k => Nat.le_of_eq (hR k)) hs timeout t0 _ v hv (by omega)
  | none =>
    cases hp : (pollUntil E look timeout t0).value with
    | none => rfl
    | some w =>
      have hf := wait_ends (look := look) (R := 0) (J := 0) (fun k => Nat.le_of_eq (hR k))
        (fun k => Nat.le_of_eq (hJ k)) timeout t0
      have : ∃ last, last ≤ (pollUntil E look timeout t0).finish ∧
          (pollUntil E look timeout t0).value = look last := by
        unfold pollUntil
        refine pollFrom_induct (E := E) (look := look) (t0 + timeout)
          (fun _ _ r => ∃ last, last ≤ r.finish ∧ r.value = look last) ?_ ?_ ?_ 0 t0
        · intro k t v h; exact ⟨t, Nat.le_add_right _ _, h.symm⟩
        · intro k t h _; exact ⟨t, Nat.le_add_right _ _, h.symm⟩
        · rintro k t r _ _ ⟨last, h1, h2⟩; exact ⟨last, h1, h2⟩
      obtain ⟨last, h1, h2⟩ := this
      rw [hp] at h2
      have := hs last (t0 + timeout) w h2.symm (by omega)
      rw [hv] at this; cases this

/-- **C112**, the load on the database: with a timeout of `n` times 200 ms, at most `n + 2` lookups. -/
theorem few_lookups (timeout t0 n : Nat) (h : timeout ≤ n * 200000) :
    (pollUntil E look timeout t0).sent.length ≤ n + 2 := by
  have e : pollInterval = 200000 := rfl
  have H : ∀ m, t0 + timeout ≤ t0 + m * 200000 → (pollUntil E look timeout t0).sent.length ≤ m + 2 := by
    unfold pollUntil
    refine pollFrom_induct (E := E) (look := look) (t0 + timeout)
      (fun _ t r => (∀ m, t0 + timeout ≤ t + m * 200000 → r.sent.length ≤ m + 2) ∧
        (t0 + timeout ≤ t → r.sent.length ≤ 1)) ?_ ?_ ?_ 0 t0 |>.1
    · intro k t v _; exact ⟨fun m _ => by show 1 ≤ _; omega, fun _ => Nat.le_refl 1⟩
    · intro k t _ _; exact ⟨fun m _ => by show 1 ≤ _; omega, fun _ => Nat.le_refl 1⟩
    · rintro k t r _ hlt ⟨i1, i2⟩
      refine ⟨?_, fun hd => by omega⟩
      intro m hm
      show r.sent.length + 1 ≤ m + 2
      by_cases hd : t0 + timeout ≤ nextAt E (t0 + timeout) k t
      · have := i2 hd; omega
      · cases m with
        | zero => omega
        | succ m =>
          have := i1 m (by unfold nextAt at hd ⊢; omega)
          omega
  exact H n (by omega)

/-- **Finding.** The comment at 563-566 says that a save made before the deadline can be missed only while the
first lookup is in flight. It can be missed while any lookup is: the second lookup is sent 1 ms before the
deadline and takes 2 ms, the certificate is saved in between, and the wait ends without it. -/
theorem later_lookup_misses :
    ∃ (E : Delays) (look : Nat → Option Nat) (timeout : Nat), Stays look ∧ E.rt 0 = 0 ∧ (∀ k, E.rt k ≤ 2000) ∧
      (∀ k, E.late k = 0) ∧ look 200500 = some 7 ∧ 200500 < timeout ∧
      (pollUntil E look timeout 0).sent = [0, 200000] ∧ (pollUntil E look timeout 0).value = none := by
  let E : Delays := ⟨fun k => if k = 0 then 0 else 2000, fun _ => 0⟩
  let look : Nat → Option Nat := fun t => if 200500 ≤ t then some 7 else none
  have hl : ∀ t, t < 200500 → look t = none := fun t h => if_neg (by omega)
  have hp : pollUntil E look 201000 0 = ⟨none, 202000, [0, 200000]⟩ := by
    unfold pollUntil
    rw [pollFrom_sleep (hl 0 (by omega)) (by decide)]
    have e : nextAt E (0 + 201000) 0 0 = 200000 := by decide
    rw [e, pollFrom_stop (hl 200000 (by omega)) (by decide)]
    rfl
  refine ⟨E, look, 201000, ?_, rfl, ?_, fun _ => rfl, if_pos (by omega), by omega, ?_, ?_⟩
  · intro s t v h hst
    by_cases hs : 200500 ≤ s
    · have h1 : look s = some 7 := if_pos hs
      have h2 : look t = some 7 := if_pos (by omega)
      rw [h1] at h; rw [h2]; exact h
    · rw [hl s (by omega)] at h; cases h
  · intro k
    show (if k = 0 then 0 else 2000) ≤ 2000
    split <;> omega
  · rw [hp]
  · rw [hp]

/-! ## The wait for a certified record -/

variable {B : Bls} {dig : Ep.Rec → Nat} {R : Reads}

/-- When the certificate of the `k`-th attempt is read, and when the attempt ends. -/
def certAt (E : Delays) (k t : Nat) : Nat := t + E.rt (2 * k)

def doneAt (E : Delays) (k t : Nat) : Nat := t + E.rt (2 * k) + E.rt (2 * k + 1)

theorem certFrom_stop {d k t : Nat}
    (h : ¬ (again (attempt B dig R t (certAt E k t)) = true ∧ doneAt E k t < d)) :
    certFrom B dig E R d k t = ⟨attempt B dig R t (certAt E k t), doneAt E k t, [t]⟩ := by
  rw [certFrom]; exact dif_neg h

theorem certFrom_again {d k t : Nat}
    (h : again (attempt B dig R t (certAt E k t)) = true ∧ doneAt E k t < d) :
    certFrom B dig E R d k t =
      ⟨(certFrom B dig E R d (k + 1) (doneAt E k t + pollInterval + E.late k)).value,
        (certFrom B dig E R d (k + 1) (doneAt E k t + pollInterval + E.late k)).finish,
        t :: (certFrom B dig E R d (k + 1) (doneAt E k t + pollInterval + E.late k)).sent⟩ := by
  rw [certFrom]; exact dif_pos h

theorem certFrom_induct (d : Nat) (P : Nat → Nat → Waited (Except Err Ep.Rec) → Prop)
    (stop : ∀ k t, ¬ (again (attempt B dig R t (certAt E k t)) = true ∧ doneAt E k t < d) →
      P k t ⟨attempt B dig R t (certAt E k t), doneAt E k t, [t]⟩)
    (sleep : ∀ k t r, again (attempt B dig R t (certAt E k t)) = true → doneAt E k t < d →
      P (k + 1) (doneAt E k t + pollInterval + E.late k) r → P k t ⟨r.value, r.finish, t :: r.sent⟩)
    (k t : Nat) : P k t (certFrom B dig E R d k t) := by
  have hi : 0 < pollInterval := by decide
  suffices H : ∀ n k t, d - t ≤ n → P k t (certFrom B dig E R d k t) from H (d - t) k t (Nat.le_refl _)
  intro n
  induction n with
  | zero =>
    intro k t hn
    have : ¬ (again (attempt B dig R t (certAt E k t)) = true ∧ doneAt E k t < d) := by
      intro h; have := h.2; unfold doneAt at this; omega
    rw [certFrom_stop this]; exact stop k t this
  | succ n ih =>
    intro k t hn
    by_cases h : again (attempt B dig R t (certAt E k t)) = true ∧ doneAt E k t < d
    · rw [certFrom_again h]
      have := h.2
      refine sleep k t _ h.1 h.2 (ih _ _ ?_)
      unfold doneAt at this ⊢
      omega
    · rw [certFrom_stop h]; exact stop k t h

/-- **C112**, what the wait returns: the record only with a stored certificate of its digest that verifies; and
every attempt but the last had found the record or the certificate missing. -/
theorem certified_value (timeout t0 : Nat) :
    ∃ l last t', (certUntil B dig E R timeout t0).sent = l ++ [last] ∧ last ≤ t' ∧
      (certUntil B dig E R timeout t0).value = attempt B dig R last t' ∧
      ∀ t ∈ l, ∃ t', attempt B dig R t t' = .error .missingRecord ∨
        attempt B dig R t t' = .error .missingCertificate := by
  unfold certUntil
  refine certFrom_induct (E := E) (B := B) (dig := dig) (R := R) (t0 + timeout)
    (fun _ _ r => ∃ l last t', r.sent = l ++ [last] ∧ last ≤ t' ∧ r.value = attempt B dig R last t' ∧
      ∀ t ∈ l, ∃ t', attempt B dig R t t' = .error .missingRecord ∨
        attempt B dig R t t' = .error .missingCertificate) ?_ ?_ 0 t0
  · intro k t _
    exact ⟨[], t, certAt E k t, rfl, by unfold certAt; omega, rfl, by simp⟩
  · rintro k t r ha _ ⟨l, last, t', h1, h2, h3, h4⟩
    refine ⟨t :: l, last, t', by rw [h1]; rfl, h2, h3, ?_⟩
    intro x hx
    rcases List.mem_cons.mp hx with rfl | hx
    · refine ⟨certAt E k x, ?_⟩
      cases hx : attempt B dig R x (certAt E k x) with
      | ok r => rw [hx] at ha; cases ha
      | error e => rw [hx] at ha; cases e <;> first | exact .inl rfl | exact .inr rfl | cases ha
    · exact h4 x hx

theorem attempt_ok {t t' : Nat} {r : Ep.Rec} (h : attempt B dig R t t' = .ok r) :
    R.record t = some (some r) ∧ ∃ c, R.cert t' (dig r) = some (some c) ∧ Ep.verifyWithCert B dig r c = true := by
  unfold attempt at h
  split at h
  · cases h
  · cases h
  · rename_i r' hr
    split at h
    · cases h
    · cases h
    · rename_i c hc
      split at h
      · rename_i hv
        cases h
        exact ⟨hr, c, hc, hv⟩
      · cases h

/-- **C112**, a record that is returned was certified: the database held it, and held under its digest a
certificate that verifies against its own committee. -/
theorem certified_only (timeout t0 : Nat) (r : Ep.Rec) (h : (certUntil B dig E R timeout t0).value = .ok r) :
    ∃ t t' c, R.record t = some (some r) ∧ R.cert t' (dig r) = some (some c) ∧
      Ep.verifyWithCert B dig r c = true := by
  obtain ⟨l, last, t', _, _, h3, _⟩ := certified_value (B := B) (dig := dig) (E := E) (R := R) timeout t0
  rw [h] at h3
  obtain ⟨h1, c, h2, h4⟩ := attempt_ok h3.symm
  exact ⟨last, t', c, h1, h2, h4⟩

/-- **C112**, the end of the wait: one interval, one late timer and two round trips after the deadline at the
latest. -/
theorem certified_ends {Q J : Nat} (hR : ∀ k, E.rt k ≤ Q) (hJ : ∀ k, E.late k ≤ J) (timeout t0 : Nat) :
    (certUntil B dig E R timeout t0).finish ≤ t0 + timeout + 200000 + J + 2 * Q := by
  have e : pollInterval = 200000 := rfl
  unfold certUntil
  refine certFrom_induct (E := E) (B := B) (dig := dig) (R := R) (t0 + timeout)
    (fun _ t r => t ≤ t0 + timeout + 200000 + J → r.finish ≤ t0 + timeout + 200000 + J + 2 * Q)
    ?_ ?_ 0 t0 (by omega)
  · intro k t _ ht
    have := hR (2 * k); have := hR (2 * k + 1)
    show doneAt E k t ≤ _
    unfold doneAt; omega
  · intro k t r _ hlt ih _
    refine ih ?_
    have := hJ k
    omega

/-- **C112**, nothing is reported missing before the deadline. -/
theorem missing_late (timeout t0 : Nat) (e : Err) (h : (certUntil B dig E R timeout t0).value = .error e)
    (he : e = .missingRecord ∨ e = .missingCertificate) :
    t0 + timeout ≤ (certUntil B dig E R timeout t0).finish := by
  revert h
  unfold certUntil
  refine certFrom_induct (E := E) (B := B) (dig := dig) (R := R) (t0 + timeout)
    (fun _ _ r => r.value = .error e → t0 + timeout ≤ r.finish) ?_ ?_ 0 t0
  · intro k t hn h
    have h : attempt B dig R t (certAt E k t) = .error e := h
    show t0 + timeout ≤ doneAt E k t
    by_cases hlt : doneAt E k t < t0 + timeout
    · refine absurd ⟨?_, hlt⟩ hn
      rw [h]
      rcases he with rfl | rfl <;> rfl
    · omega
  · intro k t r _ _ ih h; exact ih h

/-- **C112**, a certificate that does not verify, or a read that fails, ends the wait at the attempt that meets
it, however far the deadline is. -/
theorem fatal_at_once (d k t : Nat) (e : Err) (h : attempt B dig R t (certAt E k t) = .error e)
    (he : e = .invalidCertificate ∨ e = .storage) :
    (certFrom B dig E R d k t).value = .error e ∧ (certFrom B dig E R d k t).finish = doneAt E k t ∧
      (certFrom B dig E R d k t).sent = [t] := by
  rw [certFrom_stop (by rw [h]; rintro ⟨a, _⟩; rcases he with rfl | rfl <;> cases a)]
  exact ⟨h, rfl, rfl⟩

/-- **C112**, what ends the wait at once: a failed read of the record or of the certificate of its digest, and a
stored certificate that does not verify. -/
theorem fatal_reads (d k t : Nat) :
    (R.record t = none → (certFrom B dig E R d k t).value = .error .storage ∧ (certFrom B dig E R d k t).sent = [t]) ∧
    (∀ r, R.record t = some (some r) → R.cert (certAt E k t) (dig r) = none →
      (certFrom B dig E R d k t).value = .error .storage ∧ (certFrom B dig E R d k t).sent = [t]) ∧
    (∀ r c, R.record t = some (some r) → R.cert (certAt E k t) (dig r) = some (some c) →
      Ep.verifyWithCert B dig r c = false →
      (certFrom B dig E R d k t).value = .error .invalidCertificate ∧ (certFrom B dig E R d k t).sent = [t]) := by
  refine ⟨fun h => ?_, fun r h h2 => ?_, fun r c h h2 h3 => ?_⟩
  · have e : attempt B dig R t (certAt E k t) = .error .storage := by unfold attempt; rw [h]
    exact ⟨(fatal_at_once d k t _ e (.inr rfl)).1, (fatal_at_once d k t _ e (.inr rfl)).2.2⟩
  · have e : attempt B dig R t (certAt E k t) = .error .storage := by unfold attempt; rw [h]; dsimp only; rw [h2]
    exact ⟨(fatal_at_once d k t _ e (.inr rfl)).1, (fatal_at_once d k t _ e (.inr rfl)).2.2⟩
  · have e : attempt B dig R t (certAt E k t) = .error .invalidCertificate := by
      unfold attempt; rw [h]; dsimp only; rw [h2]; dsimp only; rw [h3]; rfl
    exact ⟨(fatal_at_once d k t _ e (.inl rfl)).1, (fatal_at_once d k t _ e (.inl rfl)).2.2⟩

/-- The database without failures and with entries that stay. -/
structure Steady (R : Reads) : Prop where
  record : ∀ t, R.record t ≠ none
  cert : ∀ t d, R.cert t d ≠ none
  keepRecord : ∀ s t r, R.record s = some (some r) → s ≤ t → R.record t = some (some r)
  keepCert : ∀ s t d c, R.cert s d = some (some c) → s ≤ t → R.cert t d = some (some c)

theorem attempt_found (hs : Steady R) {s t t' : Nat} {r : Ep.Rec} {c : Ep.Cert}
    (hr : R.record s = some (some r)) (hc : R.cert s (dig r) = some (some c))
    (hv : Ep.verifyWithCert B dig r c = true) (h : s ≤ t) (h2 : t ≤ t') : attempt B dig R t t' = .ok r := by
  unfold attempt
  simp only [hs.keepRecord s t r hr h, hs.keepCert s t' _ c hc (Nat.le_trans h h2), hv, if_true]

/-- **C112**, a record and a certificate that verifies, both stored two round trips before the deadline, are
returned. -/
theorem certified_in_time {Q : Nat} (hR : ∀ k, E.rt k ≤ Q) (hs : Steady R) (timeout t0 s : Nat) (r : Ep.Rec)
    (c : Ep.Cert) (hr : R.record s = some (some r)) (hc : R.cert s (dig r) = some (some c))
    (hv : Ep.verifyWithCert B dig r c = true) (hd : s + 2 * Q ≤ t0 + timeout) :
    (certUntil B dig E R timeout t0).value = .ok r := by
  have key : ∀ t t', t ≤ t' → attempt B dig R t t' = .ok r ∨
      attempt B dig R t t' = .error .missingRecord ∨ attempt B dig R t t' = .error .missingCertificate := by
    intro t t' htt
    cases h1 : R.record t with
    | none => exact absurd h1 (hs.record t)
    | some o =>
      cases o with
      | none => right; left; unfold attempt; rw [h1]
      | some r' =>
        have er : r' = r := by
          rcases Nat.le_total s t with h | h
          · have := hs.keepRecord s t r hr h
            rw [h1] at this; exact Option.some.inj (Option.some.inj this)
          · have := hs.keepRecord t s r' h1 h
            rw [hr] at this; exact (Option.some.inj (Option.some.inj this)).symm
        subst er
        cases h2 : R.cert t' (dig r') with
        | none => exact absurd h2 (hs.cert t' _)
        | some o =>
          cases o with
          | none => right; right; unfold attempt; rw [h1]; simp only [h2]
          | some c' =>
            have ec : c' = c := by
              rcases Nat.le_total s t' with h | h
              · have := hs.keepCert s t' _ c hc h
                rw [h2] at this; exact Option.some.inj (Option.some.inj this)
              · have := hs.keepCert t' s _ c' h2 h
                rw [hc] at this; exact (Option.some.inj (Option.some.inj this)).symm
            left; unfold attempt; rw [h1]; simp only [h2, ec, hv, if_true]
  unfold certUntil
  refine certFrom_induct (E := E) (B := B) (dig := dig) (R := R) (t0 + timeout)
    (fun _ _ w => w.value = .ok r) ?_ ?_ 0 t0
  · intro k t hn
    show attempt B dig R t (certAt E k t) = .ok r
    have hct : t ≤ certAt E k t := Nat.le_add_right _ _
    rcases key t (certAt E k t) hct with h | h
    · exact h
    · by_cases hlt : doneAt E k t < t0 + timeout
      · refine absurd ⟨?_, hlt⟩ hn
        rcases h with h | h <;> rw [h] <;> rfl
      · have := hR (2 * k); have := hR (2 * k + 1)
        unfold doneAt at hlt
        exact attempt_found hs hr hc hv (by omega) hct
  · intro k t w _ _ ih; exact ih

/-- **C112**, the load on the database: with a timeout of `n` times 200 ms, at most `n + 1` attempts. -/
theorem few_attempts (timeout t0 n : Nat) (h : timeout ≤ n * 200000) :
    (certUntil B dig E R timeout t0).sent.length ≤ n + 1 := by
  have e : pollInterval = 200000 := rfl
  have H : ∀ m, t0 + timeout ≤ t0 + m * 200000 → (certUntil B dig E R timeout t0).sent.length ≤ m + 1 := by
    unfold certUntil
    refine certFrom_induct (E := E) (B := B) (dig := dig) (R := R) (t0 + timeout)
      (fun _ t r => ∀ m, t0 + timeout ≤ t + m * 200000 → r.sent.length ≤ m + 1) ?_ ?_ 0 t0
    · intro k t _ m _; show 1 ≤ _; omega
    · intro k t r _ hlt ih m hm
      show r.sent.length + 1 ≤ m + 1
      unfold doneAt at hlt
      cases m with
      | zero => omega
      | succ m =>
        have := ih m (by unfold doneAt; omega)
        omega
  exact H n (by omega)

/-- The sleep of this wait is not cut at the deadline: with a timeout of 1 ms and nothing stored it returns
after 200 ms. -/
theorem certified_rounds_up :
    (certUntil B dig ⟨fun _ => 0, fun _ => 0⟩ ⟨fun _ => some none, fun _ _ => some none⟩ 1000 0).finish = 200000 ∧
    (certUntil B dig ⟨fun _ => 0, fun _ => 0⟩ ⟨fun _ => some none, fun _ _ => some none⟩ 1000 0).sent =
      [0, 200000] := by
  have ha : ∀ t t', attempt B dig ⟨fun _ => some none, fun _ _ => some none⟩ t t' = .error .missingRecord :=
    fun _ _ => rfl
  unfold certUntil
  rw [certFrom_again ⟨by rw [ha]; rfl, by decide⟩, certFrom_stop (by rintro ⟨_, h⟩; revert h; decide)]
  exact ⟨rfl, rfl⟩

/-! ## The reads of the database of records -/

/-- The reads of a database that only grows, as the single thread serves them: `db t` is its state when a
message sent at `t` is served. -/
def readsOf (db : Nat → Ep.Db) (e : Nat) : Reads :=
  ⟨fun t => some ((db t).recordByEpoch e), fun t d => some ((db t).certOf d)⟩

/-- What the database is asked to write. -/
inductive Op where
  | save (r : Ep.Rec) (c : Ep.Cert)
  | saveRecord (r : Ep.Rec)
  | saveCert (d : Nat) (c : Ep.Cert)
  | saveDummy (r : Ep.Rec)

def Op.apply (dig : Ep.Rec → Nat) (db : Ep.Db) : Op → Ep.Db
  | .save r c => db.save dig r c
  | .saveRecord r => db.saveRecord r
  | .saveCert d c => db.saveCert d c
  | .saveDummy r => db.saveDummy r

/-- Records of epochs after the first, and certificates, that a database holds are still in another. -/
structure Keeps (db db' : Ep.Db) : Prop where
  record : ∀ (e : Nat) r, e ≠ 0 → db.recordByEpoch e = some r → db'.recordByEpoch e = some r
  cert : ∀ d c, db.certOf d = some c → db'.certOf d = some c

theorem Keeps.refl (db : Ep.Db) : Keeps db db := ⟨fun _ _ _ h => h, fun _ _ h => h⟩

theorem Keeps.trans {a b c : Ep.Db} (h : Keeps a b) (h' : Keeps b c) : Keeps a c :=
  ⟨fun e r he x => h'.record e r he (h.record e r he x), fun d x y => h'.cert d x (h.cert d x y)⟩

theorem record_pos {db : Ep.Db} {e : Nat} (he : e ≠ 0) : db.recordByEpoch e = db.recs[e]? := by
  unfold Ep.Db.recordByEpoch
  exact if_neg (fun h => he h.1)

theorem updateFinals_keeps {db db' : Ep.Db} {r : Ep.Rec} (h : db.updateFinals r = some db') : Keeps db db' := by
  have : db'.recs = db.recs ∧ db'.certs = db.certs := by
    unfold Ep.Db.updateFinals at h
    split at h
    · cases h
    · split at h <;> (cases h; exact ⟨rfl, rfl⟩)
  refine ⟨?_, ?_⟩
  · intro e r he hr
    rw [record_pos he] at hr ⊢
    rw [this.1]; exact hr
  · intro d c hc
    unfold Ep.Db.certOf at hc ⊢
    rw [this.2]; exact hc

theorem innerSave_keeps {db db' : Ep.Db} {r' : Ep.Rec} (hs : db.innerSaveRecord r' = some db') :
    Keeps db db' := by
  unfold Ep.Db.innerSaveRecord at hs
  split at hs
  · cases hs; exact Keeps.refl _
  · split at hs
    · cases hs
    · cases hs
      refine ⟨?_, fun d c h => h⟩
      intro e r he hr
      rw [record_pos he] at hr ⊢
      show (db.recs ++ [r'])[e]? = _
      rw [List.getElem?_append_left (List.getElem?_eq_some_iff.mp hr).1]
      exact hr

theorem saveCert_keeps (db : Ep.Db) (d' : Nat) (c' : Ep.Cert) : Keeps db (db.saveCert d' c') := by
  unfold Ep.Db.saveCert
  cases hc : db.certOf d' with
  | some x => exact Keeps.refl _
  | none =>
    refine ⟨fun e r _ h => h, ?_⟩
    intro d c h
    unfold Ep.Db.certOf at h ⊢
    show ((db.certs ++ [(d', c')]).find? _).map _ = _
    obtain ⟨x, h1, h2⟩ := Option.map_eq_some_iff.mp h
    rw [List.find?_append, h1]
    exact congrArg some h2

/-- What the database holds stays through every write. -/
theorem Op.keeps (dig : Ep.Rec → Nat) (db : Ep.Db) (o : Op) : Keeps db (o.apply dig db) := by
  cases o with
  | saveCert d c => exact saveCert_keeps db d c
  | saveDummy r =>
    show Keeps db (db.saveDummy r)
    unfold Ep.Db.saveDummy
    split
    · refine ⟨?_, fun d c h => h⟩
      intro e r he hr
      rw [record_pos he] at hr ⊢
      exact hr
    · exact Keeps.refl _
  | saveRecord r =>
    show Keeps db (db.saveRecord r)
    unfold Ep.Db.saveRecord
    cases hu : db.updateFinals r with
    | none => exact Keeps.refl _
    | some db1 =>
      show Keeps db ((db1.innerSaveRecord r).getD db1)
      cases hi : db1.innerSaveRecord r with
      | none => exact updateFinals_keeps hu
      | some db2 => exact (updateFinals_keeps hu).trans (innerSave_keeps hi)
  | save r c =>
    show Keeps db (db.save dig r c)
    unfold Ep.Db.save
    cases hu : db.updateFinals r with
    | none => exact Keeps.refl _
    | some db1 =>
      cases hi : db1.innerSaveRecord r with
      | none => simp only [hi]; exact updateFinals_keeps hu
      | some db2 =>
        simp only [hi]
        exact ((updateFinals_keeps hu).trans (innerSave_keeps hi)).trans (saveCert_keeps _ _ _)

/-- The database when a message sent at `t` is served: the writes sent before it have been made. -/
def dbAt (dig : Ep.Rec → Nat) (db : Ep.Db) (writes : Nat → List Op) : Nat → Ep.Db
  | 0 => db
  | t + 1 => (writes t).foldl (Op.apply dig) (dbAt dig db writes t)

theorem foldl_keeps (dig : Ep.Rec → Nat) (l : List Op) (db : Ep.Db) : Keeps db (l.foldl (Op.apply dig) db) := by
  induction l generalizing db with
  | nil => exact Keeps.refl _
  | cons o l ih => exact (Op.keeps dig db o).trans (ih _)

theorem dbAt_keeps (dig : Ep.Rec → Nat) (db : Ep.Db) (writes : Nat → List Op) {s t : Nat} (h : s ≤ t) :
    Keeps (dbAt dig db writes s) (dbAt dig db writes t) := by
  induction h with
  | refl => exact Keeps.refl _
  | step _ ih => exact ih.trans (foldl_keeps dig _ _)

/-- **C112**, the assumption of `certified_in_time` holds of the database, whatever is written to it and when,
for every epoch after the first. -/
theorem steady_reads (dig : Ep.Rec → Nat) (db : Ep.Db) (writes : Nat → List Op) {e : Nat} (he : e ≠ 0) :
    Steady (readsOf (dbAt dig db writes) e) where
  record _ h := nomatch h
  cert _ _ h := nomatch h
  keepRecord s t r h hst := congrArg some ((dbAt_keeps dig db writes hst).record e r he (Option.some.inj h))
  keepCert s t d c h hst := congrArg some ((dbAt_keeps dig db writes hst).cert d c (Option.some.inj h))

/-- **C112**, and that of `in_time` for the certificate of any digest. -/
theorem stays_certs (dig : Ep.Rec → Nat) (db : Ep.Db) (writes : Nat → List Op) (d : Nat) :
    Stays (fun t => (dbAt dig db writes t).certOf d) :=
  fun _ _ v h hst => (dbAt_keeps dig db writes hst).cert d v h

/-- The attempt of this model is the certified read of C52, when the database does not change between its two
messages. -/
theorem attempt_is_certified (db : Nat → Ep.Db) (e t t' : Nat) (h : db t' = db t) (r : Ep.Rec) :
    attempt B dig (readsOf db e) t t' = .ok r ↔ (db t).certifiedRecord B dig e = .ok r := by
  unfold attempt readsOf Ep.Db.certifiedRecord
  dsimp only
  rw [h]
  cases (db t).recordByEpoch e with
  | none => exact ⟨fun x => (nomatch x), fun x => (nomatch x)⟩
  | some r' =>
    dsimp only
    cases (db t).certOf (dig r') with
    | none => exact ⟨fun x => (nomatch x), fun x => (nomatch x)⟩
    | some c =>
      dsimp only
      split
      · exact ⟨fun x => (by cases x; rfl), fun x => (by cases x; rfl)⟩
      · exact ⟨fun x => (nomatch x), fun x => (nomatch x)⟩

/-! ## A concrete case -/

/-- A certificate stored 900 ms after the call is returned by the lookup at 1 s, the sixth. -/
theorem example_wait :
    (pollUntil (V := Nat) ⟨fun _ => 0, fun _ => 0⟩ (fun t => if 900000 ≤ t then some 7 else none) 2000000 0).value =
        some 7 ∧
      (pollUntil (V := Nat) ⟨fun _ => 0, fun _ => 0⟩ (fun t => if 900000 ≤ t then some 7 else none) 2000000 0).sent =
        [0, 200000, 400000, 600000, 800000, 1000000] := by
  unfold pollUntil
  have n1 : nextAt ⟨fun _ => 0, fun _ => 0⟩ (0 + 2000000) 0 0 = 200000 := by decide
  have n2 : nextAt ⟨fun _ => 0, fun _ => 0⟩ (0 + 2000000) (0 + 1) 200000 = 400000 := by decide
  have n3 : nextAt ⟨fun _ => 0, fun _ => 0⟩ (0 + 2000000) (0 + 1 + 1) 400000 = 600000 := by decide
  have n4 : nextAt ⟨fun _ => 0, fun _ => 0⟩ (0 + 2000000) (0 + 1 + 1 + 1) 600000 = 800000 := by decide
  have n5 : nextAt ⟨fun _ => 0, fun _ => 0⟩ (0 + 2000000) (0 + 1 + 1 + 1 + 1) 800000 = 1000000 := by decide
  rw [pollFrom_sleep (if_neg (by omega)) (by decide), n1, pollFrom_sleep (if_neg (by omega)) (by decide), n2,
    pollFrom_sleep (if_neg (by omega)) (by decide), n3, pollFrom_sleep (if_neg (by omega)) (by decide), n4,
    pollFrom_sleep (if_neg (by omega)) (by decide), n5, pollFrom_found (v := 7) (if_pos (by omega))]
  exact ⟨rfl, rfl⟩

namespace Ex

/-- A toy scheme with one good aggregate, of the members 1, 2 and 3 over the digest 101. -/
def toy : Bls := ⟨fun _ _ _ => false, fun _ => none, fun s d ks => decide (s = 5 ∧ d = 101 ∧ ks = [1, 2, 3])⟩

def num (r : Ep.Rec) : Nat := 100 + r.epoch

def r0 : Ep.Rec := ⟨0, [1, 2, 3, 4], [1, 2, 3, 4], 0, (0, 0), 9, 0⟩
def r1 : Ep.Rec := ⟨1, [1, 2, 3, 4], [1, 2, 3, 4], 100, (1, 0), 19, 0⟩
def good : Ep.Cert := ⟨101, 5, [0, 1, 2]⟩

/-- The record of epoch 1 is written 3 microseconds after the start and its certificate 2 later. -/
def writes (t : Nat) : List Op := if t = 3 then [Op.saveRecord r1] else if t = 5 then [Op.saveCert 101 good] else []

def db0 : Ep.Db := Ep.Db.empty.saveRecord r0

/-- The hypotheses of `certified_in_time` hold of this run. -/
theorem certified_meets : Steady (readsOf (dbAt num db0 writes) 1) ∧
    (readsOf (dbAt num db0 writes) 1).record 6 = some (some r1) ∧
    (readsOf (dbAt num db0 writes) 1).cert 6 (num r1) = some (some good) ∧
    Ep.verifyWithCert toy num r1 good = true ∧
    (readsOf (dbAt num db0 writes) 1).record 3 = some none ∧
    (readsOf (dbAt num db0 writes) 1).cert 5 (num r1) = some none :=
  ⟨steady_reads num db0 writes (by decide), by decide, by decide, by decide, by decide, by decide⟩

/-- So a wait of one second called at the start returns the record, however the round trips fall below 10 ms. -/
theorem certified_example (E : Delays) (h : ∀ k, E.rt k ≤ 10000) :
    (certUntil toy num E (readsOf (dbAt num db0 writes) 1) 1000000 0).value = .ok r1 :=
  certified_in_time h certified_meets.1 1000000 0 6 r1 good certified_meets.2.1 certified_meets.2.2.1
    certified_meets.2.2.2.1 (by omega)

end Ex

end Poll
end Verif
