import Verif.Exex.Seam

/-!
# Proofs about the replay/live seam: walking a stream of signals
-/

namespace Verif.Exex.Seam

open Verif.Exex

/-- What matters about an item for gaps. -/
inductive Sig where
  | mark
  | chunk (a b : Nat)
  | other
  deriving DecidableEq, Repr

/-- Signal of a notification. -/
def sigN : Note Content → Sig
  | .lagged _ => .mark
  | .item (.chain a b) => .chunk a b
  | .item _ => .other

/-- Signal of an item of the combined stream. -/
def sigI : Item → Sig
  | .note n => sigN n
  | .err _ => .mark

/-- Reader position: every block below `e` was delivered or announced missing, or a gap was just
announced. -/
inductive Pos where
  | at (e : Nat)
  | free
  deriving DecidableEq, Repr

/-- One item; `none` means a silent hole. -/
def walk1 : Pos → Sig → Option Pos
  | _, .mark => some .free
  | p, .other => some p
  | .free, .chunk _ b => some (.at (b + 1))
  | .at e, .chunk a b => if a ≤ e then some (.at (b + 1)) else none

/-- A stream. -/
def walk : Pos → List Sig → Option Pos
  | p, [] => some p
  | p, x :: r => (walk1 p x).bind (fun q => walk q r)

/-- One item behind the de-duplication. -/
def d1 (σ : Pos × Option Nat) (x : Sig) : Option (Pos × Option Nat) :=
  match x with
  | .chunk a b =>
    if (keepHeight σ.2 b).1 then (walk1 σ.1 (.chunk a b)).map (fun p => (p, some b)) else some σ
  | .mark => some (.free, σ.2)
  | .other => some σ

/-- A stream behind the de-duplication. -/
def dw : Pos × Option Nat → List Sig → Option (Pos × Option Nat)
  | σ, [] => some σ
  | σ, x :: r => (d1 σ x).bind (fun τ => dw τ r)

theorem walk1_at (e a b : Nat) :
    walk1 (.at e) (.chunk a b) = if a ≤ e then some (.at (b + 1)) else none := rfl

theorem walk1_chunk {p p1 : Pos} {a b : Nat} (h : walk1 p (.chunk a b) = some p1) :
    p1 = .at (b + 1) := by
  cases p with
  | free => cases h; rfl
  | «at» e =>
    rw [walk1_at] at h
    split at h
    · cases h; rfl
    · cases h

theorem walk_append (l m : List Sig) : ∀ p : Pos,
    walk p (l ++ m) = (walk p l).bind (fun q => walk q m) := by
  induction l with
  | nil => intro p; rfl
  | cons x r ih =>
    intro p
    simp only [List.cons_append, walk]
    cases walk1 p x with
    | none => rfl
    | some q => simp only [Option.bind_some, ih]

theorem dw_append (l m : List Sig) : ∀ σ : Pos × Option Nat,
    dw σ (l ++ m) = (dw σ l).bind (fun τ => dw τ m) := by
  induction l with
  | nil => intro p; rfl
  | cons x r ih =>
    intro p
    simp only [List.cons_append, dw]
    cases d1 p x with
    | none => rfl
    | some q => simp only [Option.bind_some, ih]

/-- Everything on its way to the ExEx, including the marker that is due. -/
def futSig (h : Handle Content) : List Sig :=
  h.chan.map sigN ++ (if h.dropped > 0 then [.mark] else [])

theorem answer_open {h : Handle Content} (hc : h.closed = false) :
    h.answer = .ok ∨ h.answer = .full := by
  unfold Handle.answer
  rw [if_neg (by rw [hc]; decide)]
  split
  · exact Or.inl rfl
  · exact Or.inr rfl

theorem satSucc_pos (n : Nat) : satSucc n > 0 := by unfold satSucc U64MAX; omega

/-- What a send does to the stream on its way. -/
theorem futSig_send (h : Handle Content) (n : Note Content) (hc : h.closed = false) :
    (h.send n).closed = false ∧
    (futSig (h.send n) = futSig h ++ [sigN n] ∨ futSig (h.send n) = futSig h ++ [.mark] ∨
      (futSig (h.send n) = futSig h ∧ ∃ pre : List Sig, futSig h = pre ++ [.mark])) := by
  unfold Handle.send
  by_cases hd : h.dropped > 0
  · rw [if_pos hd]
    rcases answer_open hc with ha | ha
    · rw [ha]; dsimp only
      have hc' : ({ h.push (.lagged h.dropped) with dropped := 0 } : Handle Content).closed = false :=
        hc
      unfold Handle.offer
      rcases answer_open hc' with hb | hb
      · rw [hb]; dsimp only
        refine ⟨hc, Or.inl ?_⟩
        simp [futSig, Handle.push, hd, sigN]
      · rw [hb]; dsimp only
        refine ⟨hc, Or.inr (Or.inl ?_)⟩
        simp [futSig, Handle.push, hd, sigN, satSucc_pos]
    · rw [ha]; dsimp only
      refine ⟨hc, Or.inr (Or.inr ⟨?_, ?_⟩)⟩
      · simp [futSig, hd, satSucc_pos]
      · exact ⟨h.chan.map sigN, by simp [futSig, hd]⟩
  · rw [if_neg hd]
    unfold Handle.offer
    rcases answer_open hc with ha | ha
    · rw [ha]; dsimp only
      exact ⟨hc, Or.inl (by simp [futSig, Handle.push, hd])⟩
    · rw [ha]; dsimp only
      exact ⟨hc, Or.inr (Or.inl (by simp [futSig, hd, satSucc_pos]))⟩

theorem walk_send {h : Handle Content} {p0 p p1 : Pos} {n : Note Content} (hc : h.closed = false)
    (hw : walk p0 (futSig h) = some p) (h1 : walk1 p (sigN n) = some p1) :
    ∃ p' : Pos, walk p0 (futSig (h.send n)) = some p' ∧ (p' = p1 ∨ p' = .free) := by
  obtain ⟨_, hs | hs | ⟨hs, pre, hpre⟩⟩ := futSig_send h n hc
  · exact ⟨p1, by rw [hs, walk_append, hw]; simp [walk, h1], Or.inl rfl⟩
  · exact ⟨.free, by rw [hs, walk_append, hw]; simp [walk, walk1], Or.inr rfl⟩
  · refine ⟨p, by rw [hs, hw], Or.inr ?_⟩
    rw [hpre, walk_append] at hw
    cases hp : walk p0 pre with
    | none => rw [hp] at hw; cases hw
    | some q => rw [hp] at hw; simp [walk, walk1] at hw; exact hw.symm

theorem dw_send {h : Handle Content} {σ0 σ σ1 : Pos × Option Nat} {n : Note Content}
    (hc : h.closed = false)
    (hw : dw σ0 (futSig h) = some σ) (h1 : d1 σ (sigN n) = some σ1) :
    ∃ σ' : Pos × Option Nat, dw σ0 (futSig (h.send n)) = some σ' ∧ (σ' = σ1 ∨ σ'.1 = .free) := by
  obtain ⟨_, hs | hs | ⟨hs, pre, hpre⟩⟩ := futSig_send h n hc
  · exact ⟨σ1, by rw [hs, dw_append, hw]; simp [dw, h1], Or.inl rfl⟩
  · exact ⟨(.free, σ.2), by rw [hs, dw_append, hw]; simp [dw, d1], Or.inr rfl⟩
  · refine ⟨σ, by rw [hs, hw], Or.inr ?_⟩
    rw [hpre, dw_append] at hw
    cases hp : dw σ0 pre with
    | none => rw [hp] at hw; cases hw
    | some q => rw [hp] at hw; simp [dw, d1] at hw; rw [← hw]

/-- The reader position is good for everything up to `base`. -/
def Good (σ : Pos × Option Nat) (base : Nat) : Prop :=
  ∀ e : Nat, σ.1 = .at e → base + 1 ≤ e ∧ ∀ l : Nat, σ.2 = some l → l + 1 ≤ e

theorem good_free {σ : Pos × Option Nat} (h : σ.1 = .free) (base : Nat) : Good σ base := by
  intro e he; rw [h] at he; cases he

theorem keep_some (l b : Nat) : (keepHeight (some l) b).1 = decide (l < b) := by
  unfold keepHeight; dsimp only
  by_cases h : b ≤ l
  · rw [if_pos h]; simp; omega
  · rw [if_neg h]; simp; omega

theorem good_chunk {σ : Pos × Option Nat} {base a b : Nat} (hg : Good σ base)
    (ha : a ≤ base + 1) :
    ∃ σ' : Pos × Option Nat, d1 σ (.chunk a b) = some σ' ∧ Good σ' b := by
  obtain ⟨p, l⟩ := σ
  unfold d1; dsimp only
  by_cases hk : (keepHeight l b).1 = true
  · rw [if_pos hk]
    cases p with
    | free =>
      refine ⟨(.at (b + 1), some b), rfl, ?_⟩
      intro e he; cases he; exact ⟨Nat.le_refl _, by intro l hl; cases hl; exact Nat.le_refl _⟩
    | «at» e =>
      have := (hg e rfl).1
      refine ⟨(.at (b + 1), some b), by simp [walk1]; omega, ?_⟩
      intro e he; cases he; exact ⟨Nat.le_refl _, by intro l hl; cases hl; exact Nat.le_refl _⟩
  · rw [if_neg hk]
    refine ⟨_, rfl, ?_⟩
    intro e he
    have h2 := (hg e he).2
    cases l with
    | none => exact absurd rfl hk
    | some lv =>
      have := h2 lv rfl
      rw [keep_some] at hk
      simp at hk
      exact ⟨by omega, h2⟩

theorem notes_fit {t : Option Nat} {a b : Nat} (h : canonGap t a = none) :
    notesOf t (.canon (some (a, b))) = [.item (.chain a b)] := by
  simp only [notesOf, h]

theorem notes_gap {t : Option Nat} {a b m : Nat} (h : canonGap t a = some m) :
    notesOf t (.canon (some (a, b))) = [.lagged m, .item (.chain a b)] := by
  simp only [notesOf, h]

/-- Sending what the router makes of a commit `(a, b)` keeps the position good. -/
theorem good_commit {h : Handle Content} {σ0 σ : Pos × Option Nat} {t : Option Nat}
    {base a b : Nat} (hc : h.closed = false) (hw : dw σ0 (futSig h) = some σ) (hg : Good σ base)
    (hfit : canonGap t a = none → a ≤ base + 1) :
    (sendAll h (notesOf t (.canon (some (a, b))))).closed = false ∧
    ∃ σ' : Pos × Option Nat, dw σ0 (futSig (sendAll h (notesOf t (.canon (some (a, b)))))) = some σ' ∧
      Good σ' b := by
  cases hgap : canonGap t a with
  | none =>
    rw [notes_fit hgap]
    change (h.send _).closed = false ∧ _
    obtain ⟨σ1, h1, hg1⟩ := good_chunk hg (hfit hgap) (b := b)
    obtain ⟨σ', hw', hor⟩ := dw_send (n := .item (.chain a b)) hc hw h1
    refine ⟨(futSig_send h _ hc).1, σ', hw', ?_⟩
    rcases hor with rfl | hf
    · exact hg1
    · exact good_free hf b
  | some m =>
    rw [notes_gap hgap]
    change ((h.send _).send _).closed = false ∧ _
    have hc1 := (futSig_send h (.lagged m) hc).1
    obtain ⟨σ1, hw1, hor⟩ := dw_send (n := .lagged m) hc hw (σ1 := (.free, σ.2)) rfl
    have hfree : σ1.1 = .free := by
      rcases hor with rfl | hf
      · rfl
      · exact hf
    obtain ⟨σ2, h2, hg2⟩ := good_chunk (good_free hfree a) (b := b) (Nat.le_succ a)
    obtain ⟨σ', hw', hor'⟩ := dw_send (n := .item (.chain a b)) hc1 hw1 h2
    refine ⟨(futSig_send _ _ hc1).1, σ', hw', ?_⟩
    rcases hor' with rfl | hf
    · exact hg2
    · exact good_free hf b

/-- A certificate, output or lag report keeps the position good. -/
theorem good_other {h : Handle Content} {σ0 σ : Pos × Option Nat} {t : Option Nat} {e : Ev}
    {base : Nat} (hc : h.closed = false) (hw : dw σ0 (futSig h) = some σ) (hg : Good σ base)
    (he : isOther e = true) :
    (sendAll h (notesOf t e)).closed = false ∧
    ∃ σ' : Pos × Option Nat, dw σ0 (futSig (sendAll h (notesOf t e))) = some σ' ∧ Good σ' base := by
  have key : ∀ n : Note Content, (sigN n = .mark ∨ sigN n = .other) →
      (h.send n).closed = false ∧
      ∃ σ' : Pos × Option Nat, dw σ0 (futSig (h.send n)) = some σ' ∧ Good σ' base := by
    intro n hn
    refine ⟨(futSig_send h n hc).1, ?_⟩
    rcases hn with hn | hn
    · obtain ⟨σ', hw', hor⟩ := dw_send (n := n) hc hw (σ1 := (.free, σ.2)) (by rw [hn]; rfl)
      refine ⟨σ', hw', ?_⟩
      rcases hor with rfl | hf
      · exact good_free rfl base
      · exact good_free hf base
    · obtain ⟨σ', hw', hor⟩ := dw_send (n := n) hc hw (σ1 := σ) (by rw [hn]; rfl)
      refine ⟨σ', hw', ?_⟩
      rcases hor with rfl | hf
      · exact hg
      · exact good_free hf base
  cases e with
  | cert b => cases b <;> exact key _ (by simp [bcastNote, sigN])
  | output b => cases b <;> exact key _ (by simp [bcastNote, sigN])
  | canon c => cases he
  | finished i k => cases he
  | recv i => cases he
  | close i => cases he

/-- The raw reader position covers the manager's tip. -/
def Cover (p : Pos) (t : Option Nat) : Prop := ∀ e : Nat, p = .at e → ∃ x : Nat, t = some x ∧ x + 1 ≤ e

theorem cover_commit {h : Handle Content} {p : Pos} {t : Option Nat} {a b : Nat}
    (hc : h.closed = false) (hw : walk .free (futSig h) = some p) (hg : Cover p t)
    (hab : ∀ x : Nat, t = some x → x < b) :
    ∃ p' : Pos, walk .free (futSig (sendAll h (notesOf t (.canon (some (a, b)))))) = some p' ∧
      Cover p' (tipAfter t (.canon (some (a, b)))) := by
  have htip : tipAfter t (.canon (some (a, b))) = some b := by
    unfold tipAfter canonTip
    cases t with
    | none => rfl
    | some x => have := hab x rfl; simp; omega
  rw [htip]
  have hfin : ∀ p' : Pos, (p' = .at (b + 1) ∨ p' = .free) → Cover p' (some b) := by
    intro p' hp e he
    rcases hp with rfl | rfl
    · cases he; exact ⟨b, rfl, Nat.le_refl _⟩
    · cases he
  cases hgap : canonGap t a with
  | none =>
    rw [notes_fit hgap]
    change ∃ p' : Pos, walk .free (futSig (h.send _)) = some p' ∧ _
    have h1 : walk1 p (sigN (.item (.chain a b))) = some (.at (b + 1)) := by
      cases p with
      | free => rfl
      | «at» e =>
        obtain ⟨x, hx, hxe⟩ := hg e rfl
        rw [hx] at hgap
        unfold canonGap at hgap; dsimp only at hgap
        split at hgap
        · cases hgap
        · simp only [sigN, walk1]; rw [if_pos (by omega)]
    obtain ⟨p', hw', hor⟩ := walk_send hc hw h1
    exact ⟨p', hw', hfin p' hor⟩
  | some m =>
    rw [notes_gap hgap]
    change ∃ p' : Pos, walk .free (futSig ((h.send _).send _)) = some p' ∧ _
    have hc1 := (futSig_send h (.lagged m) hc).1
    obtain ⟨p1, hw1, hor⟩ := walk_send (n := .lagged m) hc hw (p1 := .free) (by cases p <;> rfl)
    have hfree : p1 = .free := by rcases hor with h | h <;> exact h
    subst hfree
    obtain ⟨p', hw', hor'⟩ := walk_send (n := .item (.chain a b)) hc1 hw1 (p1 := .at (b + 1)) rfl
    exact ⟨p', hw', hfin p' hor'⟩

theorem cover_other {h : Handle Content} {p : Pos} {t : Option Nat} {e : Ev}
    (hc : h.closed = false) (hw : walk .free (futSig h) = some p) (hg : Cover p t)
    (he : isOther e = true) :
    ∃ p' : Pos, walk .free (futSig (sendAll h (notesOf t e))) = some p' ∧ Cover p' t := by
  have hfree : ∀ p' : Pos, p' = .free → Cover p' t := by
    intro p' hp e he; rw [hp] at he; cases he
  have key : ∀ n : Note Content, (sigN n = .mark ∨ sigN n = .other) →
      ∃ p' : Pos, walk .free (futSig (h.send n)) = some p' ∧ Cover p' t := by
    intro n hn
    rcases hn with hn | hn
    · obtain ⟨p', hw', hor⟩ := walk_send (n := n) hc hw (p1 := .free) (by rw [hn]; cases p <;> rfl)
      refine ⟨p', hw', hfree p' ?_⟩
      rcases hor with h | h <;> exact h
    · obtain ⟨p', hw', hor⟩ := walk_send (n := n) hc hw (p1 := p) (by rw [hn]; cases p <;> rfl)
      refine ⟨p', hw', ?_⟩
      rcases hor with rfl | h
      · exact hg
      · exact hfree p' h
  cases e with
  | cert b => cases b <;> exact key _ (by simp [bcastNote, sigN])
  | output b => cases b <;> exact key _ (by simp [bcastNote, sigN])
  | canon c => cases he
  | finished i k => cases he
  | recv i => cases he
  | close i => cases he

/-- Starting from `free` instead of any other position is always sound too. -/
theorem walk_free (l : List Sig) : ∀ {p p1 : Pos}, walk p l = some p1 →
    ∃ p2 : Pos, walk .free l = some p2 ∧ (p2 = p1 ∨ p2 = .free) := by
  induction l with
  | nil => intro p p1 _; exact ⟨.free, rfl, Or.inr rfl⟩
  | cons x r ih =>
    intro p p1 h
    unfold walk at h ⊢
    cases x with
    | mark =>
      have e1 : walk1 p .mark = some .free := by cases p <;> rfl
      rw [e1] at h
      exact ⟨p1, h, Or.inl rfl⟩
    | other =>
      have e1 : walk1 p .other = some p := by cases p <;> rfl
      rw [e1] at h
      exact ih h
    | chunk a b =>
      have e1 : walk1 p (.chunk a b) = some (.at (b + 1)) := by
        cases p with
        | free => rfl
        | «at» e =>
          cases hx : walk1 (.at e) (.chunk a b) with
          | none => rw [hx] at h; cases h
          | some q => rw [walk1_chunk hx]
      rw [e1] at h
      exact ⟨p1, h, Or.inl rfl⟩

/-- The relation between the raw reader and the reader behind the de-duplication. -/
def R (p : Pos) (σ : Pos × Option Nat) : Prop :=
  (p = .free ∧ σ.1 = .free) ∨
    ∃ e : Nat, p = .at e ∧
      ((σ.1 = .free ∧ ∃ l : Nat, σ.2 = some l ∧ e ≤ l + 1) ∨
        ∃ e' : Nat, σ.1 = .at e' ∧ e ≤ e' ∧ ∀ l : Nat, σ.2 = some l → l + 1 ≤ e')

theorem R_at (b : Nat) : R (.at (b + 1)) (.at (b + 1), some b) :=
  Or.inr ⟨b + 1, rfl, Or.inr ⟨b + 1, rfl, Nat.le_refl _, by
    intro l hl; cases hl; exact Nat.le_refl _⟩⟩

theorem R_step {p p1 : Pos} {σ : Pos × Option Nat} {x : Sig} (h : walk1 p x = some p1)
    (hr : R p σ) : ∃ τ : Pos × Option Nat, d1 σ x = some τ ∧ R p1 τ := by
  obtain ⟨q, l⟩ := σ
  cases x with
  | mark =>
    have e1 : walk1 p .mark = some .free := by cases p <;> rfl
    rw [e1] at h; cases h
    exact ⟨(.free, l), rfl, Or.inl ⟨rfl, rfl⟩⟩
  | other =>
    have e1 : walk1 p .other = some p := by cases p <;> rfl
    rw [e1] at h; cases h
    exact ⟨(q, l), rfl, hr⟩
  | chunk a b =>
    have hp1 : p1 = .at (b + 1) := walk1_chunk h
    subst hp1
    unfold d1; dsimp only
    by_cases hk : (keepHeight l b).1 = true
    · rw [if_pos hk]
      have hq : walk1 q (.chunk a b) = some (.at (b + 1)) := by
        cases q with
        | free => rfl
        | «at» e' =>
          rcases hr with ⟨_, hr⟩ | ⟨e, rfl, hr | ⟨e2, hr, hle, _⟩⟩
          · cases hr
          · cases hr.1
          · cases hr
            rw [walk1_at] at h ⊢
            split at h
            · rw [if_pos (by omega)]
            · cases h
      rw [hq]
      exact ⟨_, rfl, R_at b⟩
    · rw [if_neg hk]
      refine ⟨_, rfl, ?_⟩
      cases l with
      | none => exact absurd rfl hk
      | some lv =>
        rw [keep_some] at hk
        simp at hk
        rcases hr with ⟨_, hr⟩ | ⟨e, rfl, hr | ⟨e2, hr, hle, hlv⟩⟩
        · exact Or.inr ⟨b + 1, rfl, Or.inl ⟨hr, lv, rfl, by omega⟩⟩
        · exact Or.inr ⟨b + 1, rfl, Or.inl ⟨hr.1, lv, rfl, by omega⟩⟩
        · have := hlv lv rfl
          exact Or.inr ⟨b + 1, rfl, Or.inr ⟨e2, hr, by omega, hlv⟩⟩

theorem R_walk (l : List Sig) : ∀ {p p1 : Pos} {σ : Pos × Option Nat}, walk p l = some p1 →
    R p σ → ∃ τ : Pos × Option Nat, dw σ l = some τ ∧ R p1 τ := by
  induction l with
  | nil => intro p p1 σ h hr; cases h; exact ⟨σ, rfl, hr⟩
  | cons x r ih =>
    intro p p1 σ h hr
    unfold walk at h
    cases hx : walk1 p x with
    | none => rw [hx] at h; cases h
    | some q =>
      rw [hx, Option.bind_some] at h
      obtain ⟨τ, h1, hr1⟩ := R_step hx hr
      obtain ⟨τ', h2, hr2⟩ := ih h hr1
      exact ⟨τ', by unfold dw; rw [h1, Option.bind_some, h2], hr2⟩

theorem R_good {p : Pos} {σ : Pos × Option Nat} {t : Option Nat} {base : Nat} (hr : R p σ)
    (hc : Cover p t) (hb : ∀ x : Nat, t = some x → base ≤ x) : Good σ base := by
  intro e' he'
  rcases hr with ⟨_, hr⟩ | ⟨e, rfl, hr | ⟨e2, hr, hle, hlv⟩⟩
  · rw [hr] at he'; cases he'
  · rw [hr.1] at he'; cases he'
  · rw [hr] at he'; cases he'
    obtain ⟨x, hx, hxe⟩ := hc e rfl
    have := hb x hx
    exact ⟨by omega, hlv⟩

/-- A subscription whose start lies above everything buffered. -/
theorem walk_above (e : Nat) (l : List Sig) : ∀ {p1 : Pos}, walk .free l = some p1 →
    (∀ a b : Nat, Sig.chunk a b ∈ l → a ≤ e) →
    ∃ τ : Pos × Option Nat, dw (.at e, none) l = some τ ∧ (τ = (.at e, none) ∨ R p1 τ) := by
  induction l with
  | nil => intro p1 _ _; exact ⟨_, rfl, Or.inl rfl⟩
  | cons x r ih =>
    intro p1 h hall
    unfold walk at h
    unfold dw
    cases x with
    | mark =>
      obtain ⟨τ, h2, hr⟩ := R_walk r (σ := (.free, none)) h (Or.inl ⟨rfl, rfl⟩)
      exact ⟨τ, h2, Or.inr hr⟩
    | other => exact ih h (fun a b hm => hall a b (List.mem_cons_of_mem _ hm))
    | chunk a b =>
      have ha := hall a b List.mem_cons_self
      have hd : d1 (.at e, none) (.chunk a b) = some (.at (b + 1), some b) := by
        unfold d1 keepHeight; dsimp only; rw [if_pos rfl, walk1_at, if_pos ha]; rfl
      rw [hd]
      obtain ⟨τ, h2, hr⟩ := R_walk r (σ := (.at (b + 1), some b)) h (R_at b)
      exact ⟨τ, h2, Or.inr hr⟩

/-- Everything buffered was already replayed: nothing of it gets through. -/
theorem dw_covered (t : Nat) (l : List Sig) (hall : ∀ a b : Nat, Sig.chunk a b ∈ l → b ≤ t) :
    ∀ p : Pos, ∃ q : Pos, dw (p, some t) l = some (q, some t) ∧ (q = p ∨ q = .free) := by
  induction l with
  | nil => intro p; exact ⟨p, rfl, Or.inl rfl⟩
  | cons x r ih =>
    intro p
    have ihr := ih (fun a b hm => hall a b (List.mem_cons_of_mem _ hm))
    unfold dw
    cases x with
    | mark =>
      obtain ⟨q, hq, ho⟩ := ihr .free
      refine ⟨q, hq, Or.inr ?_⟩
      rcases ho with h | h <;> exact h
    | other => exact ihr p
    | chunk a b =>
      have hb := hall a b List.mem_cons_self
      have hd : d1 (p, some t) (.chunk a b) = some (p, some t) := by
        unfold d1; dsimp only
        rw [keep_some, if_neg (by simp; omega)]
      rw [hd]
      exact ihr p

end Verif.Exex.Seam
