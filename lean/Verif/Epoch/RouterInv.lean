import Mathlib.Data.List.Nodup
import Verif.Epoch.Router
/-
Property C103: the invariant of the vote router.
-/
namespace Verif
namespace Vrt

/-- Specification: the votes of one epoch among those handled from the `n`-th on. -/
def votesOf (handled : List Vote) (n e : Nat) : List Vote := (handled.drop n).filter fun v => v.epoch == e

structure COk (handled : List Vote) (c : Chan) : Prop where
  born : c.born ≤ handled.length
  read : c.read ≤ c.pushed.length
  pre : c.pushed <+: votesOf handled c.born c.epoch

structure Inv (s : St) : Prop where
  len : s.queues.length ≤ 5
  epochs : (s.queues.map (·.1)).Nodup
  idxs : (s.queues.map (·.2)).Nodup
  idx : ∀ q ∈ s.queues, ∃ c, s.chans[q.2]? = some c ∧ c.epoch = q.1
  ok : ∀ (i : Nat) c, s.chans[i]? = some c → COk s.handled c
  all : ∀ q ∈ s.queues, ∀ c, s.chans[q.2]? = some c → c.rx ≠ .dropped → c.pushed = votesOf s.handled c.born c.epoch
  parked : ∀ (i : Nat) c, s.chans[i]? = some c → c.rx = .parked → (c.epoch, i) ∈ s.queues ∧ c.read = 0
  sending : ∀ v i, s.sending = some (v, i) → (v.epoch, i) ∈ s.queues

theorem set_get {α : Type} (l : List α) (i j : Nat) (c d : α) (h : l[i]? = some c) :
    (l.set i d)[j]? = if j = i then some d else l[j]? := by
  have hi : i < l.length := (List.getElem?_eq_some_iff.mp h).1
  rw [List.getElem?_set]
  by_cases hj : j = i
  · subst hj
    simp [hi]
  · rw [if_neg (fun h => hj h.symm), if_neg hj]

theorem find_some {qs : List (Nat × Nat)} {e : Nat} {q : Nat × Nat} (h : find qs e = some q) : q ∈ qs ∧ q.1 = e := by
  unfold find at h
  refine ⟨List.mem_of_find?_eq_some h, ?_⟩
  have := List.find?_some h
  simpa using this

theorem find_none {qs : List (Nat × Nat)} {e : Nat} (h : find qs e = none) : e ∉ qs.map (·.1) := by
  unfold find at h
  rw [List.find?_eq_none] at h
  rw [List.mem_map]
  rintro ⟨q, hq, he⟩
  exact h q hq (by simp [he])

theorem votesOf_snoc (handled : List Vote) (n e : Nat) (v : Vote) (hn : n ≤ handled.length) :
    votesOf (handled ++ [v]) n e = votesOf handled n e ++ (if v.epoch = e then [v] else []) := by
  unfold votesOf
  rw [List.drop_append_of_le_length hn, List.filter_append]
  by_cases h : v.epoch = e
  · simp [h]
  · simp [h]

theorem COk.snoc {handled : List Vote} {c : Chan} (h : COk handled c) (v : Vote) : COk (handled ++ [v]) c := by
  refine ⟨?_, h.read, ?_⟩
  · have := h.born
    simp only [List.length_append, List.length_cons, List.length_nil]
    omega
  · rw [votesOf_snoc _ _ _ _ h.born]
    exact h.pre.trans (List.prefix_append _ _)

/-- A vote of an epoch without an entry is handled and lost. -/
theorem Inv.skip {s : St} (h : Inv s) (v : Vote) (hv : v.epoch ∉ s.queues.map (·.1)) :
    Inv { s with handled := s.handled ++ [v] } := by
  refine ⟨h.len, h.epochs, h.idxs, h.idx, fun i c hc => (h.ok i c hc).snoc v, ?_, h.parked, h.sending⟩
  intro q hq c hc hr
  have hi := h.idx q hq
  obtain ⟨c', hc', he⟩ := hi
  have : c' = c := by rw [hc] at hc'; cases hc'; rfl
  subst this
  show c'.pushed = votesOf (s.handled ++ [v]) c'.born c'.epoch
  rw [votesOf_snoc _ _ _ _ (h.ok _ _ hc).born, if_neg, List.append_nil]
  · exact h.all q hq c' hc hr
  · intro hve
    apply hv
    rw [List.mem_map]
    exact ⟨q, hq, by rw [← he, hve]⟩

/-- What dropping an entry does to the channels. -/
theorem dropEntry_get (chans : List Chan) (i j : Nat) :
    (dropEntry chans i)[j]? = chans[j]?.map (fun c => if j = i ∧ c.rx = .parked then { c with rx := .dropped } else c) := by
  unfold dropEntry
  cases hc : chans[i]? with
  | none =>
    dsimp only
    by_cases hj : j = i
    · subst hj
      rw [hc]
      rfl
    · simp [hj]
  | some c =>
    dsimp only
    by_cases hp : c.rx = .parked
    · rw [if_pos hp, set_get chans i j c _ hc]
      by_cases hj : j = i
      · subst hj
        rw [if_pos rfl, hc]
        simp [hp]
      · rw [if_neg hj]
        simp [hj]
    · rw [if_neg hp]
      by_cases hj : j = i
      · subst hj
        rw [hc]
        simp [hp]
      · simp [hj]

theorem dropEntry_length (chans : List Chan) (i : Nat) : (dropEntry chans i).length = chans.length := by
  unfold dropEntry
  split
  · split
    · simp
    · rfl
  · rfl

/-- An entry is dropped from the front. -/
theorem Inv.evict {s : St} (h : Inv s) {q : Nat × Nat} {qs : List (Nat × Nat)} (hq : s.queues = q :: qs)
    (hs : s.sending = none) : Inv { s with queues := qs, chans := dropEntry s.chans q.2 } := by
  have hep := h.epochs
  have hix := h.idxs
  rw [hq] at hep hix
  simp only [List.map_cons, List.nodup_cons] at hep hix
  have hne : ∀ p ∈ qs, p.2 ≠ q.2 := fun p hp he => hix.1 (List.mem_map.mpr ⟨p, hp, he⟩)
  have hsub : ∀ p ∈ qs, p ∈ s.queues := fun p hp => by rw [hq]; exact List.mem_cons_of_mem _ hp
  have hget : ∀ (j : Nat) c', (dropEntry s.chans q.2)[j]? = some c' → ∃ c, s.chans[j]? = some c ∧
      c' = (if j = q.2 ∧ c.rx = .parked then { c with rx := .dropped } else c) := by
    intro j c' hc'
    rw [dropEntry_get] at hc'
    cases hc : s.chans[j]? with
    | none => rw [hc] at hc'; cases hc'
    | some c =>
      rw [hc] at hc'
      simp only [Option.map_some, Option.some.injEq] at hc'
      exact ⟨c, rfl, hc'.symm⟩
  have hother : ∀ (j : Nat), j ≠ q.2 → (dropEntry s.chans q.2)[j]? = s.chans[j]? := by
    intro j hj
    rw [dropEntry_get]
    simp [hj]
  refine ⟨?_, hep.2, hix.2, ?_, ?_, ?_, ?_, ?_⟩
  · have := h.len
    rw [hq] at this
    simp only [List.length_cons] at this
    show qs.length ≤ 5
    omega
  · intro p hp
    show ∃ c, (dropEntry s.chans q.2)[p.2]? = some c ∧ c.epoch = p.1
    rw [hother p.2 (hne p hp)]
    exact h.idx p (hsub p hp)
  · intro i c' hc'
    obtain ⟨c, hc, he⟩ := hget i c' hc'
    have hk := h.ok i c hc
    subst he
    split
    · exact ⟨hk.born, hk.read, hk.pre⟩
    · exact hk
  · intro p hp c hc hr
    change (dropEntry s.chans q.2)[p.2]? = some c at hc
    rw [hother p.2 (hne p hp)] at hc
    exact h.all p (hsub p hp) c hc hr
  · intro i c' hc' hpk
    obtain ⟨c, hc, he⟩ := hget i c' hc'
    by_cases hcond : i = q.2 ∧ c.rx = .parked
    · rw [if_pos hcond] at he
      subst he
      cases hpk
    · rw [if_neg hcond] at he
      subst he
      obtain ⟨hm, hr⟩ := h.parked i c' hc hpk
      refine ⟨?_, hr⟩
      rw [hq, List.mem_cons] at hm
      rcases hm with hm | hm
      · exact absurd ⟨by rw [← hm], hpk⟩ hcond
      · exact hm
  · intro v i hvi
    change s.sending = some (v, i) at hvi
    rw [hs] at hvi
    cases hvi

/-- An entry is added at the end. -/
theorem Inv.add {s : St} (h : Inv s) (c : Chan) (hl : s.queues.length < 5) (he : c.epoch ∉ s.queues.map (·.1))
    (hc : COk s.handled c) (hall : c.pushed = votesOf s.handled c.born c.epoch) (hr : c.read = 0) :
    Inv { s with queues := s.queues ++ [(c.epoch, s.chans.length)], chans := s.chans ++ [c] } := by
  have hlt : ∀ q ∈ s.queues, q.2 < s.chans.length := by
    intro q hq
    obtain ⟨d, hd, _⟩ := h.idx q hq
    exact (List.getElem?_eq_some_iff.mp hd).1
  have hget : ∀ (j : Nat) d, (s.chans ++ [c])[j]? = some d → s.chans[j]? = some d ∨ (j = s.chans.length ∧ d = c) := by
    intro j d hd
    rw [List.getElem?_append] at hd
    by_cases hj : j < s.chans.length
    · rw [if_pos hj] at hd
      exact Or.inl hd
    · rw [if_neg hj] at hd
      have h1 := (List.getElem?_eq_some_iff.mp hd).1
      have h2 := List.mem_of_getElem? hd
      simp only [List.length_cons, List.length_nil] at h1
      simp only [List.mem_singleton] at h2
      exact Or.inr ⟨by omega, h2⟩
  have hold : ∀ (j : Nat) d, s.chans[j]? = some d → (s.chans ++ [c])[j]? = some d := by
    intro j d hd
    rw [List.getElem?_append_left (List.getElem?_eq_some_iff.mp hd).1]
    exact hd
  refine ⟨?_, ?_, ?_, ?_, ?_, ?_, ?_, ?_⟩
  · simp only [List.length_append, List.length_cons, List.length_nil]
    omega
  · simp only [List.map_append, List.map_cons, List.map_nil]
    rw [List.nodup_append]
    refine ⟨h.epochs, by simp, ?_⟩
    intro a ha b hb hab
    rw [List.mem_singleton] at hb
    subst hb
    subst hab
    exact he ha
  · simp only [List.map_append, List.map_cons, List.map_nil]
    rw [List.nodup_append]
    refine ⟨h.idxs, by simp, ?_⟩
    intro a ha b hb hab
    rw [List.mem_singleton] at hb
    subst hb
    subst hab
    rw [List.mem_map] at ha
    obtain ⟨q, hq, hqe⟩ := ha
    have := hlt q hq
    omega
  · intro q hq
    rw [List.mem_append, List.mem_singleton] at hq
    rcases hq with hq | hq
    · obtain ⟨d, hd, hde⟩ := h.idx q hq
      exact ⟨d, hold _ _ hd, hde⟩
    · subst hq
      exact ⟨c, by simp, rfl⟩
  · intro i d hd
    rcases hget i d hd with hd | ⟨_, hd⟩
    · exact h.ok i d hd
    · subst hd
      exact hc
  · intro q hq d hd hdr
    rw [List.mem_append, List.mem_singleton] at hq
    rcases hq with hq | hq
    · rcases hget _ d hd with hd | ⟨hi, _⟩
      · exact h.all q hq d hd hdr
      · have := hlt q hq
        omega
    · subst hq
      rcases hget _ d hd with hd | ⟨_, hd⟩
      · have := (List.getElem?_eq_some_iff.mp hd).1
        exact absurd this (Nat.lt_irrefl _)
      · subst hd
        exact hall
  · intro i d hd hp
    rcases hget i d hd with hd | ⟨hi, hd⟩
    · obtain ⟨hm, h0⟩ := h.parked i d hd hp
      exact ⟨List.mem_append_left _ hm, h0⟩
    · subst hd
      subst hi
      exact ⟨List.mem_append_right _ (List.mem_singleton.mpr rfl), hr⟩
  · intro v i hvi
    exact List.mem_append_left _ (h.sending v i hvi)

/-- `pushQueue` for an epoch that has no entry. -/
theorem Inv.push {s : St} (h : Inv s) (c : Chan) (hs : s.sending = none) (he : c.epoch ∉ s.queues.map (·.1))
    (hc : COk s.handled c) (hall : c.pushed = votesOf s.handled c.born c.epoch) (hr : c.read = 0) :
    Inv (pushQueue s c) := by
  unfold pushQueue
  by_cases hl : maxQueues ≤ s.queues.length
  · rw [if_pos hl]
    cases hq : s.queues with
    | nil => rw [hq] at hl; exact absurd hl (by decide)
    | cons q qs =>
      have h1 := h.evict hq hs
      have hlen := h.len
      rw [hq, List.length_cons] at hlen
      have h2 := h1.add c (by show qs.length < 5; omega)
        (by
          show c.epoch ∉ qs.map (·.1)
          rw [hq, List.map_cons, List.mem_cons] at he
          exact fun hm => he (Or.inr hm)) hc hall hr
      have e1 : ({ s with queues := qs, chans := dropEntry s.chans q.2 } : St).chans.length = s.chans.length :=
        dropEntry_length _ _
      rw [e1] at h2
      exact h2
  · rw [if_neg hl]
    exact h.add c (by have : maxQueues = 5 := rfl; omega) he hc hall hr

/-- One channel is replaced, with the same epoch, birth and votes. -/
theorem Inv.replace {s : St} (h : Inv s) {i : Nat} {c d : Chan} (hc : s.chans[i]? = some c) (he : d.epoch = c.epoch)
    (hb : d.born = c.born) (hp : d.pushed = c.pushed) (hread : d.read ≤ d.pushed.length)
    (hrx : d.rx ≠ .dropped → c.rx ≠ .dropped) (hpk : d.rx = .parked → c.rx = .parked ∧ d.read = 0) : Inv (setChan s i d) := by
  have hget : ∀ (j : Nat) x, (s.chans.set i d)[j]? = some x → (j = i ∧ x = d) ∨ (j ≠ i ∧ s.chans[j]? = some x) := by
    intro j x hx
    rw [set_get s.chans i j c d hc] at hx
    by_cases hj : j = i
    · rw [if_pos hj] at hx
      cases hx
      exact Or.inl ⟨hj, rfl⟩
    · rw [if_neg hj] at hx
      exact Or.inr ⟨hj, hx⟩
  refine ⟨h.len, h.epochs, h.idxs, ?_, ?_, ?_, ?_, h.sending⟩
  · intro q hq
    obtain ⟨x, hx, hxe⟩ := h.idx q hq
    show ∃ c, (s.chans.set i d)[q.2]? = some c ∧ c.epoch = q.1
    rw [set_get s.chans i q.2 c d hc]
    by_cases hj : q.2 = i
    · rw [if_pos hj]
      refine ⟨d, rfl, ?_⟩
      rw [hj, hc] at hx
      cases hx
      rw [he]
      exact hxe
    · rw [if_neg hj]
      exact ⟨x, hx, hxe⟩
  · intro j x hx
    rcases hget j x hx with ⟨_, hx⟩ | ⟨_, hx⟩
    · subst hx
      have hk := h.ok i c hc
      refine ⟨by rw [hb]; exact hk.born, hread, ?_⟩
      rw [hp, hb, he]
      exact hk.pre
    · exact h.ok j x hx
  · intro q hq x hx hxr
    rcases hget q.2 x hx with ⟨hj, hx⟩ | ⟨_, hx⟩
    · subst hx
      have := h.all q hq c (by rw [hj]; exact hc) (hrx hxr)
      show x.pushed = votesOf s.handled x.born x.epoch
      rw [hp, hb, he]
      exact this
    · exact h.all q hq x hx hxr
  · intro j x hx hxp
    rcases hget j x hx with ⟨hj, hx⟩ | ⟨_, hx⟩
    · subst hx
      subst hj
      obtain ⟨h1, h2⟩ := hpk hxp
      rw [he]
      exact ⟨(h.parked j c hc h1).1, h2⟩
    · exact h.parked j x hx hxp

theorem start_inv : Inv start := by
  refine ⟨by decide, by decide, by decide, ?_, ?_, ?_, ?_, ?_⟩
  · intro q hq; simp [start] at hq
  · intro i c hc; simp [start] at hc
  · intro q hq; simp [start] at hq
  · intro i c hc; simp [start] at hc
  · intro v i h; simp [start] at h

/-- Two entries of the same channel are the same entry. -/
theorem Inv.sameEntry {s : St} (h : Inv s) {q q' : Nat × Nat} (hq : q ∈ s.queues) (hq' : q' ∈ s.queues) (he : q.2 = q'.2) :
    q = q' := by
  obtain ⟨c, hc, h1⟩ := h.idx q hq
  obtain ⟨c', hc', h2⟩ := h.idx q' hq'
  rw [he, hc'] at hc
  cases hc
  exact Prod.ext (by rw [← h1, ← h2]) he

theorem step_inv {cap : Nat} {s t : St} (v : Ev) (h : Inv s) (hs : step cap s v = some t) : Inv t := by
  cases v with
  | forward v =>
    simp only [step, Option.some.injEq] at hs
    subst hs
    exact ⟨h.len, h.epochs, h.idxs, h.idx, h.ok, h.all, h.parked, h.sending⟩
  | publish e =>
    simp only [step, Option.some.injEq] at hs
    subst hs
    exact ⟨h.len, h.epochs, h.idxs, h.idx, h.ok, h.all, h.parked, h.sending⟩
  | takeRecord =>
    dsimp only [step] at hs
    cases hsd : s.sending with
    | some x => rw [hsd] at hs; cases hs
    | none =>
      cases hp : s.pending with
      | none => rw [hsd, hp] at hs; cases hs
      | some e =>
        rw [hsd, hp] at hs
        dsimp only at hs
        have h1 : Inv { s with pending := none } :=
          ⟨h.len, h.epochs, h.idxs, h.idx, h.ok, h.all, h.parked, h.sending⟩
        have h1' : Inv (St.mk s.queues s.chans none none s.inbox s.handled s.lost) := by rw [← hsd]; exact h1
        cases hf : find s.queues e with
        | some q =>
          rw [hf] at hs
          dsimp only at hs
          cases hc : s.chans[q.2]? with
          | none =>
            rw [hc] at hs
            simp only [Option.some.injEq] at hs
            subst hs
            exact h1'
          | some c =>
            rw [hc] at hs
            dsimp only at hs
            by_cases hpk : c.rx = .parked
            · rw [if_pos hpk] at hs
              simp only [Option.some.injEq] at hs
              subst hs
              exact h1'.replace hc rfl rfl rfl (h.ok _ c hc).read (fun _ => by rw [hpk]; simp) (fun h' => by (cases h'))
            · rw [if_neg hpk] at hs
              simp only [Option.some.injEq] at hs
              subst hs
              exact h1'
        | none =>
          rw [hf] at hs
          simp only [Option.some.injEq] at hs
          subst hs
          refine h1'.push ⟨e, s.handled.length, [], 0, .taken⟩ rfl (find_none hf) ?_ ?_ rfl
          · exact ⟨Nat.le_refl _, Nat.le_refl _, List.nil_prefix⟩
          · show [] = votesOf s.handled s.handled.length e
            simp [votesOf]
  | takeVote =>
    dsimp only [step] at hs
    cases hsd : s.sending with
    | some x => rw [hsd] at hs; cases hs
    | none =>
      cases hi : s.inbox with
      | nil => rw [hsd, hi] at hs; cases hs
      | cons v rest =>
        rw [hsd, hi] at hs
        dsimp only at hs
        have h1' : Inv (St.mk s.queues s.chans none s.pending rest s.handled s.lost) := by
          rw [← hsd]
          exact ⟨h.len, h.epochs, h.idxs, h.idx, h.ok, h.all, h.parked, h.sending⟩
        cases hf : find s.queues v.epoch with
        | some q =>
          rw [hf] at hs
          simp only [Option.some.injEq] at hs
          subst hs
          refine ⟨h.len, h.epochs, h.idxs, h.idx, h.ok, h.all, h.parked, ?_⟩
          intro w i hw
          simp only [Option.some.injEq, Prod.mk.injEq] at hw
          obtain ⟨rfl, rfl⟩ := hw
          obtain ⟨h2, h3⟩ := find_some hf
          show (v.epoch, q.2) ∈ s.queues
          rw [← h3]
          exact h2
        | none =>
          rw [hf] at hs
          simp only [Option.some.injEq] at hs
          subst hs
          have hne := find_none hf
          have h2 := h1'.skip v hne
          unfold noQueue
          dsimp only
          split
          · have hk : COk (s.handled ++ [v]) ⟨v.epoch, s.handled.length, [v], 0, .parked⟩ := by
              refine ⟨by simp, Nat.zero_le _, ?_⟩
              show [v] <+: votesOf (s.handled ++ [v]) s.handled.length v.epoch
              simp [votesOf]
            have h3 := h2.push ⟨v.epoch, s.handled.length, [v], 0, .parked⟩ rfl hne hk
              (by show [v] = votesOf (s.handled ++ [v]) s.handled.length v.epoch; simp [votesOf]) rfl
            unfold pushQueue at h3 ⊢
            dsimp only at h3 ⊢
            split
            · rename_i hl
              rw [if_pos hl] at h3
              exact h3
            · rename_i hl
              rw [if_neg hl] at h3
              exact h3
          · exact ⟨h2.len, h2.epochs, h2.idxs, h2.idx, h2.ok, h2.all, h2.parked, h2.sending⟩
  | complete =>
    dsimp only [step] at hs
    cases hsd : s.sending with
    | none => rw [hsd] at hs; cases hs
    | some vi =>
      obtain ⟨v, i⟩ := vi
      rw [hsd] at hs
      dsimp only at hs
      have hmem := h.sending v i hsd
      cases hc : s.chans[i]? with
      | none => rw [hc] at hs; cases hs
      | some c =>
        rw [hc] at hs
        dsimp only at hs
        obtain ⟨c', hc', hce⟩ := h.idx _ hmem
        have hcc : c' = c := by rw [hc] at hc'; cases hc'; rfl
        subst hcc
        change c'.epoch = v.epoch at hce
        have hkeep : ∀ q ∈ s.queues.filter (fun q => q.2 != i), q ∈ s.queues ∧ q.2 ≠ i := by
          intro q hq
          rw [List.mem_filter] at hq
          exact ⟨hq.1, by simpa using hq.2⟩
        have hother : ∀ q ∈ s.queues, q.2 ≠ i → q.1 ≠ v.epoch := by
          intro q hq hne heq
          have := List.inj_on_of_nodup_map h.epochs hq hmem heq
          exact hne (by rw [this])
        by_cases hd : c'.rx = .dropped
        · rw [if_pos hd] at hs
          simp only [Option.some.injEq] at hs
          subst hs
          refine ⟨Nat.le_trans (List.length_filter_le _ _) h.len, h.epochs.sublist (List.filter_sublist.map _),
            h.idxs.sublist (List.filter_sublist.map _), fun q hq => h.idx q (hkeep q hq).1,
            fun j x hx => (h.ok j x hx).snoc v, ?_, ?_, fun _ _ h' => by (cases h')⟩
          · intro q hq x hx hr
            obtain ⟨hq1, hq2⟩ := hkeep q hq
            obtain ⟨y, hy, hye⟩ := h.idx q hq1
            have : y = x := by
              change s.chans[q.2]? = some x at hx
              rw [hx] at hy; cases hy; rfl
            subst this
            show y.pushed = votesOf (s.handled ++ [v]) y.born y.epoch
            rw [votesOf_snoc _ _ _ _ (h.ok _ _ hx).born, if_neg, List.append_nil]
            · exact h.all q hq1 y hx hr
            · rw [hye]
              exact fun he => hother q hq1 hq2 he.symm
          · intro j x hx hp
            obtain ⟨h1, h2⟩ := h.parked j x hx hp
            refine ⟨?_, h2⟩
            show (x.epoch, j) ∈ s.queues.filter (fun q => q.2 != i)
            rw [List.mem_filter]
            refine ⟨h1, ?_⟩
            by_cases hj : j = i
            · subst hj
              change s.chans[j]? = some x at hx
              rw [hc] at hx
              cases hx
              rw [hd] at hp
              cases hp
            · simpa using hj
        · rw [if_neg hd] at hs
          by_cases hcap : c'.pushed.length - c'.read < cap
          · rw [if_pos hcap] at hs
            simp only [Option.some.injEq] at hs
            subst hs
            have hget : ∀ (j : Nat) x, (s.chans.set i { c' with pushed := c'.pushed ++ [v] })[j]? = some x →
                (j = i ∧ x = { c' with pushed := c'.pushed ++ [v] }) ∨ (j ≠ i ∧ s.chans[j]? = some x) := by
              intro j x hx
              rw [set_get s.chans i j c' _ hc] at hx
              by_cases hj : j = i
              · rw [if_pos hj] at hx
                cases hx
                exact Or.inl ⟨hj, rfl⟩
              · rw [if_neg hj] at hx
                exact Or.inr ⟨hj, hx⟩
            have hk := h.ok i c' hc
            have hfull : c'.pushed ++ [v] = votesOf (s.handled ++ [v]) c'.born c'.epoch := by
              rw [votesOf_snoc _ _ _ _ hk.born, if_pos hce.symm, ← h.all _ hmem c' hc hd]
            refine ⟨h.len, h.epochs, h.idxs, ?_, ?_, ?_, ?_, fun _ _ h' => by (cases h')⟩
            · intro q hq
              obtain ⟨x, hx, hxe⟩ := h.idx q hq
              show ∃ c, (s.chans.set i { c' with pushed := c'.pushed ++ [v] })[q.2]? = some c ∧ c.epoch = q.1
              rw [set_get s.chans i q.2 c' _ hc]
              by_cases hj : q.2 = i
              · rw [if_pos hj]
                refine ⟨_, rfl, ?_⟩
                rw [hj, hc] at hx
                cases hx
                exact hxe
              · rw [if_neg hj]
                exact ⟨x, hx, hxe⟩
            · intro j x hx
              rcases hget j x hx with ⟨_, hx⟩ | ⟨_, hx⟩
              · subst hx
                refine ⟨(hk.snoc v).born, ?_, ?_⟩
                · show c'.read ≤ (c'.pushed ++ [v]).length
                  have := hk.read
                  simp only [List.length_append, List.length_cons, List.length_nil]
                  omega
                · show c'.pushed ++ [v] <+: votesOf (s.handled ++ [v]) c'.born c'.epoch
                  rw [hfull]
                  exact List.prefix_rfl
              · exact (h.ok j x hx).snoc v
            · intro q hq x hx hr
              rcases hget q.2 x hx with ⟨_, hx⟩ | ⟨hj, hx⟩
              · subst hx
                exact hfull
              · obtain ⟨y, hy, hye⟩ := h.idx q hq
                have : y = x := by rw [hx] at hy; cases hy; rfl
                subst this
                show y.pushed = votesOf (s.handled ++ [v]) y.born y.epoch
                rw [votesOf_snoc _ _ _ _ (h.ok _ _ hx).born, if_neg, List.append_nil]
                · exact h.all q hq y hx hr
                · rw [hye]
                  exact fun he => hother q hq hj he.symm
            · intro j x hx hp
              rcases hget j x hx with ⟨hj, hx⟩ | ⟨_, hx⟩
              · subst hx
                subst hj
                exact h.parked j c' hc hp
              · exact h.parked j x hx hp
          · rw [if_neg hcap] at hs
            cases hs
  | read i =>
    dsimp only [step] at hs
    cases hc : s.chans[i]? with
    | none => rw [hc] at hs; cases hs
    | some c =>
      rw [hc] at hs
      dsimp only at hs
      by_cases hcond : c.rx = .taken ∧ c.read < c.pushed.length
      · rw [if_pos hcond] at hs
        simp only [Option.some.injEq] at hs
        subst hs
        refine h.replace hc rfl rfl rfl hcond.2 (fun h' => h') ?_
        intro h'
        change c.rx = .parked at h'
        rw [hcond.1] at h'
        cases h'
      · rw [if_neg hcond] at hs
        cases hs
  | finish i =>
    dsimp only [step] at hs
    cases hc : s.chans[i]? with
    | none => rw [hc] at hs; cases hs
    | some c =>
      rw [hc] at hs
      dsimp only at hs
      by_cases hcond : c.rx = .taken
      · rw [if_pos hcond] at hs
        simp only [Option.some.injEq] at hs
        subst hs
        exact h.replace hc rfl rfl rfl (h.ok i c hc).read (fun h' => absurd rfl h') (fun h' => by (cases h'))
      · rw [if_neg hcond] at hs
        cases hs

theorem reach_inv {cap : Nat} {s : St} (h : Reach cap s) : Inv s := by
  induction h with
  | start => exact start_inv
  | step v _ hs ih => exact step_inv v ih hs

end Vrt
end Verif
