import Mathlib.Tactic.Common
import Mathlib.Data.List.Count
import Verif.Rpc.Blocking
/-
Property C102: the specification vocabulary and the invariant of the calls.
-/
namespace Verif
namespace Rpc

variable {R V K : Type}

/-- Specification: the call has one of the permits. -/
def holds : Job V → Bool
  | .granted => true
  | .spawned => true
  | .running _ => true
  | _ => false

/-- Specification: how many calls have a permit. -/
def held (s : St R V) : Nat := s.calls.countP fun c => holds c.job

/-- Specification: the work of the call occupies the blocking pool. -/
def occupies : Job V → Bool
  | .spawned => true
  | .running _ => true
  | _ => false

/-- Specification: how many places of the blocking pool this namespace occupies. -/
def occupied (s : St R V) : Nat := s.calls.countP fun c => occupies c.job

/-- Specification: `v` is what the work of `c` gives on a block that was the tip at some moment between the arrival of
the call and now (or on none, when the state of that block could not be opened). -/
def FromOneTip (e : Env R V K) (chain : List R) (c : Call V) (v : Reply V) : Prop :=
  ∃ tip, c.since ≤ tip ∧ tip ≤ chain.length ∧
    ((∃ r, chain[tip - 1]? = some r ∧ v = work e (some r) c.req) ∨ v = work e none c.req)

/-- What holds of each call. -/
structure Good (e : Env R V K) (chain : List R) (c : Call V) : Prop where
  pos : 1 ≤ c.since
  since : c.since ≤ chain.length
  screened : ∀ r, (screen c.req : Option (Reply V)) = some r → c.job = .over ∧ c.client = .answered r
  queued : c.job = .queued → c.client = .waiting
  granted : c.job = .granted → c.client = .waiting
  running : ∀ tip, c.job = .running tip → c.since ≤ tip ∧ tip ≤ chain.length
  finished : ∀ v, c.job = .finished v → FromOneTip e chain c v
  over : c.job = .over → c.client ≠ .waiting
  answered : ∀ r, c.client = .answered r → c.job = .over ∧
    ((screen c.req : Option (Reply V)) = some r ∨ r = .internal ∨ FromOneTip e chain c r)

/-- The invariant, with `k` permits in the hand of the step under way. -/
structure Inv (e : Env R V K) (k : Nat) (s : St R V) : Prop where
  perm : s.free + held s + k = maxWork
  idle : 0 < s.free → s.queue = []
  mem : ∀ j, j ∈ s.queue ↔ ∃ c, s.calls[j]? = some c ∧ c.job = .queued
  sorted : s.queue.Pairwise (· < ·)
  good : ∀ (i : Nat) c, s.calls[i]? = some c → Good e s.chain c
  chain : s.chain ≠ []

theorem countP_set' {α : Type} (p : α → Bool) (d : α) : ∀ (l : List α) (i : Nat) (c : α), l[i]? = some c →
    (l.set i d).countP p + (if p c then 1 else 0) = l.countP p + (if p d then 1 else 0)
  | [], _, _, h => by simp at h
  | x :: l, 0, c, h => by
      simp only [List.getElem?_cons_zero, Option.some.injEq] at h
      subst h
      simp only [List.set_cons_zero, List.countP_cons]
      omega
  | x :: l, i + 1, c, h => by
      simp only [List.getElem?_cons_succ] at h
      have := countP_set' p d l i c h
      simp only [List.set_cons_succ, List.countP_cons]
      omega

theorem set_get {α : Type} (l : List α) (i j : Nat) (c d : α) (h : l[i]? = some c) :
    (l.set i d)[j]? = if j = i then some d else l[j]? := by
  have hi : i < l.length := (List.getElem?_eq_some_iff.mp h).1
  rw [List.getElem?_set]
  by_cases hj : j = i
  · subst hj
    simp [hi]
  · rw [if_neg (fun h => hj h.symm), if_neg hj]

theorem FromOneTip.mono {e : Env R V K} {chain : List R} {c : Call V} {v : Reply V} (h : FromOneTip e chain c v) (r : R) :
    FromOneTip e (chain ++ [r]) c v := by
  obtain ⟨tip, h1, h2, h3⟩ := h
  refine ⟨tip, h1, by simp only [List.length_append, List.length_cons, List.length_nil]; omega, ?_⟩
  rcases h3 with ⟨q, hq, hv⟩ | hv
  · refine Or.inl ⟨q, ?_, hv⟩
    have hl : tip - 1 < chain.length := (List.getElem?_eq_some_iff.mp hq).1
    rw [List.getElem?_append_left hl]
    exact hq
  · exact Or.inr hv

theorem Good.mono {e : Env R V K} {chain : List R} {c : Call V} (h : Good e chain c) (r : R) :
    Good e (chain ++ [r]) c := by
  have hl : (chain ++ [r]).length = chain.length + 1 := by simp
  have hs := h.since
  refine ⟨h.pos, by omega, h.screened, h.queued, h.granted, ?_, fun v hv => (h.finished v hv).mono r, h.over, ?_⟩
  · intro tip ht
    have := h.running tip ht
    omega
  · intro x hx
    obtain ⟨h1, h2⟩ := h.answered x hx
    refine ⟨h1, ?_⟩
    rcases h2 with h2 | h2 | h2
    · exact Or.inl h2
    · exact Or.inr (Or.inl h2)
    · exact Or.inr (Or.inr (h2.mono r))

/-- One call that does not wait in the queue is replaced by another. -/
theorem Inv.replace {e : Env R V K} {k k' : Nat} {s : St R V} {i : Nat} {c d : Call V} (h : Inv e k s)
    (hc : s.calls[i]? = some c) (hq : c.job ≠ .queued) (hq' : d.job ≠ .queued) (hd : Good e s.chain d)
    (hk : (if holds c.job then 1 else 0) + k = (if holds d.job then 1 else 0) + k') : Inv e k' (setCall s i d) := by
  refine ⟨?_, h.idle, ?_, h.sorted, ?_, h.chain⟩
  · have h1 : (s.calls.set i d).countP (fun x => holds x.job) + (if holds c.job then 1 else 0)
        = s.calls.countP (fun x => holds x.job) + (if holds d.job then 1 else 0) :=
      countP_set' (fun x => holds x.job) d s.calls i c hc
    have h2 := h.perm
    show s.free + (s.calls.set i d).countP (fun x => holds x.job) + k' = maxWork
    change s.free + s.calls.countP (fun x => holds x.job) + k = maxWork at h2
    omega
  · intro j
    rw [show (setCall s i d).queue = s.queue from rfl, h.mem j]
    show _ ↔ ∃ c, (s.calls.set i d)[j]? = some c ∧ c.job = .queued
    rw [set_get s.calls i j c d hc]
    by_cases hj : j = i
    · subst hj
      rw [if_pos rfl]
      constructor
      · rintro ⟨x, hx, hxq⟩
        rw [hc] at hx
        cases hx
        exact absurd hxq hq
      · rintro ⟨x, hx, hxq⟩
        cases hx
        exact absurd hxq hq'
    · rw [if_neg hj]
  · intro j x hx
    change (s.calls.set i d)[j]? = some x at hx
    rw [set_get s.calls i j c d hc] at hx
    by_cases hj : j = i
    · rw [if_pos hj] at hx
      cases hx
      exact hd
    · rw [if_neg hj] at hx
      exact h.good j x hx

theorem release_nil {s : St R V} (h : s.queue = []) : Rpc.release s = { s with free := s.free + 1 } := by
  unfold Rpc.release
  rw [h]

theorem release_cons {s : St R V} {j : Nat} {q : List Nat} {c : Call V} (h : s.queue = j :: q) (hc : s.calls[j]? = some c) :
    Rpc.release s = { setCall s j { c with job := .granted } with queue := q } := by
  unfold Rpc.release
  rw [h]
  dsimp only
  rw [hc]

theorem notHeld : (if holds (Job.queued : Job V) then 1 else 0 : Nat) = 0 := rfl

/-- A permit in the hand goes back. -/
theorem Inv.release {e : Env R V K} {s : St R V} (h : Inv e 1 s) : Inv e 0 (Rpc.release s) := by
  cases hq : s.queue with
  | nil =>
    rw [release_nil hq]
    refine ⟨?_, fun _ => hq, h.mem, h.sorted, h.good, h.chain⟩
    have := h.perm
    show s.free + 1 + held s + 0 = maxWork
    omega
  | cons j q =>
    have hjq : j ∈ s.queue := by rw [hq]; exact List.mem_cons_self
    obtain ⟨c, hc, hcq⟩ := (h.mem j).mp hjq
    have hs := h.sorted
    rw [hq] at hs
    have hf : s.free = 0 := by
      by_contra hne
      have := h.idle (by omega)
      rw [hq] at this
      exact absurd this (by simp)
    rw [release_cons hq hc]
    have hg := h.good j c hc
    have hgr : Good e s.chain { c with job := .granted } := by
      refine ⟨hg.pos, hg.since, ?_, (fun h' => by (cases h')), fun _ => hg.queued hcq, (fun _ h' => by (cases h')),
        (fun _ h' => by (cases h')), (fun h' => by (cases h')), ?_⟩
      · intro r hr
        have := (hg.screened r hr).1
        rw [hcq] at this
        cases this
      · intro r hr
        have := hg.queued hcq
        change c.client = _ at hr
        rw [this] at hr
        cases hr
    refine ⟨?_, ?_, ?_, (List.pairwise_cons.mp hs).2, ?_, h.chain⟩
    · have h1 : (s.calls.set j { c with job := .granted }).countP (fun x => holds x.job) + (if holds c.job then 1 else 0)
          = s.calls.countP (fun x => holds x.job) + 1 :=
        countP_set' (fun x => holds x.job) _ s.calls j c hc
      rw [hcq, notHeld] at h1
      have h2 := h.perm
      show s.free + (s.calls.set j { c with job := .granted }).countP (fun x => holds x.job) + 0 = maxWork
      change s.free + s.calls.countP (fun x => holds x.job) + 1 = maxWork at h2
      omega
    · intro hpos
      change 0 < s.free at hpos
      omega
    · intro i
      show i ∈ q ↔ ∃ x, (s.calls.set j { c with job := .granted })[i]? = some x ∧ x.job = .queued
      rw [set_get s.calls j i c _ hc]
      have hm := h.mem i
      rw [hq] at hm
      by_cases hi : i = j
      · subst hi
        rw [if_pos rfl]
        constructor
        · intro hin
          exact absurd ((List.pairwise_cons.mp hs).1 i hin) (Nat.lt_irrefl i)
        · rintro ⟨x, hx, hxq⟩
          cases hx
          cases hxq
      · rw [if_neg hi, ← hm]
        simp [hi]
    · intro i x hx
      change (s.calls.set j { c with job := .granted })[i]? = some x at hx
      rw [set_get s.calls j i c _ hc] at hx
      by_cases hi : i = j
      · rw [if_pos hi] at hx
        cases hx
        exact hgr
      · rw [if_neg hi] at hx
        exact h.good i x hx

/-- A new call is added, with the queue as given. -/
theorem Inv.push {e : Env R V K} {k : Nat} {s : St R V} {d : Call V} (h : Inv e 0 s) (hd : Good e s.chain d)
    (hq : d.job ≠ .queued) (free : Nat) (hfree : free ≤ s.free)
    (hk : s.free = free + (if holds d.job then 1 else 0) + k) :
    Inv e k { s with free := free, calls := s.calls ++ [d] } := by
  refine ⟨?_, ?_, ?_, h.sorted, ?_, h.chain⟩
  · have h2 := h.perm
    change s.free + s.calls.countP (fun x => holds x.job) + 0 = maxWork at h2
    show free + (s.calls ++ [d]).countP (fun x => holds x.job) + k = maxWork
    rw [List.countP_append, List.countP_cons, List.countP_nil]
    omega
  · intro hp
    exact h.idle (Nat.lt_of_lt_of_le hp hfree)
  · intro j
    show j ∈ s.queue ↔ ∃ c, (s.calls ++ [d])[j]? = some c ∧ c.job = .queued
    rw [h.mem j]
    constructor
    · rintro ⟨c, hc, hcq⟩
      refine ⟨c, ?_, hcq⟩
      rw [List.getElem?_append_left (List.getElem?_eq_some_iff.mp hc).1]
      exact hc
    · rintro ⟨c, hc, hcq⟩
      rw [List.getElem?_append] at hc
      by_cases hj : j < s.calls.length
      · rw [if_pos hj] at hc
        exact ⟨c, hc, hcq⟩
      · rw [if_neg hj] at hc
        have := List.mem_of_getElem? hc
        simp only [List.mem_singleton] at this
        subst this
        exact absurd hcq hq
  · intro j x hx
    change (s.calls ++ [d])[j]? = some x at hx
    rw [List.getElem?_append] at hx
    by_cases hj : j < s.calls.length
    · rw [if_pos hj] at hx
      exact h.good j x hx
    · rw [if_neg hj] at hx
      have := List.mem_of_getElem? hx
      simp only [List.mem_singleton] at this
      subst this
      exact hd

/-- A new call joins the queue. -/
theorem Inv.enqueue {e : Env R V K} {s : St R V} {d : Call V} (h : Inv e 0 s) (hd : Good e s.chain d)
    (hq : d.job = .queued) (hf : s.free = 0) :
    Inv e 0 { s with queue := s.queue ++ [s.calls.length], calls := s.calls ++ [d] } := by
  have hlt : ∀ j ∈ s.queue, j < s.calls.length := by
    intro j hj
    obtain ⟨c, hc, _⟩ := (h.mem j).mp hj
    exact (List.getElem?_eq_some_iff.mp hc).1
  refine ⟨?_, ?_, ?_, ?_, ?_, h.chain⟩
  · have h2 := h.perm
    change s.free + s.calls.countP (fun x => holds x.job) + 0 = maxWork at h2
    show s.free + (s.calls ++ [d]).countP (fun x => holds x.job) + 0 = maxWork
    rw [List.countP_append, List.countP_cons, List.countP_nil, hq, notHeld]
    omega
  · intro hp
    change 0 < s.free at hp
    omega
  · intro j
    show j ∈ s.queue ++ [s.calls.length] ↔ ∃ c, (s.calls ++ [d])[j]? = some c ∧ c.job = .queued
    rw [List.mem_append, h.mem j, List.mem_singleton]
    constructor
    · rintro (⟨c, hc, hcq⟩ | hj)
      · refine ⟨c, ?_, hcq⟩
        rw [List.getElem?_append_left (List.getElem?_eq_some_iff.mp hc).1]
        exact hc
      · subst hj
        exact ⟨d, by simp, hq⟩
    · rintro ⟨c, hc, hcq⟩
      rw [List.getElem?_append] at hc
      by_cases hj : j < s.calls.length
      · rw [if_pos hj] at hc
        exact Or.inl ⟨c, hc, hcq⟩
      · rw [if_neg hj] at hc
        have := (List.getElem?_eq_some_iff.mp hc).1
        simp only [List.length_cons, List.length_nil] at this
        exact Or.inr (by omega)
  · show (s.queue ++ [s.calls.length]).Pairwise (· < ·)
    rw [List.pairwise_append]
    refine ⟨h.sorted, List.pairwise_singleton _ _, ?_⟩
    intro a ha b hb
    rw [List.mem_singleton] at hb
    subst hb
    exact hlt a ha
  · intro j x hx
    change (s.calls ++ [d])[j]? = some x at hx
    rw [List.getElem?_append] at hx
    by_cases hj : j < s.calls.length
    · rw [if_pos hj] at hx
      exact h.good j x hx
    · rw [if_neg hj] at hx
      have := List.mem_of_getElem? hx
      simp only [List.mem_singleton] at this
      subst this
      exact hd

/-- A call leaves the queue. -/
theorem Inv.dequeue {e : Env R V K} {s : St R V} {i : Nat} {c d : Call V} (h : Inv e 0 s) (hc : s.calls[i]? = some c)
    (hq : c.job = .queued) (hq' : d.job ≠ .queued) (hh : holds d.job = false) (hd : Good e s.chain d) :
    Inv e 0 { setCall s i d with queue := s.queue.filter (· != i) } := by
  refine ⟨?_, ?_, ?_, h.sorted.filter _, ?_, h.chain⟩
  · have h1 : (s.calls.set i d).countP (fun x => holds x.job) + (if holds c.job then 1 else 0)
        = s.calls.countP (fun x => holds x.job) + (if holds d.job then 1 else 0) :=
      countP_set' (fun x => holds x.job) d s.calls i c hc
    have h2 := h.perm
    show s.free + (s.calls.set i d).countP (fun x => holds x.job) + 0 = maxWork
    change s.free + s.calls.countP (fun x => holds x.job) + 0 = maxWork at h2
    rw [hq, hh, notHeld, if_neg (by decide)] at h1
    omega
  · intro hp
    show s.queue.filter (· != i) = []
    rw [h.idle hp]
    rfl
  · intro j
    show j ∈ s.queue.filter (· != i) ↔ ∃ c, (s.calls.set i d)[j]? = some c ∧ c.job = .queued
    rw [set_get s.calls i j c d hc, List.mem_filter, h.mem j]
    by_cases hj : j = i
    · subst hj
      rw [if_pos rfl]
      constructor
      · rintro ⟨_, hx⟩
        simp at hx
      · rintro ⟨x, hx, hxq⟩
        cases hx
        exact absurd hxq hq'
    · rw [if_neg hj]
      simp [hj]
  · intro j x hx
    change (s.calls.set i d)[j]? = some x at hx
    rw [set_get s.calls i j c d hc] at hx
    by_cases hj : j = i
    · rw [if_pos hj] at hx
      cases hx
      exact hd
    · rw [if_neg hj] at hx
      exact h.good j x hx

end Rpc
end Verif
