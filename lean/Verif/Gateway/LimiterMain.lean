import Verif.Gateway.LimiterProps

/-!
# The rate limiters under every schedule
-/

namespace Verif.Gate

open Verif.Net (get put del keys)

/-! ## Specification -/

/-- The requests, other than probes, that were passed on. -/
def allowedAns (l : List Ans) : List Ans :=
  l.filter fun a => !exempt a.path && decide (a.verdict = .allowed)

/-- Those of them that came from an address with key `k`. -/
def allowedFrom (p : Prefix) (k : Ip) (l : List Ans) : List Ans :=
  l.filter fun a => !exempt a.path && decide (a.verdict = .allowed) &&
    decide (a.peer.map p.key = some k)

/-- Requests answered with `429`. -/
def limitedAns (l : List Ans) : List Ans := l.filter fun a => decide (a.verdict = .rateLimited)

/-- Requests a history of the table refused. -/
def refusedIn (w : List TEv) : Nat :=
  (w.filter fun e => match e with
    | .took _ _ .refused => true
    | _ => false).length

/-! ## Invariant -/

/-- The part of the invariant about the gateway-wide bucket. -/
def GInv (c : Cfg) (t0 : Nat) (s : S) : Prop :=
  match c.global with
  | some l => ∃ b, s.global = some b ∧ Hist l (Bucket.full t0 l) s.glog b
  | none => s.global = none ∧ s.glog = []

/-- The part about the table. -/
def TInv (c : Cfg) (s : S) : Prop :=
  match c.perIp with
  | some l => THist l c.max [] s.tlog s.table
  | none => s.table = [] ∧ s.tlog = []

/-- Flights past the gateway-wide bucket. -/
def waiting (s : S) : Nat := (s.flights.filter fun f => decide (f.stage = .passedGlobal)).length

structure Inv (c : Cfg) (t0 : Nat) (s : S) : Prop where
  g : GInv c t0 s
  t : TInv c s
  start : t0 ≤ s.clock
  seen : ∀ f ∈ s.flights, t0 ≤ f.now ∧ f.now ≤ s.clock
  gseen : ∀ e ∈ s.glog, t0 ≤ e.1 ∧ e.1 ≤ s.clock
  nonexempt : ∀ f ∈ s.flights, exempt f.path = false
  past : ∀ f ∈ s.flights, f.stage = .passedGlobal →
    ∃ l ip, c.perIp = some l ∧ f.peer = some ip
  count : c.global ≠ none → (allowedAns s.answers).length + waiting s + refusedIn s.tlog
    = admitted s.glog
  limited : (limitedAns s.answers).length
    = (s.glog.filter fun e => !e.2).length + refusedIn s.tlog
  key : ∀ k, c.perIp ≠ none →
    (allowedFrom c.pre k s.answers).length = passedOf k s.tlog
  probes : ∀ a ∈ s.answers, exempt a.path = true → a.verdict = .allowed

theorem inv_init (c : Cfg) (t0 : Nat) : Inv c t0 (S.init c t0) where
  g := by
    unfold GInv S.init
    cases c.global with
    | none => exact ⟨rfl, rfl⟩
    | some l => exact ⟨_, rfl, rfl⟩
  t := by
    unfold TInv S.init
    cases c.perIp with
    | none => exact ⟨rfl, rfl⟩
    | some l => exact rfl
  start := Nat.le_refl _
  seen := by simp [S.init]
  gseen := by simp [S.init]
  nonexempt := by simp [S.init]
  past := by simp [S.init]
  count := fun _ => rfl
  limited := rfl
  key := fun _ _ => rfl
  probes := by simp [S.init]

theorem waiting_append (l : List Flight) (f : Flight) :
    ((l ++ [f]).filter fun f => decide (f.stage = .passedGlobal)).length
      = (l.filter fun f => decide (f.stage = .passedGlobal)).length
        + (if f.stage = .passedGlobal then 1 else 0) := by
  rw [List.filter_append, List.length_append]
  by_cases h : f.stage = .passedGlobal <;> simp [h]

theorem waiting_erase (l : List Flight) (i : Nat) (f : Flight) (h : l[i]? = some f) :
    (l.filter fun f => decide (f.stage = .passedGlobal)).length
      = ((l.eraseIdx i).filter fun f => decide (f.stage = .passedGlobal)).length
        + (if f.stage = .passedGlobal then 1 else 0) := by
  induction l generalizing i with
  | nil => simp at h
  | cons x l ih =>
    cases i with
    | zero =>
      simp at h; subst h
      by_cases h : x.stage = .passedGlobal <;> simp [h]
    | succ i =>
      have := ih i (by simpa using h)
      by_cases hx : x.stage = .passedGlobal <;> simp [hx, this] <;> omega

theorem waiting_set (l : List Flight) (i : Nat) (f f' : Flight) (h : l[i]? = some f)
    (hs : f.stage = .sampled) (hs' : f'.stage = .passedGlobal) :
    ((l.set i f').filter fun f => decide (f.stage = .passedGlobal)).length
      = (l.filter fun f => decide (f.stage = .passedGlobal)).length + 1 := by
  induction l generalizing i with
  | nil => simp at h
  | cons x l ih =>
    cases i with
    | zero => simp at h; subst h; simp [hs, hs']
    | succ i =>
      have := ih i (by simpa using h)
      by_cases hx : x.stage = .passedGlobal <;> simp [hx, this]

theorem mem_eraseIdx {l : List Flight} {i : Nat} {f : Flight} (h : f ∈ l.eraseIdx i) : f ∈ l :=
  List.mem_of_mem_eraseIdx h

theorem allowedAns_snoc (l : List Ans) (a : Ans) : (allowedAns (l ++ [a])).length
    = (allowedAns l).length
      + (if exempt a.path = false ∧ a.verdict = .allowed then 1 else 0) := by
  unfold allowedAns
  rw [List.filter_append, List.length_append]
  cases h : exempt a.path <;> by_cases hv : a.verdict = .allowed <;> simp [h, hv]

theorem allowedFrom_snoc (p : Prefix) (k : Ip) (l : List Ans) (a : Ans) :
    (allowedFrom p k (l ++ [a])).length = (allowedFrom p k l).length
      + (if exempt a.path = false ∧ a.verdict = .allowed ∧ a.peer.map p.key = some k
          then 1 else 0) := by
  unfold allowedFrom
  rw [List.filter_append, List.length_append]
  congr 1
  cases h : exempt a.path <;> by_cases hv : a.verdict = .allowed <;>
    by_cases hk : a.peer.map p.key = some k <;> simp only [List.filter, h, hv, hk] <;> rfl

theorem limitedAns_snoc (l : List Ans) (a : Ans) : (limitedAns (l ++ [a])).length
    = (limitedAns l).length + (if a.verdict = .rateLimited then 1 else 0) := by
  unfold limitedAns
  rw [List.filter_append, List.length_append]
  by_cases hv : a.verdict = .rateLimited <;> simp [hv]

theorem admitted_snoc (l : List (Nat × Bool)) (n : Nat) (b : Bool) :
    admitted (l ++ [(n, b)]) = admitted l + (if b then 1 else 0) := by
  unfold admitted
  rw [List.filter_append, List.length_append]
  cases b <;> simp

theorem refusedG_snoc (l : List (Nat × Bool)) (n : Nat) (b : Bool) :
    ((l ++ [(n, b)]).filter fun e => !e.2).length
      = (l.filter fun e => !e.2).length + (if b then 0 else 1) := by
  rw [List.filter_append, List.length_append]
  cases b <;> simp

theorem refusedIn_snoc (l : List TEv) (k : Ip) (n : Nat) (p : Pass) :
    refusedIn (l ++ [.took k n p]) = refusedIn l + (if p.ok then 0 else 1) := by
  unfold refusedIn
  rw [List.filter_append, List.length_append]
  cases p <;> simp [Pass.ok]

theorem refusedIn_swept (l : List TEv) (n : Nat) :
    refusedIn (l ++ [.swept n]) = refusedIn l := by
  unfold refusedIn
  rw [List.filter_append, List.length_append]
  simp

theorem passedOf_snoc (l : List TEv) (k k' : Ip) (n : Nat) (p : Pass) :
    passedOf k (l ++ [.took k' n p]) = passedOf k l + (if k' = k ∧ p.ok = true then 1 else 0) := by
  unfold passedOf
  rw [List.filter_append, List.length_append]
  by_cases h : k' = k <;> cases p <;> simp [Pass.ok, h]

theorem passedOf_swept (l : List TEv) (k : Ip) (n : Nat) :
    passedOf k (l ++ [.swept n]) = passedOf k l := by
  unfold passedOf
  rw [List.filter_append, List.length_append]
  simp

/-- What happens to a request past the gateway-wide bucket keeps the invariant. -/
theorem inv_pass {c : Cfg} {t0 : Nat} {s s' : S} (h : Inv c t0 s) {i : Nat} {f : Flight}
    (hf : s.flights[i]? = some f) (hst : f.stage = .sampled)
    (hfl : s'.flights = s.flights) (hcl : s'.clock = s.clock) (han : s'.answers = s.answers)
    (htl : s'.tlog = s.tlog) (htb : s'.table = s.table)
    (hg : GInv c t0 s') (hgs : ∀ e ∈ s'.glog, t0 ≤ e.1 ∧ e.1 ≤ s.clock)
    (hadm : c.global ≠ none → admitted s'.glog = admitted s.glog + 1)
    (href : (s'.glog.filter fun e => !e.2).length = (s.glog.filter fun e => !e.2).length) :
    Inv c t0 (s'.passGlobal c i f) := by
  have hm : f ∈ s.flights := List.mem_of_getElem? hf
  have hw := waiting_erase _ _ _ hf
  rw [if_neg (show ¬ f.stage = .passedGlobal by rw [hst]; decide)] at hw
  have hne := h.nonexempt f hm
  have fin : ∀ (hk : ∀ k, c.perIp ≠ none → f.peer.map c.pre.key ≠ some k),
      Inv c t0 (s'.finish i f .allowed) := by
    intro hk
    refine
      { g := ?_, t := ?_, start := ?_, seen := ?_, gseen := ?_, nonexempt := ?_, past := ?_,
        count := ?_, limited := ?_, key := ?_, probes := ?_ }
    · exact hg
    · have := h.t; unfold TInv S.finish at *; simpa [htb, htl] using this
    · show t0 ≤ s'.clock; rw [hcl]; exact h.start
    · intro x hx; show _ ∧ _ ≤ s'.clock; rw [hcl]
      have hx' : x ∈ s'.flights.eraseIdx i := hx
      rw [hfl] at hx'; exact h.seen x (mem_eraseIdx hx')
    · intro e he; show _ ∧ _ ≤ s'.clock; rw [hcl]; exact hgs e he
    · intro x hx
      have hx' : x ∈ s'.flights.eraseIdx i := hx
      rw [hfl] at hx'; exact h.nonexempt x (mem_eraseIdx hx')
    · intro x hx
      have hx' : x ∈ s'.flights.eraseIdx i := hx
      rw [hfl] at hx'; exact h.past x (mem_eraseIdx hx')
    · intro hc
      have h1 := h.count hc
      have h2 := hadm hc
      show (allowedAns (s'.answers ++ [_])).length
        + ((s'.flights.eraseIdx i).filter _).length + refusedIn s'.tlog = admitted s'.glog
      rw [allowedAns_snoc, han, hfl, htl, h2, if_pos ⟨hne, rfl⟩]
      unfold waiting at h1; omega
    · show (limitedAns (s'.answers ++ [_])).length
        = (s'.glog.filter fun e => !e.2).length + refusedIn s'.tlog
      rw [limitedAns_snoc, han, htl, href, if_neg (by simp)]
      exact h.limited
    · intro k hp
      show (allowedFrom c.pre k (s'.answers ++ [_])).length = passedOf k s'.tlog
      rw [allowedFrom_snoc, han, htl, if_neg (fun e => hk k hp e.2.2)]
      exact h.key k hp
    · intro a ha he
      rcases List.mem_append.1 ha with ha | ha
      · rw [han] at ha; exact h.probes a ha he
      · simp at ha; rw [ha]
  unfold S.passGlobal
  split
  · rename_i l ip hpi hpe
    refine
      { g := ?_, t := ?_, start := ?_, seen := ?_, gseen := ?_, nonexempt := ?_, past := ?_,
        count := ?_, limited := ?_, key := ?_, probes := ?_ }
    · exact hg
    · have := h.t; unfold TInv at *; simpa [htb, htl] using this
    · show t0 ≤ s'.clock; rw [hcl]; exact h.start
    · intro x hx; show _ ∧ _ ≤ s'.clock; rw [hcl]
      have hx' : x ∈ s'.flights.set i _ := hx
      rw [hfl] at hx'
      rcases List.mem_or_eq_of_mem_set hx' with hx | hx
      · exact h.seen x hx
      · rw [hx]; exact h.seen f hm
    · intro e he; show _ ∧ _ ≤ s'.clock; rw [hcl]; exact hgs e he
    · intro x hx
      have hx' : x ∈ s'.flights.set i _ := hx
      rw [hfl] at hx'
      rcases List.mem_or_eq_of_mem_set hx' with hx | hx
      · exact h.nonexempt x hx
      · rw [hx]; exact hne
    · intro x hx hxs
      have hx' : x ∈ s'.flights.set i _ := hx
      rw [hfl] at hx'
      rcases List.mem_or_eq_of_mem_set hx' with hx | hx
      · exact h.past x hx hxs
      · rw [hx]; exact ⟨l, ip, hpi, hpe⟩
    · intro hc
      have h1 := h.count hc
      have h2 := hadm hc
      show (allowedAns s'.answers).length
        + ((s'.flights.set i _).filter _).length + refusedIn s'.tlog = admitted s'.glog
      rw [han, hfl, htl, h2, waiting_set _ _ _ _ hf hst rfl]
      unfold waiting at h1; omega
    · show (limitedAns s'.answers).length
        = (s'.glog.filter fun e => !e.2).length + refusedIn s'.tlog
      rw [han, htl, href]; exact h.limited
    · intro k hp
      show (allowedFrom c.pre k s'.answers).length = passedOf k s'.tlog
      rw [han, htl]; exact h.key k hp
    · intro a ha he
      have ha' : a ∈ s'.answers := ha
      rw [han] at ha'; exact h.probes a ha' he
  · rename_i hno
    refine fin ?_
    intro k hp hk
    cases hpi : c.perIp with
    | none => exact hp hpi
    | some l =>
      cases hpe : f.peer with
      | none => rw [hpe] at hk; cases hk
      | some ip => exact hno l ip hpi hpe

theorem inv_step {c : Cfg} {t0 : Nat} {s s' : S} {e : Ev} (h : Inv c t0 s)
    (hs : s.step c e = some s') : Inv c t0 s' := by
  cases e with
  | tick d =>
    cases hs
    exact
      { h with
        start := Nat.le_trans h.start (Nat.le_add_right _ _)
        seen := fun f hf => ⟨(h.seen f hf).1, Nat.le_trans (h.seen f hf).2 (Nat.le_add_right _ _)⟩
        gseen := fun f hf =>
          ⟨(h.gseen f hf).1, Nat.le_trans (h.gseen f hf).2 (Nat.le_add_right _ _)⟩ }
  | arrive path p =>
    dsimp only [S.step] at hs
    cases hx : exempt path with
    | true =>
      rw [if_pos hx] at hs
      cases hs
      exact
        { h with
          count := fun hc => by
            show (allowedAns (s.answers ++ [_])).length + waiting s + refusedIn s.tlog = _
            rw [allowedAns_snoc, if_neg (by simp [hx])]; exact h.count hc
          limited := by
            show (limitedAns (s.answers ++ [_])).length = _
            rw [limitedAns_snoc, if_neg (by simp)]; exact h.limited
          key := fun k hp => by
            show (allowedFrom c.pre k (s.answers ++ [_])).length = _
            rw [allowedFrom_snoc, if_neg (by simp [hx])]; exact h.key k hp
          probes := fun a ha he => by
            rcases List.mem_append.1 ha with ha | ha
            · exact h.probes a ha he
            · simp at ha; rw [ha] }
    | false =>
      rw [if_neg (by simp [hx])] at hs
      cases hs
      refine
        { h with
          seen := ?_
          nonexempt := ?_
          past := ?_
          count := ?_ }
      · intro f hf
        rcases List.mem_append.1 hf with hf | hf
        · exact h.seen f hf
        · simp at hf; rw [hf]; exact ⟨h.start, Nat.le_refl _⟩
      · intro f hf
        rcases List.mem_append.1 hf with hf | hf
        · exact h.nonexempt f hf
        · simp at hf; rw [hf]; exact hx
      · intro f hf hst
        rcases List.mem_append.1 hf with hf | hf
        · exact h.past f hf hst
        · simp at hf; rw [hf] at hst; cases hst
      · intro hc
        have := h.count hc
        show (allowedAns s.answers).length + ((s.flights ++ [_]).filter _).length
          + refusedIn s.tlog = _
        rw [waiting_append, if_neg (by simp)]
        exact this
  | global i =>
    dsimp only [S.step] at hs
    cases hf : s.flights[i]? with
    | none => rw [hf] at hs; cases hs
    | some f =>
      rw [hf] at hs
      dsimp only at hs
      have hm : f ∈ s.flights := List.mem_of_getElem? hf
      cases hst : f.stage with
      | passedGlobal => rw [hst] at hs; cases hs
      | sampled =>
        rw [hst] at hs
        dsimp only at hs
        have hg := h.g
        unfold GInv at hg
        cases hc : c.global with
        | none =>
          rw [hc] at hs
          dsimp only at hs
          cases hs
          exact inv_pass h hf hst rfl rfl rfl rfl rfl h.g h.gseen (fun x => absurd hc x) rfl
        | some l =>
          rw [hc] at hs hg
          obtain ⟨b, hb, hh⟩ := hg
          rw [hb] at hs
          dsimp only at hs
          have hh' := hist_snoc hh f.now
          have hgs' : ∀ e ∈ s.glog ++ [(f.now, (b.tryAdmit f.now l).1)],
              t0 ≤ e.1 ∧ e.1 ≤ s.clock := by
            intro e he
            rcases List.mem_append.1 he with he | he
            · exact h.gseen e he
            · simp at he; rw [he]; exact h.seen f hm
          cases ho : (b.tryAdmit f.now l).1 with
          | true =>
            rw [ho] at hs hh' hgs'
            simp only [if_true] at hs
            cases hs
            refine inv_pass h hf hst rfl rfl rfl rfl rfl ?_ hgs' ?_ ?_
            · unfold GInv; rw [hc]; exact ⟨_, rfl, hh'⟩
            · intro _; rw [admitted_snoc]; rfl
            · rw [refusedG_snoc]; rfl
          | false =>
            rw [ho] at hs hh' hgs'
            simp only [Bool.false_eq_true, if_false] at hs
            cases hs
            have hw := waiting_erase _ _ _ hf
            rw [if_neg (show ¬ f.stage = .passedGlobal by rw [hst]; decide)] at hw
            refine
              { g := ?_, t := h.t, start := h.start, seen := ?_, gseen := hgs', nonexempt := ?_,
                past := ?_, count := ?_, limited := ?_, key := ?_, probes := ?_ }
            · unfold GInv; rw [hc]; exact ⟨_, rfl, hh'⟩
            · intro x hx; exact h.seen x (mem_eraseIdx hx)
            · intro x hx; exact h.nonexempt x (mem_eraseIdx hx)
            · intro x hx; exact h.past x (mem_eraseIdx hx)
            · intro hcn
              have h1 := h.count hcn
              show (allowedAns (s.answers ++ [_])).length
                + ((s.flights.eraseIdx i).filter _).length + refusedIn s.tlog
                  = admitted (s.glog ++ [_])
              rw [allowedAns_snoc, admitted_snoc, if_neg (by simp)]
              unfold waiting at h1; simp; omega
            · show (limitedAns (s.answers ++ [_])).length
                = ((s.glog ++ [(f.now, false)]).filter fun e : Nat × Bool => !e.2).length + refusedIn s.tlog
              rw [limitedAns_snoc, refusedG_snoc, if_pos rfl]
              have := h.limited; simp; omega
            · intro k hp
              show (allowedFrom c.pre k (s.answers ++ [_])).length = _
              rw [allowedFrom_snoc, if_neg (by simp)]; exact h.key k hp
            · intro a ha he
              rcases List.mem_append.1 ha with ha | ha
              · exact h.probes a ha he
              · simp at ha
                rw [ha] at he
                rw [h.nonexempt f hm] at he; cases he
  | perIp i =>
    dsimp only [S.step] at hs
    cases hf : s.flights[i]? with
    | none => rw [hf] at hs; cases hs
    | some f =>
      rw [hf] at hs
      dsimp only at hs
      have hm : f ∈ s.flights := List.mem_of_getElem? hf
      cases hst : f.stage with
      | sampled => rw [hst] at hs; cases hs
      | passedGlobal =>
        obtain ⟨l, ip, hpi, hpe⟩ := h.past f hm hst
        rw [hst, hpi, hpe] at hs
        dsimp only at hs
        cases hs
        have hw := waiting_erase _ _ _ hf
        rw [if_pos hst] at hw
        have ht := h.t
        unfold TInv at ht
        rw [hpi] at ht
        have hne := h.nonexempt f hm
        generalize hr : admitKey l c.max f.now (c.pre.key ip) s.table = r
        have hv : (if r.1.ok = true then Verdict.allowed else .rateLimited) = .allowed
            ↔ r.1.ok = true := by
          by_cases h : r.1.ok = true
          · simp [h]
          · simp [h]
        have hv' : (if r.1.ok = true then Verdict.allowed else .rateLimited) = .rateLimited
            ↔ r.1.ok = false := by
          by_cases h : r.1.ok = true
          · simp [h]
          · simp [h]
        refine
          { g := h.g, t := ?_, start := h.start, seen := ?_, gseen := h.gseen, nonexempt := ?_,
            past := ?_, count := ?_, limited := ?_, key := ?_, probes := ?_ }
        · unfold TInv; rw [hpi]
          refine (thist_append ..).2 ⟨_, ht, ?_⟩
          show (admitKey l c.max f.now (c.pre.key ip) s.table).1 = r.1
            ∧ r.2 = (admitKey l c.max f.now (c.pre.key ip) s.table).2
          rw [hr]; exact ⟨rfl, rfl⟩
        · intro x hx; exact h.seen x (mem_eraseIdx hx)
        · intro x hx; exact h.nonexempt x (mem_eraseIdx hx)
        · intro x hx; exact h.past x (mem_eraseIdx hx)
        · intro hcn
          have h1 := h.count hcn
          show (allowedAns (s.answers ++ [_])).length
            + ((s.flights.eraseIdx i).filter _).length + refusedIn (s.tlog ++ [_])
              = admitted s.glog
          rw [allowedAns_snoc, refusedIn_snoc]
          unfold waiting at h1
          cases ho : r.1.ok <;> simp [hne] <;> omega
        · show (limitedAns (s.answers ++ [_])).length
            = (s.glog.filter fun e => !e.2).length + refusedIn (s.tlog ++ [_])
          rw [limitedAns_snoc, refusedIn_snoc]
          have := h.limited
          cases ho : r.1.ok <;> simp <;> omega
        · intro k hp
          show (allowedFrom c.pre k (s.answers ++ [_])).length = passedOf k (s.tlog ++ [_])
          rw [allowedFrom_snoc, passedOf_snoc, h.key k hp]
          congr 1
          by_cases hk : c.pre.key ip = k <;> cases ho : r.1.ok <;> simp [hne, hpe, hk]
        · intro a ha he
          rcases List.mem_append.1 ha with ha | ha
          · exact h.probes a ha he
          · simp at ha
            rw [ha] at he
            rw [hne] at he; cases he
  | gcRead =>
    dsimp only [S.step] at hs
    split at hs
    · cases hs; exact { h with }
    · cases hs
  | gcSweep =>
    dsimp only [S.step] at hs
    split at hs
    · rename_i l n hpi hn
      cases hs
      have ht := h.t
      unfold TInv at ht
      rw [hpi] at ht
      exact
        { h with
          t := by
            unfold TInv; rw [hpi]
            exact (thist_append ..).2 ⟨_, ht, rfl⟩
          count := fun hc => by
            show _ + refusedIn (s.tlog ++ [_]) = _
            rw [refusedIn_swept]; exact h.count hc
          limited := by
            show _ = _ + refusedIn (s.tlog ++ [_])
            rw [refusedIn_swept]; exact h.limited
          key := fun k hp => by
            show _ = passedOf k (s.tlog ++ [_])
            rw [passedOf_swept]; exact h.key k hp }
    · cases hs

theorem inv_runs {c : Cfg} {t0 : Nat} {es : List Ev} {s s' : S} (h : Inv c t0 s)
    (hr : s.runs c es = some s') : Inv c t0 s' := by
  induction es generalizing s with
  | nil => cases hr; exact h
  | cons e es ih =>
    obtain ⟨m, h1, h2⟩ := Option.bind_eq_some_iff.1 hr
    exact ih (inv_step h h1) h2

theorem reach_inv {c : Cfg} {s : S} (h : Reach c s) : ∃ t0, Inv c t0 s := by
  obtain ⟨t0, es, hr⟩ := h
  exact ⟨t0, inv_runs (inv_init c t0) hr⟩

/-! ## The gateway-wide limit -/

theorem glog_hist {c : Cfg} {s : S} {l : Limit} (h : Reach c s) (hc : c.global = some l) :
    ∃ t0 b, Hist l (Bucket.full t0 l) s.glog b := by
  obtain ⟨t0, hi⟩ := reach_inv h
  have := hi.g
  unfold GInv at this
  rw [hc] at this
  obtain ⟨b, _, hb⟩ := this
  exact ⟨t0, b, hb⟩

/-- **In any stretch of requests, the gateway-wide bucket lets through at most its burst plus its rate
times the climb of their clock readings.**  This holds under every schedule. -/
theorem global_bound {c : Cfg} {s : S} {l : Limit} (h : Reach c s) (hc : c.global = some l)
    {w : List (Nat × Bool)} (hw : Window w s.glog) :
    admitted w * unit ≤ l.burst * unit + l.rate * rise (times w) := by
  obtain ⟨t0, b, hh⟩ := glog_hist h hc
  obtain ⟨u, v, e⟩ := hw
  rw [e] at hh
  obtain ⟨m, h1, _⟩ := (hist_append ..).1 hh
  obtain ⟨m', _, h2⟩ := (hist_append ..).1 h1
  exact hist_bound l m' m w h2

/-- **When the requests of the stretch took the lock in the order of their clock readings, the climb is
the time the stretch lasted: burst plus rate times time.** -/
theorem global_bound_in_order {c : Cfg} {s : S} {l : Limit} (h : Reach c s) (hc : c.global = some l)
    {w : List (Nat × Bool)} (hw : Window w s.glog) (hs : (times w).Pairwise (· ≤ ·))
    {first last : Nat} (hf : (times w).head? = some first) (hl : (times w).getLast? = some last) :
    admitted w * unit ≤ l.burst * unit + l.rate * (last - first) := by
  have := global_bound h hc hw
  cases ht : times w with
  | nil => rw [ht] at hf; cases hf
  | cons a r =>
    rw [ht] at this hs hf hl
    cases hf
    rw [rise_sorted r first last hs hl] at this
    exact this

/-- **The gateway-wide bucket refuses a request only when letting it through would exceed the limit over
some stretch of requests that ends with it.** -/
theorem global_refusal_justified {c : Cfg} {s : S} {l : Limit} (h : Reach c s)
    (hc : c.global = some l) {a b : List (Nat × Bool)} {t : Nat}
    (he : s.glog = a ++ (t, false) :: b) :
    ∃ a1 w first, a = a1 ++ w ∧ (times w).head? = some first ∧
      l.burst * unit + l.rate * (t - first) < (admitted w + 1) * unit := by
  obtain ⟨t0, q, hh⟩ := glog_hist h hc
  rw [he] at hh
  obtain ⟨m, h1, h2, _⟩ := (hist_append ..).1 hh
  have hlt : ¬ unit ≤ m.replenished t l := fun hx => by
    rw [(tryAdmit_iff m t l).2 hx] at h2; cases h2
  rcases hist_spent l t0 a m h1 with ⟨rfl, rfl⟩ | ⟨a1, n, ok, r, rfl, hb, hl⟩
  · rw [full_replenished] at hlt; exact absurd (unit_le_capacity l) hlt
  · refine ⟨a1, (n, ok) :: r, n, rfl, rfl, ?_⟩
    have hr : m.tokens + (t - m.last) * l.rate < unit := by
      have := unit_le_capacity l
      unfold Bucket.replenished at hlt; omega
    have hge : t - n ≤ rise (n :: times r) + (t - m.last) := by
      have := rise_ge ((times r) ++ [t]) n t (by simp)
      have e := rise_snoc (n :: times r) m.last t hl
      rw [List.cons_append] at e
      omega
    have : l.rate * (t - n) ≤ l.rate * rise (n :: times r) + (t - m.last) * l.rate := by
      rw [Nat.mul_comm (t - m.last), ← Nat.mul_add]
      exact Nat.mul_le_mul_left _ hge
    rw [Nat.add_mul, Nat.one_mul]
    unfold Limit.capacity at hb
    omega

/-- **Requests that are passed on are bounded by the gateway-wide limit**: over a whole run, the requests
passed on (probes aside) are at most burst plus rate times the climb of the clock readings, and every
one of them was let through by the bucket. -/
theorem allowed_bound {c : Cfg} {s : S} {l : Limit} (h : Reach c s) (hc : c.global = some l) :
    (allowedAns s.answers).length ≤ admitted s.glog ∧
      (allowedAns s.answers).length * unit ≤ l.burst * unit + l.rate * rise (times s.glog) := by
  obtain ⟨t0, hi⟩ := reach_inv h
  have h1 := hi.count (by rw [hc]; simp)
  have h2 := global_bound h hc (w := s.glog) ⟨[], [], by simp⟩
  have h3 : (allowedAns s.answers).length ≤ admitted s.glog := by omega
  exact ⟨h3, Nat.le_trans (Nat.mul_le_mul_right _ h3) h2⟩

/-! ## The per-client limit -/

theorem tlog_hist {c : Cfg} {s : S} {l : Limit} (h : Reach c s) (hc : c.perIp = some l) :
    THist l c.max [] s.tlog s.table := by
  obtain ⟨t0, hi⟩ := reach_inv h
  have := hi.t
  unfold TInv at this
  rw [hc] at this
  exact this

/-- **In any stretch of the table's history in which no request of the prefix was let through uncounted,
a client prefix gets at most its burst plus its rate times the climb of the clock readings, whatever
sweeps run in between.**  This holds under every schedule. -/
theorem client_bound {c : Cfg} {s : S} {l : Limit} (h : Reach c s) (hc : c.perIp = some l) (k : Ip)
    {w : List TEv} (hw : Window w s.tlog) (htr : tracked k w) :
    admittedOf k w * unit ≤ l.burst * unit + l.rate * rise (timesOf k w) := by
  have hh := tlog_hist h hc
  obtain ⟨u, v, e⟩ := hw
  rw [e] at hh
  obtain ⟨m, h1, _⟩ := (thist_append ..).1 hh
  obtain ⟨m', h0, h2⟩ := (thist_append ..).1 h1
  exact thist_bound l c.max k m' m w (thist_nodup (by simp [keys]) h0) htr h2

/-- The same with clock readings in order: burst plus rate times time. -/
theorem client_bound_in_order {c : Cfg} {s : S} {l : Limit} (h : Reach c s) (hc : c.perIp = some l)
    (k : Ip) {w : List TEv} (hw : Window w s.tlog) (htr : tracked k w)
    (hs : (timesOf k w).Pairwise (· ≤ ·)) {first last : Nat}
    (hf : (timesOf k w).head? = some first) (hl : (timesOf k w).getLast? = some last) :
    admittedOf k w * unit ≤ l.burst * unit + l.rate * (last - first) := by
  have := client_bound h hc k hw htr
  cases ht : timesOf k w with
  | nil => rw [ht] at hf; cases hf
  | cons a r =>
    rw [ht] at this hs hf hl
    cases hf
    rw [rise_sorted r first last hs hl] at this
    exact this

/-- **A client's request is refused by its own bucket only when its own prefix has used the limit up**:
letting it through would exceed burst plus rate times time over a stretch of the prefix's own requests
ending with this one.  No request of another prefix, and no sweep, takes anything from it. -/
theorem client_refusal_justified {c : Cfg} {s : S} {l : Limit} (h : Reach c s)
    (hc : c.perIp = some l) {k : Ip} {a b : List TEv} {t : Nat}
    (he : s.tlog = a ++ .took k t .refused :: b) :
    ∃ a1 first p r, a = a1 ++ .took k first p :: r ∧
      l.burst * unit + l.rate * (t - first) < (admittedOf k (.took k first p :: r) + 1) * unit := by
  have hh := tlog_hist h hc
  rw [he] at hh
  obtain ⟨m, h1, h2, _⟩ := (thist_append ..).1 hh
  obtain ⟨b', hb', hl', ht'⟩ := admitKey_lvl (l := l) (max := c.max) (n := t) (k := k) (t := m)
    (by rw [h2]; decide)
  have hlt : lvl l t (get k m) < unit := by
    unfold admitKey admitNew at h2
    split at h2
    · rename_i q hq
      rw [hq]
      by_contra hx
      have := (tryAdmit_iff q t l).2 (by
        have : ¬ q.replenished t l < unit := hx
        omega)
      dsimp only at h2
      rw [this] at h2; cases h2
    · split at h2
      · have := (tryAdmit_iff (Bucket.full t l) t l).2
          (by rw [full_replenished]; exact unit_le_capacity l)
        dsimp only at h2
        rw [this] at h2; cases h2
      · cases h2
  cases hg : get k m with
  | none => rw [hg] at hlt; exact absurd (unit_le_capacity l) (Nat.not_le.2 hlt)
  | some q =>
    rw [hg] at hlt
    obtain ⟨a1, n, p, r, rfl, hb, hl⟩ := thist_spent l c.max k a m h1 q hg
    refine ⟨a1, n, p, r, rfl, ?_⟩
    have hr : q.tokens + (t - q.last) * l.rate < unit := by
      have := unit_le_capacity l
      have hx : q.replenished t l < unit := hlt
      unfold Bucket.replenished at hx; omega
    have hge : t - n ≤ rise (n :: ownTimes k r) + (t - q.last) := by
      have := rise_ge ((ownTimes k r) ++ [t]) n t (by simp)
      have e := rise_snoc (n :: ownTimes k r) q.last t hl
      rw [List.cons_append] at e
      omega
    have : l.rate * (t - n) ≤ l.rate * rise (n :: ownTimes k r) + (t - q.last) * l.rate := by
      rw [Nat.mul_comm (t - q.last), ← Nat.mul_add]
      exact Nat.mul_le_mul_left _ hge
    rw [Nat.add_mul, Nat.one_mul]
    unfold Limit.capacity at hb
    omega

/-- Requests of key `k` in a history of the table. -/
def requestsOf (k : Ip) (w : List TEv) : Nat := (ownTimes k w).length

theorem admittedOf_le (k : Ip) (w : List TEv) : admittedOf k w ≤ requestsOf k w := by
  induction w with
  | nil => simp [admittedOf]
  | cons e w ih =>
    cases e with
    | swept n => simpa [admittedOf, requestsOf, ownTimes] using ih
    | took k' n p =>
      unfold requestsOf ownTimes admittedOf at *
      by_cases h : k' = k
      · cases p <;> simp [h] <;> omega
      · cases p <;> simpa [h] using ih

/-- **A client that keeps to its limit is never refused by its own bucket**: if no stretch of its own
requests is longer than burst plus rate times the time it lasts, none of them is refused. -/
theorem conforming_never_refused {c : Cfg} {s : S} {l : Limit} (h : Reach c s)
    (hc : c.perIp = some l) {k : Ip}
    (hconf : ∀ a first p r t q b, s.tlog = a ++ .took k first p :: r ++ .took k t q :: b →
      (requestsOf k (.took k first p :: r) + 1) * unit ≤ l.burst * unit + l.rate * (t - first)) :
    ∀ t, TEv.took k t .refused ∉ s.tlog := by
  intro t ht
  obtain ⟨a, b, he⟩ := List.append_of_mem ht
  obtain ⟨a1, first, p, r, rfl, hlt⟩ := client_refusal_justified h hc he
  have h1 := hconf a1 first p r t .refused b (by rw [he])
  have h2 := admittedOf_le k (.took k first p :: r)
  have h3 : (admittedOf k (.took k first p :: r) + 1) * unit
      ≤ (requestsOf k (.took k first p :: r) + 1) * unit := Nat.mul_le_mul_right _ (by omega)
  omega

/-- **The table never holds more than its configured number of buckets (at least one), each key once.** -/
theorem table_bounded {c : Cfg} {s : S} (h : Reach c s) :
    s.table.length ≤ Nat.max c.maxEntries 1 ∧ (keys s.table).Nodup := by
  cases hc : c.perIp with
  | some l =>
    have hh := tlog_hist h hc
    exact ⟨thist_length (by simp [keys]) (Nat.zero_le _) hh, thist_nodup (by simp [keys]) hh⟩
  | none =>
    obtain ⟨t0, hi⟩ := reach_inv h
    have := hi.t
    unfold TInv at this
    rw [hc] at this
    rw [this.1]
    exact ⟨Nat.zero_le _, by simp [keys]⟩

/-- Every key in the table was put there by a request that was counted or refused. -/
theorem thist_keys {l : Limit} {max : Nat} {a : List TEv} {m : Table} (h : THist l max [] a m)
    {k : Ip} (hk : k ∈ keys m) : ∃ n p, p ≠ Pass.untracked ∧ TEv.took k n p ∈ a := by
  cases hg : get k m with
  | none => exact absurd hk (Net.get_eq_none.1 hg)
  | some b =>
    induction a using List.reverseRecOn generalizing m b with
    | nil => cases h; cases hg
    | append_singleton a e ih =>
      obtain ⟨q, hq, h1⟩ := (thist_append ..).1 h
      have keep : get k q = some b → ∃ n p, p ≠ Pass.untracked ∧ TEv.took k n p ∈ a ++ [e] := by
        intro hgq
        have hkq : k ∈ keys q := List.mem_map.2 ⟨(k, b), Net.mem_of_get hgq, rfl⟩
        obtain ⟨n, p, hp, hm⟩ := ih hq hkq b hgq
        exact ⟨n, p, hp, List.mem_append_left _ hm⟩
      cases e with
      | took k' t p =>
        obtain ⟨hp, h2⟩ := h1
        change m = _ at h2
        by_cases hkk : k' = k
        · subst hkk
          by_cases hu : p = .untracked
          · obtain ⟨hn, _, hs⟩ := admitKey_untracked (hp.trans hu)
            rw [h2, hs, hn] at hg; cases hg
          · exact ⟨t, p, hu, by simp⟩
        · rw [h2, admitKey_other (fun e => hkk e.symm)] at hg
          exact keep hg
      | swept t =>
        change m = _ at h1
        have hnq : (keys q).Nodup := thist_nodup (by simp [keys]) hq
        rw [h1, get_sweep hnq] at hg
        refine keep ?_
        cases hgq : get k q with
        | none => rw [hgq] at hg; cases hg
        | some x =>
          rw [hgq] at hg
          by_cases hi : x.isIdle t l = true
          · simp [Option.filter, hi] at hg
          · simp [Option.filter, hi] at hg; rw [hg]

/-- **A request is let through uncounted only while as many other prefixes as the table holds have
buckets.** -/
theorem untracked_only_when_full {c : Cfg} {s : S} {l : Limit} (h : Reach c s)
    (hc : c.perIp = some l) {k : Ip} {a b : List TEv} {t : Nat}
    (he : s.tlog = a ++ .took k t .untracked :: b) :
    ∃ ks : List Ip, ks.Nodup ∧ ks.length = Nat.max c.maxEntries 1 ∧ k ∉ ks ∧
      ∀ k' ∈ ks, ∃ n p, p ≠ Pass.untracked ∧ TEv.took k' n p ∈ a := by
  have hh := tlog_hist h hc
  rw [he] at hh
  obtain ⟨m, h1, h2, _⟩ := (thist_append ..).1 hh
  obtain ⟨hn, hlen, _⟩ := admitKey_untracked h2
  have hle := thist_length (by simp [keys]) (Nat.zero_le _) h1
  refine ⟨keys m, thist_nodup (by simp [keys]) h1, ?_, Net.get_eq_none.1 hn,
    fun k' hk' => thist_keys h1 hk'⟩
  have : (keys m).length = m.length := List.length_map ..
  rw [this]
  exact Nat.le_antisymm hle hlen

/-! ## Answers -/

/-- **The liveness and readiness probes are never rate limited**, and do not touch a bucket. -/
theorem probes_never_limited {c : Cfg} {s : S} (h : Reach c s) :
    (∀ a ∈ s.answers, a.path = "/health" ∨ a.path = "/ready" → a.verdict = .allowed) ∧
      ∀ path peer, (path = "/health" ∨ path = "/ready") →
        s.step c (.arrive path peer)
          = some { s with answers := s.answers ++ [⟨path, peer, .allowed⟩] } := by
  obtain ⟨t0, hi⟩ := reach_inv h
  have hx : ∀ p : String, p = "/health" ∨ p = "/ready" → exempt p = true := by
    intro p hp; unfold exempt; rcases hp with rfl | rfl <;> simp
  refine ⟨fun a ha hp => hi.probes a ha (hx _ hp), ?_⟩
  intro path peer hp
  dsimp only [S.step]
  rw [if_pos (hx _ hp)]

/-- **Every `429` was decided by exactly one bucket**: the number of requests answered with `429` is the
number the gateway-wide bucket refused plus the number per-client buckets refused; and what the
gateway-wide bucket let through is what was passed on, what waits for its per-client bucket and what the
per-client buckets refused. -/
theorem answers_accounted {c : Cfg} {s : S} (h : Reach c s) :
    (limitedAns s.answers).length
        = (s.glog.filter fun e => !e.2).length + refusedIn s.tlog ∧
      (c.global ≠ none → admitted s.glog
        = (allowedAns s.answers).length + waiting s + refusedIn s.tlog) := by
  obtain ⟨t0, hi⟩ := reach_inv h
  exact ⟨hi.limited, fun hc => (hi.count hc).symm⟩

/-- **What a client prefix was passed on is what its bucket let through.** -/
theorem client_answers {c : Cfg} {s : S} (h : Reach c s) (hc : c.perIp ≠ none) (k : Ip) :
    (allowedFrom c.pre k s.answers).length = passedOf k s.tlog := by
  obtain ⟨t0, hi⟩ := reach_inv h
  exact hi.key k hc

end Verif.Gate
