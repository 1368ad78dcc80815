import Verif.Bullshark.Model
import Verif.Committee.Props
/-
The certificates that exist in an epoch, and what a node's DAG knows about them.
-/
namespace Verif
namespace Bull

/-- What is known about the certificates of one epoch that valid quorums of votes exist for
(`U h`: such a certificate exists for header `h`). `digestInj`: digests identify headers
(collision-freeness). `unique`: one header per author and round (C05). `quorum`: the parents of a
header above round 1 include certificates of the previous round by a quorum of distinct authors
(C07: an honest member votes for nothing else). `roundPos`: round 0 (genesis) is never certified. `member`: authors
are committee members (`Header::validate`). -/
structure Universe (c : Committee) (U : Header → Prop) : Prop where
  digestInj : ∀ {a b}, U a → U b → a.digest = b.digest → a = b
  unique : ∀ {a b}, U a → U b → a.author = b.author → a.round = b.round → a = b
  quorum : ∀ {x}, U x → 2 ≤ x.round → ∃ ps : List Header,
    (∀ q ∈ ps, U q ∧ q.round + 1 = x.round ∧ q.digest ∈ x.parents) ∧
    (ps.map (·.author)).Nodup ∧ c.reachedQuorum (c.power (ps.map (·.author))) = true
  roundPos : ∀ {x}, U x → 1 ≤ x.round
  member : ∀ {x}, U x → c.isAuthority x.author = true

/-- Specification: `Reach U a b` — there is a path of parent links from `a` down to `b` through
certificates of the epoch. -/
inductive Reach (U : Header → Prop) : Header → Header → Prop
  | refl (a) : Reach U a a
  | step {a q b} : U q → q.digest ∈ a.parents → q.round + 1 = a.round → Reach U q b → Reach U a b

theorem Reach.round_le {U : Header → Prop} {a b : Header} (h : Reach U a b) : b.round ≤ a.round := by
  induction h with
  | refl => exact Nat.le_refl _
  | step _ _ h1 _ ih => omega

theorem Reach.eq_of_round {U : Header → Prop} {a b : Header} (h : Reach U a b)
    (hr : a.round ≤ b.round) : a = b := by
  cases h with
  | refl => rfl
  | step _ _ h1 h2 => have := h2.round_le; omega

theorem Reach.trans {U : Header → Prop} {a b c : Header} (h : Reach U a b) (h2 : Reach U b c) :
    Reach U a c := by
  induction h with
  | refl => exact h2
  | step hu hm hr _ ih => exact .step hu hm hr (ih h2)

theorem Reach.mem_U {U : Header → Prop} {a b : Header} (h : Reach U a b) (ha : U a) : U b := by
  induction h with
  | refl => exact ha
  | step hu _ _ _ ih => exact ih hu

/-- A DAG as an honest node holds it with garbage collection round `gc`: only certificates of the
epoch, above `gc`, no key twice, and the parents of every certificate above `gc + 1` are present. -/
structure Good (U : Header → Prop) (dag : Dag) (gc : Round) : Prop where
  sub : ∀ h ∈ dag, U h
  above : ∀ h ∈ dag, gc < h.round
  closed : ∀ h ∈ dag, gc + 1 < h.round → ∀ d ∈ h.parents,
    ∃ q ∈ dag, q.round + 1 = h.round ∧ q.digest = d
  nodup : dag.Nodup

theorem mem_atRound {dag : Dag} {r : Round} {h : Header} :
    h ∈ atRound dag r ↔ h ∈ dag ∧ h.round = r := by
  simp [atRound]

variable {c : Committee} {U : Header → Prop}

/-- Garbage collection keeps a DAG good. -/
theorem Good.gc {dag : Dag} {g g' : Round} (h : Good U dag g) (hg : g ≤ g') :
    Good U (gcDag g' dag) g' where
  sub x hx := h.sub x (List.mem_of_mem_filter hx)
  above x hx := by simpa using (List.mem_filter.mp hx).2
  closed x hx hr d hd := by
    obtain ⟨q, hq, h1, h2⟩ := h.closed x (List.mem_of_mem_filter hx) (by omega) d hd
    exact ⟨q, List.mem_filter.mpr ⟨hq, by simp; omega⟩, h1, h2⟩
  nodup := h.nodup.filter _

/-- Everything reachable from a certificate of the DAG above the horizon is in the DAG. -/
theorem Good.reach_mem (hU : Universe c U) {dag : Dag} {g : Round} (h : Good U dag g) {a b : Header}
    (hr : Reach U a b) (ha : a ∈ dag) (hb : g < b.round) : b ∈ dag := by
  induction hr with
  | refl => exact ha
  | step hu hm hr' hrest ih =>
    rename_i a q b
    have hle := hrest.round_le
    obtain ⟨q', hq', h1, h2⟩ := h.closed a ha (by omega) q.digest hm
    have : q' = q := hU.digestInj (h.sub _ hq') hu h2
    subst this
    exact ih hq' hb

/-! ### linked -/

theorem mem_linkedLoop {dag : Dag} {g : Round} (hU : Universe c U) (h : Good U dag g)
    (k r : Nat) (ps : List Header) (hps : ∀ x ∈ ps, x ∈ dag ∧ x.round = r + 1)
    (hk : 1 ≤ k) (hkr : g + k < r + 1) (y : Header) :
    y ∈ linkedLoop dag k r ps ↔ y ∈ dag ∧ y.round + k = r + 1 ∧ ∃ x ∈ ps, Reach U x y := by
  induction k generalizing r ps with
  | zero => omega
  | succ k ih =>
    simp only [linkedLoop]
    set ps' := (atRound dag r).filter (fun c => ps.any (fun x => x.parents.contains c.digest))
      with hps'
    have mem' : ∀ z, z ∈ ps' ↔ z ∈ dag ∧ z.round = r ∧ ∃ x ∈ ps, z.digest ∈ x.parents := by
      intro z; rw [hps', List.mem_filter, mem_atRound]; simp [and_assoc]
    by_cases hk0 : k = 0
    · subst hk0
      simp only [linkedLoop]
      rw [mem']
      constructor
      · rintro ⟨h1, h2, x, hx, hd⟩
        exact ⟨h1, by omega, x, hx, .step (h.sub _ h1) hd (by rw [(hps x hx).2, h2]) (.refl _)⟩
      · rintro ⟨h1, h2, x, hx, hr⟩
        refine ⟨h1, by omega, x, hx, ?_⟩
        have hxr := (hps x hx).2
        cases hr with
        | refl => omega
        | step hu hm hr' hrest =>
          have := hrest.eq_of_round (by omega)
          subst this; exact hm
    · rw [ih (r - 1) ps' (by
        intro x hx; rw [mem'] at hx; exact ⟨hx.1, by omega⟩) (by omega) (by omega)]
      constructor
      · rintro ⟨h1, h2, z, hz, hr⟩
        rw [mem'] at hz
        obtain ⟨hz1, hz2, x, hx, hd⟩ := hz
        exact ⟨h1, by omega, x, hx, .step (h.sub _ hz1) hd (by rw [(hps x hx).2, hz2]) hr⟩
      · rintro ⟨h1, h2, x, hx, hr⟩
        have hxr := (hps x hx).2
        refine ⟨h1, by omega, ?_⟩
        cases hr with
        | refl => omega
        | step hu hm hr' hrest =>
          rename_i q
          refine ⟨q, ?_, hrest⟩
          rw [mem']
          refine ⟨?_, by omega, x, hx, hm⟩
          exact h.reach_mem hU (.step hu hm hr' (.refl _)) (hps x hx).1 (by omega)

/-- `linked` decides reachability. -/
theorem linked_iff (hU : Universe c U) {dag : Dag} {g : Round} (h : Good U dag g) {a b : Header}
    (ha : a ∈ dag) (hb : U b) (hg : g < b.round) (hr : b.round < a.round) :
    linked dag a b = true ↔ Reach U a b := by
  unfold linked
  simp only [List.any_eq_true, beq_iff_eq]
  have key := mem_linkedLoop hU h (a.round - b.round) (a.round - 1) [a]
    (by intro x hx; simp at hx; subst hx; exact ⟨ha, by omega⟩) (by omega) (by omega)
  constructor
  · rintro ⟨y, hy, hd⟩
    rw [key] at hy
    have : y = b := hU.digestInj (h.sub _ hy.1) hb hd
    subst this
    obtain ⟨_, _, x, hx, hreach⟩ := hy
    simp at hx; subst hx; exact hreach
  · intro hr'
    refine ⟨b, ?_, rfl⟩
    rw [key]
    exact ⟨h.reach_mem hU hr' ha hg, by omega, a, by simp, hr'⟩

/-! ### the quorum argument -/

/-- Specification: a leader has direct support when members that reach the validity threshold
certified headers of the next round with the leader as a parent. -/
def Supported (c : Committee) (U : Header → Prop) (l : Header) : Prop :=
  ∃ vs : List Header, (∀ v ∈ vs, U v ∧ v.round = l.round + 1 ∧ l.digest ∈ v.parents) ∧
    (vs.map (·.author)).Nodup ∧ c.reachedValidity (c.power (vs.map (·.author))) = true

/-- Every certificate two or more rounds above a directly supported leader has it in its causal
history. -/
theorem reach_supported (hc : c.WF) (hU : Universe c U) {l : Header} (hl : U l)
    (hs : Supported c U l) {x : Header} (hx : U x) (hr : l.round + 2 ≤ x.round) : Reach U x l := by
  obtain ⟨vs, hvs, hvn, hvp⟩ := hs
  have hl1 := hU.roundPos hl
  generalize hn : x.round - (l.round + 2) = n
  induction n generalizing x with
  | zero =>
    obtain ⟨ps, hps, hpn, hpp⟩ := hU.quorum hx (by omega)
    obtain ⟨a, ha1, ha2, -⟩ := Committee.quorum_meets_validity c hc _ _ hpn hvn hpp hvp
    obtain ⟨q, hq, hqa⟩ := List.mem_map.mp ha1
    obtain ⟨v, hv, hva⟩ := List.mem_map.mp ha2
    obtain ⟨hqU, hqr, hqd⟩ := hps q hq
    obtain ⟨hvU, hvr, hvd⟩ := hvs v hv
    have : q = v := hU.unique hqU hvU (by rw [hqa, hva]) (by omega)
    subst this
    exact .step hqU hqd hqr (.step hl hvd (by omega) (.refl _))
  | succ n ih =>
    obtain ⟨ps, hps, hpn, hpp⟩ := hU.quorum hx (by omega)
    have hne : ps ≠ [] := by
      rintro rfl
      simp [Committee.reachedQuorum, Committee.power, Committee.quorumThreshold] at hpp
    obtain ⟨q, hq⟩ := List.exists_mem_of_ne_nil ps hne
    obtain ⟨hqU, hqr, hqd⟩ := hps q hq
    exact .step hqU hqd hqr (ih hqU (by omega) (by omega))

end Bull
end Verif
