import Mathlib.Tactic.Common
/-
Property C75: which peers are asked for an epoch pack or a consensus output, crates/consensus/primary/src/network/mod.rs:
`request_epoch_pack_sync` (878-945) and `request_consensus_output` (537-620).
-/
namespace Verif
namespace Probe

variable {P : Type} [DecidableEq P]

/-- How one exchange ended (`EpochPackAttempt`, `ConsensusOutputAttempt`). `unsupported`: the protocol could not be
negotiated (for outputs also: no answer). `failed`: denied (at capacity, not available), aborted, or what came was
refused. -/
inductive Outcome where
  | served
  | unsupported
  | failed
deriving DecidableEq

/-- `sync_capability`. -/
abbrev Caps (P : Type) := P → Option Bool

def Caps.set (m : Caps P) (p : P) (b : Bool) : Caps P := fun q => if q = p then some b else m q

/-- What an exchange leaves in the cache (mod.rs:894-936; 571-606). `full`: a whole pack was asked for; only then is an
unsupported peer remembered. -/
def record (full : Bool) (m : Caps P) (p : P) : Outcome → Caps P
  | .served => m.set p true
  | .unsupported => if full then m.set p false else m
  | .failed => m.set p true

/-- One call: the peers in the order in which the network lists them, those known not to speak the protocol left out, at
most `probes` of them asked, one after the other, until one serves. `ans`: what each would answer now. Returns who served,
the cache, and who was asked. -/
def attempt (full : Bool) (ans : P → Outcome) : Nat → List P → Caps P → Option P × Caps P × List P
  | _, [], m => (none, m, [])
  | 0, _ :: _, m => (none, m, [])
  | n + 1, p :: ps, m =>
    if m p = some false then attempt full ans (n + 1) ps m
    else if ans p = .served then (some p, record full m p .served, [p])
    else
      let r := attempt full ans n ps (record full m p (ans p))
      (r.1, r.2.1, p :: r.2.2)

/-- `MAX_EPOCH_SYNC_PROBES` (mod.rs:137). -/
def maxProbes : Nat := 3

/-- Calls until one is served: what happened in each (order of the peers, answers). The callers repeat a call that
failed (state-sync/src/consensus.rs:380-430, 150-260). -/
def retry (full : Bool) : List (List P × (P → Outcome)) → Caps P → Option P × Caps P
  | [], m => (none, m)
  | (peers, ans) :: rest, m =>
    match attempt full ans maxProbes peers m with
    | (some p, m', _) => (some p, m')
    | (none, m', _) => retry full rest m'

/-! ### One call -/

/-- Specification: the peers one call would ask if nobody served. -/
def candidates (n : Nat) (peers : List P) (m : Caps P) : List P :=
  (peers.filter (fun p => !decide (m p = some false))).take n

theorem candidates_set {n : Nat} {peers : List P} {m : Caps P} {p : P} {b : Bool} (h : p ∉ peers) :
    candidates n peers (m.set p b) = candidates n peers m := by
  unfold candidates
  congr 1
  apply List.filter_congr
  intro q hq
  have : q ≠ p := fun e => h (e ▸ hq)
  simp [Caps.set, this]

theorem candidates_record {n : Nat} {peers : List P} {m : Caps P} {p : P} {full : Bool} {o : Outcome} (h : p ∉ peers) :
    candidates n peers (record full m p o) = candidates n peers m := by
  cases o with
  | served => exact candidates_set h
  | failed => exact candidates_set h
  | unsupported => cases full with
    | true => exact candidates_set h
    | false => rfl

/-- **A call is served iff one of its candidates serves**, by the first of them that does; those before it have been
asked, and nobody after it. -/
theorem attempt_exact (full : Bool) (ans : P → Outcome) (n : Nat) (peers : List P) (hnd : peers.Nodup) (m : Caps P) :
    (attempt full ans n peers m).1 = (candidates n peers m).find? (fun p => decide (ans p = .served)) ∧
    (attempt full ans n peers m).2.2 <+: candidates n peers m ∧
    ((attempt full ans n peers m).1 = none → (attempt full ans n peers m).2.2 = candidates n peers m) ∧
    (∀ p, (attempt full ans n peers m).1 = some p → (attempt full ans n peers m).2.2.getLast? = some p) := by
  induction peers generalizing n m with
  | nil =>
    unfold attempt candidates
    simp
  | cons p ps ih =>
    rw [List.nodup_cons] at hnd
    cases n with
    | zero => unfold attempt candidates; simp
    | succ n =>
      unfold attempt
      by_cases h1 : m p = some false
      · rw [if_pos h1]
        have e : candidates (n + 1) (p :: ps) m = candidates (n + 1) ps m := by
          unfold candidates; rw [List.filter_cons_of_neg (by simp [h1])]
        rw [e]
        exact ih (n + 1) hnd.2 m
      · rw [if_neg h1]
        have e : candidates (n + 1) (p :: ps) m = p :: candidates n ps m := by
          unfold candidates; rw [List.filter_cons_of_pos (by simp [h1]), List.take_succ_cons]
        rw [e]
        by_cases h2 : ans p = .served
        · rw [if_pos h2]
          refine ⟨by simp [h2], ⟨candidates n ps m, rfl⟩, fun h => (by cases h), ?_⟩
          intro q hq
          cases hq
          rfl
        · rw [if_neg h2]
          obtain ⟨i1, i2, i3, i4⟩ := ih n hnd.2 (record full m p (ans p))
          rw [candidates_record hnd.1] at i1 i2 i3
          dsimp only
          refine ⟨by rw [i1, List.find?_cons_of_neg (by simp [h2])], ?_, ?_, ?_⟩
          · exact List.cons_prefix_cons.mpr ⟨rfl, i2⟩
          · intro h; rw [i3 h]
          · intro q hq
            rw [List.getLast?_cons, i4 q hq]
            rfl

/-- What a call leaves in the cache: the peers asked have their verdict, nothing else changes. -/
theorem attempt_caps (full : Bool) (ans : P → Outcome) (n : Nat) (peers : List P) (hnd : peers.Nodup) (m : Caps P) (q : P) :
    (attempt full ans n peers m).2.1 q =
      if q ∈ (attempt full ans n peers m).2.2 then record full m q (ans q) q else m q := by
  induction peers generalizing n m with
  | nil => unfold attempt; simp
  | cons p ps ih =>
    rw [List.nodup_cons] at hnd
    cases n with
    | zero => unfold attempt; simp
    | succ n =>
      unfold attempt
      by_cases h1 : m p = some false
      · rw [if_pos h1]; exact ih (n + 1) hnd.2 m
      · rw [if_neg h1]
        by_cases h2 : ans p = .served
        · rw [if_pos h2]
          dsimp only
          by_cases hq : q = p
          · subst hq; simp [h2]
          · simp [record, Caps.set, hq]
        · rw [if_neg h2]
          dsimp only
          rw [ih n hnd.2 (record full m p (ans p))]
          have hsub : ∀ x ∈ (attempt full ans n ps (record full m p (ans p))).2.2, x ∈ ps := by
            intro x hx
            have := ((attempt_exact full ans n ps hnd.2 (record full m p (ans p))).2.1).subset hx
            unfold candidates at this
            exact (List.mem_filter.mp (List.mem_of_mem_take this)).1
          by_cases hq : q = p
          · subst hq
            rw [if_neg (fun h => hnd.1 (hsub _ h)), if_pos (by simp)]
          · have hr : ∀ o, record full m p o q = m q := by
              intro o
              cases o with
              | served => simp [record, Caps.set, hq]
              | failed => simp [record, Caps.set, hq]
              | unsupported => cases full <;> simp [record, Caps.set, hq]
            have hr2 : ∀ o, record full (record full m p (ans p)) q o q = record full m q o q := by
              intro o
              cases o with
              | served => simp [record, Caps.set]
              | failed => simp [record, Caps.set]
              | unsupported =>
                cases full with
                | true => simp [record, Caps.set]
                | false => exact hr (ans p)
            rw [hr2, hr]
            simp [hq]

/-- **At most three peers are asked in a call**, none of them known not to speak the protocol. -/
theorem attempt_bounded (full : Bool) (ans : P → Outcome) (peers : List P) (hnd : peers.Nodup) (m : Caps P) :
    (attempt full ans maxProbes peers m).2.2.length ≤ 3 ∧ (attempt full ans maxProbes peers m).2.2.Nodup ∧
      ∀ p ∈ (attempt full ans maxProbes peers m).2.2, p ∈ peers ∧ m p ≠ some false := by
  obtain ⟨_, h2, _, _⟩ := attempt_exact full ans maxProbes peers hnd m
  refine ⟨?_, ?_, ?_⟩
  · refine Nat.le_trans h2.length_le ?_
    unfold candidates
    rw [List.length_take]
    exact Nat.min_le_left _ _
  · refine h2.sublist.nodup ?_
    unfold candidates
    exact ((List.take_sublist _ _).trans List.filter_sublist).nodup hnd
  · intro p hp
    have := List.mem_of_mem_take (h2.subset hp)
    rw [List.mem_filter] at this
    exact ⟨this.1, by simpa using this.2⟩

/-! ### Repeated calls -/

/-- **Three peers that deny shut out the others** (finding): with the peers listed in the same order each time - the
network lists them in the order of a hash map that does not change while no peer comes or goes - and the first three
answering with a denial or an error each time, no number of calls asks anyone else, even if all the others would serve.
Nothing in the cache or in the score of the three changes that. -/
theorem starved (full : Bool) {a b c : P} {rest : List P} (hnd : (a :: b :: c :: rest).Nodup) {ans : P → Outcome}
    (ha : ans a = .failed) (hb : ans b = .failed) (hc : ans c = .failed) (n : Nat) (m : Caps P)
    (hm : m a ≠ some false ∧ m b ≠ some false ∧ m c ≠ some false) :
    (retry full (List.replicate n (a :: b :: c :: rest, ans)) m).1 = none := by
  have hcand : ∀ m : Caps P, (m a ≠ some false ∧ m b ≠ some false ∧ m c ≠ some false) →
      candidates maxProbes (a :: b :: c :: rest) m = [a, b, c] := by
    intro m hm
    unfold candidates
    rw [List.filter_cons_of_pos (by simp [hm.1]), List.filter_cons_of_pos (by simp [hm.2.1]),
      List.filter_cons_of_pos (by simp [hm.2.2])]
    rfl
  induction n generalizing m with
  | zero => rfl
  | succ n ih =>
    rw [List.replicate_succ]
    unfold retry
    obtain ⟨h1, _, h3, _⟩ := attempt_exact full ans maxProbes (a :: b :: c :: rest) hnd m
    have hcaps := attempt_caps full ans maxProbes (a :: b :: c :: rest) hnd m
    rw [hcand m hm] at h1 h3
    have hnone : (attempt full ans maxProbes (a :: b :: c :: rest) m).1 = none := by
      rw [h1]; simp [ha, hb, hc]
    have hask := h3 hnone
    generalize attempt full ans maxProbes (a :: b :: c :: rest) m = r at hnone hask hcaps
    obtain ⟨r1, r2, r3⟩ := r
    dsimp only at hnone hask hcaps
    subst hnone
    dsimp only
    apply ih
    rw [hask] at hcaps
    refine ⟨?_, ?_, ?_⟩
    · rw [hcaps]; simp [record, Caps.set, ha]
    · rw [hcaps]; simp [record, Caps.set, hb]
    · rw [hcaps]; simp [record, Caps.set, hc]

/-- Peers before `h` in the order. -/
def before (h : P) (peers : List P) : List P := peers.takeWhile (fun p => !decide (p = h))

theorem split_at {h : P} {peers : List P} (hm : h ∈ peers) : ∃ back, peers = before h peers ++ h :: back := by
  induction peers with
  | nil => cases hm
  | cons p ps ih =>
    unfold before
    by_cases e : p = h
    · subst e; exact ⟨ps, by simp⟩
    · rcases List.mem_cons.mp hm with rfl | hm
      · exact absurd rfl e
      · obtain ⟨back, hb⟩ := ih hm
        refine ⟨back, ?_⟩
        rw [List.takeWhile_cons_of_pos (by simp [e])]
        exact congrArg (p :: ·) hb

/-- **A holder is asked in the first call if fewer than three peers that may be asked are listed before it.** -/
theorem served_if_early (full : Bool) {peers : List P} (hnd : peers.Nodup) {ans : P → Outcome} {m : Caps P} {h : P}
    (hm : h ∈ peers) (hs : ans h = .served) (hcap : m h ≠ some false)
    (hfew : ((before h peers).filter (fun p => !decide (m p = some false))).length < maxProbes) :
    ∃ p, (attempt full ans maxProbes peers m).1 = some p ∧ p ∈ peers ∧ ans p = .served := by
  obtain ⟨h1, _, _, _⟩ := attempt_exact full ans maxProbes peers hnd m
  obtain ⟨back, hb⟩ := split_at hm
  have hin : h ∈ candidates maxProbes peers m := by
    unfold candidates
    rw [hb, List.filter_append, List.filter_cons_of_pos (by simp [hcap]), List.take_append]
    obtain ⟨k, hk⟩ : ∃ k, maxProbes - ((before h peers).filter (fun p => !decide (m p = some false))).length = k + 1 :=
      ⟨_, (Nat.succ_pred_eq_of_pos (by omega)).symm⟩
    rw [hk, List.take_succ_cons]
    simp
  rw [h1]
  cases hf : (candidates maxProbes peers m).find? (fun p => decide (ans p = .served)) with
  | none =>
    rw [List.find?_eq_none] at hf
    exact absurd hs (by simpa using hf h hin)
  | some p =>
    refine ⟨p, rfl, ?_, by simpa using List.find?_some hf⟩
    have := List.mem_of_find?_eq_some hf
    unfold candidates at this
    exact (List.mem_filter.mp (List.mem_of_mem_take this)).1

/-- Peers of `l` not known to lack the protocol. -/
def open_ (m : Caps P) (l : List P) : List P := l.filter (fun p => !decide (m p = some false))

theorem filter_length_lt {α : Type} {p q : α → Bool} {l : List α} {x : α} (h : ∀ y ∈ l, q y = true → p y = true)
    (hx : x ∈ l) (hp : p x = true) (hq : q x = false) : (l.filter q).length < (l.filter p).length := by
  induction l with
  | nil => cases hx
  | cons y l ih =>
    have hle : (l.filter q).length ≤ (l.filter p).length := by
      rw [← List.countP_eq_length_filter, ← List.countP_eq_length_filter]
      exact List.countP_mono_left (fun z hz hq => h z (by simp [hz]) hq)
    rcases List.mem_cons.mp hx with rfl | hx
    · rw [List.filter_cons_of_pos hp, List.filter_cons_of_neg (by simp [hq])]
      simp only [List.length_cons]; omega
    · have := ih (fun z hz => h z (by simp [hz])) hx
      by_cases e : q y = true
      · rw [List.filter_cons_of_pos e, List.filter_cons_of_pos (h y (by simp) e)]
        simp only [List.length_cons]; omega
      · rw [List.filter_cons_of_neg e]
        by_cases e2 : p y = true
        · rw [List.filter_cons_of_pos e2]; simp only [List.length_cons]; omega
        · rw [List.filter_cons_of_neg e2]; exact this

/-- **Peers that do not speak the protocol do not shut anyone out, for whole packs** (the part of the property that
holds). The order and the answers are the same in each call; `h` serves and is not wrongly remembered. If fewer than three
of the peers listed before it ever fail otherwise than by not speaking the protocol, then one more call than there are
peers before it is enough. -/
theorem served_partial {peers : List P} (hnd : peers.Nodup) {ans : P → Outcome} {h : P} (hm : h ∈ peers)
    (hs : ans h = .served) (hfew : ((before h peers).filter (fun p => decide (ans p = .failed))).length < maxProbes)
    (n : Nat) (m : Caps P) (hcap : m h ≠ some false) (hn : (open_ m (before h peers)).length < n) :
    ∃ p, (retry true (List.replicate n (peers, ans)) m).1 = some p ∧ p ∈ peers ∧ ans p = .served := by
  induction n generalizing m with
  | zero => omega
  | succ n ih =>
    rw [List.replicate_succ]
    unfold retry
    obtain ⟨h1, h2, h3, h4⟩ := attempt_exact true ans maxProbes peers hnd m
    have hcaps := attempt_caps true ans maxProbes peers hnd m
    generalize hr : attempt true ans maxProbes peers m = r at h1 h2 h3 h4 hcaps
    obtain ⟨r1, r2, r3⟩ := r
    dsimp only at h1 h2 h3 h4 hcaps
    cases r1 with
    | some p =>
      refine ⟨p, rfl, ?_, ?_⟩
      · have := List.mem_of_find?_eq_some h1.symm
        unfold candidates at this
        exact (List.mem_filter.mp (List.mem_of_mem_take this)).1
      · simpa using List.find?_some h1.symm
    | none =>
      dsimp only
      have hask := h3 rfl
      have hnoserve : ∀ p ∈ candidates maxProbes peers m, ans p ≠ .served := by
        intro p hp
        have := (List.find?_eq_none.mp h1.symm) p hp
        simpa using this
      have hnot : h ∉ candidates maxProbes peers m := fun hin => hnoserve h hin hs
      obtain ⟨back, hb⟩ := split_at hm
      have hop : maxProbes ≤ (open_ m (before h peers)).length := by
        by_contra hlt
        obtain ⟨p, hp, _⟩ := served_if_early true hnd hm hs hcap (by unfold open_ at hlt; omega)
        rw [hr] at hp
        cases hp
      have hc : candidates maxProbes peers m = (open_ m (before h peers)).take maxProbes := by
        unfold candidates open_
        conv => lhs; rw [hb]
        rw [List.filter_append]
        exact List.take_append_of_le_length hop
      -- one of the three does not speak the protocol
      obtain ⟨u, hu, hun⟩ : ∃ u ∈ candidates maxProbes peers m, ans u = .unsupported := by
        by_contra hno
        have hall : ∀ p ∈ candidates maxProbes peers m, ans p = .failed := by
          intro p hp
          cases e : ans p with
          | served => exact absurd e (hnoserve p hp)
          | unsupported => exact absurd ⟨p, hp, e⟩ hno
          | failed => rfl
        have hsub : (candidates maxProbes peers m).Sublist ((before h peers).filter (fun p => decide (ans p = .failed))) := by
          have e : (candidates maxProbes peers m).filter (fun p => decide (ans p = .failed)) = candidates maxProbes peers m :=
            List.filter_eq_self.mpr (fun p hp => by simp [hall p hp])
          rw [← e, hc]
          refine ((List.take_sublist _ _).trans ?_).filter _
          unfold open_
          exact List.filter_sublist
        have := hsub.length_le
        rw [hc, List.length_take, Nat.min_eq_left hop] at this
        omega
      have hub : u ∈ before h peers ∧ m u ≠ some false := by
        rw [hc] at hu
        have := List.mem_filter.mp (List.mem_of_mem_take hu)
        exact ⟨this.1, by simpa using this.2⟩
      apply ih
      · rw [hcaps h, hask, if_neg hnot]; exact hcap
      · have hlt : (open_ r2 (before h peers)).length < (open_ m (before h peers)).length := by
          unfold open_
          refine filter_length_lt (x := u) ?_ hub.1 (by simp [hub.2]) ?_
          · intro y _ hy
            have hy' : r2 y ≠ some false := by simpa using hy
            rw [hcaps y] at hy'
            by_cases hin : y ∈ r3
            · have := h2.subset hin
              unfold candidates at this
              exact (List.mem_filter.mp (List.mem_of_mem_take this)).2
            · rw [if_neg hin] at hy'; simp [hy']
          · rw [hcaps u, hask, if_pos hu, hun]
            simp [record, Caps.set]
        omega

/-! ### Cases -/

/-- Peers 1, 2 and 3 are at capacity, 4 and 5 would serve: a hundred calls, no pack. -/
example : (retry true (List.replicate 100 ([1, 2, 3, 4, 5], fun p => if p ≤ 3 then Outcome.failed else .served))
    (fun _ => none)).1 = none :=
  starved true (by decide) (by decide) (by decide) (by decide) 100 _ (by simp)

/-- If they do not speak the protocol, the second call is served. -/
example : (retry true (List.replicate 2 ([1, 2, 3, 4, 5], fun p => if p ≤ 3 then Outcome.unsupported else .served))
    (fun _ => none)).1 = some 4 := by decide

/-- But for a part of a pack, or an output, they are asked again each time. -/
example : (retry false (List.replicate 50 ([1, 2, 3, 4, 5], fun p => if p ≤ 3 then Outcome.unsupported else .served))
    (fun _ => none)).1 = none := by decide

example : ∃ p, (retry true (List.replicate 5 ([1, 2, 3, 4, 5], fun p => if p ≤ 2 then Outcome.failed else
    if p ≤ 4 then .unsupported else .served)) (fun _ => none)).1 = some p ∧ p ∈ [1, 2, 3, 4, 5] ∧
      (if p ≤ 2 then Outcome.failed else if p ≤ 4 then .unsupported else .served) = .served :=
  served_partial (by decide) (h := 5) (by decide) (by decide) (by decide) 5 _ (by simp) (by decide)

end Probe
end Verif
