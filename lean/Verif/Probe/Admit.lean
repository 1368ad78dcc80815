import Mathlib.Tactic.Common
import Mathlib.Data.List.Count
/-
Property C76: admission of inbound requests. `try_admit_sync`, `try_admit_epoch_record` and `PeerSlotPermit`
(crates/consensus/primary/src/network/mod.rs:219-290), `try_admit_sync` and `SyncStreamPermit`
(crates/consensus/worker/src/network/mod.rs:80-123), `try_admit_prefetch` and `PrefetchPermit`
(crates/consensus/worker/src/network/handler.rs:41-89; the key is a digest and the limit one).
Tasks run in parallel: acquiring the permit, the decision under the lock, the decrement under the lock and the release of
the permit are separate steps.
-/
namespace Verif
namespace Admit

variable {P : Type} [DecidableEq P]

/-- Where one request is. `asked`: it has the permit, not the lock. `shed`: it was refused under the lock and its permit
is about to be released. `serving`: admitted. `leaving`: its count has been taken back, the permit not yet. -/
inductive Phase where
  | asked
  | shed
  | serving
  | leaving
deriving DecidableEq

/-- The semaphore's free permits, the map of counts (an absent entry is zero), and the requests under way. -/
structure St (P : Type) where
  free : Nat
  counts : P → Nat
  tasks : List (P × Phase)

def bump (f : P → Nat) (p : P) (n : Nat) : P → Nat := fun q => if q = p then n else f q

/-- The decision under the lock (mod.rs:259-264): admitted iff the count is below the limit, and then counted. -/
def decideAdmit (limit : Nat) (counts : P → Nat) (p : P) : Option (P → Nat) :=
  if counts p < limit then some (bump counts p (counts p + 1)) else none

/-- The drop of a permit (mod.rs:236-246): nothing without an entry, otherwise one less, not below zero. -/
def dropCount (counts : P → Nat) (p : P) : P → Nat :=
  if counts p = 0 then counts else bump counts p (counts p - 1)

/-- The steps of the requests, in any interleaving. -/
inductive Step (limit : Nat) : St P → St P → Prop where
  /-- a request arrives and a permit is free; without a free permit it is refused at once and leaves no trace -/
  | acquire {s : St P} (p : P) (h : 0 < s.free) : Step limit s { s with free := s.free - 1, tasks := (p, .asked) :: s.tasks }
  | grant {s : St P} {a b : List (P × Phase)} {p : P} {c : P → Nat} (h : s.tasks = a ++ (p, .asked) :: b)
      (hd : decideAdmit limit s.counts p = some c) :
      Step limit s { s with counts := c, tasks := a ++ (p, .serving) :: b }
  | refuse {s : St P} {a b : List (P × Phase)} {p : P} (h : s.tasks = a ++ (p, .asked) :: b)
      (hd : decideAdmit limit s.counts p = none) : Step limit s { s with tasks := a ++ (p, .shed) :: b }
  | finish {s : St P} {a b : List (P × Phase)} {p : P} (h : s.tasks = a ++ (p, .serving) :: b) :
      Step limit s { s with counts := dropCount s.counts p, tasks := a ++ (p, .leaving) :: b }
  /-- the permit is given back, after a refusal or at the end -/
  | release {s : St P} {a b : List (P × Phase)} {p : P} {ph : Phase} (h : s.tasks = a ++ (p, ph) :: b)
      (hp : ph = .shed ∨ ph = .leaving) : Step limit s { s with free := s.free + 1, tasks := a ++ b }

/-- States that occur, from an idle node with `cap` permits. -/
inductive Reach (limit cap : Nat) : St P → Prop where
  | start : Reach limit cap ⟨cap, fun _ => 0, []⟩
  | step {s t : St P} : Reach limit cap s → Step limit s t → Reach limit cap t

/-- Specification: the requests of `p` being served. -/
def servingOf (s : St P) (p : P) : Nat := s.tasks.countP (fun t => decide (t.1 = p ∧ t.2 = .serving))

/-- Specification: all requests being served. -/
def serving (s : St P) : Nat := s.tasks.countP (fun t => decide (t.2 = .serving))

theorem countP_mid {α : Type} (f : α → Bool) (a b : List α) (x y : α) (h : f x = f y) :
    (a ++ x :: b).countP f = (a ++ y :: b).countP f := by
  simp only [List.countP_append, List.countP_cons, h]

theorem inv {limit cap : Nat} {s : St P} (h : Reach limit cap s) :
    s.free + s.tasks.length = cap ∧ (∀ p, s.counts p = servingOf s p) ∧ ∀ p, s.counts p ≤ limit := by
  induction h with
  | start => exact ⟨by simp, fun p => rfl, fun p => Nat.zero_le _⟩
  | @step s t _ hst ih =>
    obtain ⟨h1, h2, h3⟩ := ih
    cases hst with
    | acquire p hf =>
      refine ⟨by simp only [List.length_cons]; omega, ?_, h3⟩
      intro q
      rw [h2 q]
      simp [servingOf]
    | @grant a b p c ht hd =>
      unfold decideAdmit at hd
      split at hd
      · rename_i hlt
        cases hd
        refine ⟨by rw [← h1, ht]; simp, ?_, ?_⟩
        · intro q
          have e := h2 q
          unfold servingOf at e ⊢
          rw [ht] at e
          dsimp only
          by_cases hq : q = p
          · subst hq
            simp only [bump, if_true]
            rw [e]
            simp only [List.countP_append, List.countP_cons]
            simp
            omega
          · rw [show bump s.counts p (s.counts p + 1) q = s.counts q by simp [bump, hq], e]
            exact countP_mid _ _ _ _ _ (by simp [Ne.symm hq])
        · intro q
          dsimp only
          unfold bump
          split
          · omega
          · exact h3 q
      · cases hd
    | @refuse a b p ht hd =>
      refine ⟨by rw [← h1, ht]; simp, ?_, h3⟩
      intro q
      rw [h2 q]
      unfold servingOf
      rw [ht]
      exact countP_mid _ _ _ _ _ (by simp)
    | @finish a b p ht =>
      have hpos : 0 < s.counts p := by
        rw [h2 p]
        unfold servingOf
        rw [ht]
        simp [List.countP_append]
        omega
      refine ⟨by rw [← h1, ht]; simp, ?_, ?_⟩
      · intro q
        have e := h2 q
        unfold servingOf at e ⊢
        rw [ht] at e
        dsimp only
        unfold dropCount
        rw [if_neg (by omega)]
        by_cases hq : q = p
        · subst hq
          simp only [bump, if_true]
          rw [e]
          simp only [List.countP_append, List.countP_cons]
          simp
        · rw [show bump s.counts p (s.counts p - 1) q = s.counts q by simp [bump, hq], e]
          exact countP_mid _ _ _ _ _ (by simp [Ne.symm hq])
      · intro q
        dsimp only
        unfold dropCount
        rw [if_neg (by omega)]
        unfold bump
        split
        · have := h3 p; omega
        · exact h3 q
    | @release a b p ph ht hp =>
      refine ⟨by rw [← h1, ht]; simp only [List.length_append, List.length_cons]; omega, ?_, h3⟩
      intro q
      rw [h2 q]
      unfold servingOf
      rw [ht]
      simp only [List.countP_append, List.countP_cons]
      rcases hp with rfl | rfl <;> simp

/-- **Never more than the caps are served**, in all and for each peer, at any moment and in every interleaving. -/
theorem caps_hold {limit cap : Nat} {s : St P} (h : Reach limit cap s) :
    serving s ≤ cap ∧ ∀ p, servingOf s p ≤ limit := by
  obtain ⟨h1, h2, h3⟩ := inv h
  refine ⟨?_, fun p => by rw [← h2 p]; exact h3 p⟩
  have : serving s ≤ s.tasks.length := List.countP_le_length
  omega

/-- **The counters are exact**: the decision is made on the number of requests of that peer being served now. -/
theorem decision_exact {limit cap : Nat} {s : St P} (h : Reach limit cap s) (p : P) :
    (decideAdmit limit s.counts p).isSome ↔ servingOf s p < limit := by
  obtain ⟨_, h2, _⟩ := inv h
  unfold decideAdmit
  rw [h2 p]
  split <;> simp_all

/-- **Nobody is refused below the caps**: when no other request is between two steps, a request gets a permit iff fewer
than `cap` are served. (With `decision_exact`: it is admitted iff both caps leave room.) -/
theorem permit_iff {limit cap : Nat} {s : St P} (h : Reach limit cap s) (hq : ∀ t ∈ s.tasks, t.2 = .serving) :
    0 < s.free ↔ serving s < cap := by
  obtain ⟨h1, _, _⟩ := inv h
  have : serving s = s.tasks.length := by
    unfold serving
    rw [List.countP_eq_length]
    intro t ht
    simp [hq t ht]
  omega

/-- A request between two steps can hold a permit another one would need; no permit is ever lost: the free ones and those
held add up. -/
theorem permits_add_up {limit cap : Nat} {s : St P} (h : Reach limit cap s) : s.free + s.tasks.length = cap := (inv h).1

/-- **Everything is given back**: when nothing is under way, all permits are free and no count is left. -/
theorem all_returned {limit cap : Nat} {s : St P} (h : Reach limit cap s) (he : s.tasks = []) :
    s.free = cap ∧ ∀ p, s.counts p = 0 := by
  obtain ⟨h1, h2, _⟩ := inv h
  rw [he] at h1
  refine ⟨by simpa using h1, fun p => ?_⟩
  rw [h2 p]; unfold servingOf; rw [he]; rfl

/-- **Every request under way can go on**, whatever the others do: none waits for another. -/
theorem not_stuck {limit : Nat} {s : St P} {t : P × Phase} (ht : t ∈ s.tasks) :
    ∃ s', Step limit s s' ∧ (t.2 = .serving ∨ t.2 = .asked → s'.tasks.length = s.tasks.length) ∧
      (t.2 = .shed ∨ t.2 = .leaving → s'.free = s.free + 1) := by
  obtain ⟨a, b, hs⟩ := List.append_of_mem ht
  obtain ⟨p, ph⟩ := t
  cases ph with
  | asked =>
    cases hd : decideAdmit limit s.counts p with
    | none => exact ⟨_, .refuse hs hd, fun _ => by rw [hs]; simp, fun h => by rcases h with h | h <;> cases h⟩
    | some c => exact ⟨_, .grant hs hd, fun _ => by rw [hs]; simp, fun h => by rcases h with h | h <;> cases h⟩
  | shed => exact ⟨_, .release hs (.inl rfl), fun h => (by rcases h with h | h <;> cases h), fun _ => rfl⟩
  | serving => exact ⟨_, .finish hs, fun _ => by rw [hs]; simp, fun h => by rcases h with h | h <;> cases h⟩
  | leaving => exact ⟨_, .release hs (.inr rfl), fun h => (by rcases h with h | h <;> cases h), fun _ => rfl⟩

/-- **One peer cannot take all permits**: with room for more than `limit`, if all that is under way is being served and all
of it is one peer's, a request of another peer is admitted. -/
theorem others_admitted {limit cap : Nat} {s : St P} (h : Reach limit cap s) (hq : ∀ t ∈ s.tasks, t.2 = .serving)
    {p q : P} (hone : ∀ t ∈ s.tasks, t.1 = p) (hpq : q ≠ p) (hl : 0 < limit) (hcap : limit < cap) :
    0 < s.free ∧ (decideAdmit limit s.counts q).isSome := by
  have hs : serving s = servingOf s p := by
    unfold serving servingOf
    apply List.countP_congr
    intro t ht
    simp [hq t ht, hone t ht]
  have hz : servingOf s q = 0 := by
    unfold servingOf
    rw [List.countP_eq_zero]
    intro t ht
    simp [hone t ht, Ne.symm hpq]
  refine ⟨(permit_iff h hq).mpr ?_, (decision_exact h q).mpr (by omega)⟩
  have := (caps_hold h).2 p
  omega

/-- The primary's constants (mod.rs:57, 68, 101), the worker's prefetch limit is one per digest. -/
def primaryCap : Nat := 5
def perPeer : Nat := 2

/-- Two requests of peer 1 are served, a third is refused, peer 2 is admitted. -/
example : ∃ s : St Nat, Reach perPeer primaryCap s ∧ s.tasks = [(2, .serving), (1, .shed), (1, .serving), (1, .serving)] ∧
    s.free = 1 ∧ s.counts 1 = 2 ∧ s.counts 2 = 1 ∧ s.counts 3 = 0 := by
  have h1 := Reach.step (limit := perPeer) (.start (P := Nat) (cap := primaryCap)) (.acquire 1 (by decide))
  have h2 := Reach.step h1 (.grant (a := []) (b := []) (p := 1) rfl rfl)
  have h3 := Reach.step h2 (.acquire 1 (by decide))
  have h4 := Reach.step h3 (.grant (a := []) (b := [(1, .serving)]) (p := 1) rfl rfl)
  have h5 := Reach.step h4 (.acquire 1 (by decide))
  have h6 := Reach.step h5 (.refuse (a := []) (b := [(1, .serving), (1, .serving)]) (p := 1) rfl rfl)
  have h7 := Reach.step h6 (.acquire 2 (by decide))
  have h8 := Reach.step h7 (.grant (a := []) (b := [(1, .shed), (1, .serving), (1, .serving)]) (p := 2) rfl rfl)
  exact ⟨_, h8, rfl, rfl, rfl, rfl, rfl⟩

end Admit
end Verif
