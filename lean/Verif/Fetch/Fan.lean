import Mathlib.Tactic.Common
import Mathlib.Data.List.Perm.Subperm
/-
Property C74: one round of asking the peers for missing certificates, `fetch_from_peers`
(crates/consensus/primary/src/certificate_fetcher.rs:452-563).
-/
namespace Verif
namespace Fetch
namespace Fan

variable {P C : Type}

/-- How a round ended. -/
inductive Outcome (C : Type) where
  /-- an answer was taken -/
  | got (cs : List C)
  /-- `NoCertificateFetched` -/
  | nothing

/-- The loop's state: peers asked (in order), peers not yet asked, the answers received (`none`: an error), and the
outcome. `asked.length` is `peer_index`, `reports.length` is `results_received`. -/
structure St (P C : Type) where
  asked : List P
  rest : List P
  reports : List (P × Option (List C))
  out : Option (Outcome C)

/-- `validate_fetched_certificate` on every certificate of a non-empty answer (certificate_fetcher.rs:498-521,
certificate.rs:462-471): `signed` is false for a certificate without an aggregate signature (genesis). -/
def usable (signed : C → Bool) : Option (List C) → Option (List C)
  | some cs => if cs = [] then none else if cs.all signed then some cs else none
  | none => none

/-- The first request goes out at once (certificate_fetcher.rs:474-486). -/
def start : List P → St P C
  | [] => ⟨[], [], [], some .nothing⟩
  | p :: ps => ⟨[p], ps, [], none⟩

/-- A report (certificate_fetcher.rs:493-534). -/
def report (signed : C → Bool) (s : St P C) (p : P) (r : Option (List C)) : St P C :=
  match usable signed r with
  | some cs => ⟨s.asked, s.rest, s.reports ++ [(p, r)], some (.got cs)⟩
  | none =>
    if s.rest = [] ∧ s.asked.length ≤ (s.reports ++ [(p, r)]).length then
      ⟨s.asked, s.rest, s.reports ++ [(p, r)], some .nothing⟩
    else ⟨s.asked, s.rest, s.reports ++ [(p, r)], none⟩

/-- The timer (certificate_fetcher.rs:536-553). -/
def spawn (s : St P C) : St P C :=
  match s.rest with
  | [] => s
  | p :: ps => ⟨s.asked ++ [p], ps, s.reports, none⟩

/-- One turn of the loop. A peer that was asked reports at most once (`spawn_peer_fetch`, :566-588). Peers are
distinct. -/
inductive Step (signed : C → Bool) : St P C → St P C → Prop where
  | report {s : St P C} (p : P) (r : Option (List C)) : s.out = none → p ∈ s.asked → p ∉ s.reports.map (·.1) →
      Step signed s (report signed s p r)
  | spawn {s : St P C} : s.out = none → s.rest ≠ [] → Step signed s (spawn s)

inductive Reach (signed : C → Bool) (peers : List P) : St P C → Prop where
  | start : Reach signed peers (start peers)
  | step {s t : St P C} : Reach signed peers s → Step signed s t → Reach signed peers t

/-- What holds throughout. -/
structure Inv (signed : C → Bool) (peers : List P) (s : St P C) : Prop where
  split : s.asked ++ s.rest = peers
  nodup : (s.reports.map (·.1)).Nodup
  from_asked : ∀ x ∈ s.reports, x.1 ∈ s.asked
  running : s.out = none → (∀ x ∈ s.reports, usable signed x.2 = none) ∧
    (s.rest ≠ [] ∨ s.reports.length < s.asked.length)
  got : ∀ cs, s.out = some (.got cs) → ∃ front p r, s.reports = front ++ [(p, r)] ∧ usable signed r = some cs ∧
    ∀ x ∈ front, usable signed x.2 = none
  failed : s.out = some .nothing → s.rest = [] ∧ (∀ x ∈ s.reports, usable signed x.2 = none) ∧
    s.reports.length = s.asked.length

theorem inv {signed : C → Bool} {peers : List P} (hp : peers.Nodup) {s : St P C} (h : Reach signed peers s) :
    Inv signed peers s := by
  induction h with
  | start =>
    cases peers with
    | nil =>
      exact ⟨rfl, .nil, fun x hx => (by cases hx), fun h => (by cases h), fun cs h => (by cases h),
        fun _ => ⟨rfl, fun x hx => (by cases hx), rfl⟩⟩
    | cons p ps =>
      exact ⟨rfl, .nil, fun x hx => (by cases hx), fun _ => ⟨fun x hx => (by cases hx), .inr (by simp [start])⟩,
        fun cs h => (by cases h), fun h => (by cases h)⟩
  | @step s t _ hst ih =>
    cases hst with
    | report p r hout hask hnew =>
      obtain ⟨hun, hmore⟩ := ih.running hout
      have hnd : ((s.reports ++ [(p, r)]).map (·.1)).Nodup := by
        rw [List.map_append, List.map_cons, List.map_nil]
        exact List.nodup_append.mpr ⟨ih.nodup, by simp, by
          intro a ha b hb
          rw [List.mem_singleton] at hb
          intro hab
          have he : a = p := hab.trans hb
          exact hnew (he ▸ ha)⟩
      have hfa : ∀ x ∈ s.reports ++ [(p, r)], x.1 ∈ s.asked := by
        intro x hx
        rcases List.mem_append.mp hx with hx | hx
        · exact ih.from_asked x hx
        · rw [List.mem_singleton] at hx; subst hx; exact hask
      have hle : (s.reports ++ [(p, r)]).length ≤ s.asked.length := by
        have := (List.subperm_of_subset hnd (l₂ := s.asked) (fun a ha => by
          obtain ⟨x, hx, rfl⟩ := List.mem_map.mp ha
          exact hfa x hx)).length_le
        rwa [List.length_map] at this
      unfold report
      cases hu : usable signed r with
      | some cs =>
        dsimp only
        refine ⟨ih.split, hnd, hfa, fun h => (by cases h), ?_, fun h => (by cases h)⟩
        intro cs' h
        cases h
        exact ⟨s.reports, p, r, rfl, hu, hun⟩
      | none =>
        dsimp only
        have hall : ∀ x ∈ s.reports ++ [(p, r)], usable signed x.2 = none := by
          intro x hx
          rcases List.mem_append.mp hx with hx | hx
          · exact hun x hx
          · rw [List.mem_singleton] at hx; subst hx; exact hu
        split
        · rename_i hc
          exact ⟨ih.split, hnd, hfa, fun h => (by cases h), fun cs h => (by cases h),
            fun _ => ⟨hc.1, hall, Nat.le_antisymm hle hc.2⟩⟩
        · rename_i hc
          refine ⟨ih.split, hnd, hfa, fun _ => ⟨hall, ?_⟩, fun cs h => (by cases h), fun h => (by cases h)⟩
          by_cases hr : s.rest = []
          · right
            have : ¬ s.asked.length ≤ (s.reports ++ [(p, r)]).length := fun h => hc ⟨hr, h⟩
            exact Nat.lt_of_not_le this
          · exact .inl hr
    | spawn hout hrest =>
      obtain ⟨hun, hmore⟩ := ih.running hout
      unfold spawn
      cases hr : s.rest with
      | nil => exact absurd hr hrest
      | cons p ps =>
        dsimp only
        have hlen : s.reports.length ≤ s.asked.length := by
          have := (List.subperm_of_subset ih.nodup (l₂ := s.asked) (fun a ha => by
            obtain ⟨x, hx, rfl⟩ := List.mem_map.mp ha
            exact ih.from_asked x hx)).length_le
          rwa [List.length_map] at this
        refine ⟨by rw [← ih.split, hr]; simp, ih.nodup, fun x hx => List.mem_append_left _ (ih.from_asked x hx),
          fun _ => ⟨hun, .inr (by rw [List.length_append]; simp; omega)⟩, fun cs h => (by cases h), fun h => (by cases h)⟩

/-- **A round fails only after every peer was asked and has answered, none of them usefully.** -/
theorem fails_after_all {signed : C → Bool} {peers : List P} (hp : peers.Nodup) {s : St P C} (h : Reach signed peers s)
    (hf : s.out = some .nothing) :
    ∀ p ∈ peers, ∃ r, (p, r) ∈ s.reports ∧ usable signed r = none := by
  have hi := inv hp h
  obtain ⟨h1, h2, h3⟩ := hi.failed hf
  have hask : s.asked = peers := by rw [← hi.split, h1, List.append_nil]
  have hperm : (s.reports.map (·.1)).Perm peers := by
    have hsub := List.subperm_of_subset hi.nodup (l₂ := peers) (fun a ha => by
      obtain ⟨x, hx, rfl⟩ := List.mem_map.mp ha
      rw [← hask]
      exact hi.from_asked x hx)
    exact hsub.perm_of_length_le (by rw [List.length_map, h3, hask]; exact Nat.le_refl _)
  intro p hpm
  obtain ⟨x, hx, rfl⟩ := List.mem_map.mp (hperm.mem_iff.mpr hpm)
  exact ⟨x.2, hx, h2 x hx⟩

/-- **What a round returns is the first usable answer**: a non-empty list, every certificate of it signed, sent by a
peer that was asked; every answer before it was an error, empty, or had an unsigned certificate. -/
theorem got_first_usable {signed : C → Bool} {peers : List P} (hp : peers.Nodup) {s : St P C} (h : Reach signed peers s)
    {cs : List C} (hg : s.out = some (.got cs)) :
    cs ≠ [] ∧ cs.all signed = true ∧ ∃ front p, p ∈ peers ∧ s.reports = front ++ [(p, some cs)] ∧
      ∀ x ∈ front, ∀ ds, x.2 = some ds → ds = [] ∨ ds.all signed = false := by
  have hi := inv hp h
  obtain ⟨front, p, r, h1, h2, h3⟩ := hi.got cs hg
  have hr : r = some cs ∧ cs ≠ [] ∧ cs.all signed = true := by
    cases r with
    | none => cases h2
    | some ds =>
      unfold usable at h2
      dsimp only at h2
      split at h2
      · cases h2
      · split at h2
        · rename_i ha hb; cases h2; exact ⟨rfl, ha, hb⟩
        · cases h2
  obtain ⟨rfl, hne, hall⟩ := hr
  refine ⟨hne, hall, front, p, ?_, h1, ?_⟩
  · have := hi.from_asked (p, some cs) (by rw [h1]; simp)
    rw [← hi.split]
    exact List.mem_append_left _ this
  · intro x hx ds hds
    have := h3 x hx
    rw [hds] at this
    unfold usable at this
    dsimp only at this
    split at this
    · rename_i he; exact .inl he
    · split at this
      · cases this
      · rename_i hn; exact .inr (by simpa using hn)

/-- **A round does not stop early**: until it ends, there is a peer that was asked and has not answered, or one still to
be asked. -/
theorem not_stuck {signed : C → Bool} {peers : List P} (hp : peers.Nodup) {s : St P C} (h : Reach signed peers s)
    (hn : s.out = none) : s.rest ≠ [] ∨ ∃ p ∈ s.asked, p ∉ s.reports.map (·.1) := by
  have hi := inv hp h
  rcases (hi.running hn).2 with h1 | h1
  · exact .inl h1
  · right
    by_contra hc
    have hsub : s.asked ⊆ s.reports.map (·.1) := by
      intro a ha
      by_contra hm
      exact hc ⟨a, ha, hm⟩
    have hnd : s.asked.Nodup := by
      have := hp
      rw [← hi.split] at this
      exact (List.nodup_append.mp this).1
    have := (List.subperm_of_subset hnd hsub).length_le
    rw [List.length_map] at this
    omega

/-- Turns left at most. -/
def left (s : St P C) : Nat := 2 * s.rest.length + (s.asked.length - s.reports.length)

/-- **And it ends**: every turn brings the end nearer, so there are fewer than twice as many turns as peers. -/
theorem ends {signed : C → Bool} {peers : List P} (hp : peers.Nodup) {s t : St P C} (h : Reach signed peers s)
    (hst : Step signed s t) : left t < left s := by
  have hi := inv hp h
  cases hst with
  | report p r hout hask hnew =>
    have hlt : s.reports.length < s.asked.length := by
      have hnd : (p :: s.reports.map (·.1)).Nodup := List.nodup_cons.mpr ⟨hnew, hi.nodup⟩
      have := (List.subperm_of_subset hnd (l₂ := s.asked) (fun a ha => by
        rcases List.mem_cons.mp ha with rfl | ha
        · exact hask
        · obtain ⟨x, hx, rfl⟩ := List.mem_map.mp ha
          exact hi.from_asked x hx)).length_le
      rw [List.length_cons, List.length_map] at this
      omega
    have e : ∀ o, left (⟨s.asked, s.rest, s.reports ++ [(p, r)], o⟩ : St P C) =
        2 * s.rest.length + (s.asked.length - (s.reports.length + 1)) := by intro o; simp [left]
    unfold report
    split
    · rw [e]; unfold left; omega
    · split <;> (rw [e]; unfold left; omega)
  | spawn hout hrest =>
    unfold spawn
    cases hr : s.rest with
    | nil => exact absurd hr hrest
    | cons p ps =>
      simp only [left, hr, List.length_cons, List.length_append, List.length_nil]
      omega

/-- **One peer with the certificates is enough for the round not to fail**: if a peer never answers uselessly, the round
does not end with nothing. -/
theorem good_peer_suffices {signed : C → Bool} {peers : List P} (hp : peers.Nodup) {s : St P C}
    (h : Reach signed peers s) {p : P} (hpm : p ∈ peers)
    (hgood : ∀ r, (p, r) ∈ s.reports → usable signed r ≠ none) : s.out ≠ some .nothing := by
  intro hf
  obtain ⟨r, h1, h2⟩ := fails_after_all hp h hf p hpm
  exact hgood r h1 h2

/-- **But any usable answer ends the round**: it need not contain anything that was asked for. (An answer is checked for
signatures later, and for relevance not at all.) -/
theorem any_answer_ends {signed : C → Bool} {s : St P C} {p : P} {cs : List C} (hne : cs ≠ []) (hs : cs.all signed = true)
    : (report signed s p (some cs)).out = some (.got cs) := by
  have hu : usable signed (some cs) = some cs := by
    unfold usable
    dsimp only
    rw [if_neg hne, if_pos hs]
  unfold report
  rw [hu]

/-- Three peers: the first fails, the second sends nothing, the third has them. -/
example : ∃ s : St Nat Nat, Reach (fun _ => true) [1, 2, 3] s ∧ s.out = some (.got [7, 8]) := by
  have h0 : Reach (C := Nat) (fun _ => true) [1, 2, 3] _ := .start
  have h1 := h0.step (.report 1 none rfl (by decide) (by decide))
  have h2 := h1.step (.spawn rfl (by decide))
  have h3 := h2.step (.spawn rfl (by decide))
  have h4 := h3.step (.report 2 (some []) rfl (by decide) (by decide))
  have h5 := h4.step (.report 3 (some [7, 8]) rfl (by decide) (by decide))
  exact ⟨_, h5, rfl⟩

/-- Two peers without them: the round fails. -/
example : ∃ s : St Nat Nat, Reach (fun _ => true) [1, 2] s ∧ s.out = some .nothing := by
  have h0 : Reach (C := Nat) (fun _ => true) [1, 2] _ := .start
  have h1 := h0.step (.report 1 (some []) rfl (by decide) (by decide))
  have h2 := h1.step (.spawn rfl (by decide))
  have h3 := h2.step (.report 2 none rfl (by decide) (by decide))
  exact ⟨_, h3, rfl⟩

end Fan
end Fetch
end Verif
