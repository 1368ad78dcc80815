import Verif.Worker.Avail
import Mathlib.Logic.Encodable.Basic
import Mathlib.Logic.Equiv.List
/-
A run of four members in which a header becomes certified (the theorems of `Avail` apply to it), and one in which a
crash separates the payload mark from the batch it stands for.
-/
namespace Verif
namespace Worker
namespace AvailEx
open Exec (Batch payloadKeys)

/-- A digest without collisions. -/
def dg (b : Batch) : Nat := Encodable.encode (b.txs, b.epoch, b.beneficiary, b.baseFee, b.workerId)

theorem dg_inj (a b : Batch) (h : dg a = dg b) : a = b := by
  have := Encodable.encode_injective h
  cases a; cases b
  simp only [Prod.mk.injEq] at this
  obtain ⟨rfl, rfl, rfl, rfl, rfl⟩ := this
  rfl

/-- Four members, 40 faulty. -/
def G : Setting where
  c := Committee.four
  F := {40}
  v := { workerId := 0, epoch := 1, baseFee := 7, decode := fun l => l.head?.map (fun t => ⟨t, 21000⟩), digest := dg }
  wf := Committee.four_wf
  faulty := by decide
  inj := dg_inj

def b : Batch := { txs := [[2, 1], [0]], epoch := 1 }
/-- Its digest. -/
def d : Nat := dg b

/-- The header of member 30 with this batch. -/
def h : Header := { author := 30, round := 1, epoch := 1, payload := [(d, 0)], digest := 77 }

theorem b_valid : G.v.validate b d = .ok () := by
  rw [validate_iff]
  exact ⟨[⟨2, 21000⟩, ⟨0, 21000⟩], ⟨rfl, rfl, rfl, by simp [b], by decide, rfl, by simp, by decide, rfl⟩⟩

theorem honest {i : AuthorityId} (hi : i = 10 ∨ i = 20 ∨ i = 30) : G.Honest i := by
  rcases hi with rfl | rfl | rfl <;> exact ⟨by decide, by decide⟩

def s0 : WState := fun _ => {}
def s1 : WState := s0.upd 10 ((s0 10).reported d 0 b)
def s2 : WState := s1.upd 20 ((s1 20).reported d 0 b)
def s3 : WState := s2.upd 30 ((s2 30).sealed d b)
def s4 : WState := s3.upd 30 ((s3 30).propose h)
def s5 : WState := s4.upd 10 ((s4 10).vote h)
def s6 : WState := s5.upd 20 ((s5 20).vote h)

theorem reach3 : Reach G s3 := by
  refine .step (.step (.step .init (.report s0 10 b d (honest (.inl rfl)) b_valid))
    (.report s1 20 b d (honest (.inr (.inl rfl))) b_valid))
    (.sealOwn s2 30 b [(20, .ack), (10, .ack), (40, .rejected)] (honest (.inr (.inr rfl))) (by decide) ?_)
  intro j hj hm
  simp only [List.mem_cons, Prod.mk.injEq, reduceCtorEq, and_true, and_false, List.not_mem_nil, or_false] at hm
  rcases hm with rfl | rfl
  · exact List.mem_cons_self ..
  · exact List.mem_cons_self ..

theorem reach6 : Reach G s6 := by
  refine .step (.step (.step reach3 (.propose s3 30 h (honest (.inr (.inr rfl))) rfl ?_))
    (.vote s4 10 h (honest (.inl rfl)) (by decide) ?_)) (.vote s5 20 h (honest (.inr (.inl rfl))) (by decide) ?_)
  · intro x hx
    rw [show x = d from List.mem_singleton.mp hx]
    exact List.mem_cons_self ..
  · intro x hx
    rw [show x = (d, 0) from List.mem_singleton.mp hx]
    exact List.mem_cons_self ..
  · intro x hx
    rw [show x = (d, 0) from List.mem_singleton.mp hx]
    exact List.mem_cons_self ..

theorem certified_of {s : WState} (h1 : h ∈ (s 30).proposed) (h2 : h ∈ (s 10).voted) (h3 : h ∈ (s 20).voted) :
    Certified G s h := by
  refine ⟨[30, 10, 20], by decide, by decide, ?_⟩
  intro i hi _
  simp only [List.mem_cons, List.not_mem_nil, or_false] at hi
  rcases hi with rfl | rfl | rfl
  · exact .inl ⟨rfl, h1⟩
  · exact .inr ⟨by decide, h2⟩
  · exact .inr ⟨by decide, h3⟩

/-- The hypotheses of the theorems of `Avail` are met: a certified header with a batch, nobody crashed, and members
outside the author hold it. -/
theorem example_certified : Reach G s6 ∧ Certified G s6 h ∧ d ∈ payloadKeys h ∧ d ∈ (s6 30).own ∧
    (∀ i, (s6 i).crashed = false) ∧ (s6 10).store.get d = some b ∧ (s6 40).store.get d = none := by
  refine ⟨reach6, certified_of (List.mem_cons_self ..) (List.mem_cons_self ..) (List.mem_cons_self ..),
    List.mem_cons_self .., List.mem_cons_self .., ?_, ?_, rfl⟩
  · intro i
    simp only [s6, s5, s4, s3, s2, s1, s0, WState.upd]
    repeat' split
    all_goals rfl
  · have : (s6 10).store.cache d = some b := by
      show (if d = d then some b else none) = some b
      exact if_pos rfl
    simp only [Store.get, this]

/-- Member 10 crashes after it acknowledged the batch, before the author's header arrives. -/
def c4 : WState := s3.upd 10 ((s3 10).crash {} (s3 10).marks)
def c5 : WState := c4.upd 20 ((c4 20).crash {} (c4 20).marks)
def c6 : WState := c5.upd 30 ((c5 30).propose h)
def c7 : WState := c6.upd 10 ((c6 10).vote h)
def c8 : WState := c7.upd 20 ((c7 20).vote h)

/-- **Finding.** The condition "has not crashed" in C45 (c) cannot be dropped, and what is lost is not only what the
member had before the crash: the payload table says that a batch is there, the vote relies on the mark alone, and the
batch table may have lost the batch. Two honest members that crash before the header arrives vote for it without having
its batch; then the header is certified while one honest member (the author) has the batch, fewer than the validity
threshold. -/
theorem crash_votes_without_batch : Reach G c8 ∧ Certified G c8 h ∧ d ∈ payloadKeys h ∧
    h ∈ (c8 10).voted ∧ (c4 10).voted = [] ∧ (c8 10).store.get d = none ∧ (c8 20).store.get d = none ∧
    (∀ A : List AuthorityId, A.Nodup → (∀ i ∈ A, G.Honest i ∧ (c8 i).store.get d ≠ none) → A.length < G.c.validityThreshold) := by
  have hlost : ∀ i, i ≠ 30 → (c8 i).store.get d = none := by
    intro i hi
    simp only [c8, c7, c6, c5, c4, s3, s2, s1, s0, WState.upd]
    by_cases h1 : i = 20
    · subst h1; rfl
    · by_cases h2 : i = 10
      · subst h2; rfl
      · simp only [if_neg hi, if_neg h1, if_neg h2]; rfl
  refine ⟨?_, certified_of (List.mem_cons_self ..) (List.mem_cons_self ..) (List.mem_cons_self ..),
    List.mem_cons_self .., List.mem_cons_self .., rfl, hlost 10 (by decide), hlost 20 (by decide), ?_⟩
  · refine .step (.step (.step (.step (.step reach3
      (.crash s3 10 {} (s3 10).marks (honest (.inl rfl)) ?_ ?_ (fun _ h => h)))
      (.crash c4 20 {} (c4 20).marks (honest (.inr (.inl rfl))) ?_ ?_ (fun _ h => h)))
      (.propose c5 30 h (honest (.inr (.inr rfl))) rfl ?_))
      (.vote c6 10 h (honest (.inl rfl)) (by decide) ?_)) (.vote c7 20 h (honest (.inr (.inl rfl))) (by decide) ?_)
    · intro _ _ hx; cases hx
    · intro _ _ hx; cases hx
    · intro _ _ hx; cases hx
    · intro _ _ hx; cases hx
    · intro x hx
      rw [show x = d from List.mem_singleton.mp hx]
      exact List.mem_cons_self ..
    · intro x hx
      rw [show x = (d, 0) from List.mem_singleton.mp hx]
      exact List.mem_cons_self ..
    · intro x hx
      rw [show x = (d, 0) from List.mem_singleton.mp hx]
      exact List.mem_cons_self ..
  · intro A hA hA'
    have hsub : ∀ x ∈ A, x ∈ [30] := by
      intro i hi
      by_cases h30 : i = 30
      · subst h30; exact List.mem_cons_self ..
      · exact absurd (hlost i h30) (hA' i hi).2
    have := (List.subperm_of_subset hA hsub).length_le
    have h2 : G.c.validityThreshold = 2 := by decide
    simp only [List.length_singleton] at this
    omega

/-- The tables of the two databases (values: 1). In `process_report_batch` the batch is inserted into the cache
database and then the mark into the epoch database; each has its own writer thread. -/
def cacheRun : Layered.DB Nat := Layered.exec (Layered.openDb false (fun _ _ => none)) [.write (.ins 0 5 1)]
def epochRun : Layered.DB Nat := Layered.exec (Layered.openDb true (fun _ _ => none)) [.write (.ins 1 5 1), .run true]

/-- Both writes are visible to the running process, and a crash at this point keeps the mark and loses the batch:
the `crash` step of the model with such a result is one that the storage layer can produce. -/
theorem crash_keeps_mark_only : cacheRun.get 0 5 = some 1 ∧ epochRun.get 1 5 = some 1 ∧
    cacheRun.crash.get 0 5 = none ∧ epochRun.crash.get 1 5 = some 1 := by
  decide

end AvailEx
end Worker
end Verif
