import Verif.Bullshark.Progress
/-
Epochs before the seed-signature fork: agreement on everything but the randomness.
-/
namespace Verif
namespace Bull

variable {U : Header → Prop} {p : Params}

/-- A sub-dag without its randomness. -/
def SubDag.erase (s : SubDag) : SubDag := { s with randomness := 0 }

/-- The same epoch with a constant randomness. -/
def Params.flat (p : Params) : Params :=
  { p with seedActive := true, fold := fun _ _ _ => 0, root := fun _ => 0 }

/-- The same state without randomness. -/
def State.erase (s : State) : State :=
  { s with lastSub := s.lastSub.map SubDag.erase, seed := 0 }

theorem erase_leader (s : SubDag) : s.erase.leader? = s.leader? := rfl

theorem map_erase_getLast (log : List SubDag) :
    (log.map SubDag.erase).getLast? = log.getLast?.map SubDag.erase := by
  rcases List.eq_nil_or_concat log with rfl | ⟨t, z, rfl⟩
  · rfl
  · simp

theorem roundOf_erase (log : List SubDag) : roundOf (log.map SubDag.erase) = roundOf log := by
  unfold roundOf
  rw [map_erase_getLast]
  cases log.getLast? <;> rfl

theorem committedOf_erase (log : List SubDag) :
    committedOf (log.map SubDag.erase) = committedOf log := by
  unfold committedOf
  rw [List.flatMap_map]
  rfl

theorem seedOf_flat (log : List SubDag) : seedOf p.flat (log.map SubDag.erase) = 0 := by
  unfold seedOf
  rw [map_erase_getLast]
  cases log.getLast? <;> rfl

theorem tableOf_flat (log : List SubDag) :
    tableOf p.flat (log.map SubDag.erase) = tableOf p log := by
  unfold tableOf
  rw [← List.map_reverse, List.find?_map]
  have : ((fun s : SubDag => s.scores.final) ∘ SubDag.erase) = fun s => s.scores.final := rfl
  rw [this]
  cases log.reverse.find? (fun s => s.scores.final) <;> rfl

theorem Sync.erase {log : List SubDag} {st : State} (h : Sync p U log st) :
    Sync p.flat U (log.map SubDag.erase) st.erase where
  committed := by rw [roundOf_erase]; exact h.committed
  gc := h.gc
  lc a := by rw [committedOf_erase]; exact h.lc a
  last := by
    rw [map_erase_getLast, ← h.last]
    rfl
  seed := by rw [seedOf_flat]; rfl
  table := by rw [tableOf_flat]; exact h.table
  good := h.good

theorem foldl_update_erase (hs : List Header) (st : State) :
    hs.foldl (update p.flat) st.erase = (hs.foldl (update p) st).erase := by
  induction hs generalizing st with
  | nil => rfl
  | cons x xs ih => exact ih (update p st x)

theorem nextScores_flat (last : Option SubDag) (seq : List Header) (n : Nat) :
    nextScores p.flat (last.map SubDag.erase) seq n = nextScores p last seq n := by
  cases last <;> rfl

theorem resolveScores_flat (last : Option SubDag) (seq : List Header) (n : Nat) :
    resolveScores p.flat (last.map SubDag.erase) seq n = resolveScores p last seq n := by
  unfold resolveScores
  rw [nextScores_flat]
  rfl

theorem newSubDag_flat {agg : Header → Sig} {seq : List Header} {l : Header} {sc : Scores}
    {prev : Option SubDag} {seed : Nat} {sub : SubDag}
    (h : newSubDag p agg seq l sc prev seed = .ok sub) :
    newSubDag p.flat agg seq l sc (prev.map SubDag.erase) 0 = .ok sub.erase := by
  unfold newSubDag at h ⊢
  split at h
  · rename_i hd
    rw [if_pos hd]
    cases h
    cases prev <;> rfl
  · cases h

theorem commitOne_flat {agg : Header → Sig} {st s1 : State} {l : Header} {sub : SubDag}
    (h : commitOne p agg st l = .ok (s1, sub)) :
    commitOne p.flat agg st.erase l = .ok (s1.erase, sub.erase) := by
  unfold commitOne at h ⊢
  simp only at h ⊢
  have hod : orderDag p.flat st.erase.dag st.erase.lastCommitted l =
      orderDag p st.dag st.lastCommitted l := rfl
  rw [hod, foldl_update_erase]
  generalize orderDag p st.dag st.lastCommitted l = seq at *
  generalize seq.foldl (update p) st = st1 at *
  have e1 : st1.erase.lastSub = st1.lastSub.map SubDag.erase := rfl
  have e2 : st1.erase.seed = 0 := rfl
  rw [e1, e2, resolveScores_flat]
  split at h
  · cases h
  · rename_i sc hsc
    split at h
    · cases h
    · rename_i sub' hn
      cases h
      rw [newSubDag_flat hn]
      rfl

theorem leaderCert_flat (t : SwapTable) (dag : Dag) (r : Round) :
    leaderCert p.flat t dag r = leaderCert p t dag r := by
  unfold leaderCert
  have : scheduleLeader p.flat.committee p.flat.rng t r = scheduleLeader p.committee p.rng t r := rfl
  rw [this]

theorem hop_flat (t : SwapTable) (dag : Dag) (cur : Header) (r : Round) :
    hop p.flat t dag cur r = hop p t dag cur r := by
  unfold hop
  rw [leaderCert_flat]

theorem walk_flat (t : SwapTable) (dag : Dag) (k : Nat) (r : Round) (cur : Header) :
    walk p.flat t dag k r cur = walk p t dag k r cur := by
  induction k generalizing r cur with
  | zero => rfl
  | succ k ih =>
    unfold walk
    rw [hop_flat]
    cases hop p t dag cur r with
    | none => exact ih _ _
    | some q => exact congrArg (q :: ·) (ih _ _)

theorem oldest_flat (t : SwapTable) (dag : Dag) (k : Nat) (r : Round) (cur : Header) :
    oldest p.flat t dag k r cur = oldest p t dag k r cur := by
  unfold oldest
  simp only [walk_flat]

theorem NextCommit.flat {log : List SubDag} {s : SubDag} (h : NextCommit p U log s) :
    NextCommit p.flat U (log.map SubDag.erase) s.erase := by
  obtain ⟨st, agg, L, k, s1, h1, h2, h3, h4, h5, h6⟩ := h
  refine ⟨st.erase, agg, L, k, s1.erase, h1.erase, h2, h3, h4, by rw [roundOf_erase]; exact h5, ?_⟩
  have e : oldest p.flat st.erase.table st.erase.dag k (L.round - 2) L =
      oldest p st.table st.dag k (L.round - 2) L := oldest_flat _ _ _ _ _
  rw [e]
  exact commitOne_flat h6

theorem Legal.flat {log : List SubDag} (h : Legal p U log) :
    Legal p.flat U (log.map SubDag.erase) := by
  induction h with
  | nil => exact .nil
  | snoc _ hn ih => rw [List.map_append]; exact .snoc ih hn.flat

/-- C10 in every epoch, also before the seed-signature fork: two nodes emit the same leaders, the same
certificates in the same order, the same scores and the same timestamps. -/
theorem agreement_any_epoch (hS : Setup p U) {n1 n2 : Node} (h1 : Reachable p U n1)
    (h2 : Reachable p U n2) : n1.log.map SubDag.erase <+: n2.log.map SubDag.erase ∨
      n2.log.map SubDag.erase <+: n1.log.map SubDag.erase :=
  Legal.prefix (p := p.flat) hS.committee hS.gcPos hS.certs rfl (h1.inv hS).1.flat (h2.inv hS).1.flat

/-- In those epochs the randomness is the hash of the aggregate signature this node holds for the
leader, so two nodes holding different quorums for one leader emit different randomness: the defect
the fork repairs (output.rs:424, seed_chain.rs). -/
theorem legacy_randomness {agg : Header → Sig} (hseed : p.seedActive = false) {st s1 : State}
    {l : Header} {sub : SubDag} (h : commitOne p agg st l = .ok (s1, sub)) :
    sub.randomness = p.hashSig (agg l) := by
  unfold commitOne at h
  simp only at h
  split at h
  · cases h
  · split at h
    · cases h
    · rename_i hn
      cases h
      unfold newSubDag at hn
      split at hn
      · cases hn
        rw [hseed]; rfl
      · cases hn

/-! ### how far back recovery reads -/

/-- Why `restart` asks for `FinalInWindow`: once more sub-dags than recovery reads back
(`finalWindow`, 1000) follow the last one with final scores, a restart silently continues with the
empty swap table, while nodes that were not restarted keep the table of that sub-dag. -/
theorem restart_forgets_table (log tail : List SubDag) (hnf : ∀ s ∈ tail, s.scores.final = false)
    (hlen : p.finalWindow ≤ tail.length) :
    tableFromStore p (log ++ tail) = {} ∧ tableOf p (log ++ tail) = tableOf p log := by
  constructor
  · unfold tableFromStore
    have : (lastN p.finalWindow (log ++ tail)).reverse.find? (fun s => s.scores.final) = none := by
      rw [List.find?_eq_none]
      intro s hs
      rw [List.mem_reverse] at hs
      unfold lastN at hs
      have hl : log.length ≤ (log ++ tail).length - p.finalWindow := by simp; omega
      rw [List.drop_append, List.drop_eq_nil_of_le hl, List.nil_append] at hs
      rw [hnf s (List.mem_of_mem_drop hs)]
      simp
    rw [this]
  · induction tail using List.reverseRecOn with
    | nil => simp
    | append_singleton t z ih =>
      rw [← List.append_assoc, tableOf_append, hnf z (by simp)]
      have key : tableOf p (log ++ t) = tableOf p log := by
        clear ih hlen
        induction t using List.reverseRecOn with
        | nil => simp
        | append_singleton t y ih =>
          rw [← List.append_assoc, tableOf_append, hnf y (by simp)]
          exact ih (fun s hs => hnf s (by
            rcases List.mem_append.mp hs with h | h
            · simp [h]
            · simp [h]))
      exact key

end Bull
end Verif
