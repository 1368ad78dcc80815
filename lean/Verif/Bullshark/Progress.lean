import Verif.Bullshark.Props
/-
C32 (a supported leader is committed), the legacy epochs of C10, and the limits of recovery.
-/
namespace Verif
namespace Bull

variable {U : Header → Prop} {p : Params}

theorem commitLoop_progress (hS : Setup p U) (agg : Header → Sig) {log : List SubDag} {st : State}
    (hL : Legal p U log) (h : Sync p U log st) {r : Round} (hr : r % 2 = 0) (hgt : roundOf log < r)
    (hchild : ∃ x ∈ st.dag, x.round = r + 1) {l : Header}
    (hl : leaderCert p st.table st.dag r = some l)
    (hsup : p.committee.validityThreshold ≤ support p st.dag l) (fuel : Nat)
    (hf : r - roundOf log ≤ fuel) {o : Outcome} {st' : State} {subs : List SubDag}
    (he : commitLoop p agg r fuel st [] = .ok (o, st', subs)) :
    subs ≠ [] ∧ ((∀ s ∈ subs, s.scores.final = false) → roundOf (log ++ subs) = r) := by
  have hev := (hL.wf hS.committee hS.gcPos hS.certs).even
  obtain ⟨x, hx, hxr⟩ := hchild
  cases fuel with
  | zero => omega
  | succ fuel =>
    have hlc := hl
    rw [leaderCert_iff hS.certs h.good] at hlc
    have hLr := hlc.1.2.1
    have hs2 := supported_of_dag hS.certs h.good (L := l) (by omega)
    obtain ⟨k, hk⟩ : ∃ k, l.round = roundOf log + 2 + 2 * k :=
      ⟨(l.round - 2 - roundOf log) / 2, by omega⟩
    obtain ⟨o1, st1, subs1, i1, i2, i3, i4, i5, i6, i7, i8⟩ := commitLeaders_ok hS.committee hS.gcPos
      hS.certs agg _ [] hL h (by rw [hLr]; exact hlc.1) hlc.2 hs2 hk rfl
    have hcl : commitLeader p agg r st = .ok (o1, st1, subs1) := by
      unfold commitLeader
      rw [hl]
      simp only
      rw [if_neg (by
        intro hem
        rw [List.isEmpty_iff] at hem
        have : x ∈ atRound st.dag (r + 1) := mem_atRound.mpr ⟨hx, hxr⟩
        rw [hem] at this; simp at this), if_neg (by omega),
        orderLeaders_eq (by omega) (by rw [h.committed]; exact hk)]
      simpa using i1
    simp only [commitLoop, hcl, List.nil_append] at he
    split at he
    · rename_i ho
      rcases i7 with i7 | ⟨-, i7⟩
      · rw [i7] at ho; cases ho
      · obtain ⟨o2, st2, subs2, j1, -, -, -⟩ := commitLoop_ok hS.committee hS.gcPos hS.certs agg hr fuel
          subs1 i3 i2 (by omega) ⟨x, by rw [i8, mem_gcDag]; exact ⟨hx, by unfold gcOf; omega⟩, hxr⟩
          (by omega)
        rw [j1] at he
        cases he
        refine ⟨by simp [i4], ?_⟩
        intro hnf
        exfalso
        -- the schedule only changes after a final sub-dag
        have : ∀ (ls : List Header) (s : State) (acc acc' : List SubDag) (s' : State),
            commitLeaders p agg ls s acc = .ok (.scheduleChanged, s', acc') →
            ∃ z ∈ acc', z.scores.final = true := by
          intro ls
          induction ls with
          | nil => intro s acc acc' s' h; simp [commitLeaders] at h
          | cons y ys ih =>
            intro s acc acc' s' h
            simp only [commitLeaders] at h
            split at h
            · cases h
            · rename_i s1 sub hco
              split at h
              · rename_i hfin
                cases h
                exact ⟨sub, by simp, by simp at hfin; exact hfin.1⟩
              · exact ih _ _ _ _ h
        rw [ho] at i1
        obtain ⟨z, hz, hzf⟩ := this _ _ _ _ _ i1
        rw [hnf z (by simp at hz; simp [hz])] at hzf
        cases hzf
    · rename_i ho
      cases he
      refine ⟨i4, fun _ => ?_⟩
      -- the last leader committed is `l`
      have hlast : ∀ (ls : List Header) (s : State) (acc acc' : List SubDag) (s' : State) (z : Header),
          commitLeaders p agg (ls ++ [z]) s acc = .ok (.commit, s', acc') →
          ∃ q s0 s1 sub, acc' = q ++ [sub] ∧ commitOne p agg s0 z = .ok (s1, sub) := by
        intro ls
        induction ls with
        | nil =>
          intro s acc acc' s' z h
          simp only [List.nil_append, commitLeaders] at h
          split at h
          · cases h
          · rename_i s1 sub hco
            simp at h
            exact ⟨acc, s, s1, sub, h.2.symm, hco⟩
        | cons y ys ih =>
          intro s acc acc' s' z h
          simp only [List.cons_append, commitLeaders] at h
          split at h
          · cases h
          · split at h
            · cases h
            · exact ih _ _ _ _ _ h
      have ho1 : o = .commit := by
        rcases i7 with i7 | i7
        · exact i7
        · exact absurd i7.1 ho
      rw [ho1] at i1
      simp only [List.nil_append] at i1
      obtain ⟨q, s0, s1, sub, e1, e2⟩ := hlast _ _ _ _ _ _ i1
      rw [e1, ← List.append_assoc, roundOf_append]
      have : sub.headers.getLast?.map (·.digest) = some l.digest := by
        unfold commitOne at e2
        simp only at e2
        split at e2
        · cases e2
        · split at e2
          · cases e2
          · rename_i hns
            cases e2
            unfold newSubDag at hns
            split at hns
            · rename_i hd
              cases hns
              exact hd
            · cases hns
      have hwf := i3.wf hS.committee hS.gcPos hS.certs
      obtain ⟨l', hl', hU', -⟩ := hwf.shape sub (by rw [e1]; simp)
      unfold SubDag.leader? at hl'
      rw [hl'] at this
      have : l' = l := hS.certs.digestInj hU' hlc.1.1 (by simpa using this)
      subst this
      simp only [SubDag.leaderRound, SubDag.leader?, hl', Option.map_some, Option.getD_some]
      exact hLr

/-- C32. When a certificate of the round after an uncommitted leader arrives and the leader (by the
schedule in force) is in the DAG with certificates worth the validity threshold pointing to it, a
commit happens at once; unless the schedule changed on the way, it reaches that very leader. -/
theorem progress (hS : Setup p U) {n : Node} (h : Reachable p U n) (agg : Header → Sig)
    {x : Header} (hx : U x)
    (hp : n.st.gcRound + 1 < x.round → ∀ d ∈ x.parents, ∃ q ∈ n.st.dag, q.round + 1 = x.round ∧
      q.digest = d)
    (hodd : x.round % 2 = 1) (h3 : n.st.committedRound + 3 ≤ x.round)
    (hnew : ∀ y ∈ n.log.flatMap (·.headers), y.author = x.author → y.round < x.round)
    {l : Header} (hl : leaderCert p n.st.table (dagInsert n.st.dag x) (x.round - 1) = some l)
    (hsup : p.committee.validityThreshold ≤ support p (dagInsert n.st.dag x) l) :
    ∃ st' subs, processCertificate p agg n.st x = .ok (.commit, st', subs) ∧ subs ≠ [] ∧
      n.st.committedRound < st'.committedRound ∧
      ((∀ s ∈ subs, s.scores.final = false) → st'.committedRound = x.round - 1) := by
  obtain ⟨hL, hs⟩ := h.inv hS
  obtain ⟨o, st', subs, e, hs', hL', -⟩ := processCertificate_ok hS.committee hS.gcPos hS.certs agg hL
    hs hx hp
  have hgc := hs.gc
  have hcr := hs.committed
  have hngc : ¬ x.round ≤ n.st.gcRound := by rw [hgc]; unfold gcOf; omega
  have hlcx : lcGet n.st.lastCommitted x.author < x.round := by
    have h1 := hs.lc x.author
    have : maxRound (committedOf n.log) x.author ≤ x.round - 1 := by
      apply maxRound_le
      intro y hy ha
      have := hnew y hy ha
      omega
    omega
  have hins : tryInsert n.st.dag n.st.lastCommitted n.st.gcRound x true =
      .ok (dagInsert n.st.dag x, true) := by
    unfold tryInsert
    rw [if_neg hngc]
    have := (checkParents_ok_iff hS.certs hx hs.good.sub).mpr hp
    simp only [if_true, this]
    rw [hasOther_false hS.certs hs.good.sub hx]
    simp [hlcx]
  have hgood := Good.insert hS.certs hs.good hx (by omega) hp
  have hsD := hs.withDag hgood
  have e' := e
  unfold processCertificate at e
  rw [hins] at e
  simp only at e
  rw [if_neg (by omega), if_neg (by omega)] at e
  split at e
  · cases e
  · rename_i o1 s1 subs1 hloop
    cases e
    obtain ⟨k1, k2⟩ := commitLoop_progress hS agg hL hsD (r := x.round - 1) (by omega) (by omega)
      ⟨x, (mem_dagInsert_good hS.certs hs.good.sub hx).mpr (Or.inl rfl), by omega⟩ hl hsup _ (by omega)
      hloop
    have ho : (if subs.isEmpty = true then o1 else Outcome.commit) = .commit := by
      rw [if_neg (by simpa using k1)]
    refine ⟨st', subs, by rw [e', ho], k1, ?_, ?_⟩
    · rw [hs'.committed, hcr]
      have hmono := (hL'.wf hS.committee hS.gcPos hS.certs).mono
      rcases List.eq_nil_or_concat subs with rfl | ⟨t, z, rfl⟩
      · exact absurd rfl k1
      · rw [List.concat_eq_append] at *
        have hz := (hL'.wf hS.committee hS.gcPos hS.certs).shape z (by simp)
        obtain ⟨lz, hlz, -, h2, -⟩ := hz
        rw [← List.append_assoc, roundOf_append]
        rcases List.eq_nil_or_concat n.log with hnil | ⟨t', z', hcat⟩
        · rw [hnil]
          simp only [roundOf, SubDag.leaderRound, hlz]
          simp; omega
        · rw [List.concat_eq_append] at hcat
          rw [hcat] at hmono ⊢
          rw [List.pairwise_append] at hmono
          have := hmono.2.2 z' (by simp) z (by simp)
          rw [roundOf_append]; omega
    · intro hnf
      rw [hs'.committed]
      exact k2 hnf

end Bull
end Verif
