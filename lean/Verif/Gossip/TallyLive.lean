import Verif.Gossip.TallyProps
import Mathlib.Data.Nat.Pairing
/-
C21, second part: the equivocation limit and what it protects; and the flood it does not protect from.
-/
namespace Verif
namespace Gossip

/-- The number stored in a tally is that of the result it is for. -/
def NumOk (P : Params) (ts : List Tally) : Prop :=
  ∀ t ∈ ts, ∃ r : Res, P.dig r = t.dig ∧ r.number = t.number

theorem filter_le_of_sublist {l l' : List Tally} (h : l.Sublist l') (p : Tally → Bool) :
    (l.filter p).length ≤ (l'.filter p).length := (h.filter p).length_le

theorem insertTally_created {P : Params} (hP : NoCollision P) {ts : List Tally} {m : Msg} {n : Nat}
    (hnum : NumOk P ts) (hok : ∀ t ∈ ts, t.creator ∈ t.signers)
    (hc : ∀ N k, created ts N k ≤ 2) :
    NumOk P (insertTally n (P.dig m.res) m.res.number m.key ts).1 ∧
    (∀ t ∈ (insertTally n (P.dig m.res) m.res.number m.key ts).1, t.creator ∈ t.signers) ∧
    ∀ N k, created (insertTally n (P.dig m.res) m.res.number m.key ts).1 N k ≤ 2 := by
  refine ⟨?_, ?_, ?_⟩
  · intro t ht
    rcases insertTally_mem ht with h | ⟨u, hu, hd, rfl⟩ | rfl
    · exact hnum t h
    · exact ⟨m.res, hd.symm, rfl⟩
    · exact ⟨m.res, rfl, rfl⟩
  · intro t ht
    rcases insertTally_mem ht with h | ⟨u, hu, hd, rfl⟩ | rfl
    · exact hok t h
    · exact mem_addSigner.mpr (.inr (hok u hu))
    · simp
  · intro N k
    unfold insertTally
    cases hf : find ts (P.dig m.res) with
    | some t =>
      dsimp only
      have hsame : created (ts.map (fun x => if x.dig = P.dig m.res
          then x.add (nextSeq ts) m.res.number m.key else x)) N k = created ts N k := by
        unfold created
        rw [List.filter_map, List.length_map]
        congr 1
        apply List.filter_congr
        intro x hx
        simp only [Function.comp]
        split
        · rename_i hd
          obtain ⟨r, hr, hn⟩ := hnum x hx
          have : r = m.res := hP _ _ (hr.trans hd)
          rw [show (x.add (nextSeq ts) m.res.number m.key).number = m.res.number from rfl,
            show (x.add (nextSeq ts) m.res.number m.key).creator = x.creator from rfl, ← this, hn]
        · rfl
      rw [hsame]; exact hc N k
    | none =>
      dsimp only
      split
      · exact hc N k
      · rename_i hlt
        have hsub : ((if maxCerts n ≤ ts.length then evict ts else ts)).Sublist ts := by
          split
          · exact evict_sublist ts
          · exact List.Sublist.refl _
        have h1 : created (if maxCerts n ≤ ts.length then evict ts else ts) N k ≤ created ts N k :=
          filter_le_of_sublist hsub _
        have h2 : created ts m.res.number m.key ≤ signerTallies ts m.res.number m.key := by
          unfold created signerTallies
          have : (ts.filter (fun t => decide (t.number = m.res.number ∧ t.creator = m.key))).Sublist
              (ts.filter (fun t => decide (t.number = m.res.number ∧ m.key ∈ t.signers))) := by
            have e : ts.filter (fun t => decide (t.number = m.res.number ∧ t.creator = m.key)) =
                (ts.filter (fun t => decide (t.number = m.res.number ∧ m.key ∈ t.signers))).filter
                  (fun t => decide (t.creator = m.key)) := by
              rw [List.filter_filter]
              apply List.filter_congr
              intro x hx
              have := hok x hx
              by_cases a : x.number = m.res.number
              · by_cases b : x.creator = m.key
                · rw [b] at this; simp [a, b, this]
                · simp [b]
              · simp [a]
            rw [e]; exact List.filter_sublist
          exact this.length_le
        unfold created at h1 ⊢
        rw [List.filter_append, List.length_append]
        by_cases hk : m.res.number = N ∧ m.key = k
        · obtain ⟨rfl, rfl⟩ := hk
          simp only [List.filter_cons, List.filter_nil, and_self, decide_true, if_true, List.length_singleton]
          unfold created at h2
          unfold maxTalliesPerSigner at hlt
          omega
        · have : (decide (m.res.number = N ∧ m.key = k)) = false := by simpa using hk
          simp only [List.filter_cons, List.filter_nil, this]
          have := hc N k
          unfold created at this
          simp only [Bool.false_eq_true, if_false, List.length_nil]
          omega

/-- **The equivocation limit holds.** At any time, whatever is gossiped, no key has started more than two
of the live tallies for one consensus number. -/
theorem equivocation_bounded {P : Params} (hP : NoCollision P) {s : State} (h : Reach P s) :
    NumOk P s.tallies ∧ (∀ t ∈ s.tallies, t.creator ∈ t.signers) ∧ ∀ N k, created s.tallies N k ≤ 2 := by
  induction h with
  | init p => exact ⟨by intro t ht; simp at ht, by simp, by intros; simp [created]⟩
  | @step s s' _ hstep ih =>
    cases hstep with
    | recv => exact ih
    | ins m hm => exact insertTally_created hP ih.1 ih.2.1 ih.2.2
    | behind => exact ⟨by intro t ht; simp at ht, by simp, by intros; simp [created]⟩
    | pub => exact ih
    | clr => exact ⟨by intro t ht; simp at ht, by simp, by intros; simp [created]⟩
    | ext => exact ih

theorem filter_mem_length (F : List Nat) (l : List Tally) :
    (l.filter (fun t => decide (t.creator ∈ F))).length ≤
      (F.map (fun k => (l.filter (fun t => decide (t.creator = k))).length)).sum := by
  induction F with
  | nil => simp
  | cons k F ih =>
    rw [List.map_cons, List.sum_cons]
    refine Nat.le_trans ?_ (Nat.add_le_add_left ih _)
    clear ih
    induction l with
    | nil => simp
    | cons t l ih =>
      simp only [List.mem_cons, Bool.decide_or] at ih
      simp only [List.filter_cons, List.mem_cons, Bool.decide_or]
      by_cases a : t.creator = k
      · by_cases c : t.creator ∈ F
        · simp only [a, decide_true, Bool.true_or, if_true, List.length_cons]
          rw [a] at c
          simp only [c, decide_true, if_true, List.length_cons]
          omega
        · simp only [a, decide_true, Bool.true_or, if_true, List.length_cons]
          rw [a] at c
          simp only [c, decide_false, Bool.false_eq_true, if_false]
          omega
      · by_cases c : t.creator ∈ F
        · simp only [a, c, decide_true, decide_false, Bool.or_true, if_true, List.length_cons,
            Bool.false_eq_true, if_false]
          omega
        · simp only [a, c, decide_false, Bool.or_false, Bool.false_eq_true, if_false]
          exact ih

/-- **Equivocation about one number cannot push an honest result out.** Let fewer than a third of the
committee be faulty and all honest members sign the one result `r0` for its number. While the table only
holds tallies for that number, no insertion evicts any of them: the signatures already counted for `r0`
stay counted, and the new one is added. -/
theorem no_eviction {P : Params} (hP : NoCollision P) {s : State} (h : Reach P s) {faulty : List Nat}
    {r0 : Res} {m : Msg} (hf : 3 * faulty.length < (P.com m.res.epoch).length)
    (one : ∀ t ∈ s.tallies, t.number = r0.number)
    (honest : ∀ x ∈ s.seen, x.key ∉ faulty → x.res.number = r0.number → x.res = r0) :
    s.tallies.length ≤ 2 * faulty.length + 1 ∧
    ∀ t ∈ s.tallies, ∃ t' ∈ (s.inserted P m).tallies, t'.dig = t.dig ∧ t.signers ⊆ t'.signers ∧
      (P.dig m.res = t.dig → m.key ∈ t'.signers) := by
  obtain ⟨hnum, hok, hcr⟩ := equivocation_bounded hP h
  have inv := h.inv
  have hlen : s.tallies.length ≤ 2 * faulty.length + 1 := by
    have split : s.tallies.length = (s.tallies.filter (fun t => decide (t.creator ∈ faulty))).length +
        (s.tallies.filter (fun t => !decide (t.creator ∈ faulty))).length := by
      have := List.length_eq_length_filter_add (l := s.tallies) (fun t => decide (t.creator ∈ faulty))
      omega
    have h1 : (s.tallies.filter (fun t => decide (t.creator ∈ faulty))).length ≤ 2 * faulty.length := by
      refine Nat.le_trans (filter_mem_length _ _) ?_
      have : ∀ F : List Nat, (F.map (fun k => (s.tallies.filter
          (fun t => decide (t.creator = k))).length)).sum ≤ 2 * F.length := by
        intro F
        induction F with
        | nil => simp
        | cons k F ih =>
          rw [List.map_cons, List.sum_cons, List.length_cons]
          have : (s.tallies.filter (fun t => decide (t.creator = k))).length ≤ 2 := by
            have e : s.tallies.filter (fun t => decide (t.creator = k)) =
                s.tallies.filter (fun t => decide (t.number = r0.number ∧ t.creator = k)) := by
              apply List.filter_congr
              intro x hx; simp [one x hx]
            rw [e]; exact hcr _ _
          omega
      exact this faulty
    have h2 : (s.tallies.filter (fun t => !decide (t.creator ∈ faulty))).length ≤ 1 := by
      have hall : ∀ t ∈ s.tallies.filter (fun t => !decide (t.creator ∈ faulty)), t.dig = P.dig r0 := by
        intro t ht
        obtain ⟨ht, hc⟩ := List.mem_filter.mp ht
        have hc : t.creator ∉ faulty := by simpa using hc
        obtain ⟨_, hmem, c⟩ := inv.tallies t ht
        obtain ⟨x, hx, hk, hd, _, _⟩ := c _ hmem
        obtain ⟨r, hr, hn⟩ := hnum t ht
        have e : r = x.res := hP _ _ (hr.trans hd.symm)
        have : x.res = r0 := honest x hx (by rw [hk]; exact hc) (by rw [← e, hn]; exact one t ht)
        rw [← hd, this]
      have hnd : ((s.tallies.filter (fun t => !decide (t.creator ∈ faulty))).map (·.dig)).Nodup :=
        List.Nodup.sublist (List.filter_sublist.map _) inv.uniq
      generalize s.tallies.filter (fun t => !decide (t.creator ∈ faulty)) = l at hall hnd
      match l, hall, hnd with
      | [], _, _ => simp
      | [_], _, _ => simp
      | a :: b :: l, hall, hnd =>
        exfalso
        have ha := hall a (by simp)
        have hb := hall b (by simp)
        simp [ha, hb] at hnd
    omega
  refine ⟨hlen, fun t ht => ?_⟩
  show ∃ t' ∈ (insertTally (P.com m.res.epoch).length (P.dig m.res) m.res.number m.key s.tallies).1, _
  unfold insertTally
  cases hfd : find s.tallies (P.dig m.res) with
  | some u =>
    dsimp only
    by_cases hd : t.dig = P.dig m.res
    · refine ⟨t.add (nextSeq s.tallies) m.res.number m.key, List.mem_map.mpr ⟨t, ht, by rw [if_pos hd]⟩, rfl,
        fun x hx => mem_addSigner.mpr (.inr hx), fun _ => mem_addSigner.mpr (.inl rfl)⟩
    · exact ⟨t, List.mem_map.mpr ⟨t, ht, by rw [if_neg hd]⟩, rfl, fun x hx => hx,
        fun e => absurd e.symm hd⟩
  | none =>
    dsimp only
    have hne := find_none hfd t ht
    split
    · exact ⟨t, ht, rfl, fun x hx => hx, fun e => absurd e.symm hne⟩
    · have hcap : ¬ maxCerts (P.com m.res.epoch).length ≤ s.tallies.length := by
        unfold maxCerts maxConsensusCerts
        omega
      rw [if_neg hcap]
      exact ⟨t, List.mem_append.mpr (.inl ht), rfl, fun x hx => hx, fun e => absurd e.symm hne⟩

/-- **Enough distinct signatures in one tally mean publication**: when the insertion brings a tally above
a third of the committee, the message is queued to be published. -/
theorem enough_queued {P : Params} {s : State} {m : Msg} {t : Tally}
    (hf : find s.tallies (P.dig m.res) = some t)
    (hen : (P.com m.res.epoch).length < 3 * (addSigner t.signers m.key).length) :
    m ∈ (s.inserted P m).quorum := by
  have : reached (P.com m.res.epoch).length
      (insertTally (P.com m.res.epoch).length (P.dig m.res) m.res.number m.key s.tallies).2 = true := by
    unfold insertTally
    rw [hf]
    apply decide_eq_true
    unfold enoughSigs
    omega
  unfold State.inserted
  simp only [this, if_true, List.mem_cons, true_or]

/-! ## Concrete cases -/
/-! ### Eviction is by recency -/

theorem lt_nextSeq {ts : List Tally} {t : Tally} (h : t ∈ ts) : t.seq < nextSeq ts := by
  unfold nextSeq
  induction ts with
  | nil => cases h
  | cons x xs ih =>
    simp only [List.map_cons, List.foldr_cons]
    rcases List.mem_cons.mp h with rfl | h
    · omega
    · have := ih h; omega

/-- The tally that a counted signature goes to is from then on the most recently updated one. -/
theorem touched_latest {n d number key c : Nat} {ts : List Tally}
    (h : (insertTally n d number key ts).2 = some c) :
    ∃ t ∈ (insertTally n d number key ts).1, t.dig = d ∧ key ∈ t.signers ∧
      ∀ u ∈ (insertTally n d number key ts).1, u.dig ≠ d → u.seq < t.seq := by
  unfold insertTally at h ⊢
  cases hf : find ts d with
  | some t =>
    obtain ⟨ht, htd⟩ := find_some hf
    dsimp only
    refine ⟨t.add (nextSeq ts) number key, List.mem_map.mpr ⟨t, ht, by rw [if_pos htd]⟩, htd,
      mem_addSigner.mpr (Or.inl rfl), ?_⟩
    intro u hu hne
    obtain ⟨x, hx, rfl⟩ := List.mem_map.mp hu
    by_cases hxd : x.dig = d
    · rw [if_pos hxd] at hne; exact absurd hxd hne
    · rw [if_neg hxd]; exact lt_nextSeq hx
  | none =>
    rw [hf] at h
    dsimp only at h ⊢
    by_cases hm : maxTalliesPerSigner ≤ signerTallies ts number key
    · rw [if_pos hm] at h; cases h
    · rw [if_neg hm]
      refine ⟨{ dig := d, seq := nextSeq ts, number := number, signers := [key], creator := key },
        by simp, rfl, by simp, ?_⟩
      intro u hu hne
      rcases List.mem_append.mp hu with hu | hu
      · refine lt_nextSeq ?_
        by_cases hx : maxCerts n ≤ ts.length
        · rw [if_pos hx] at hu; exact (evict_sublist ts).subset hu
        · rw [if_neg hx] at hu; exact hu
      · rw [List.mem_singleton.mp hu] at hne; exact absurd rfl hne

/-- So while any other result is being counted, the next signature, whatever it is for, does not evict the
result that was counted last: flooding must be repeated between any two honest signatures. -/
theorem touched_survives {n d number key c n' d' number' key' : Nat} {ts : List Tally}
    (h : (insertTally n d number key ts).2 = some c)
    (hother : ∃ u ∈ (insertTally n d number key ts).1, u.dig ≠ d) (hne : d' ≠ d) :
    ∃ t ∈ (insertTally n' d' number' key' (insertTally n d number key ts).1).1, t.dig = d ∧
      key ∈ t.signers := by
  obtain ⟨t, ht, htd, hk, hmax⟩ := touched_latest h
  obtain ⟨u, hu, hud⟩ := hother
  have hlt := hmax u hu hud
  generalize (insertTally n d number key ts).1 = ts' at *
  unfold insertTally
  cases hf : find ts' d' with
  | some x =>
    refine ⟨t, List.mem_map.mpr ⟨t, ht, ?_⟩, htd, hk⟩
    rw [if_neg (by rw [htd]; exact fun e => hne e.symm)]
  | none =>
    dsimp only
    by_cases hm : maxTalliesPerSigner ≤ signerTallies ts' number' key'
    · rw [if_pos hm]; exact ⟨t, ht, htd, hk⟩
    · rw [if_neg hm]
      refine ⟨t, List.mem_append.mpr (Or.inl ?_), htd, hk⟩
      by_cases hx : maxCerts n' ≤ ts'.length
      · rw [if_pos hx]; exact evict_keeps ht hu hlt
      · rw [if_neg hx]; exact ht

namespace TallyEx

/-- Committee of four; digest and signature are toy functions. -/
def P : Params :=
  { dig := fun r => Nat.pair (Nat.pair r.epoch r.round) (Nat.pair r.number r.hash)
    verify := fun k d s => s == k * 7 + d
    com := fun _ => [1, 2, 3, 4] }

theorem noCollision : NoCollision P := by
  intro a b h
  obtain ⟨ae, ar, an, ah⟩ := a
  obtain ⟨be, br, bn, bh⟩ := b
  have h : Nat.pair (Nat.pair ae ar) (Nat.pair an ah) = Nat.pair (Nat.pair be br) (Nat.pair bn bh) := h
  obtain ⟨h1, h2⟩ := Nat.pair_eq_pair.mp h
  obtain ⟨rfl, rfl⟩ := Nat.pair_eq_pair.mp h1
  obtain ⟨rfl, rfl⟩ := Nat.pair_eq_pair.mp h2
  rfl

def msg (k : Nat) (r : Res) : Msg := ⟨r, k, k * 7 + P.dig r⟩

/-- A message received and inserted at once. -/
def go (s : State) (m : Msg) : Option State :=
  if begin_ P s.published s.tallies true m = .go then
    some (State.inserted P { s with ready := m :: s.ready, seen := m :: s.seen } m)
  else none

def goAll : State → List Msg → Option State
  | s, [] => some s
  | s, m :: ms => match go s m with
    | some s' => goAll s' ms
    | none => none

theorem go_reach {s s' : State} {m : Msg} (h : Reach P s) (hg : go s m = some s') : Reach P s' := by
  unfold go at hg
  split at hg
  · rename_i hb
    rw [← Option.some.inj hg]
    exact .step (.step h (.recv s m true hb)) (.ins _ m (by simp))
  · cases hg

theorem goAll_reach : ∀ (ms : List Msg) {s s' : State}, Reach P s → goAll s ms = some s' → Reach P s'
  | [], _, _, h, hg => by simp only [goAll, Option.some.injEq] at hg; subst hg; exact h
  | m :: ms, s, s', h, hg => by
    unfold goAll at hg
    cases hx : go s m with
    | none => rw [hx] at hg; cases hg
    | some x => rw [hx] at hg; exact goAll_reach ms (go_reach h hx) hg

def r0 : Res := ⟨3, 8, 5, 77⟩
def r1 : Res := ⟨3, 8, 5, 78⟩

/-- Two of four members sign the same result: it is published; a third signer's other result is not. -/
theorem published : ∃ s, Reach P s ∧ s.published = (3, 5, 77) ∧ s.log = [r0] ∧ s.tallies.length = 2 := by
  have h : ∃ s, goAll { published := (3, 4, 70) } [msg 4 r1, msg 1 r0, msg 2 r0] = some s ∧
      s.quorum = [msg 2 r0] ∧ s.published = (3, 4, 70) ∧ s.log = [] ∧ s.tallies.length = 2 := by
    refine ⟨_, rfl, ?_, ?_, ?_, ?_⟩ <;> decide +kernel
  obtain ⟨s, hs, hq, hp, hl, ht⟩ := h
  have hr := goAll_reach _ (.init _) hs
  refine ⟨_, .step hr (.pub s (msg 2 r0) (by rw [hq]; simp)), ?_, ?_, ?_⟩
  · show publishIfNewer s.published _ _ _ = _; rw [hp]; decide
  · show _ :: s.log = _; rw [hl]; rfl
  · exact ht

/-- The flood: member 4 signs one made-up result for each of `k` future numbers. -/
def flood (from_ k : Nat) : List Msg := (List.range k).map (fun i => msg 4 ⟨3, 8, from_ + i, 1⟩)

/-- **Known residual, reproduced.** One faulty member of four, signing a made-up result for each of forty
different future numbers, makes the node forget the honest signatures: all three honest members' signatures
for the same result arrive, each is counted, and still it is never published (every honest member gossips
its result once). The per-signer limit is per number and does not apply. -/
theorem future_numbers_evict : ∃ s, Reach P s ∧
    (∀ k ∈ [1, 2, 3], msg k r0 ∈ s.seen) ∧ s.ready = [] ∧ s.quorum = [] ∧ s.log = [] ∧
    s.published = (3, 4, 70) ∧ (∀ t ∈ s.tallies, t.signers.length = 1) := by
  have h : (goAll { published := (3, 4, 70) }
      (msg 1 r0 :: flood 6 20 ++ msg 2 r0 :: flood 26 20 ++ [msg 3 r0])).map (fun s => decide (
      (∀ k ∈ [1, 2, 3], msg k r0 ∈ s.seen) ∧ s.ready = [] ∧ s.quorum = [] ∧ s.log = [] ∧
      s.published = (3, 4, 70) ∧ (∀ t ∈ s.tallies, t.signers.length = 1))) = some true := by
    decide +kernel
  cases hg : goAll { published := (3, 4, 70) }
      (msg 1 r0 :: flood 6 20 ++ msg 2 r0 :: flood 26 20 ++ [msg 3 r0]) with
  | none => rw [hg] at h; cases h
  | some s =>
    rw [hg] at h
    exact ⟨s, goAll_reach _ (.init _) hg, by simpa using h⟩

end TallyEx
end Gossip
end Verif
