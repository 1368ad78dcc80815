import Verif.Gossip.Tally
/-
C21: a gossiped consensus result is trusted only with more than one third of its committee behind it.
-/
namespace Verif
namespace Gossip

/-! ## Specification -/

/-- More than a third of the committee of `r`'s epoch signed exactly `r`'s digest: distinct members, each
with a signature that verifies, all of which this node received. -/
def Backed (P : Params) (seen : List Msg) (r : Res) : Prop :=
  ∃ signers : List Nat, signers.Nodup ∧ (P.com r.epoch).length < 3 * signers.length ∧
    ∀ k ∈ signers, k ∈ P.com r.epoch ∧
      ∃ m ∈ seen, m.key = k ∧ P.dig m.res = P.dig r ∧ P.verify k (P.dig r) m.sig = true

/-! ## The table -/

theorem find_some {ts : List Tally} {d : Nat} {t : Tally} (h : find ts d = some t) : t ∈ ts ∧ t.dig = d := by
  unfold find at h
  exact ⟨List.mem_of_find?_eq_some h, by simpa using List.find?_some h⟩

theorem find_none {ts : List Tally} {d : Nat} (h : find ts d = none) : ∀ t ∈ ts, t.dig ≠ d := by
  unfold find at h
  intro t ht
  have := List.find?_eq_none.mp h t ht
  simpa using this

theorem evict_sublist (ts : List Tally) : (evict ts).Sublist ts := List.eraseP_sublist

theorem minSeq_mem : ∀ {ts : List Tally}, ts ≠ [] → ∃ t ∈ ts, t.seq = minSeq ts
  | [], h => absurd rfl h
  | [t], _ => ⟨t, by simp, rfl⟩
  | t :: u :: ts, _ => by
    obtain ⟨x, hx, hs⟩ := minSeq_mem (ts := u :: ts) (by simp)
    simp only [minSeq]
    by_cases h : t.seq ≤ minSeq (u :: ts)
    · exact ⟨t, by simp, by omega⟩
    · exact ⟨x, List.mem_cons_of_mem _ hx, by omega⟩

theorem minSeq_le : ∀ {ts : List Tally} {t : Tally}, t ∈ ts → minSeq ts ≤ t.seq
  | [t], x, h => by simp at h; subst h; exact Nat.le_refl _
  | t :: u :: ts, x, h => by
    simp only [minSeq]
    rcases List.mem_cons.mp h with rfl | h
    · exact Nat.min_le_left _ _
    · have := minSeq_le (ts := u :: ts) h
      omega

theorem evict_length {ts : List Tally} (h : ts ≠ []) : (evict ts).length = ts.length - 1 := by
  obtain ⟨t, ht, hs⟩ := minSeq_mem h
  unfold evict
  exact List.length_eraseP_of_mem ht (by simp [hs])

/-- Eviction takes a least recently updated tally. -/
theorem evict_keeps {ts : List Tally} {t u : Tally} (ht : t ∈ ts) (hu : u ∈ ts) (hlt : u.seq < t.seq) :
    t ∈ evict ts := by
  unfold evict
  have := minSeq_le hu
  exact (List.mem_eraseP_of_neg (by simp; omega)).mpr ht

theorem addSigner_nodup {l : List Nat} {k : Nat} (h : l.Nodup) : (addSigner l k).Nodup := by
  unfold addSigner; split
  · exact h
  · rename_i hk; exact List.nodup_cons.mpr ⟨hk, h⟩

theorem mem_addSigner {l : List Nat} {k x : Nat} : x ∈ addSigner l k ↔ x = k ∨ x ∈ l := by
  unfold addSigner; split
  · rename_i hk
    constructor
    · exact Or.inr
    · rintro (rfl | h)
      · exact hk
      · exact h
  · simp

/-- Every tally is a set of members of one epoch's committee that signed its digest, checked. -/
def TallyOk (P : Params) (seen : List Msg) (t : Tally) : Prop :=
  t.signers.Nodup ∧ t.creator ∈ t.signers ∧ ∀ k ∈ t.signers, ∃ m ∈ seen, m.key = k ∧ P.dig m.res = t.dig ∧
    k ∈ P.com m.res.epoch ∧ P.verify k t.dig m.sig = true

def MsgOk (P : Params) (seen : List Msg) (m : Msg) : Prop :=
  m ∈ seen ∧ m.key ∈ P.com m.res.epoch ∧ P.verify m.key (P.dig m.res) m.sig = true

/-- The number of tallies for number `n` created by `k`. -/
def created (ts : List Tally) (n k : Nat) : Nat :=
  (ts.filter (fun t => decide (t.number = n ∧ t.creator = k))).length

theorem insertTally_mem {n d number key : Nat} {ts : List Tally} {x : Tally}
    (hx : x ∈ (insertTally n d number key ts).1) :
    x ∈ ts ∨ (∃ t ∈ ts, t.dig = d ∧ x = t.add (nextSeq ts) number key) ∨
      x = { dig := d, seq := nextSeq ts, number := number, signers := [key], creator := key } := by
  unfold insertTally at hx
  cases hf : find ts d with
  | some t =>
    rw [hf] at hx
    obtain ⟨y, hy, e⟩ := List.mem_map.mp hx
    split at e
    · rename_i hd; exact .inr (.inl ⟨y, hy, hd, e.symm⟩)
    · exact .inl (e ▸ hy)
  | none =>
    rw [hf] at hx
    dsimp only at hx
    split at hx
    · exact .inl hx
    · rcases List.mem_append.mp hx with h | h
      · left
        split at h
        · exact (evict_sublist ts).subset h
        · exact h
      · right; right; simpa using h

theorem insertTally_count {n d number key c : Nat} {ts : List Tally}
    (h : (insertTally n d number key ts).2 = some c) :
    ∃ x ∈ (insertTally n d number key ts).1, x.dig = d ∧ x.signers.length = c ∧ key ∈ x.signers := by
  unfold insertTally at h ⊢
  cases hf : find ts d with
  | some t =>
    rw [hf] at h
    obtain ⟨ht, htd⟩ := find_some hf
    refine ⟨t.add (nextSeq ts) number key, List.mem_map.mpr ⟨t, ht, by rw [if_pos htd]⟩, htd, ?_, ?_⟩
    · exact Option.some.inj h
    · exact mem_addSigner.mpr (.inl rfl)
  | none =>
    rw [hf] at h
    dsimp only at h ⊢
    split at h
    · cases h
    · rename_i hlt
      rw [if_neg hlt]
      exact ⟨_, List.mem_append.mpr (.inr (List.mem_singleton.mpr rfl)), rfl, Option.some.inj h,
        by simp⟩

/-! ## Invariant -/

structure Inv (P : Params) (s : State) : Prop where
  tallies : ∀ t ∈ s.tallies, TallyOk P s.seen t
  uniq : (s.tallies.map (·.dig)).Nodup
  ready : ∀ m ∈ s.ready, MsgOk P s.seen m
  quorum : ∀ m ∈ s.quorum, MsgOk P s.seen m ∧
    ∃ t : Tally, TallyOk P s.seen t ∧ t.dig = P.dig m.res ∧
      enoughSigs (P.com m.res.epoch).length ≤ t.signers.length
  log : ∀ r ∈ s.log, ∃ t : Tally, TallyOk P s.seen t ∧ t.dig = P.dig r ∧
      enoughSigs (P.com r.epoch).length ≤ t.signers.length

theorem insertTally_uniq {n d number key : Nat} {ts : List Tally} (hu : (ts.map (·.dig)).Nodup) :
    ((insertTally n d number key ts).1.map (·.dig)).Nodup := by
  unfold insertTally
  cases hf : find ts d with
  | some t =>
    dsimp only
    have : (ts.map (fun x => if x.dig = d then x.add (nextSeq ts) number key else x)).map (·.dig) =
        ts.map (·.dig) := by
      rw [List.map_map]
      apply List.map_congr_left
      intro x _
      simp only [Function.comp]
      split
      · rfl
      · rfl
    rw [this]; exact hu
  | none =>
    dsimp only
    split
    · exact hu
    · have hsub : ((if maxCerts n ≤ ts.length then evict ts else ts)).Sublist ts := by
        split
        · exact evict_sublist ts
        · exact List.Sublist.refl _
      rw [List.map_append]
      refine List.nodup_append.mpr ⟨List.Nodup.sublist (hsub.map _) hu, by simp, ?_⟩
      intro a ha b hb
      simp only [List.map_cons, List.map_nil, List.mem_singleton] at hb
      subst hb
      obtain ⟨t, ht, rfl⟩ := List.mem_map.mp ha
      exact find_none hf t (hsub.subset ht)

theorem TallyOk.mono {P : Params} {a b : List Msg} {t : Tally} (h : TallyOk P a t)
    (hs : ∀ m ∈ a, m ∈ b) : TallyOk P b t :=
  ⟨h.1, h.2.1, fun k hk => by
    obtain ⟨m, hm, r⟩ := h.2.2 k hk
    exact ⟨m, hs m hm, r⟩⟩

theorem insertTally_ok {P : Params} {seen : List Msg} {n : Nat} {m : Msg} {ts : List Tally}
    (ht : ∀ t ∈ ts, TallyOk P seen t) (hm : MsgOk P seen m) :
    ∀ x ∈ (insertTally n (P.dig m.res) m.res.number m.key ts).1, TallyOk P seen x := by
  intro x hx
  rcases insertTally_mem hx with h | ⟨t, htm, hd, rfl⟩ | rfl
  · exact ht x h
  · obtain ⟨a, b, c⟩ := ht t htm
    refine ⟨addSigner_nodup a, mem_addSigner.mpr (.inr b), fun k hk => ?_⟩
    rcases mem_addSigner.mp hk with rfl | hk
    · exact ⟨m, hm.1, rfl, hd.symm, hm.2.1, by
        show P.verify m.key t.dig m.sig = true
        rw [hd]; exact hm.2.2⟩
    · exact c k hk
  · refine ⟨by simp, by simp, fun k hk => ?_⟩
    simp only [List.mem_singleton] at hk
    subst hk
    exact ⟨m, hm.1, rfl, rfl, hm.2.1, hm.2.2⟩

theorem begin_go {P : Params} {p : Published} {ts : List Tally} {known : Bool} {m : Msg}
    (h : begin_ P p ts known m = .go) :
    m.res.hash ≠ p.2.2 ∧ p.2.1 < m.res.number ∧ known = true ∧ m.key ∈ P.com m.res.epoch ∧
      counted ts (P.dig m.res) m.key = false ∧ P.verify m.key (P.dig m.res) m.sig = true := by
  unfold begin_ at h
  split at h
  · cases h
  · rename_i h1
    split at h
    · cases h
    · split at h
      · cases h
      · split at h
        · cases h
        · split at h
          · cases h
          · rename_i h2 h3 h4 h5
            refine ⟨fun e => h1 (.inl e), ?_, by simpa using h2, by simpa using h3, by simpa using h4,
              by simpa using h5⟩
            have : ¬ m.res.number ≤ p.2.1 := fun e => h1 (.inr e)
            omega

theorem Reach.inv {P : Params} {s : State} (h : Reach P s) : Inv P s := by
  induction h with
  | init p => exact ⟨by simp, by simp, by simp, by simp, by simp⟩
  | @step s s' _ hstep ih =>
    cases hstep with
    | recv m known hg =>
      have hsub : ∀ x ∈ s.seen, x ∈ m :: s.seen := fun x hx => List.mem_cons_of_mem _ hx
      obtain ⟨_, _, _, g1, _, g2⟩ := begin_go hg
      refine ⟨fun t ht => (ih.tallies t ht).mono hsub, ih.uniq, ?_, ?_, ?_⟩
      · intro x hx
        rcases List.mem_cons.mp hx with rfl | hx
        · exact ⟨List.mem_cons_self, g1, g2⟩
        · obtain ⟨a, b⟩ := ih.ready x hx
          exact ⟨hsub _ a, b⟩
      · intro x hx
        obtain ⟨⟨a, b⟩, t, c, d⟩ := ih.quorum x hx
        exact ⟨⟨hsub _ a, b⟩, t, c.mono hsub, d⟩
      · intro r hr
        obtain ⟨t, c, d⟩ := ih.log r hr
        exact ⟨t, c.mono hsub, d⟩
    | ins m hm =>
      have mok := ih.ready m hm
      refine ⟨insertTally_ok ih.tallies mok, insertTally_uniq ih.uniq,
        fun x hx => ih.ready x (List.mem_of_mem_erase hx), ?_, ih.log⟩
      intro x hx
      unfold State.inserted at hx ⊢
      dsimp only at hx ⊢
      split at hx
      · rename_i hc
        rcases List.mem_cons.mp hx with rfl | hx
        · cases hr : (insertTally (P.com x.res.epoch).length (P.dig x.res) x.res.number x.key
            s.tallies).2 with
          | none => rw [hr] at hc; simp [reached] at hc
          | some c =>
            rw [hr] at hc
            obtain ⟨t, ht, hd, hl, _⟩ := insertTally_count hr
            exact ⟨mok, t, insertTally_ok ih.tallies mok t ht, hd, by rw [hl]; simpa [reached] using hc⟩
        · exact ih.quorum x hx
      · exact ih.quorum x hx
    | behind m hm =>
      exact ⟨by simp, by simp, ih.ready, fun x hx => ih.quorum x (List.mem_of_mem_erase hx), ih.log⟩
    | pub m hm =>
      refine ⟨ih.tallies, ih.uniq, ih.ready, fun x hx => ih.quorum x (List.mem_of_mem_erase hx), ?_⟩
      intro r hr
      rcases List.mem_cons.mp hr with rfl | hr
      · exact (ih.quorum m hm).2
      · exact ih.log r hr
    | clr hf => exact ⟨by simp, by simp, ih.ready, ih.quorum, ih.log⟩
    | ext e n h => exact ⟨ih.tallies, ih.uniq, ih.ready, ih.quorum, ih.log⟩

/-! ## C21 -/

/-- Digests of different results differ (no hash collision among the results in play). -/
def NoCollision (P : Params) : Prop := ∀ a b : Res, P.dig a = P.dig b → a = b

/-- **A result is adopted only with more than a third of the committee behind it.** Whatever is gossiped
and however handlers interleave, every result this node hands on as verified carries signatures over
exactly its epoch, round, number and hash from more than a third of its epoch's committee. -/
theorem published_backed {P : Params} (hP : NoCollision P) {s : State} (h : Reach P s) :
    ∀ r ∈ s.log, Backed P s.seen r := by
  intro r hr
  obtain ⟨t, ⟨a, _, c⟩, d, e⟩ := h.inv.log r hr
  refine ⟨t.signers, a, ?_, ?_⟩
  · unfold enoughSigs at e; omega
  · intro k hk
    obtain ⟨m, hm, hkey, hdig, hcom, hv⟩ := c k hk
    have : m.res = r := hP _ _ (hdig.trans d)
    rw [this] at hcom
    exact ⟨hcom, m, hm, hkey, by rw [this], by rw [← d]; exact hv⟩

/-- **So an honest member signed it.** If fewer than a third of the committee are faulty, and a valid
signature of an honest member means it signed that digest, then for every adopted result some honest
member signed exactly this result. -/
theorem published_honest {P : Params} (hP : NoCollision P) {s : State} (h : Reach P s)
    {faulty : List Nat} {signed : Nat → Res → Prop} {r : Res} (hr : r ∈ s.log)
    (hf : 3 * faulty.length < (P.com r.epoch).length)
    (unforged : ∀ m ∈ s.seen, m.key ∉ faulty → P.verify m.key (P.dig m.res) m.sig = true →
      signed m.key m.res) :
    ∃ k, k ∈ P.com r.epoch ∧ k ∉ faulty ∧ signed k r := by
  obtain ⟨signers, nd, hlen, hall⟩ := published_backed hP h r hr
  have : ∃ k ∈ signers, k ∉ faulty := by
    apply Classical.byContradiction
    intro hno
    have hsub : signers ⊆ faulty := by
      intro k hk
      apply Classical.byContradiction
      intro hkf
      exact hno ⟨k, hk, hkf⟩
    have := (List.subperm_of_subset nd hsub).length_le
    omega
  obtain ⟨k, hk, hkf⟩ := this
  obtain ⟨hc, m, hm, hkey, hdig, hv⟩ := hall k hk
  have e : m.res = r := hP _ _ hdig
  subst hkey
  refine ⟨_, hc, hkf, ?_⟩
  rw [← e]
  exact unforged m hm hkf (by rw [e]; exact hv)

/-- The number of the adopted result, as a function of the state. -/
theorem published_mono {P : Params} {s s' : State} (h : Step P s s') :
    s.published.2.1 ≤ s'.published.2.1 ∧
      (s'.published ≠ s.published → s.published.2.1 < s'.published.2.1) := by
  have key : ∀ (p : Published) (e n hh : Nat), p.2.1 ≤ (publishIfNewer p e n hh).2.1 ∧
      (publishIfNewer p e n hh ≠ p → p.2.1 < (publishIfNewer p e n hh).2.1) := by
    intro p e n hh
    unfold publishIfNewer
    split
    · exact ⟨Nat.le_of_lt (by assumption), fun _ => by assumption⟩
    · exact ⟨Nat.le_refl _, fun hne => absurd rfl hne⟩
  cases h with
  | recv => exact ⟨Nat.le_refl _, fun hne => absurd rfl hne⟩
  | ins => exact ⟨Nat.le_refl _, fun hne => absurd rfl hne⟩
  | behind => exact ⟨Nat.le_refl _, fun hne => absurd rfl hne⟩
  | pub => exact key _ _ _ _
  | clr => exact ⟨Nat.le_refl _, fun hne => absurd rfl hne⟩
  | ext => exact key _ _ _ _

/-- **What this node serves as latest is what it started with, what another verified source gave it, or
a result of the log.** -/
theorem published_source {P : Params} {s s' : State} (h : Step P s s') (hne : s'.published ≠ s.published) :
    (∃ m ∈ s.quorum, s'.log = m.res :: s.log ∧
      s'.published = (m.res.epoch, m.res.number, m.res.hash)) ∨
    (s'.log = s.log ∧ ∃ e n hh, s'.published = (e, n, hh) ∧ s' = { s with published := (e, n, hh) }) := by
  cases h with
  | recv => exact absurd rfl hne
  | ins => exact absurd rfl hne
  | behind => exact absurd rfl hne
  | clr => exact absurd rfl hne
  | pub m hm =>
    left
    refine ⟨m, hm, rfl, ?_⟩
    dsimp only at hne ⊢
    unfold publishIfNewer at hne ⊢
    split
    · rfl
    · rename_i hn; rw [if_neg hn] at hne; exact absurd rfl hne
  | ext e n hh =>
    right
    dsimp only at hne ⊢
    unfold publishIfNewer at hne ⊢
    split
    · exact ⟨rfl, e, n, hh, rfl, rfl⟩
    · rename_i hn; rw [if_neg hn] at hne; exact absurd rfl hne

/-! ## Bounds -/

theorem insertTally_length {n d number key B : Nat} {ts : List Tally} (hB : ts.length ≤ B)
    (hn : maxCerts n ≤ B) : (insertTally n d number key ts).1.length ≤ B := by
  unfold insertTally
  cases hf : find ts d with
  | some t => simpa using hB
  | none =>
    dsimp only
    split
    · exact hB
    · have : 0 < maxCerts n := by unfold maxCerts maxConsensusCerts; omega
      rw [List.length_append, List.length_singleton]
      split
      · rename_i hge
        rw [evict_length (by intro h; rw [h] at hge; simp at hge; omega)]
        omega
      · omega

/-- **The table stays bounded** whatever is gossiped: at most 20 tallies, or as many as the largest
committee has members; and no tally has more signers than its committee has members. -/
theorem table_bounded {P : Params} {N : Nat} (hN : ∀ e, (P.com e).length ≤ N) {s : State}
    (h : Reach P s) : s.tallies.length ≤ max N 20 := by
  induction h with
  | init p => simp
  | @step s s' _ hstep ih =>
    cases hstep with
    | recv => exact ih
    | ins m hm =>
      refine insertTally_length ih ?_
      unfold maxCerts maxConsensusCerts
      have := hN m.res.epoch
      omega
    | behind => simp
    | pub => exact ih
    | clr => simp
    | ext => exact ih

theorem signers_bounded {P : Params} (hP : NoCollision P) {s : State} (h : Reach P s) {t : Tally}
    (ht : t ∈ s.tallies) : ∃ e, t.signers ⊆ P.com e ∧ t.signers.length ≤ (P.com e).length := by
  obtain ⟨nd, hcr, c⟩ := h.inv.tallies t ht
  obtain ⟨m0, _, _, hd0, _, _⟩ := c _ hcr
  have hsub : t.signers ⊆ P.com m0.res.epoch := by
    intro k hk
    obtain ⟨m, _, _, hd, hc, _⟩ := c k hk
    have : m.res = m0.res := hP _ _ (hd.trans hd0.symm)
    rw [← this]; exact hc
  exact ⟨m0.res.epoch, hsub, (List.subperm_of_subset nd hsub).length_le⟩

end Gossip
end Verif
