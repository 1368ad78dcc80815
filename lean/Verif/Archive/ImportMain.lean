import Verif.Archive.ImportProps
/-
C54: the content of an imported pack is the consensus chain of the epoch; two imports agree; nothing is lost.
-/
namespace Verif
namespace Import

variable {E : Env} {m : Meta}

/-- The consensus chain of an epoch: from the last header of the epoch before (digest `a`) to the header with
number `fin` and digest `hash`, numbered without gaps from `start`. -/
structure EpochChain (E : Env) (a start epoch fin hash : Nat) (T : List CHdr) : Prop where
  linked : Linked E.dig a T
  numbers : ∀ i h, T[i]? = some h → h.number = start + i
  epochs : ∀ h ∈ T, h.leaderEpoch = some epoch
  last : ∃ l, T.getLast? = some l ∧ l.number = fin ∧ E.dig l = hash

/-- The digest does not collide on these headers. -/
def NoCollision (E : Env) (K : CHdr → Prop) : Prop := ∀ x y, K x → K y → E.dig x = E.dig y → x = y

/-- What the meta data of the pack of an epoch must say, given the record of the epoch before: the epoch, its first
number, the execution state, number and hash the epoch starts from, and the committee. -/
structure MetaOk (epoch : Nat) (prev : Ep.Rec) (m : Meta) : Prop where
  epochIs : m.epoch = epoch
  start : m.start = (if epoch = 0 then 1 else prev.finalNum + 1)
  state : m.genState = prev.finalState
  number : m.genNum = prev.finalNum
  hash : m.genHash = prev.finalHash
  members : (m.members.map (·.1)).toFinset = prev.next.toFinset

theorem verifyMeta_iff {epoch : Nat} {prev : Ep.Rec} : verifyMeta epoch prev m = true ↔ MetaOk epoch prev m := by
  unfold verifyMeta
  simp only [Bool.and_eq_true, decide_eq_true_eq]
  constructor
  · rintro ⟨⟨⟨⟨⟨h1, h2⟩, h3⟩, h4⟩, h5⟩, h6⟩
    exact ⟨h1.symm, h2.symm, h3.symm, h4.symm, h5.symm, h6⟩
  · rintro ⟨h1, h2, h3, h4, h5, h6⟩
    exact ⟨⟨⟨⟨⟨h1.symm, h2.symm⟩, h3.symm⟩, h4.symm⟩, h5.symm⟩, h6⟩

theorem verifyMeta_spec {epoch : Nat} {prev : Ep.Rec} (h : verifyMeta epoch prev m = true) :
    m.epoch = epoch ∧ m.start = (if epoch = 0 then 1 else prev.finalNum + 1) ∧
      (m.members.map (·.1)).toFinset = prev.next.toFinset :=
  ⟨(verifyMeta_iff.mp h).epochIs, (verifyMeta_iff.mp h).start, (verifyMeta_iff.mp h).members⟩

theorem lastOk_spec {rec : Ep.Rec} {outs : List Out} (h : lastOk E rec outs = true) :
    ∃ o : Out, outs.getLast? = some o ∧ o.hdr.number = rec.finalNum ∧ E.dig o.hdr = rec.finalHash := by
  unfold lastOk at h
  split at h
  · exact absurd h (by simp)
  · rename_i o ho
    simp only [Bool.and_eq_true, decide_eq_true_eq] at h
    exact ⟨o, ho, h.1.symm, h.2.symm⟩

/-- An attempt leaves the pack alone or puts in its place a stream that passed all checks. -/
theorem chainImport_cases {rec prev : Ep.Rec} {v : Nat} {busy : Bool} {own own' : Option Pack}
    {rs : List (Option Rec)} {r : Outcome} (h : chainImport E rec prev v busy own rs = (r, own')) :
    own' = own ∨ (r = .ok ∧ have_ E rec own = false ∧ ∃ m outs, own' = some ⟨m, outs⟩ ∧ lastOk E rec outs = true ∧
      packImport E rec.epoch prev v rec.finalNum rs = .ok m outs) := by
  unfold chainImport at h
  split at h
  · exact Or.inl (Prod.mk.inj h).2.symm
  · rename_i hh
    split at h
    · exact Or.inl (Prod.mk.inj h).2.symm
    · split at h
      · exact Or.inl (Prod.mk.inj h).2.symm
      · exact Or.inl (Prod.mk.inj h).2.symm
      · rename_i m outs hp
        split at h
        · rename_i hl
          obtain ⟨h1, h2⟩ := Prod.mk.inj h
          exact Or.inr ⟨h1.symm, by simpa using hh, m, outs, h2.symm, hl, hp⟩
        · exact Or.inl (Prod.mk.inj h).2.symm

/-- **C54** Whatever a peer sends, the pack is afterwards the same as before or holds exactly the consensus chain
of the epoch (`T`), every output with the batches its header names, at most as many as allowed; and the pack's meta
data continue the record of the epoch before. -/
theorem import_content {rec prev : Ep.Rec} {v : Nat} {busy : Bool} {own own' : Option Pack}
    {rs : List (Option Rec)} {r : Outcome} (h : chainImport E rec prev v busy own rs = (r, own'))
    (h0 : rec.epoch ≠ 0) {T : List CHdr}
    (hT : EpochChain E prev.finalHash (prev.finalNum + 1) rec.epoch rec.finalNum rec.finalHash T)
    {hp : CHdr} (hprev : E.dig hp = prev.finalHash) (hpe : hp.leaderEpoch ≠ some rec.epoch)
    (hc : NoCollision E (fun x => some (Rec.hdr x) ∈ rs ∨ x ∈ T ∨ x = hp)) :
    own' = own ∨ (r = .ok ∧ ∃ p, own' = some p ∧ p.outs.map (·.hdr) = T ∧ (∀ o ∈ p.outs, o.Good E p.m) ∧
      MetaOk rec.epoch prev p.m ∧ ∀ o ∈ p.outs, o.hdr.expected.length ≤ E.maxB p.m.members.length) := by
  rcases chainImport_cases h with h1 | ⟨hr, -, m, outs, rfl, hl, hp'⟩
  · exact Or.inl h1
  · refine Or.inr ⟨hr, ⟨m, outs⟩, rfl, ?_⟩
    obtain ⟨hv, S, g1, g2, g3, g4, g5, g6⟩ := packImport_sound hp'
    obtain ⟨e1, e2, -⟩ := verifyMeta_spec hv
    rw [if_neg h0] at e2
    obtain ⟨l, l1, l2, l3⟩ := lastOk_spec hl
    obtain ⟨S1, S2, hS, hS2⟩ := g6.split l1 (by rintro rfl; simp at l1)
    have hlink : Linked E.dig prev.finalHash ((S1.map (·.hdr)) ++ [l.hdr]) := by
      have : firstExpect rec.epoch prev = .parent prev.finalHash := by unfold firstExpect; rw [if_neg h0]
      rw [this, linkedX_parent, hS] at g1
      have e : (S1 ++ l :: S2).map (·.hdr) = ((S1.map (·.hdr)) ++ [l.hdr]) ++ S2.map (·.hdr) := by simp
      rw [e] at g1
      clear e
      generalize (S1.map (·.hdr)) ++ [l.hdr] = A at g1
      generalize S2.map (·.hdr) = B at g1
      generalize prev.finalHash = a at g1
      clear hS hS2
      induction A generalizing a with
      | nil => trivial
      | cons x xs ih => exact ⟨g1.1, ih _ g1.2⟩
    obtain ⟨t, t1, t2, t3⟩ := hT.last
    obtain ⟨T1, rfl⟩ : ∃ T1, T = T1 ++ [t] := by
      rcases List.eq_nil_or_concat T with rfl | ⟨T1, z, rfl⟩
      · simp at t1
      · rw [List.concat_eq_append, List.getLast?_concat] at t1
        cases t1
        exact ⟨T1, List.concat_eq_append⟩
    have hmem : ∀ u ∈ (S1.map (·.hdr)) ++ [l.hdr], some (Rec.hdr u) ∈ rs := by
      intro u hu
      rcases List.mem_append.mp hu with hu | hu
      · obtain ⟨o, ho, rfl⟩ := List.mem_map.mp hu
        exact g3 o (by rw [hS]; simp [ho])
      · rw [List.mem_singleton] at hu
        subst hu
        exact g3 l (by rw [hS]; simp)
    have hnot : ∀ u : CHdr, u.leaderEpoch = some rec.epoch → (some (Rec.hdr u) ∈ rs ∨ u ∈ T1 ++ [t] ∨ u = hp) →
        E.dig u ≠ prev.finalHash := by
      intro u hu hk he
      have := hc u hp hk (Or.inr (Or.inr rfl)) (he.trans hprev.symm)
      subst this
      exact hpe hu
    have heq := linked_unique hlink hT.linked
      (fun u hu w hw => hc u w (Or.inl (hmem u hu)) (Or.inr (Or.inl hw)))
      (by
        intro u hu
        rcases List.mem_append.mp hu with hu | hu
        · obtain ⟨o, ho, rfl⟩ := List.mem_map.mp hu
          refine hnot _ ?_ (Or.inl (g3 o (by rw [hS]; simp [ho])))
          rw [g4 o (by rw [hS]; simp [ho]), e1]
        · exact hnot u (hT.epochs u (by simp [hu])) (Or.inr (Or.inl (by simp [hu]))))
      (l3.trans t3.symm)
    have hout : outs = S1 ++ [l] := by
      have := hS2.all (fun i o ho => by
        have hh : ((S1 ++ [l]).map (·.hdr))[i]? = some o.hdr := by rw [List.getElem?_map, ho]; rfl
        have e : (S1 ++ [l]).map (·.hdr) = T1 ++ [t] := by rw [← heq]; simp
        rw [e] at hh
        rw [hT.numbers i _ hh, e2]
        simp)
      simpa using this
    refine ⟨?_, ?_, verifyMeta_iff.mp hv, packImport_count hp'⟩
    · show outs.map (·.hdr) = _
      rw [hout, ← heq]
      simp
    · intro o ho
      refine g2 o ?_
      rw [hS]
      have : o ∈ S1 ++ [l] := by rw [← hout]; exact ho
      rcases List.mem_append.mp this with h | h
      · simp [h]
      · simp [List.mem_singleton.mp h]

theorem good_unique {m m' : Meta} (hm : m.members = m'.members) {o o' : Out} (h : o.Good E m) (h' : o'.Good E m')
    (hb : ∀ b ∈ o.certified.flatMap (·.2), ∀ b' ∈ o'.certified.flatMap (·.2), E.bdig b = E.bdig b' → b = b')
    (he : o.hdr = o'.hdr) : o = o' := by
  obtain ⟨h1, c⟩ := o
  obtain ⟨h2, c'⟩ := o'
  dsimp only at he hb
  subst he
  unfold Out.Good at h h'
  dsimp only at h h'
  by_cases hd : h1.digests = []
  · rw [if_pos hd] at h h'
    rw [h, h']
  · rw [if_neg hd] at h h'
    have : c = c' := by
      clear hd
      revert h h' hb
      generalize h1.heads = hs
      intro h hb h'
      induction hs generalizing c c' with
      | nil => cases h; cases h'; rfl
      | cons x xs ih =>
        cases h with
        | cons p q =>
        cases h' with
        | cons p' q' =>
        rename_i y ys y' ys'
        have e1 := ih ys ys' q (fun b hb1 b' hb1' => hb b (by rw [List.flatMap_cons]; exact List.mem_append_right _ hb1)
          b' (by rw [List.flatMap_cons]; exact List.mem_append_right _ hb1')) q'
        have e2 : y.1 = y'.1 := by
          have a1 := p.1
          have a2 := p'.1
          unfold Meta.address at a1 a2
          rw [hm, a2] at a1
          exact (Option.some.inj a1).symm
        have e3 : y.2 = y'.2 := by
          have := p.2.trans p'.2.symm
          have hb2 : ∀ b ∈ y.2, ∀ b' ∈ y'.2, E.bdig b = E.bdig b' → b = b' := fun b h1 b' h2 =>
            hb b (by simp [h1]) b' (by simp [h2])
          clear hb p p' e2
          revert this hb2
          generalize y.2 = l
          generalize y'.2 = l'
          intro this hb2
          induction l generalizing l' with
          | nil => cases l' with
            | nil => rfl
            | cons => simp at this
          | cons z zs ihz => cases l' with
            | nil => simp at this
            | cons w ws =>
              simp only [List.map_cons, List.cons.injEq] at this
              rw [hb2 z (by simp) w (by simp) this.1, ihz ws this.2
                (fun b h1 b' h2 => hb2 b (by simp [h1]) b' (by simp [h2]))]
        rw [e1, Prod.ext e2 e3]
    rw [this]

/-- **C54** Two nodes that import the same epoch from two peers, in whatever version of the format, hold the
same headers and batches; the same addresses too if the streams name the same committee. -/
theorem import_unique {rec prev : Ep.Rec} {v v' : Nat} {rs rs' : List (Option Rec)} {m m' : Meta} {outs outs' : List Out}
    (h0 : rec.epoch ≠ 0)
    (h : packImport E rec.epoch prev v rec.finalNum rs = .ok m outs) (hl : lastOk E rec outs = true)
    (h' : packImport E rec.epoch prev v' rec.finalNum rs' = .ok m' outs') (hl' : lastOk E rec outs' = true)
    {hp : CHdr} (hprev : E.dig hp = prev.finalHash) (hpe : hp.leaderEpoch ≠ some rec.epoch)
    (hc : NoCollision E (fun x => some (Rec.hdr x) ∈ rs ∨ some (Rec.hdr x) ∈ rs' ∨ x = hp))
    (hm : m.members = m'.members)
    (hb : ∀ o ∈ outs, ∀ b ∈ o.certified.flatMap (·.2), ∀ o' ∈ outs', ∀ b' ∈ o'.certified.flatMap (·.2),
      E.bdig b = E.bdig b' → b = b') :
    outs = outs' := by
  have main : outs.map (·.hdr) = outs'.map (·.hdr) := by
    obtain ⟨hv, S, g1, g2, g3, g4, g5, g6⟩ := packImport_sound h
    obtain ⟨hv', S', g1', g2', g3', g4', g5', g6'⟩ := packImport_sound h'
    obtain ⟨e1, e2, -⟩ := verifyMeta_spec hv
    obtain ⟨e1', e2', -⟩ := verifyMeta_spec hv'
    obtain ⟨l, l1, -, l3⟩ := lastOk_spec hl
    obtain ⟨l', l1', -, l3'⟩ := lastOk_spec hl'
    obtain ⟨S1, S2, hS, hS2⟩ := g6.split l1 (by rintro rfl; simp at l1)
    obtain ⟨S1', S2', hS', hS2'⟩ := g6'.split l1' (by rintro rfl; simp at l1')
    have hx : firstExpect rec.epoch prev = .parent prev.finalHash := by unfold firstExpect; rw [if_neg h0]
    have pre : ∀ (A B : List CHdr) (a : Nat), Linked E.dig a (A ++ B) → Linked E.dig a A := by
      intro A B
      induction A with
      | nil => intro a _; trivial
      | cons x xs ih => intro a hh; exact ⟨hh.1, ih _ hh.2⟩
    have k1 : Linked E.dig prev.finalHash ((S1.map (·.hdr)) ++ [l.hdr]) := by
      rw [hx, linkedX_parent, hS] at g1
      exact pre _ (S2.map (·.hdr)) _ (by simpa using g1)
    have k1' : Linked E.dig prev.finalHash ((S1'.map (·.hdr)) ++ [l'.hdr]) := by
      rw [hx, linkedX_parent, hS'] at g1'
      exact pre _ (S2'.map (·.hdr)) _ (by simpa using g1')
    have mem1 : ∀ u ∈ (S1.map (·.hdr)) ++ [l.hdr], some (Rec.hdr u) ∈ rs ∧ u.leaderEpoch = some rec.epoch := by
      intro u hu
      have : u ∈ (S1 ++ [l]).map (·.hdr) := by simpa using hu
      obtain ⟨o, ho, rfl⟩ := List.mem_map.mp this
      have hoS : o ∈ S := by
        rw [hS]
        rcases List.mem_append.mp ho with ho | ho
        · simp [ho]
        · simp [List.mem_singleton.mp ho]
      exact ⟨g3 o hoS, by rw [g4 o hoS, e1]⟩
    have mem1' : ∀ u ∈ (S1'.map (·.hdr)) ++ [l'.hdr], some (Rec.hdr u) ∈ rs' ∧ u.leaderEpoch = some rec.epoch := by
      intro u hu
      have : u ∈ (S1' ++ [l']).map (·.hdr) := by simpa using hu
      obtain ⟨o, ho, rfl⟩ := List.mem_map.mp this
      have hoS : o ∈ S' := by
        rw [hS']
        rcases List.mem_append.mp ho with ho | ho
        · simp [ho]
        · simp [List.mem_singleton.mp ho]
      exact ⟨g3' o hoS, by rw [g4' o hoS, e1']⟩
    have heq := linked_unique k1 k1'
      (fun u hu w hw => hc u w (Or.inl (mem1 u hu).1) (Or.inr (Or.inl (mem1' w hw).1)))
      (by
        intro u hu he
        rcases List.mem_append.mp hu with hu | hu
        · have hm1 := mem1 u (List.mem_append_left _ hu)
          have := hc u hp (Or.inl hm1.1) (Or.inr (Or.inr rfl)) (he.trans hprev.symm)
          subst this
          exact hpe hm1.2
        · have hm1 := mem1' u (List.mem_append_left _ hu)
          have := hc u hp (Or.inr (Or.inl hm1.1)) (Or.inr (Or.inr rfl)) (he.trans hprev.symm)
          subst this
          exact hpe hm1.2)
      (l3.trans l3'.symm)
    have hS3 : (S1 ++ [l]).map (·.hdr) = (S1' ++ [l']).map (·.hdr) := by simpa using heq
    rw [e2] at hS2
    rw [e2'] at hS2'
    -- the kept outputs depend on the headers only
    have key : ∀ (A A' : List Out) (B B' R R' : List Out) (start : Nat), A.map (·.hdr) = A'.map (·.hdr) →
        B.map (·.hdr) = B'.map (·.hdr) → Saves start B A R → Saves start B' A' R' →
        R.map (·.hdr) = R'.map (·.hdr) := by
      intro A A' B B' R R' start hA hB hs
      induction hs generalizing A' B' with
      | nil =>
        intro hs'
        cases A' with
        | nil => cases hs'; exact hB
        | cons => simp at hA
      | @skip B A R o hi hs ih =>
        intro hs'
        cases A' with
        | nil => simp at hA
        | cons o' A' =>
          simp only [List.map_cons, List.cons.injEq] at hA
          have hlen : B.length = B'.length := by simpa using congrArg List.length hB
          cases hs' with
          | skip hi' hs' => exact ih _ _ hA.2 hB hs'
          | keep hi' hs' => rw [← hA.1] at hi'; omega
      | @keep B A R o hi hs ih =>
        intro hs'
        cases A' with
        | nil => simp at hA
        | cons o' A' =>
          simp only [List.map_cons, List.cons.injEq] at hA
          have hlen : B.length = B'.length := by simpa using congrArg List.length hB
          cases hs' with
          | skip hi' hs' => rw [← hA.1] at hi'; omega
          | keep hi' hs' => exact ih _ _ hA.2 (by simp [hB, hA.1]) hs'
    exact key _ _ [] [] _ _ _ hS3 rfl hS2 hS2'
  obtain ⟨hv, S, g1, g2, g3, g4, g5, g6⟩ := packImport_sound h
  obtain ⟨hv', S', g1', g2', g3', g4', g5', g6'⟩ := packImport_sound h'
  have gg : ∀ o ∈ outs, o.Good E m := by
    obtain ⟨T, e, s⟩ := g6.subset
    intro o ho
    rw [e] at ho
    exact g2 o (s.subset (by simpa using ho))
  have gg' : ∀ o ∈ outs', o.Good E m' := by
    obtain ⟨T, e, s⟩ := g6'.subset
    intro o ho
    rw [e] at ho
    exact g2' o (s.subset (by simpa using ho))
  refine List.ext_getElem? (fun i => ?_)
  have hi := congrArg (fun l => l[i]?) main
  simp only [List.getElem?_map] at hi
  cases ho : outs[i]? with
  | none =>
    rw [ho] at hi
    cases ho' : outs'[i]? with
    | none => rfl
    | some o' => rw [ho'] at hi; simp at hi
  | some o =>
    rw [ho] at hi
    cases ho' : outs'[i]? with
    | none => rw [ho'] at hi; simp at hi
    | some o' =>
      rw [ho'] at hi
      simp only [Option.map_some, Option.some.injEq] at hi
      have m1 := List.mem_of_getElem? ho
      have m2 := List.mem_of_getElem? ho'
      rw [good_unique hm (gg o m1) (gg' o' m2) (fun b hb1 b' hb2 => hb o m1 b hb1 o' m2 b' hb2) hi]

/-- **C54** An import never loses anything: a pack that holds the beginning of the epoch's chain holds it
afterwards too, whatever the peer sends. -/
theorem import_extends {rec prev : Ep.Rec} {v : Nat} {busy : Bool} {p : Pack} {own' : Option Pack}
    {rs : List (Option Rec)} {r : Outcome} (h : chainImport E rec prev v busy (some p) rs = (r, own'))
    (h0 : rec.epoch ≠ 0) {T : List CHdr}
    (hT : EpochChain E prev.finalHash (prev.finalNum + 1) rec.epoch rec.finalNum rec.finalHash T)
    {hp : CHdr} (hprev : E.dig hp = prev.finalHash) (hpe : hp.leaderEpoch ≠ some rec.epoch)
    (hc : NoCollision E (fun x => some (Rec.hdr x) ∈ rs ∨ x ∈ T ∨ x = hp))
    {T' : List CHdr} (hown : p.outs.map (·.hdr) <+: T ++ T') (hst : p.m.start = prev.finalNum + 1) :
    ∃ p', own' = some p' ∧ (p.outs.map (·.hdr)) <+: p'.outs.map (·.hdr) := by
  rcases import_content h h0 hT hprev hpe hc with h1 | ⟨-, p', rfl, h2, -⟩
  · exact ⟨p, h1, List.prefix_rfl⟩
  · refine ⟨p', rfl, ?_⟩
    rw [h2]
    rcases chainImport_cases h with h1 | ⟨-, hh, -⟩
    · cases h1
      rw [h2]
    · -- a longer pack would contain the final header
      obtain ⟨t, t1, t2, t3⟩ := hT.last
      by_cases hlen : p.outs.length < T.length
      · exact List.prefix_of_prefix_length_le hown (List.prefix_append _ _) (by simpa using Nat.le_of_lt hlen)
      · exfalso
        have hTl : T[T.length - 1]? = some t := by rw [← t1, List.getLast?_eq_getElem?]
        have hpos : 0 < T.length := by
          rcases T with - | ⟨x, xs⟩
          · simp at t1
          · simp
        have hnum : rec.finalNum = prev.finalNum + 1 + (T.length - 1) := by rw [← t2, hT.numbers _ _ hTl]
        have hget : (p.outs.map (·.hdr))[T.length - 1]? = some t := by
          obtain ⟨z, hz⟩ := hown
          have := congrArg (fun l => l[T.length - 1]?) hz
          rw [List.getElem?_append_left (by simp only [List.length_map]; omega),
            List.getElem?_append_left (by omega), hTl] at this
          exact this
        have : have_ E rec (some p) = true := by
          unfold have_ Pack.header
          dsimp only
          rw [if_neg (by rw [hst]; omega), hst, hnum, show prev.finalNum + 1 + (T.length - 1) - (prev.finalNum + 1) =
            T.length - 1 by omega, ← List.getElem?_map, hget]
          simp [t3]
        rw [this] at hh
        exact absurd hh (by simp)

/-- **C54** A pack that holds the final header is not touched, however long it is. -/
theorem import_noop {rec prev : Ep.Rec} {v : Nat} {busy : Bool} {p : Pack} {rs : List (Option Rec)} {h : CHdr}
    (hh : p.header rec.finalNum = some h) (hd : E.dig h = rec.finalHash) :
    chainImport E rec prev v busy (some p) rs = (.ok, some p) := by
  have : have_ E rec (some p) = true := by
    unfold have_
    dsimp only
    rw [hh]
    simp [hd]
  unfold chainImport
  rw [if_pos this]

end Import
end Verif
