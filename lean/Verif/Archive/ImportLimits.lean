import Mathlib.Data.Nat.Pairing
import Verif.Archive.ImportComplete
/-
C54, limits: epoch 0, the addresses in the epoch's meta data, a sub-dag without headers; an example.
-/
namespace Verif
namespace Import

section
variable {E : Env} {m : Meta}

/-! ### Epoch 0 -/

/-- Two chains to the same header: one is the end of the other. -/
theorem linked_suffix {dig : CHdr → Nat} {a b : Nat} : ∀ {xs ys : List CHdr} {x y : CHdr},
    Linked dig a (xs ++ [x]) → Linked dig b (ys ++ [y]) →
    (∀ u ∈ xs ++ [x], ∀ w ∈ ys ++ [y], dig u = dig w → u = w) → dig x = dig y →
    xs ++ [x] <:+ ys ++ [y] ∨ ys ++ [y] <:+ xs ++ [x] := by
  intro xs
  induction xs using List.reverseRecOn with
  | nil =>
    intro ys x y hx hy hinj he
    rw [hinj x (by simp) y (by simp) he]
    exact Or.inl ⟨ys, rfl⟩
  | append_singleton xs x' ih =>
    intro ys x y hx hy hinj he
    have hxy := hinj x (by simp) y (by simp) he
    subst hxy
    rcases List.eq_nil_or_concat ys with rfl | ⟨zs, z, rfl⟩
    · exact Or.inr ⟨xs ++ [x'], rfl⟩
    · rw [List.concat_eq_append] at hy hinj ⊢
      rw [linked_append, List.getLast?_concat] at hx hy
      have h1 : x.parent = dig x' := hx.2
      have h2 : x.parent = dig z := hy.2
      rcases ih hx.1 hy.1 (fun u hu w hw => hinj u (List.mem_append_left _ hu) w (List.mem_append_left _ hw))
        (h1.symm.trans h2) with ⟨w, h⟩ | ⟨w, h⟩
      · exact Or.inl ⟨w, by rw [← h, List.append_assoc w]⟩
      · exact Or.inr ⟨w, by rw [← h, List.append_assoc w]⟩

theorem linked_concat {dig : CHdr → Nat} : ∀ {a : Nat} {xs ys : List CHdr}, Linked dig a (xs ++ ys) →
    Linked dig a xs ∧ Linked dig ((xs.getLast?.map dig).getD a) ys
  | a, [], ys, h => ⟨trivial, h⟩
  | a, x :: xs, ys, h => by
    obtain ⟨h1, h2⟩ := linked_concat (xs := xs) h.2
    refine ⟨⟨h.1, h1⟩, ?_⟩
    cases xs with
    | nil => exact h2
    | cons z zs =>
      rw [List.getLast?_cons_cons]
      cases hl : (z :: zs).getLast? with
      | none => simp at hl
      | some w => rw [hl] at h2; exact h2

/-- In epoch 0 the parent of the first header is not checked. A peer can put the header before genesis (`g`, number
0) in front of the chain; it takes the place of header 1, and nothing else can go wrong. -/
theorem genesis_content {rec prev : Ep.Rec} {v : Nat} {rs : List (Option Rec)} {outs : List Out}
    (h0 : rec.epoch = 0) (h : packImport E rec.epoch prev v rec.finalNum rs = .ok m outs) (hl : lastOk E rec outs = true)
    {g : CHdr} (hg : g.number = 0) {T : List CHdr}
    (hT : EpochChain E (E.dig g) 1 0 rec.finalNum rec.finalHash T)
    (hc : NoCollision E (fun x => some (Rec.hdr x) ∈ rs ∨ x ∈ T ∨ x = g))
    (hroot : ∀ x, some (Rec.hdr x) ∈ rs → E.dig x ≠ g.parent) :
    outs.map (·.hdr) = T ∨ outs.map (·.hdr) = g :: T.tail := by
  obtain ⟨hv, S, g1, g2, g3, g4, g5, g6⟩ := packImport_sound h
  obtain ⟨e1, e2, -⟩ := verifyMeta_spec hv
  rw [if_pos h0] at e2
  obtain ⟨l, l1, -, l3⟩ := lastOk_spec hl
  obtain ⟨S1, S2, hS, hS2⟩ := g6.split l1 (by rintro rfl; simp at l1)
  rw [e2] at hS2
  obtain ⟨t, t1, -, t3⟩ := hT.last
  obtain ⟨T1, rfl⟩ : ∃ T1, T = T1 ++ [t] := by
    rcases List.eq_nil_or_concat T with rfl | ⟨T1, z, rfl⟩
    · simp at t1
    · rw [List.concat_eq_append, List.getLast?_concat] at t1
      cases t1
      exact ⟨T1, List.concat_eq_append⟩
  have hmem : ∀ u ∈ (S1.map (·.hdr)) ++ [l.hdr], some (Rec.hdr u) ∈ rs := by
    intro u hu
    rcases List.mem_append.mp hu with hu | hu
    · obtain ⟨o, ho, rfl⟩ := List.mem_map.mp hu
      exact g3 o (by rw [hS]; simp [ho])
    · rw [List.mem_singleton] at hu
      subst hu
      exact g3 l (by rw [hS]; simp)
  -- the stream is a chain from some parent
  obtain ⟨a, hlink⟩ : ∃ a, Linked E.dig a ((S1.map (·.hdr)) ++ [l.hdr]) := by
    have e : S.map (·.hdr) = ((S1.map (·.hdr)) ++ [l.hdr]) ++ S2.map (·.hdr) := by rw [hS]; simp
    rw [e] at g1
    cases hq : (S1.map (·.hdr)) ++ [l.hdr] with
    | nil => simp at hq
    | cons q qs =>
      rw [hq] at g1
      have g1' : Linked E.dig (E.dig q) (qs ++ S2.map (·.hdr)) := g1.2
      exact ⟨q.parent, rfl, (linked_concat g1').1⟩
  have hmap : (S1 ++ [l]).map (·.hdr) = S1.map (·.hdr) ++ [l.hdr] := by simp
  -- an output list with these headers
  have key : ∀ {A R : List Out} {k : Nat}, Saves 1 A (S1 ++ [l]) R → (S1 ++ [l]).map (·.hdr) = T1 ++ [t] →
      A.length = 0 → R = A ++ (S1 ++ [l]) := by
    intro A R k hs hm hA
    refine hs.all (fun i o ho => ?_)
    have hh : ((S1 ++ [l]).map (·.hdr))[i]? = some o.hdr := by rw [List.getElem?_map, ho]; rfl
    rw [hm] at hh
    rw [hT.numbers i _ hh, hA]
  rcases linked_suffix hlink hT.linked
    (fun u hu w hw => hc u w (Or.inl (hmem u hu)) (Or.inr (Or.inl hw))) (l3.trans t3.symm) with ⟨Q, hQ⟩ | ⟨Q, hQ⟩
  · -- the stream is the end of the chain: it must be all of it
    left
    have hQ0 : Q = [] := by
      cases hq : S1 ++ [l] with
      | nil => simp at hq
      | cons o os =>
        rw [hq] at hS2
        have hnum : o.hdr.number - 1 = 0 := by
          cases hS2 with
          | skip hh _ => simp at hh
          | keep hh _ => simpa using hh
        have hget : (T1 ++ [t])[Q.length]? = some o.hdr := by
          rw [← hQ, ← hmap, hq, List.getElem?_append_right (by omega), Nat.sub_self]
          rfl
        have := hT.numbers _ _ hget
        exact List.length_eq_zero_iff.mp (by omega)
    subst hQ0
    rw [List.nil_append] at hQ
    have hout := key (k := 0) hS2 (hmap.trans hQ) rfl
    rw [hout, List.nil_append, hmap, hQ]
  · rcases List.eq_nil_or_concat Q with rfl | ⟨Q', q, rfl⟩
    · left
      rw [List.nil_append] at hQ
      have hout := key (k := 0) hS2 (hmap.trans hQ.symm) rfl
      rw [hout, List.nil_append, hmap, ← hQ]
    · right
      rw [List.concat_eq_append] at hQ
      -- the header in front of the chain is `g`
      rw [← hQ] at hlink
      have hq2 := (linked_concat hlink).2
      rw [List.getLast?_concat] at hq2
      have hqmem : some (Rec.hdr q) ∈ rs := hmem q (by rw [← hQ]; simp)
      have hqg : q = g := by
        refine hc q g (Or.inl hqmem) (Or.inr (Or.inr rfl)) ?_
        have hTl := hT.linked
        cases hT1 : T1 ++ [t] with
        | nil => simp at hT1
        | cons z zs =>
          rw [hT1] at hq2 hTl
          exact hq2.1.symm.trans hTl.1
      subst hqg
      have hQ' : Q' = [] := by
        rcases List.eq_nil_or_concat Q' with h | ⟨Q2, q2, rfl⟩
        · exact h
        · exfalso
          rw [List.concat_eq_append] at hlink hQ
          have h1 := (linked_concat hlink).1
          rw [linked_append, List.getLast?_concat] at h1
          exact hroot q2 (hmem q2 (by rw [← hQ]; simp)) h1.2.symm
      subst hQ'
      rw [List.nil_append, ← hmap] at hQ
      -- the saves
      cases hT1 : T1 ++ [t] with
      | nil => simp at hT1
      | cons z zs =>
        have n0 : z.number = 1 := by have := hT.numbers 0 z (by rw [hT1]; rfl); omega
        rw [hT1] at hQ
        cases hSS : S1 ++ [l] with
        | nil => simp at hSS
        | cons o os =>
          cases os with
          | nil => rw [hSS] at hQ; simp at hQ
          | cons o' os =>
            rw [hSS] at hQ hS2
            simp only [List.cons_append, List.nil_append, List.map_cons, List.cons.injEq] at hQ
            obtain ⟨q1, q2, q3⟩ := hQ
            cases hS2 with
            | skip hh _ => simp at hh
            | keep hh hs2 =>
              cases hs2 with
              | keep hh2 _ => rw [← q2] at hh2; simp at hh2; omega
              | skip hh2 hs3 =>
                have hall := hs3.all (fun i y hy => by
                  have hz : (T1 ++ [t])[i + 1]? = some y.hdr := by
                    rw [hT1, List.getElem?_cons_succ, q3, List.getElem?_map, hy]
                    rfl
                  rw [hT.numbers _ _ hz]
                  simp only [List.nil_append, List.length_singleton]
                  omega)
                rw [hall]
                simp only [List.nil_append, List.map_cons, List.cons_append, List.tail_cons,
                  ← q1, ← q3]

/-! ### The addresses -/

/-- The meta data with another address for every member. -/
def Meta.redirect (m : Meta) (z : Nat) : Meta := { m with members := m.members.map (fun x => (x.1, z)) }

def Out.redirect (o : Out) (z : Nat) : Out := { o with certified := o.certified.map (fun c => (z, c.2)) }

theorem redirect_address (m : Meta) (z a : Nat) : (m.redirect z).address a = (m.address a).map (fun _ => z) := by
  unfold Meta.address Meta.redirect
  dsimp only
  induction m.members with
  | nil => rfl
  | cons x xs ih =>
    simp only [List.map_cons, List.find?_cons]
    cases x.1 == a with
    | true => rfl
    | false => exact ih

theorem redirect_assemble (z : Nat) (refd : List Nat) : ∀ (hs : List SubHdr) (av : List (Nat × Bat)) (pl : List Bat),
    assemble E (m.redirect z) refd hs av pl = (assemble E m refd hs av pl).map (fun c => c.map (fun y => (z, y.2)))
  | [], _, _ => rfl
  | h :: hs, av, pl => by
    simp only [assemble]
    cases pickAll E refd h.payload av pl with
    | none => rfl
    | some r =>
      obtain ⟨bs, av'⟩ := r
      dsimp only
      rw [redirect_address]
      cases m.address h.author with
      | none => rfl
      | some a =>
        dsimp only [Option.map_some]
        rw [redirect_assemble z refd hs]
        cases assemble E m refd hs av' (pl ++ bs) <;> rfl

theorem redirect_finish (z : Nat) (h : CHdr) (refd : List Nat) (av : List (Nat × Bat)) :
    finish E (m.redirect z) h refd av = (finish E m h refd av).map (fun o => o.redirect z) := by
  unfold finish
  split
  · rfl
  · rw [redirect_assemble]
    cases assemble E m refd h.heads av [] <;> rfl

/-- A decoder's result with the addresses replaced. -/
def redirectRes (z : Nat) : Except Err (Out × List (Option Rec)) → Except Err (Out × List (Option Rec))
  | .ok (o, rest) => .ok (o.redirect z, rest)
  | .error e => .error e

theorem members_length (z : Nat) : (m.redirect z).members.length = m.members.length := by
  unfold Meta.redirect
  simp

theorem redirect_decode1 (z : Nat) (x : Expect) (rs : List (Option Rec)) :
    decode1 E (m.redirect z) x rs = redirectRes z (decode1 E m x rs) := by
  match rs with
  | [] => rfl
  | none :: _ => rfl
  | some (.epoch _) :: _ => rfl
  | some (.bat _) :: _ => rfl
  | some (.hdr h) :: rs =>
    simp only [decode1]
    split
    · unfold decodeBody
      split
      · rfl
      · rw [members_length]
        split
        · rfl
        · cases readBats E h.expected rs with
          | error e => rfl
          | ok r =>
            obtain ⟨bs, rest⟩ := r
            dsimp only
            rw [redirect_finish]
            cases finish E m h (bs.map E.bdig) (byDigest E bs) <;> rfl
    · rfl

theorem redirect_decode0 (z : Nat) (x : Expect) : ∀ (rs : List (Option Rec)) (n : Nat) (av : List (Nat × Bat)),
    decode0 E (m.redirect z) x n av rs = redirectRes z (decode0 E m x n av rs)
  | [], _, _ => rfl
  | none :: _, _, _ => rfl
  | some (.epoch _) :: _, _, _ => rfl
  | some (.bat b) :: rs, n, av => by
    simp only [decode0, members_length]
    split
    · rfl
    · exact redirect_decode0 z x rs _ _
  | some (.hdr h) :: rs, n, av => by
    simp only [decode0]
    split
    · rw [redirect_finish]
      cases finish E m h h.expected av <;> rfl
    · rfl

theorem redirect_decode (z v : Nat) (x : Expect) (rs : List (Option Rec)) :
    decode E (m.redirect z) v x rs = redirectRes z (decode E m v x rs) := by
  unfold decode
  split
  · exact redirect_decode0 z x rs _ _
  · exact redirect_decode1 z x rs

theorem redirect_loop (z v fin : Nat) : ∀ (fuel : Nat) (x : Expect) (outs outs' : List Out) (rs : List (Option Rec)),
    loop E m v fin fuel x outs rs = .ok m outs' →
    loop E (m.redirect z) v fin fuel x (outs.map (·.redirect z)) rs = .ok (m.redirect z) (outs'.map (·.redirect z))
  | 0, _, _, _, _, h => by simp [loop] at h
  | fuel + 1, x, outs, outs', rs, h => by
    simp only [loop] at h ⊢
    rw [redirect_decode]
    cases hd : decode E m v x rs with
    | error e =>
      rw [hd] at h
      cases e with
      | notConsensus =>
        cases h
        rfl
      | other => cases h
    | ok r =>
      obtain ⟨o, rest⟩ := r
      rw [hd] at h
      dsimp only [redirectRes] at h ⊢
      by_cases hf : fin < o.hdr.number
      · rw [if_pos hf] at h
        cases h
      · rw [if_neg hf] at h
        rw [if_neg (by exact hf)]
        cases hs : save m outs o with
        | panic => rw [hs] at h; cases h
        | err => rw [hs] at h; cases h
        | ok outs1 =>
          rw [hs] at h
          dsimp only at h
          obtain ⟨s1, s2⟩ := save_ok hs
          have hs' : save (m.redirect z) (outs.map (·.redirect z)) (o.redirect z) = .ok (outs1.map (·.redirect z)) := by
            unfold save
            rw [show (o.redirect z).hdr.leaderEpoch = some m.epoch from s1]
            dsimp only
            rw [if_neg (by simp [Meta.redirect])]
            rcases s2 with ⟨s2, rfl⟩ | ⟨s2, rfl⟩
            · rw [if_pos (by simpa [Out.redirect, Meta.redirect] using s2)]
            · rw [if_neg (by simp [Out.redirect, Meta.redirect]; omega), if_neg (by simp [Out.redirect, Meta.redirect]; omega)]
              simp
          rw [hs']
          exact redirect_loop z v fin fuel _ _ _ _ h

/-- The addresses in a stream's meta data are not checked against anything: of whatever is accepted, the variant
with every address replaced by `z` is accepted too. An output read from such a pack pays `z`: `CertifiedBatch::address`
is the beneficiary of the blocks made of its batches (payload_builder.rs:199-210). -/
theorem addresses_unchecked {epoch v fin : Nat} {prev : Ep.Rec} {rs : List (Option Rec)} {outs : List Out}
    (h : packImport E epoch prev v fin (some (.epoch m) :: rs) = .ok m outs) (z : Nat) :
    packImport E epoch prev v fin (some (.epoch (m.redirect z)) :: rs) =
      .ok (m.redirect z) (outs.map (·.redirect z)) := by
  simp only [packImport] at h ⊢
  have hv : verifyMeta epoch prev (m.redirect z) = verifyMeta epoch prev m := by
    unfold verifyMeta Meta.redirect
    simp [List.map_map, Function.comp_def]
  rw [hv]
  split at h
  · rename_i hm
    rw [if_pos hm]
    exact redirect_loop z v fin _ _ [] outs rs h
  · cases h

/-- A header whose sub-dag has no headers makes the import panic (`expect("sub dag MUST have a leader")`); any peer
can make one that passes the checks before. -/
theorem empty_subdag_panics {epoch fin n id : Nat} {prev : Ep.Rec} (hv : verifyMeta epoch prev m = true) (hn : n ≤ fin)
    (rs : List (Option Rec)) :
    packImport E epoch prev 1 fin (some (.epoch m) :: some (.hdr ⟨prev.finalHash, n, [], id⟩) :: rs) = .panic := by
  simp only [packImport]
  rw [if_pos hv]
  have hx : expectOk E (firstExpect epoch prev) ⟨prev.finalHash, n, [], id⟩ = true := by
    unfold firstExpect
    split <;> simp [expectOk]
  have hd : decode E m 1 (firstExpect epoch prev) (some (.hdr ⟨prev.finalHash, n, [], id⟩) :: rs) =
      .ok (⟨⟨prev.finalHash, n, [], id⟩, []⟩, rs) := by
    unfold decode
    rw [if_neg (by decide)]
    simp only [decode1]
    rw [if_pos hx]
    rfl
  simp only [loop, hd]
  rw [if_neg (by omega)]
  rfl

end

/-! ### Examples -/

namespace Ex

/-- An injective digest. -/
def sdig (s : SubHdr) : Nat := Nat.pair s.author (Nat.pair s.epoch (s.payload.foldr (fun d n => Nat.pair d n + 1) 0))

def dig (h : CHdr) : Nat :=
  Nat.pair (Nat.pair h.parent h.number) (Nat.pair h.id (h.heads.foldr (fun s n => Nat.pair (sdig s) n + 1) 0)) + 1

def E : Env := ⟨dig, fun b => b + 100, fun n => n * 10⟩

theorem fold_inj {α : Type} {f : α → Nat} (hf : ∀ a b, f a = f b → a = b) : ∀ (l l' : List α),
    l.foldr (fun s n => Nat.pair (f s) n + 1) 0 = l'.foldr (fun s n => Nat.pair (f s) n + 1) 0 → l = l'
  | [], [], _ => rfl
  | [], _ :: _, h => by simp at h
  | _ :: _, [], h => by simp at h
  | a :: l, b :: l', h => by
    simp only [List.foldr_cons, Nat.add_right_cancel_iff, Nat.pair_eq_pair] at h
    rw [hf a b h.1, fold_inj hf l l' h.2]

theorem dig_inj : ∀ a b, dig a = dig b → a = b := by
  rintro ⟨p, n, hs, i⟩ ⟨p', n', hs', i'⟩ h
  simp only [dig, Nat.add_right_cancel_iff, Nat.pair_eq_pair] at h
  obtain ⟨⟨rfl, rfl⟩, rfl, h⟩ := h
  have hsd : ∀ a b, sdig a = sdig b → a = b := by
    rintro ⟨a, e, pl⟩ ⟨a', e', pl'⟩ h
    simp only [sdig, Nat.pair_eq_pair] at h
    obtain ⟨rfl, rfl, h⟩ := h
    have := fold_inj (f := id) (fun _ _ h => h) pl pl' h
    rw [this]
  rw [fold_inj hsd hs hs' h]

/-- The header before genesis, `ConsensusHeader::default`. -/
def g : CHdr := ⟨0, 0, [⟨0, 0, []⟩], 0⟩

/-- The first epoch: two outputs, the first with a batch. -/
def h1 : CHdr := ⟨dig g, 1, [⟨1, 0, [105]⟩], 7⟩
def h2 : CHdr := ⟨dig h1, 2, [⟨2, 0, []⟩], 8⟩

def prev0 : Ep.Rec := ⟨0, [], [1, 2], 0, (0, 0), 0, dig g⟩
def rec0 : Ep.Rec := ⟨0, [1, 2], [1, 2], 0, (5, 5), 2, dig h2⟩
def m0 : Meta := ⟨0, [(1, 11), (2, 12)], 1, (0, 0), 0, dig g⟩
def p0 : Pack := ⟨m0, [⟨h1, [(11, [5])]⟩, ⟨h2, []⟩]⟩

/-- The second epoch: three outputs; a batch occurs twice. -/
def k1 : CHdr := ⟨dig h2, 3, [⟨1, 1, [107, 106]⟩, ⟨2, 1, [107]⟩], 9⟩
def k2 : CHdr := ⟨dig k1, 4, [⟨2, 1, []⟩], 10⟩
def rec1 : Ep.Rec := ⟨1, [1, 2], [1, 2], 0, (9, 9), 4, dig k2⟩
def m1 : Meta := ⟨1, [(1, 11), (2, 12)], 3, (5, 5), 2, dig h2⟩
def p1 : Pack := ⟨m1, [⟨k1, [(11, [7, 6]), (12, [7])]⟩, ⟨k2, []⟩]⟩

/-- The hypotheses of `import_content`, `import_extends` and `import_unique` hold for epoch 1. -/
theorem chain1 : EpochChain E rec0.finalHash (rec0.finalNum + 1) rec1.epoch rec1.finalNum rec1.finalHash [k1, k2] where
  linked := ⟨rfl, rfl, trivial⟩
  numbers := by
    intro i h hi
    match i, hi with
    | 0, hi => cases hi; rfl
    | 1, hi => cases hi; rfl
    | n + 2, hi => simp at hi
  epochs := by
    intro h hh
    simp only [List.mem_cons, List.not_mem_nil, or_false] at hh
    rcases hh with rfl | rfl <;> rfl
  last := ⟨k2, rfl, rfl, rfl⟩

theorem inj1 (K : CHdr → Prop) : NoCollision E K := fun x y _ _ h => dig_inj x y h

theorem prev_is_other_epoch : E.dig h2 = rec0.finalHash ∧ h2.leaderEpoch ≠ some rec1.epoch := ⟨rfl, by decide⟩

/-- The stream of `p1` is accepted in both formats, and gives `p1`. -/
theorem honest1 : p1.Honest E where
  good := by
    intro o ho
    simp only [p1, List.mem_cons, List.not_mem_nil, or_false] at ho
    rcases ho with rfl | rfl
    · refine List.Forall₂.cons ⟨rfl, rfl⟩ (List.Forall₂.cons ⟨rfl, rfl⟩ .nil)
    · rfl
  bats := by
    intro o _ a _ b _ h
    exact Nat.add_right_cancel h
  count := by decide
  epochs := by decide
  numbers := by
    intro i h hi
    match i, hi with
    | 0, hi => cases hi; rfl
    | 1, hi => cases hi; rfl
    | n + 2, hi => simp [p1] at hi

theorem accepted (v : Nat) (own : Option Pack) (h : have_ E rec1 own = false) :
    chainImport E rec1 rec0 v false own (exportAll E v p1) = (.ok, some p1) :=
  import_complete honest1 (verifyMeta_iff.mp (by decide +kernel)) (by exact ⟨by decide +kernel, rfl, trivial⟩)
    (lastOk_spec (by decide +kernel)) h v

/-- A stream with a wrong batch, a broken link or cut off before the end is refused. -/
theorem refused :
    chainImport E rec1 rec0 1 false none [some (.epoch m1), some (.hdr k1), some (.bat 6), some (.bat 8)] = (.err, none) ∧
    chainImport E rec1 rec0 1 false none [some (.epoch m1), some (.hdr k2)] = (.err, none) ∧
    chainImport E rec1 rec0 1 false none [some (.epoch m1), some (.hdr k1), some (.bat 6), some (.bat 7)] = (.err, none) ∧
    chainImport E rec1 rec0 1 false none [some (.epoch m1), some (.hdr k1), some (.bat 6), none] = (.err, none) := by
  decide +kernel

/-- In epoch 0 a stream with the header before genesis in front is accepted; header 1 is missing afterwards and number 1
gives the header before genesis. The next import does nothing, as the final header is there. -/
theorem genesis_poisoned : ∃ p : Pack,
    chainImport E rec0 prev0 1 false none ([some (.epoch m0), some (.hdr g)] ++ (exportAll E 1 p0).tail) =
      (.ok, some p) ∧ p.header 1 = some g ∧ p.header 2 = some h2 ∧
    ∀ (v : Nat) (rs : List (Option Rec)), chainImport E rec0 prev0 v false (some p) rs = (.ok, some p) := by
  refine ⟨⟨m0, [⟨g, []⟩, ⟨h2, []⟩]⟩, by decide +kernel, rfl, rfl, ?_⟩
  intro v rs
  exact import_noop (h := h2) rfl rfl

/-- The hypotheses of `genesis_content` hold for it. -/
theorem genesis_hyps : EpochChain E (E.dig g) 1 0 rec0.finalNum rec0.finalHash [h1, h2] ∧
    ∀ x : CHdr, E.dig x ≠ g.parent := by
  refine ⟨⟨⟨rfl, rfl, trivial⟩, ?_, ?_, ⟨h2, rfl, rfl, rfl⟩⟩, fun x => Nat.succ_ne_zero _⟩
  · intro i h hi
    match i, hi with
    | 0, hi => cases hi; rfl
    | 1, hi => cases hi; rfl
    | n + 2, hi => simp at hi
  · intro h hh
    simp only [List.mem_cons, List.not_mem_nil, or_false] at hh
    rcases hh with rfl | rfl <;> rfl

/-- The attack of `addresses_unchecked` on epoch 1: all is paid to 99. -/
theorem redirected : chainImport E rec1 rec0 1 false none
    (some (.epoch (m1.redirect 99)) :: (exportAll E 1 p1).tail) =
    (.ok, some ⟨m1.redirect 99, [⟨k1, [(99, [7, 6]), (99, [7])]⟩, ⟨k2, []⟩]⟩) := by decide +kernel

end Ex
end Import
end Verif
