import Verif.System.Joint
import Verif.Bullshark.Example
/-
An execution of the joint system: member 40 is faulty, 10 proposes a header, 20 and 30 vote for it, 10
assembles the certificate, 20 takes it from gossip and feeds it to consensus.
-/
namespace Verif
namespace Joint

/-- Several voter steps of one member. -/
inductive VRun (G : Setting) (S : List Header) : Voting.Node → Voting.Node → Prop
  | refl (n) : VRun G S n n
  | step {n m k} : VRun G S n m → Voting.Step G.H G.C m k →
      (∀ h ctx, k.approved = (h, ctx, G.c.epoch) :: m.approved →
        (2 ≤ h.round → ∀ p ∈ ctx.parents, p ∈ S) ∧ (h.round = 1 → ∀ p ∈ ctx.parents, G.H.ok p)) →
      VRun G S n k

theorem setAt_setAt {β : Type} (f : AuthorityId → β) (i : AuthorityId) (a b : β) :
    Voting.setAt (Voting.setAt f i a) i b = Voting.setAt f i b := by
  funext x; unfold Voting.setAt; split <;> rfl

theorem setAt_self {β : Type} (f : AuthorityId → β) (i : AuthorityId) : Voting.setAt f i (f i) = f := by
  funext x; unfold Voting.setAt; split
  · rename_i h; rw [h]
  · rfl

theorem setAt_same {β : Type} (f : AuthorityId → β) (i : AuthorityId) (a : β) : Voting.setAt f i a i = a := by
  unfold Voting.setAt; rw [if_pos rfl]

theorem Reach.votes {G : Setting} {s : State} (h : Reach G s) {i : AuthorityId} (hi : G.Honest i)
    {n m : Voting.Node} (hn : s.V i = n) (hr : VRun G (s.S i) n m) :
    Reach G { s with V := Voting.setAt s.V i m } := by
  induction hr with
  | refl => subst hn; rw [setAt_self]; exact h
  | step _ hs hp ih =>
    have := Reach.step ih (.vote _ i _ hi (by simp only [setAt_same]; exact hs)
      (by simp only [setAt_same]; exact hp))
    dsimp only at this
    rw [setAt_setAt] at this
    exact this

/-- Several proposer steps of one member. -/
inductive PRun (G : Setting) : Proposer.Node → Proposer.Node → Prop
  | refl (n) : PRun G n n
  | step {n m k a} : PRun G n m → a.Assumed m → Proposer.Step G.maxBatches m a k →
      (∀ h ∈ k.sent, G.H.ok h) → PRun G n k

theorem Reach.proposes {G : Setting} {s : State} (h : Reach G s) {i : AuthorityId} (hi : G.Honest i)
    {n m : Proposer.Node} (hn : s.P i = n) (hr : PRun G n m) :
    Reach G { s with P := Voting.setAt s.P i m } := by
  induction hr with
  | refl => subst hn; rw [setAt_self]; exact h
  | step _ ha hs hh ih =>
    have := Reach.step ih (.propose _ i _ _ hi (by simp only [setAt_same]; exact ha)
      (by simp only [setAt_same]; exact hs) hh)
    dsimp only at this
    rw [setAt_setAt] at this
    exact this

namespace Example

open Voting.Example (comm h1 ctx voted)

/-- Genesis headers. -/
def gen (a d : Nat) : Header := { author := a, round := 0, epoch := 1, digest := d }

def all : List Header := [h1, gen 10 1, gen 20 2, gen 30 3, gen 40 4]

def hdrs : Voting.Headers where
  ok h := h ∈ all
  inj := by
    intro a b ha hb h
    have : ∀ a ∈ all, ∀ b ∈ all, a.digest = b.digest → a = b := by decide
    exact this a ha b hb h

/-- Signature 7 is good. -/
def bls : Bls := ⟨fun s _ _ => s == 7, fun _ => some 7, fun s _ _ => s == 7⟩

def setting : Setting where
  c := Committee.four
  C := comm
  F := {40}
  H := hdrs
  maxBatches := 10
  B := bls
  g := fun a _ => a / 10
  interval := 50
  rank := id
  p := { committee := Committee.four, gcDepth := 50 }
  wf := Committee.four_wf
  epochs := fun _ => rfl
  here := rfl
  faulty := by decide
  acyclic := by
    intro x y hx hy h
    have : ∀ x ∈ all, ∀ y ∈ all, x.digest ∈ y.parents → x.digest < y.digest := by decide
    exact this x hx y hy h
  genesis := by
    have : ∀ a ∈ Committee.four.authorities, ∃ h ∈ all, h.digest = a.id / 10 ∧ h.parents = [] := by decide
    exact this
  committee := rfl
  gcPos := by decide
  window := by decide
  gcWindow := by decide
  seed := rfl

theorem honest {i : AuthorityId} (h : i ∈ [10, 20, 30]) : setting.Honest i := by
  have : ∀ i ∈ [10, 20, 30], i ∈ Committee.four.Members ∧ i ∉ ({40} : Finset Nat) := by decide
  exact this i h

theorem votes (S : List Header) :
    VRun setting S { epoch := 1, disk0 := fun _ _ => none } voted := by
  have hpar : ∀ p ∈ ctx.parents, p ∈ all := by decide
  have no : ∀ {n : Voting.Node} {a : List (Header × Voting.Ctx × Epoch)}, n.approved = a →
      ∀ h x, n.approved = (h, x, setting.c.epoch) :: a →
      (2 ≤ h.round → ∀ p ∈ x.parents, p ∈ S) ∧ (h.round = 1 → ∀ p ∈ x.parents, setting.H.ok p) := by
    intro n a ha h x hx
    rw [ha] at hx
    have := congrArg List.length hx
    simp at this
  have s := VRun.refl (G := setting) (S := S) { epoch := 1, disk0 := fun _ _ => none }
  have s := s.step (.lockRun _ h1 [] none (List.mem_cons_self ..) 10 (by decide) rfl rfl) (no rfl)
  have s := s.step (.innerFresh _ 10 h1 ctx rfl (by decide) rfl) (by
    intro h x hx
    have := (List.cons.inj hx).1
    cases this
    exact ⟨fun hr => absurd hr (by decide), fun _ => hpar⟩)
  have s := s.step (.env _ (.run true) trivial) (no rfl)
  have s := s.step (.env _ (.run true) trivial) (no rfl)
  exact s.step (.persistDone _ 10 h1 0 rfl (List.mem_singleton.mpr rfl)) (no rfl)

theorem proposes : ∃ n, PRun setting { self := 10, epoch := 1, disk0 := fun _ _ => none } n ∧
    n.sent = [h1] := by
  have okNil : ∀ h ∈ ([] : List Header), setting.H.ok h := by intro h hh; cases hh
  have okOne : ∀ h ∈ [h1], setting.H.ok h := by
    intro h hh; rw [List.mem_singleton.mp hh]; exact List.mem_cons_self ..
  have s := PRun.refl (G := setting) { self := 10, epoch := 1, disk0 := fun _ _ => none }
  have s := s.step (a := .start true) rfl (.start _ true 0 [2, 3, 4] rfl) okNil
  have s := s.step (a := .other) trivial (.fresh _ _ h1 rfl rfl (by decide) (by intro w hw; cases hw) rfl rfl rfl
    rfl (fun d => Iff.rfl)) okNil
  have s := s.step (a := .other) trivial (.store _ _ h1 rfl rfl rfl) okNil
  have s := s.step (a := .other) trivial (.env _ (.run true) trivial) okNil
  have s := s.step (a := .other) trivial (.env _ (.run true) trivial) okNil
  have s := s.step (a := .other) trivial (.persisted _ _ h1 0 rfl rfl (List.mem_singleton.mpr rfl)) okNil
  have s := s.step (a := .other) trivial (.send _ _ h1 rfl rfl) okOne
  exact ⟨_, s, rfl⟩

def vote (a : AuthorityId) : Vote := { headerDigest := 100, author := a, signature := 7 }

def cert : Certificate := { header := h1, state := .verifiedDirectly 7, bitmap := [0, 1, 3] }

/-- Consensus at the start of the epoch. -/
def st0 : Bull.State := { seed := 0 }

/-- The certificate of 10's header is in the stores of 10 and 20, and 20's consensus has processed it. -/
theorem run : ∃ s, Reach setting s ∧ s.S 10 = [h1] ∧ s.S 20 = [h1] ∧ Cert setting s h1 ∧
    (s.N 20).st.dag = [h1] := by
  obtain ⟨pn, hp, hsent⟩ := proposes
  have s := Reach.init (G := setting) (fun _ => 1) (fun _ => 1) st0 rfl
  have s := s.proposes (honest (i := 10) (by decide)) rfl hp
  have s := s.votes (honest (i := 20) (by decide)) rfl (votes _)
  have s := s.votes (honest (i := 30) (by decide)) rfl (votes _)
  generalize hst : (State.mk _ _ _ _ _) = st at s
  have hS : st.S = fun _ => [] := by rw [← hst]
  have hN : st.N = fun _ => ⟨st0, []⟩ := by rw [← hst]
  have signed : ∀ i ∈ [10, 20, 30], st.signed i h1 := by
    intro i hi
    simp only [List.mem_cons, List.not_mem_nil, or_false] at hi
    rcases hi with rfl | rfl | rfl
    · exact .inl ⟨rfl, by rw [← hst]; show h1 ∈ pn.sent; rw [hsent]; exact List.mem_singleton.mpr rfl⟩
    · exact .inr ⟨by decide, by rw [← hst]; exact List.mem_singleton.mpr rfl⟩
    · exact .inr ⟨by decide, by rw [← hst]; exact List.mem_singleton.mpr rfl⟩
  have hon : ∀ a ∈ setting.c.authorities, a.id ∉ setting.F → a.id ∈ [10, 20, 30] := by
    have : ∀ a ∈ Committee.four.authorities, a.id ∉ ({40} : Finset Nat) → a.id ∈ [10, 20, 30] := by decide
    exact this
  clear hst
  have s1 := Reach.step s (.own st 10 h1 [vote 10, vote 20] (vote 30) cert (honest (by decide))
    (List.mem_cons_self ..) rfl
    (by
      intro x hx a ha hax hF hv
      refine ⟨h1, List.mem_cons_self .., ?_, signed _ (hon a ha hF)⟩
      have : ∀ x ∈ [vote 10, vote 20] ++ [vote 30], x.headerDigest = 100 := by decide
      rw [this x hx]; rfl) (by decide))
  have s2 := Reach.step s1 (.gossip _ 20 cert cert (honest (by decide)) (List.mem_cons_self ..)
    (by
      intro sg _ pks _ a ha hF _
      exact ⟨h1, List.mem_cons_self .., rfl, signed _ (hon a ha hF)⟩) rfl (by decide))
  have h20 : ((st.store 10 [cert.header]).store 20 [cert.header]).S 20 = [h1] := by
    simp [State.store, Voting.setAt, hS, cert]
  have h10 : ((st.store 10 [cert.header]).store 20 [cert.header]).S 10 = [h1] := by
    simp [State.store, Voting.setAt, hS, cert]
  have hmem : h1 ∈ ((st.store 10 [cert.header]).store 20 [cert.header]).S 20 := by
    rw [h20]; exact List.mem_singleton.mpr rfl
  have hN20 : (((st.store 10 [cert.header]).store 20 [cert.header]).N 20).st = st0 := by
    show (st.N 20).st = st0
    rw [hN]
  have s3 := Reach.step s2 (.deliver _ 20 (fun _ => 7) h1 _ _ _ (honest (by decide)) hmem
    (by rw [hN20]; rfl))
  refine ⟨_, s3, h10, h20, s3.inv.stored 20 h1 hmem, ?_⟩
  simp only [setAt_same]
  rfl

end Example
end Joint
end Verif
