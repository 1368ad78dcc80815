import Verif.Archive.PackRun
/-
A concrete record format, and a run of a pack with a crash that loses an unpersisted output.
-/
namespace Verif
namespace Pack
namespace Ex
open Codec (Bytes)

/-- Numbers in unary, each closed by a 1. -/
def encNums : List Nat → Bytes
  | [] => []
  | n :: ns => List.replicate n 0 ++ 1 :: encNums ns

def decNums : Nat → Bytes → List Nat
  | _, [] => []
  | k, b :: bs => if b = 0 then decNums (k + 1) bs else k :: decNums 0 bs

theorem decNums_rep (k n : Nat) (bs : Bytes) :
    decNums k (List.replicate n 0 ++ 1 :: bs) = (k + n) :: decNums 0 bs := by
  induction n generalizing k with
  | zero => simp [decNums]
  | succ n ih => simp only [List.replicate_succ, List.cons_append, decNums, if_true, ih]; congr 1; omega

theorem dec_enc (ns : List Nat) : decNums 0 (encNums ns) = ns := by
  induction ns with
  | nil => rfl
  | cons n ns ih => rw [encNums, decNums_rep, ih, Nat.zero_add]

def fields : Rec → List Nat
  | .epoch m => [0, m.epoch, m.start]
  | .hdr h => [1, h.number, h.epoch, h.leader, h.round, h.id]
  | .bat b => [2, b]

def ofFields : List Nat → Option Rec
  | [0, e, s] => some (.epoch ⟨e, s⟩)
  | [1, n, e, l, r, i] => some (.hdr ⟨n, e, l, r, i⟩)
  | [2, b] => some (.bat b)
  | _ => none

def F : Fmt where
  enc r := encNums (fields r)
  dec b := ofFields (decNums 0 b)
  crc b := b.length % 256
  maxRecord := 1000
  hdig h := 100 * h.number + h.id
  bdig b := b
  fileHeader := List.replicate 28 7

theorem F_ok : F.Ok where
  dec_enc r := by
    show ofFields (decNums 0 (encNums (fields r))) = some r
    rw [dec_enc]; cases r <;> rfl
  max_lt := by decide
  crc_lt b := by show b.length % 256 < _; omega
  header := by decide

def m : Meta := ⟨1, 5⟩
def o1 : Out := ⟨⟨5, 1, 2, 4, 9⟩, [3, 7, 3]⟩
def o2 : Out := ⟨⟨6, 1, 3, 6, 8⟩, [4]⟩
def o3 : Out := ⟨⟨6, 1, 3, 6, 5⟩, [1, 2]⟩

def saveD (o : Out) (s : St) : Option St :=
  match s.f.save F 1 m o with
  | .saved f => some { s with f := f }
  | _ => none

theorem saveD_run {s t : St} {a : Abs} {o : Out} (h : Run F 1 m s a) (hs : m.start ≤ o.hdr.number)
    (ho : o.Fits F) (ht : saveD o s = some t) : Run F 1 m t { a with outs := a.outs ++ [o] } := by
  unfold saveD at ht
  split at ht
  · next f hf => cases ht; exact Run.save o f h hs ho hf
  · cases ht

theorem fits : o1.Fits F ∧ o2.Fits F ∧ o3.Fits F := by
  refine ⟨⟨?_, ?_⟩, ⟨?_, ?_⟩, ⟨?_, ?_⟩⟩ <;> (unfold Fmt.Fits; decide)

/-- Output 5 is saved and persisted, output 6 only saved; the crash leaves three bytes of it and its index
entry. After reopening only output 5 is there, and another output 6 can be saved. -/
theorem run_with_crash : ∃ s a, Run F 1 m s a ∧ a.outs = [o1, o3] ∧ a.crashed = true ∧
    s.f.headerByNumber F m 6 = some o3.hdr ∧ s.f.bytesFor m 5 = some (outBytes F 1 o1) := by
  have h0 : Run F 1 m (St.new F m) {} := .new
  have e1 : (saveD o1 (St.new F m)).isSome = true := by decide +kernel
  obtain ⟨s1, hs1⟩ := Option.isSome_iff_exists.mp e1
  have h1 := (saveD_run h0 (by decide) fits.1 hs1).persist
  have e2 : ((saveD o1 (St.new F m)).bind (fun s => saveD o2 (s.persistTo 4))).isSome = true := by
    decide +kernel
  rw [hs1] at e2
  obtain ⟨s2, hs2⟩ := Option.isSome_iff_exists.mp e2
  have h2 := saveD_run h1 (by decide) fits.2.1 hs2
  have e3 : ((saveD o1 (St.new F m)).bind (fun s => (saveD o2 (s.persistTo 4)).map (fun s =>
      decide ((s.persistTo 0).dData ≤ s.dData + 3 ∧ s.dData + 3 ≤ s.f.data.length ∧ (s.persistTo 0).dPos ≤ 2 ∧
        2 ≤ s.f.pos.length ∧ (saveD o3 ((s.persistTo 0).reopen (s.dData + 3) 2 (fun _ => none)
          (fun _ => none))).isSome = true)))) = some true := by decide +kernel
  rw [hs1] at e3
  simp only [Option.bind_some] at hs2 e3
  rw [hs2] at e3
  simp only [Option.map_some, Option.some.injEq, decide_eq_true_eq] at e3
  obtain ⟨c1, c2, c3, c4, e4⟩ := e3
  have h3 := h2.crash 0 _ 2 (fun _ => none) (fun _ => none) c1 c2 c3 c4
    (fun hh => absurd hh.1 (by decide))
  obtain ⟨s3, hs3⟩ := Option.isSome_iff_exists.mp e4
  have h4 := saveD_run h3 (by decide) fits.2.2 hs3
  refine ⟨s3, _, h4, by decide, rfl, ?_, ?_⟩
  · rw [(pack_holds_partial F_ok h4).1 6, if_neg (by decide)]; decide
  · rw [(pack_holds_partial F_ok h4).2.1 5, if_neg (by decide)]; rfl

/-- The hypotheses of `dangling_entry` are met. -/
theorem window_reached : ∃ s a, Run F 1 m s a ∧ a.outs = [o1] ∧
    let t := (s.persistTo 2).reopen s.f.data.length 1 (fun _ => none) (fun _ => none)
    t.f.latest F m = none ∧ t.f.headerByNumber F m m.start = none ∧ t.f.save F 1 m o1 = .already ∧
    t.f.data = (St.new F m).f.data :=
  dangling_entry F_ok 1 m o1 rfl rfl fits.1 2 (Or.inl rfl) _ _

end Ex
end Pack
end Verif
