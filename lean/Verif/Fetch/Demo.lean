import Verif.Fetch.Fetcher
import Verif.Fetch.Fan
/-
Concrete cases for C72 and C73: a bitmap that meets the assumptions, two stores, a request and its answer.
-/
namespace Verif
namespace Fetch
namespace Demo

open Codec (Byte Bytes leBytes leNat leBytes_length leNat_leBytes)
open CertStore (Db Stored Uniq Reach Lists)
open CertStore.Example (hdr mk all uniq)

/-! ### A bitmap -/

def parse : Bytes → Option (List Nat)
  | [] => some []
  | a :: b :: c :: d :: r => (parse r).map (leNat [a, b, c, d] :: ·)
  | _ => none

instance (s : List Nat) : Decidable (Asc s) := by unfold Asc; infer_instance

/-- The cookie, a count of at most one, and the elements. -/
def bitmap : Bitmap where
  ser s := [58, 48, 0, 0] ++ leBytes 4 (min s.length 1) ++ s.flatMap (leBytes 4)
  de b := match parse (b.drop 8) with
    | none => none
    | some s => if Asc s then some s else none

theorem parse_flat (s : List Nat) (h : ∀ x ∈ s, x < 2 ^ 32) : parse (s.flatMap (leBytes 4)) = some s := by
  induction s with
  | nil => rfl
  | cons x s ih =>
    have e : leNat (leBytes 4 x) = x := leNat_leBytes 4 x (by have := h x (by simp); omega)
    have ih' := ih (fun y hy => h y (by simp [hy]))
    rw [List.flatMap_cons]
    generalize s.flatMap (leBytes 4) = t at ih' ⊢
    simp only [leBytes, List.cons_append, List.nil_append] at e ⊢
    rw [parse, ih', e]
    rfl

theorem bitmap_ok : bitmap.Ok where
  inverse := by
    intro s hs h
    have e : (bitmap.ser s).drop 8 = s.flatMap (leBytes 4) := by
      show List.drop 8 ([58, 48, 0, 0] ++ leBytes 4 (min s.length 1) ++ s.flatMap (leBytes 4)) = _
      rw [List.drop_left']
      rw [List.length_append, leBytes_length]; rfl
    show (match parse ((bitmap.ser s).drop 8) with
      | none => none
      | some s => if Asc s then some s else none) = some s
    rw [e, parse_flat s h]
    dsimp only
    rw [if_pos hs]
  asc := by
    intro b s h
    change (match parse (b.drop 8) with
      | none => none
      | some s => if Asc s then some s else none) = some s at h
    split at h
    · cases h
    · split at h
      · rename_i ha; cases h; exact ha
      · cases h
  count := by
    intro s _ _
    have e4 : leU32 (bitmap.ser s) 4 = some (min s.length 1) := by
      have e : leNat (leBytes 4 (min s.length 1)) = min s.length 1 := leNat_leBytes 4 _ (by omega)
      have : ((bitmap.ser s).drop 4).take 4 = leBytes 4 (min s.length 1) := by
        show List.take 4 (leBytes 4 (min s.length 1) ++ s.flatMap (leBytes 4)) = _
        rw [List.take_left' (leBytes_length _ _)]
      unfold leU32
      rw [if_pos, this, e]
      show 4 + 4 ≤ ([58, 48, 0, 0] ++ leBytes 4 (min s.length 1) ++ s.flatMap (leBytes 4)).length
      rw [List.length_append, List.length_append, leBytes_length]
      simp
    refine ⟨min s.length 1, ?_, by omega⟩
    have e0 : leU32 (bitmap.ser s) 0 = some 12346 := by
      unfold leU32
      rw [if_pos]
      · show some (leNat [58, 48, 0, 0]) = some 12346
        decide
      · show 0 + 4 ≤ ([58, 48, 0, 0] ++ leBytes 4 (min s.length 1) ++ s.flatMap (leBytes 4)).length
        rw [List.length_append, List.length_append]; simp; omega
    unfold containerCount
    rw [e0]
    dsimp only
    rw [if_pos rfl, e4]

/-! ### A request and its answer -/

/-- The requester has rounds 1 of both authorities and round 3 of authority 1. -/
def mine : Db := CertStore.saveAll [mk (hdr 1 1 11), mk (hdr 2 1 21), mk (hdr 1 3 13)] {}

/-- The responder has everything. -/
def theirs : Db := CertStore.saveAll (all.map mk) {}

theorem mine_run : Reach (· ∈ all) 5 mine :=
  .save _ .empty (by intro c hc; revert hc; revert c; decide)

theorem theirs_run : Reach (· ∈ all) 5 theirs :=
  .save _ .empty (by intro c hc; revert hc; revert c; decide)

theorem authors {keep : Nat} {db : Db} (h : Reach (· ∈ all) keep db) : ∀ c, Stored db c → c.header.author ∈ [1, 2] := by
  intro c hc
  have := ((h.ok uniq).key _ c hc).2
  have key : ∀ x ∈ all, x.author ∈ [1, 2] := by decide
  exact key _ this

theorem rounds : ∀ x, x ∈ all → x.round < 2 ^ 32 := by
  have key : ∀ x ∈ all, x.round ≤ 3 := by decide
  intro x hx
  have := key x hx
  omega

example : writtenRounds [1, 2] mine 0 = [(1, [1, 3]), (2, [1])] := by decide

/-- The two certificates the requester lacks come, lowest round first. -/
example : ∃ skip q, newCollector bitmap 1000 2 theirs 0 (setBounds bitmap 0 (writtenRounds [1, 2] mine 0)) = some (skip, q) ∧
    (collect theirs skip 10 q).map (·.map (·.header.digest)) = [some 12, some 22] := by
  refine ⟨[(1, [1, 3]), (2, [1])], [(2, 1), (2, 2)], ?_, ?_⟩
  · have e : writtenRounds [1, 2] mine 0 = [(1, [1, 3]), (2, [1])] := by decide
    have := request_read bitmap_ok uniq mine_run rounds (authors mine_run) 0 1000 (by
      intro o s h
      rw [e] at h
      have hm := SMap.mem_of_get? h
      simp only [List.mem_cons, List.not_mem_nil, or_false] at hm
      rcases hm with hm | hm <;> cases hm <;> simp)
    unfold newCollector
    change getBounds bitmap 1000 2 0 (setBounds bitmap 0 (writtenRounds [1, 2] mine 0)) = _ at this
    rw [this, e]
    decide
  · decide

/-- The theorem applies to them. -/
example : ∃ skip q L, newCollector bitmap 1000 2 theirs 0 (setBounds bitmap 0 (writtenRounds [1, 2] mine 0)) =
    some (skip, q) ∧ Lists theirs (Lacks mine [1, 2] 0) L ∧ ∀ n, collect theirs skip n q = (L.take n).map some :=
  answer_exact bitmap_ok uniq mine_run theirs_run rounds (authors mine_run) 0 1000 (by
    intro o s h
    rw [show writtenRounds [1, 2] mine 0 = [(1, [1, 3]), (2, [1])] by decide] at h
    have hm := SMap.mem_of_get? h
    simp only [List.mem_cons, List.not_mem_nil, or_false] at hm
    rcases hm with hm | hm <;> cases hm <;> simp)

/-- With a limit of one round to skip, the requester's own request is refused by every peer. -/
example (db2 : Db) : newCollector bitmap 1 2 db2 0 (setBounds bitmap 0 (writtenRounds [1, 2] mine 0)) = none :=
  own_request_refused (o := 1) (s := [1, 3]) bitmap_ok uniq mine_run rounds (authors mine_run) (by decide) (by decide) db2

/-! ### The fetcher -/

theorem mine_ok (e : Ev) (h : e.db = mine) : e.Ok (· ∈ all) [1, 2] := by
  unfold Ev.Ok
  rw [h]
  exact ⟨⟨5, mine_run⟩, authors mine_run⟩

theorem theirs_ok (e : Ev) (h : e.db = theirs) : e.Ok (· ∈ all) [1, 2] := by
  unfold Ev.Ok
  rw [h]
  exact ⟨⟨5, theirs_run⟩, authors theirs_run⟩

/-- Ancestors of round 2 of authority 2 are missing: a fetch starts; when it reports and they have come, it stops. -/
example : (run [1, 2] 1 [.ancestors mine 0 1 2 2]).targets = [(2, 2)] ∧
    (run [1, 2] 1 [.ancestors mine 0 1 2 2]).task = some (0, [(1, [1, 3]), (2, [1])]) ∧
    (run [1, 2] 1 [.ancestors mine 0 1 2 2, .finished theirs 0]).targets = [] ∧
    (run [1, 2] 1 [.ancestors mine 0 1 2 2, .finished theirs 0]).task = none ∧
    (run [1, 2] 1 [.ancestors mine 0 1 2 2, .finished mine 0]).task = some (0, [(1, [1, 3]), (2, [1])]) := by decide

example : Satisfied theirs 0 2 2 := by
  rcases target_kept (epoch := 1) (evs := [.ancestors mine 0 1 2 2]) (e := .finished theirs 0) uniq
      (by intro e he; simp only [List.mem_singleton] at he; subst he; exact mine_ok _ rfl) (theirs_ok _ rfl)
      (show SMap.get? 2 (run [1, 2] 1 [.ancestors mine 0 1 2 2]).targets = some 2 by decide) with ⟨t, h, _⟩ | h
  · rw [show (run [1, 2] 1 ([.ancestors mine 0 1 2 2] ++ [.finished theirs 0])).targets = [] by decide] at h
    cases h
  · exact h

end Demo
end Fetch
end Verif
