import Verif.Sync.PendingModel
import Verif.Bullshark.Example
/-
The limit of `Sync.store_recoverable` is real: a restart with a store that dropped too much forks the chain.
-/
namespace Verif

namespace Bull
namespace Retention

def com : Committee := Ex.com

/-- The scheduled leader of an even round. -/
def lead (r : Nat) : Nat := (r / 2 - 1) % 4 + 1

/-- Who links to whom. Until round 59 nobody but author 4 links to author 4; from round 61 to 75 nobody links to the
leader of the round before, except for author 1 in round 61. -/
def parentsOf (r a : Nat) : List Nat :=
  if r ≤ 59 then (if a = 4 then [2, 3, 4] else [1, 2, 3])
  else if r % 2 = 1 ∧ r ≤ 75 ∧ ¬ (r = 61 ∧ a = 1) then [1, 2, 3, 4].filter (fun b => b != lead (r - 1))
  else [1, 2, 3, 4]

def hdr (r a : Nat) : Header :=
  { author := a, round := r, epoch := 0, createdAt := r
    parents := if r = 1 then [] else (parentsOf r a).map (fun b => (r - 1) * 10 + b), digest := r * 10 + a }

def certs (lo hi : Nat) : List Header :=
  ((List.range (hi + 1)).filter (fun r => decide (lo ≤ r))).flatMap (fun r => [1, 2, 3, 4].map (hdr r))

def U (h : Header) : Prop := h ∈ certs 1 77

/-- The protocol's constants: `gc_depth` 50 (the default), schedule changes every 60 sub-dags, recovery reads 50 and
1000 sub-dags. -/
def p : Params := { committee := com, gcDepth := 50 }

theorem mem_certs {lo hi : Nat} {h : Header} : h ∈ certs lo hi ↔
    ∃ r a, lo ≤ r ∧ r ≤ hi ∧ a ∈ [1, 2, 3, 4] ∧ h = hdr r a := by
  unfold certs
  simp only [List.mem_flatMap, List.mem_filter, List.mem_range, decide_eq_true_eq, List.mem_map]
  constructor
  · rintro ⟨r, ⟨h1, h2⟩, a, ha, rfl⟩
    exact ⟨r, a, h2, by omega, ha, rfl⟩
  · rintro ⟨r, a, h1, h2, ha, rfl⟩
    exact ⟨r, ⟨by omega, h1⟩, a, ha, rfl⟩

set_option maxRecDepth 100000 in
theorem parents_ok : ∀ r ∈ List.range 78, ∀ a ∈ [1, 2, 3, 4], (parentsOf r a).Nodup ∧
    (∀ b ∈ parentsOf r a, b ∈ [1, 2, 3, 4]) ∧ com.reachedQuorum (com.power (parentsOf r a)) = true := by
  decide +kernel

theorem mem4 {a : Nat} (h : a ∈ [1, 2, 3, 4]) : 1 ≤ a ∧ a ≤ 4 := by
  simp only [List.mem_cons, List.not_mem_nil, or_false] at h
  omega

theorem setup : Setup p U where
  committee := ⟨by decide, by decide, by decide⟩
  certs := by
    refine ⟨?_, ?_, ?_, ?_, ?_⟩
    · intro x y hx hy he
      obtain ⟨r, a, -, -, ha, rfl⟩ := mem_certs.mp hx
      obtain ⟨r', a', -, -, ha', rfl⟩ := mem_certs.mp hy
      have h1 := mem4 ha
      have h2 := mem4 ha'
      have he : r * 10 + a = r' * 10 + a' := he
      obtain rfl : r = r' := by omega
      obtain rfl : a = a' := by omega
      rfl
    · intro x y hx hy e1 e2
      obtain ⟨r, a, -, -, ha, rfl⟩ := mem_certs.mp hx
      obtain ⟨r', a', -, -, ha', rfl⟩ := mem_certs.mp hy
      have e1 : a = a' := e1
      have e2 : r = r' := e2
      subst e1 e2
      rfl
    · intro x hx hr
      obtain ⟨r, a, -, h2, ha, rfl⟩ := mem_certs.mp hx
      have hr : 2 ≤ r := hr
      obtain ⟨q1, q2, q3⟩ := parents_ok r (List.mem_range.mpr (by omega)) a ha
      have e : ((parentsOf r a).map (hdr (r - 1))).map (·.author) = parentsOf r a := by
        rw [List.map_map]
        exact List.map_id' _
      refine ⟨(parentsOf r a).map (hdr (r - 1)), ?_, by rw [e]; exact q1, by rw [e]; exact q3⟩
      intro q hq
      obtain ⟨b, hb, rfl⟩ := List.mem_map.mp hq
      refine ⟨mem_certs.mpr ⟨r - 1, b, by omega, by omega, q2 b hb, rfl⟩, ?_, ?_⟩
      · show r - 1 + 1 = r
        omega
      · show (r - 1) * 10 + b ∈ (if r = 1 then [] else (parentsOf r a).map (fun b => (r - 1) * 10 + b))
        rw [if_neg (by omega)]
        exact List.mem_map.mpr ⟨b, hb, rfl⟩
    · intro x hx
      obtain ⟨r, a, h1, -, -, rfl⟩ := mem_certs.mp hx
      exact h1
    · intro x hx
      obtain ⟨r, a, -, -, ha, rfl⟩ := mem_certs.mp hx
      have h1 := mem4 ha
      show com.isAuthority a = true
      have : a = 1 ∨ a = 2 ∨ a = 3 ∨ a = 4 := by omega
      rcases this with rfl | rfl | rfl | rfl <;> decide
  gcPos := by decide
  window := by decide
  gcWindow := by decide

/-- What the store holds after it was given all certificates up to round 76. -/
def store : List Header :=
  Sync.writeAll 64 [] ((certs 1 76).map (fun h => ⟨h, .verifiedDirectly 0, []⟩))

set_option maxRecDepth 100000 in
theorem store_eq : store = certs 12 76 := by decide +kernel

/-- The sub-dags up to round 58: digests of the headers, scores, time. -/
def subs : List (List Nat × List Nat × Nat) := [
  ([13, 12, 11, 21], [0, 0, 0, 0], 2),
  ([23, 22, 33, 32, 31, 42], [1, 1, 1, 0], 4),
  ([43, 41, 53, 52, 51, 63], [2, 2, 2, 0], 6),
  ([62, 61, 73, 72, 71, 83, 82, 81, 93, 92, 91, 101], [3, 3, 3, 0], 10),
  ([103, 102, 113, 112, 111, 122], [4, 4, 4, 0], 12),
  ([123, 121, 133, 132, 131, 143], [5, 5, 5, 0], 14),
  ([142, 141, 153, 152, 151, 163, 162, 161, 173, 172, 171, 181], [6, 6, 6, 0], 18),
  ([183, 182, 193, 192, 191, 202], [7, 7, 7, 0], 20),
  ([203, 201, 213, 212, 211, 223], [8, 8, 8, 0], 22),
  ([222, 221, 233, 232, 231, 243, 242, 241, 253, 252, 251, 261], [9, 9, 9, 0], 26),
  ([263, 262, 273, 272, 271, 282], [10, 10, 10, 0], 28),
  ([283, 281, 293, 292, 291, 303], [11, 11, 11, 0], 30),
  ([302, 301, 313, 312, 311, 323, 322, 321, 333, 332, 331, 341], [12, 12, 12, 0], 34),
  ([343, 342, 353, 352, 351, 362], [13, 13, 13, 0], 36),
  ([363, 361, 373, 372, 371, 383], [14, 14, 14, 0], 38),
  ([382, 381, 393, 392, 391, 403, 402, 401, 413, 412, 411, 421], [15, 15, 15, 0], 42),
  ([423, 422, 433, 432, 431, 442], [16, 16, 16, 0], 44),
  ([443, 441, 453, 452, 451, 463], [17, 17, 17, 0], 46),
  ([462, 461, 473, 472, 471, 483, 482, 481, 493, 492, 491, 501], [18, 18, 18, 0], 50),
  ([503, 502, 513, 512, 511, 522], [19, 19, 19, 0], 52),
  ([523, 521, 533, 532, 531, 543], [20, 20, 20, 0], 54),
  ([542, 541, 553, 552, 551, 563, 562, 561, 573, 572, 571, 581], [21, 21, 21, 0], 58)]

def mkSub (x : List Nat × List Nat × Nat) : SubDag :=
  { headers := x.1.map (fun d => hdr (d / 10) (d % 10))
    scores := { scores := [1, 2, 3, 4].zip x.2.1 }
    timestamp := x.2.2
    randomness := 0 }

/-- A node that has all certificates up to round `k`. -/
def nodeAt (committed gc : Nat) (last : List (Nat × Nat)) (n k : Nat) : Node :=
  { st := { committedRound := committed, gcRound := gc, lastCommitted := last
            lastSub := ((subs.take n).map mkSub).getLast?, dag := certs (gc + 1) k }
    log := (subs.take n).map mkSub }

deriving instance DecidableEq for State
deriving instance DecidableEq for Node

def n16 : Node := nodeAt 14 0 [(1, 13), (2, 13), (3, 14)] 6 16

def n32 : Node := nodeAt 30 0 [(1, 29), (2, 29), (3, 30)] 12 32

def n46 : Node := nodeAt 44 0 [(1, 43), (2, 44), (3, 43)] 17 46

def n59 : Node := nodeAt 58 8 [(1, 58), (2, 57), (3, 57)] 22 59

def n68 : Node := nodeAt 58 8 [(1, 58), (2, 57), (3, 57)] 22 68

def n76 : Node := nodeAt 58 8 [(1, 58), (2, 57), (3, 57)] 22 76

set_option maxRecDepth 100000 in
theorem seg16 : run p (fun _ => 0) (certs 1 16) ⟨{}, []⟩ = some n16 := by decide +kernel

set_option maxRecDepth 100000 in
theorem seg32 : run p (fun _ => 0) (certs 17 32) n16 = some n32 := by decide +kernel

set_option maxRecDepth 100000 in
theorem seg46 : run p (fun _ => 0) (certs 33 46) n32 = some n46 := by decide +kernel

set_option maxRecDepth 100000 in
theorem seg59 : run p (fun _ => 0) (certs 47 59) n46 = some n59 := by decide +kernel

set_option maxRecDepth 100000 in
theorem seg68 : run p (fun _ => 0) (certs 60 68) n59 = some n68 := by decide +kernel

set_option maxRecDepth 100000 in
theorem seg76 : run p (fun _ => 0) (certs 69 76) n68 = some n76 := by decide +kernel

/-- What a node starts with that is stopped there. -/
def st76 : State := { n76.st with dag := certs 12 76 }

set_option maxRecDepth 100000 in
theorem recover76 : (recover p n76.log (certs 12 76)).toOption = some st76 := by decide +kernel

/-- The digest of the first header of the first sub-dag after round 58. -/
def first60 (n : Node) : Option Nat := n.log[22]?.bind (fun s => s.headers.head?.map (·.digest))

set_option maxRecDepth 100000 in
theorem next_running : (run p (fun _ => 0) (certs 77 77) n76).map first60 = some (some 114) := by decide +kernel

set_option maxRecDepth 100000 in
theorem next_restarted : (run p (fun _ => 0) (certs 77 77) ⟨st76, n76.log⟩).map first60 = some (some 124) := by
  decide +kernel

theorem reach76 : Reachable p U n76 := by
  have sub : ∀ {lo hi : Nat}, 1 ≤ lo → hi ≤ 77 → ∀ h ∈ certs lo hi, U h := by
    intro lo hi h1 h2 h hh
    obtain ⟨r, a, g1, g2, ha, rfl⟩ := mem_certs.mp hh
    exact mem_certs.mpr ⟨r, a, by omega, by omega, ha, rfl⟩
  have r0 : Reachable p U ⟨{}, []⟩ := .start rfl
  have r1 := run_reachable r0 (sub (by decide) (by decide)) seg16
  have r2 := run_reachable r1 (sub (by decide) (by decide)) seg32
  have r3 := run_reachable r2 (sub (by decide) (by decide)) seg46
  have r4 := run_reachable r3 (sub (by decide) (by decide)) seg59
  have r5 := run_reachable r4 (sub (by decide) (by decide)) seg68
  exact run_reachable r5 (sub (by decide) (by decide)) seg76

theorem not_prefix {n m : Node} {x y : Nat} (h : first60 n = some x) (h' : first60 m = some y) (hne : x ≠ y) :
    ¬ n.log <+: m.log := by
  rintro ⟨z, hz⟩
  unfold first60 at h h'
  cases hn : n.log[22]? with
  | none => rw [hn] at h; simp at h
  | some s =>
    have hl : 22 < n.log.length := by
      rcases Nat.lt_or_ge 22 n.log.length with h1 | h1
      · exact h1
      · rw [List.getElem?_eq_none h1] at hn; cases hn
    rw [← hz, List.getElem?_append_left hl] at h'
    rw [h] at h'
    exact hne (Option.some.inj h')

/-- Beyond the limit of `Sync.store_recoverable` the property fails, with the protocol's own constants: the last commit is
of round 58, the following leaders are not supported, certificates arrive up to round 76, and the store drops round 11,
of which one certificate is not yet committed and above the horizon of the next commit. A node restarted now and one
that is not commit different sub-dags for the leader of round 60. -/
theorem retention_can_fork : ∃ n st a b, Reachable p U n ∧ recover p n.log store = .ok st ∧
    (n.log.map (·.leaderRound)).getLast? = some 58 ∧
    run p (fun _ => 0) (certs 77 77) n = some a ∧
    run p (fun _ => 0) (certs 77 77) ⟨st, n.log⟩ = some b ∧ ¬ a.log <+: b.log ∧ ¬ b.log <+: a.log := by
  have h1 := next_running
  have h2 := next_restarted
  have h3 := recover76
  cases ha : run p (fun _ => 0) (certs 77 77) n76 with
  | none => rw [ha] at h1; cases h1
  | some a =>
    cases hb : run p (fun _ => 0) (certs 77 77) ⟨st76, n76.log⟩ with
    | none => rw [hb] at h2; cases h2
    | some b =>
      rw [ha] at h1
      rw [hb] at h2
      have f1 : first60 a = some 114 := Option.some.inj h1
      have f2 : first60 b = some 124 := Option.some.inj h2
      refine ⟨n76, st76, a, b, reach76, ?_, by decide +kernel, ha, hb, not_prefix f1 f2 (by decide),
        not_prefix f2 f1 (by decide)⟩
      rw [store_eq]
      cases hr : recover p n76.log (certs 12 76) with
      | error e => rw [hr] at h3; cases h3
      | ok s =>
        rw [hr] at h3
        cases h3
        rfl

end Retention
end Bull
end Verif
