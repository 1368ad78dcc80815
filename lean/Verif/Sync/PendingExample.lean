import Verif.Sync.PendingProps
import Verif.System.Joint
import Verif.Storage.CertsProps
/-
The assumption of the certificate manager's theorems holds in the joint system; an example.
-/
namespace Verif
namespace Joint
open System

/-- In the joint system the certified headers are linked as the certificate manager assumes. -/
theorem links {G : Setting} {s : State} (h : Reach G s) : Sync.Links (Cert G s) where
  inj ha hb he := G.H.inj ha.2.1 hb.2.1 he
  parentRound := by
    intro x y hx hy hd
    obtain ⟨i, ctx, hi, hf, hap, hck⟩ := certified_checked (w := world s h) hx.2
    have he : x.epoch = G.c.epoch := hx.1
    rw [he] at hap hck
    have hinv := h.inv.approved i x ctx hap
    rw [← hck.parentsFound] at hd
    obtain ⟨q, hq, hqd⟩ := List.mem_map.mp hd
    obtain ⟨-, h2, -⟩ := hck.parentsPrevious q hq
    have hqok : G.H.ok q := by
      by_cases hr : 2 ≤ x.round
      · exact (hinv.1 hr q hq).2.1
      · exact hinv.2 (by have := hck.roundPos; omega) q hq
    rw [← G.H.inj hqok hy.2.1 hqd]
    exact h2

/-- ... and unique as the certificate store assumes. -/
theorem uniq {G : Setting} {s : State} (h : Reach G s) : CertStore.Uniq (Cert G s) :=
  ⟨(certs h).digestInj, (certs h).unique⟩

end Joint

namespace Sync
namespace Example

def hdr (r d : Nat) (ps : List Nat) : Header := { author := 1, round := r, epoch := 1, digest := d, parents := ps }

def mk (h : Header) : Certificate := ⟨h, .verifiedDirectly 0, []⟩

def a := hdr 1 11 [1]
def b := hdr 2 12 [11]
def c := hdr 3 13 [12]
def e := hdr 5 15 [14]

def all : List Header := [a, b, c, e]

def cfg : Cfg := ⟨List.reverse, [1], 64⟩

theorem links : Links (· ∈ all) where
  inj := by
    intro x y hx hy
    have : ∀ x ∈ all, ∀ y ∈ all, x.digest = y.digest → x = y := by decide
    exact this x hx y hy
  parentRound := by
    intro x y hx hy
    have : ∀ x ∈ all, ∀ y ∈ all, y.digest ∈ x.parents → y.round + 1 = x.round := by decide
    exact this x hx y hy

theorem ord : ∀ l, (cfg.ord l).Perm l := fun l => List.reverse_perm l

/-- Certificates arrive in the wrong order; a parent of the last one never arrives. -/
def m1 : Mgr := (processOne cfg 0 (processOne cfg 0 (processOne cfg 0 ⟨{}, [], []⟩ (mk e)).1 (mk c)).1 (mk b)).1
def m2 : Mgr := (processOne cfg 0 m1 (mk a)).1
/-- Round 4 becomes garbage. -/
def m3 : Mgr := (processGc cfg 4 m2).1

theorem run1 : Reach cfg (· ∈ all) [] m1 [mk e, mk c, mk b] 0 0 :=
  .cert (.cert (.cert (.init 0) (Nat.le_refl _) (fun _ => by decide)) (Nat.le_refl _) (fun _ => by decide))
    (Nat.le_refl _) (fun _ => by decide)

theorem run2 : Reach cfg (· ∈ all) [] m2 [mk e, mk c, mk b, mk a] 0 0 :=
  .cert run1 (Nat.le_refl _) (fun _ => by decide)

theorem run3 : Reach cfg (· ∈ all) [] m3 [mk e, mk c, mk b, mk a] 4 4 := .gc run2 (by decide)

/-- Three wait; the arrival of the first round's certificate releases two of them in order, garbage collection
the third. -/
example : m1.waiting = [12, 13, 15] ∧ m1.accepted = [] ∧ m2.accepted = [11, 12, 13] ∧ m2.waiting = [15] ∧
    m3.accepted = [11, 12, 13, 15] ∧ m3.waiting = [] := by decide

example : OutCausal [1] m3.out := by simpa [cfg] using causal_order links ord run3

example : ∃ c : Certificate, c.header.digest = 15 ∧ c.header ∈ all ∧ 1 < c.header.round ∧
    ∃ d ∈ c.header.parents, d ∉ m2.store.map (·.digest) := not_stranded links ord run2 (by decide)

/-- A certificate that arrives again after it was accepted is handed over again: the manager checks only whether it
waits, not whether it is in the store. (`process_peer_certificate` checks the store before, but not under a lock;
bulk fetched certificates are not checked. Consensus ignores repeats, `Bull` state.rs try_insert.) -/
theorem repeat_handed_over_again :
    Reach cfg (· ∈ all) [] (processOne cfg 0 m2 (mk a)).1 [mk e, mk c, mk b, mk a, mk a] 0 0 ∧
    (processOne cfg 0 m2 (mk a)).1.accepted = [11, 12, 13, 11] :=
  ⟨.cert run2 (Nat.le_refl _) (fun _ => by decide), by decide⟩

end Example
end Sync
end Verif
