import Verif.Gateway.LimiterKey

/-!
# A run of the rate limiters

A gateway-wide limit of 6 with a refill of one a second, a per-client limit of 2 with a refill of one a
second, and room for a single per-client bucket.
-/

namespace Verif.Gate.Example

open Verif.Gate

def cfg : Cfg :=
  { global := some ⟨1, 6, by decide, by decide⟩, perIp := some ⟨1, 2, by decide, by decide⟩,
    maxEntries := 1, pre := Prefix.default }

def a : Ip := .v4 0x0a000001#32
def a' : Ip := .v6 0x0000000000000000000000ffff0a000001#128
def b : Ip := .v4 0x0a000002#32

/-- Three requests of `a` (one of them over a dual-stack listener), one of `b` while the table is full,
a sweep two seconds later, and `b` again. -/
def es : List Ev :=
  oneCheck a ++ oneCheck a' ++ oneCheck a ++ oneCheck b ++
    [.tick 2000000000, .gcRead, .gcSweep] ++ oneCheck b

def outcome : Option (List TEv × List (Nat × Bool) × List Verdict × List Ip) :=
  ((S.init cfg 0).runs cfg es).map fun s =>
    (s.tlog, s.glog, s.answers.map Ans.verdict, s.table.map Prod.fst)

theorem outcome_eq : outcome = some
    ([.took a 0 .counted, .took a 0 .counted, .took a 0 .refused, .took b 0 .untracked,
      .swept 2000000000, .took b 2000000000 .counted],
     [(0, true), (0, true), (0, true), (0, true), (2000000000, true)],
     [.allowed, .allowed, .rateLimited, .allowed, .allowed], [b]) := by decide +kernel

/-- The histories the theorems speak of occur: the run is reachable, a request is refused, one is let
through uncounted, a sweep drops a bucket. -/
theorem reachable : ∃ s, Reach cfg s ∧
    s.tlog = [.took a 0 .counted, .took a 0 .counted] ++ .took a 0 .refused ::
      [.took b 0 .untracked, .swept 2000000000, .took b 2000000000 .counted] ∧
    Window [TEv.took a 0 .counted, .took a 0 .counted, .took a 0 .refused] s.tlog ∧
    tracked a [TEv.took a 0 .counted, .took a 0 .counted, .took a 0 .refused] := by
  have h := outcome_eq
  unfold outcome at h
  obtain ⟨s, hs, he⟩ := Option.map_eq_some_iff.1 h
  have ht : s.tlog = _ := congrArg Prod.fst he
  refine ⟨s, ⟨0, es, hs⟩, ht, ⟨[], _, ht⟩, ?_⟩
  intro n hn
  simp at hn

/-- The two forms of `a`'s address have one bucket; `b` has another; two addresses of one `/64` share,
two of different `/64` do not. -/
theorem keys : Prefix.default.key a = Prefix.default.key a' ∧
    Prefix.default.key a ≠ Prefix.default.key b ∧
    Prefix.default.key (.v6 0x20010db8000000010000000000000001#128)
      = Prefix.default.key (.v6 0x20010db8000000010000000000000002#128) ∧
    Prefix.default.key (.v6 0x20010db8000000010000000000000001#128)
      ≠ Prefix.default.key (.v6 0x20010db8000000020000000000000001#128) := by decide +kernel

/-- Out-of-order locks: with a limit of one request a second and a burst of one, three requests that
read the clock at 0 and three that read it a second later, the later ones always first to the lock: three
are passed on within one second. -/
def skewCfg : Cfg :=
  { global := some ⟨1, 1, by decide, by decide⟩, perIp := none, maxEntries := 1, pre := Prefix.default }

theorem skew : ((S.init skewCfg 0).runs skewCfg
      (List.replicate 3 (.arrive "/" none) ++ [.tick 1000000000]
        ++ List.replicate 3 (.arrive "/" none)
        ++ [.global 3, .global 0, .global 2, .global 0, .global 1, .global 0])).map
      (fun s => (s.clock, (allowedAns s.answers).length)) = some (1000000000, 3) := by
  decide +kernel

end Verif.Gate.Example
