import Verif.Sync.PendingProps
import Verif.Bullshark.Example
/-
What the certificate store holds for a restart. The store keeps the last `ROUNDS_TO_KEEP` = 64 rounds below
the highest round it was given (`gc_rounds`, certificate_store.rs:149-166), while consensus needs at a restart
the certificates above the garbage collection round of the last commit. Here: the store is
what recovery needs (`Bull.StoreOk`) as long as the accepted certificates are at most 64 rounds above the
garbage collection round. `RetentionFork` shows that beyond that a restart can fork the chain.
-/
namespace Verif
namespace Sync

variable {U : Header → Prop} {C : Cfg} {S0 : List Header}

/-- Every certificate accepted or present at the start is in the store, unless a certificate more than `keep` rounds
above it was accepted; and the garbage collection rounds read so far are at most `g`. -/
structure Held (C : Cfg) (S0 : List Header) (m : Mgr) (g : Round) : Prop where
  kept : ∀ x, (x ∈ S0 ∨ ∃ c ∈ m.out, c.1.header = x) →
    x ∈ m.store ∨ ∃ c ∈ m.out, x.round + C.keep < c.1.header.round
  gcs : ∀ c ∈ m.out, c.2 ≤ g

theorem maxRound_mem {cs : List Certificate} (h : 0 < maxRound cs) :
    ∃ c ∈ cs, c.header.round = maxRound cs := by
  induction cs with
  | nil => simp [maxRound] at h
  | cons c cs ih =>
    simp only [maxRound] at h ⊢
    by_cases hc : maxRound cs ≤ c.header.round
    · exact ⟨c, by simp, by omega⟩
    · obtain ⟨d, hd, e⟩ := ih (by omega)
      exact ⟨d, by simp [hd], by omega⟩

theorem Held.pend {m : Mgr} {g : Round} (h : Held C S0 m g) (p : Pending) :
    Held C S0 { m with pend := p } g := ⟨h.kept, h.gcs⟩

theorem Held.accept {m : Mgr} {g : Round} (h : Held C S0 m g) (cs : List Certificate) :
    Held C S0 (accept C g m cs) g := by
  constructor
  · intro x hx
    have hx' : x ∈ cs.map (·.header) ++ m.store ∨ ∃ c ∈ m.out, x.round + C.keep < c.1.header.round := by
      rcases hx with hx | ⟨c, hc, rfl⟩
      · rcases h.kept x (.inl hx) with h1 | h1
        · exact .inl (List.mem_append_right _ h1)
        · exact .inr h1
      · rcases List.mem_append.mp hc with hc | hc
        · rcases h.kept c.1.header (.inr ⟨c, hc, rfl⟩) with h1 | h1
          · exact .inl (List.mem_append_right _ h1)
          · exact .inr h1
        · obtain ⟨a, ha, rfl⟩ := List.mem_map.mp hc
          exact .inl (List.mem_append_left _ (List.mem_map.mpr ⟨a, ha, rfl⟩))
    rcases hx' with hx' | ⟨c, hc, hr⟩
    · by_cases hm : maxRound cs ≤ C.keep
      · left
        show x ∈ writeAll C.keep m.store cs
        unfold writeAll
        dsimp only
        rw [if_pos hm]
        exact hx'
      · by_cases hr : maxRound cs - C.keep ≤ x.round
        · left
          show x ∈ writeAll C.keep m.store cs
          unfold writeAll
          dsimp only
          rw [if_neg hm]
          exact List.mem_filter.mpr ⟨hx', decide_eq_true hr⟩
        · right
          obtain ⟨c, hc, e⟩ := maxRound_mem (cs := cs) (by omega)
          exact ⟨(c, g), List.mem_append_right _ (List.mem_map.mpr ⟨c, hc, rfl⟩), by dsimp only; omega⟩
    · exact .inr ⟨c, List.mem_append_left _ hc, hr⟩
  · intro c hc
    rcases List.mem_append.mp hc with hc | hc
    · exact h.gcs c hc
    · obtain ⟨a, ha, rfl⟩ := List.mem_map.mp hc
      exact Nat.le_refl _

theorem Held.release {m : Mgr} {g : Round} (h : Held C S0 m g) (k : Round × Digest) (front : List Certificate) :
    Held C S0 (release C g m k front).1 g := by
  unfold Sync.release
  split
  · exact h.pend _
  · exact (h.pend _).accept _

theorem Held.processOne {m : Mgr} {g : Round} (h : Held C S0 m g) (cert : Certificate) :
    Held C S0 (processOne C g m cert).1 g := by
  unfold Sync.processOne
  dsimp only
  split
  · exact h
  · split
    · exact h
    · split
      · split
        · exact h
        · exact h.release _ _
        · split
          · exact h.pend _
          · exact h.pend _
      · exact h.release _ _

theorem Held.gcLoop {g : Round} (n : Nat) {m : Mgr} (h : Held C S0 m g) : Held C S0 (gcLoop C g n m).1 g := by
  induction n generalizing m with
  | zero => exact h
  | succ n ih =>
    unfold Sync.gcLoop
    split
    · exact h.pend _
    · rename_i p k _
      have hr := (h.pend p).release k []
      split
      · rename_i m' e he
        rw [he] at hr; exact hr
      · rename_i m' u he
        rw [he] at hr; exact ih hr

theorem Held.mono {m : Mgr} {g g' : Round} (h : Held C S0 m g) (hg : g ≤ g') : Held C S0 m g' :=
  ⟨h.kept, fun c hc => Nat.le_trans (h.gcs c hc) hg⟩

theorem Reach.held {m : Mgr} {subs : List Certificate} {g lo : Round} (h : Reach C U S0 m subs g lo) :
    Held C S0 m g := by
  induction h with
  | init g =>
    exact ⟨fun x hx => .inl (hx.elim id (fun ⟨c, hc, _⟩ => by cases hc)), fun c hc => by cases hc⟩
  | cert _ hg _ ih => exact (ih.mono hg).processOne _
  | gc _ hg ih => exact (ih.mono hg).gcLoop _

/-- **C31** (with C20) The certificate store is what a restart needs: if the store was so at the start of the process,
the garbage collection rounds read were at most `gc`, and no certificate more than `keep` rounds above `gc` was accepted,
then the store holds, with every certificate above the horizon, all of its parents. -/
theorem store_recoverable (hL : Links U) (hord : ∀ l, (C.ord l).Perm l) {m : Mgr} {subs : List Certificate}
    {g lo : Round} (h : Reach C U S0 m subs g lo)
    (hgen : ∀ x, U x → 2 ≤ x.round → ∀ d ∈ x.parents, d ∉ C.genesis)
    {gc : Round} (hg : g ≤ gc) (h0 : Bull.StoreOk U gc S0)
    (hhi : ∀ c ∈ m.out, c.1.header.round ≤ gc + 1 + C.keep) : Bull.StoreOk U gc m.store := by
  have I := h.inv hL hord
  have K := h.held
  have hU : ∀ x ∈ m.store, U x := by
    intro x hx
    rcases I.store x hx with hx | ⟨c, hc, rfl⟩
    · exact h0.1 x hx
    · exact (I.out c hc).2
  refine ⟨hU, fun x hx hr d hd => ?_⟩
  have hxU := hU x hx
  -- the parent was accepted or present at the start
  have hpar : ∃ q, (q ∈ S0 ∨ ∃ c ∈ m.out, c.1.header = q) ∧ q.digest = d := by
    rcases I.store x hx with hx | ⟨c, hc, rfl⟩
    · obtain ⟨q, hq, _, e⟩ := h0.2 x hx hr d hd
      exact ⟨q, .inl hq, e⟩
    · obtain ⟨a, b, hab⟩ := List.append_of_mem hc
      have hgc := K.gcs c hc
      rcases I.causal a c.1 c.2 b hab d hd with h1 | h1 | h1
      · rcases List.mem_append.mp h1 with h1 | h1
        · exact absurd h1 (hgen _ hxU (by omega) d hd)
        · obtain ⟨q, hq, e⟩ := List.mem_map.mp h1
          exact ⟨q, .inl hq, e⟩
      · obtain ⟨q, hq, e⟩ := List.mem_map.mp h1
        exact ⟨q.1.header, .inr ⟨q, by rw [hab]; exact List.mem_append_left _ hq, rfl⟩, e⟩
      · omega
  obtain ⟨q, hq, e⟩ := hpar
  have hqU : U q := by
    rcases hq with hq | ⟨c, hc, rfl⟩
    · exact h0.1 q hq
    · exact (I.out c hc).2
  have hround := hL.parentRound hxU hqU (by rw [e]; exact hd)
  rcases K.kept q hq with h1 | ⟨c, hc, hlt⟩
  · exact ⟨q, h1, hround, e⟩
  · have := hhi c hc
    omega

/-- A restart from such a store: recovery succeeds and consensus is in the state that belongs to what it emitted. -/
theorem restart_from_store {p : Bull.Params} (hS : Bull.Setup p U) (hL : Links U) (hord : ∀ l, (C.ord l).Perm l)
    {m : Mgr} {subs : List Certificate} {g lo : Round} (h : Reach C U S0 m subs g lo)
    (hgen : ∀ x, U x → 2 ≤ x.round → ∀ d ∈ x.parents, d ∉ C.genesis) {n : Bull.Node} (hn : Bull.Reachable p U n)
    (hf : Bull.FinalInWindow p n.log)
    (hg : g ≤ Bull.gcOf p (Bull.roundOf n.log)) (h0 : Bull.StoreOk U (Bull.gcOf p (Bull.roundOf n.log)) S0)
    (hhi : ∀ c ∈ m.out, c.1.header.round ≤ Bull.gcOf p (Bull.roundOf n.log) + 1 + C.keep) :
    ∃ st, Bull.recover p n.log m.store = .ok st ∧ Bull.Reachable p U ⟨st, n.log⟩ := by
  have hs := store_recoverable hL hord h hgen hg h0 hhi
  obtain ⟨st, e, -⟩ := Bull.recover_ok hS.certs ((hn.inv hS).1.wf hS.committee hS.gcPos hS.certs) hS.window
    hS.gcWindow hf hs
  exact ⟨st, e, .restart hn (List.prefix_refl _) hs hf e⟩

/-! ### An example: the certificates of `Bull.Ex` arrive newest first -/

namespace RetEx

def cfg : Cfg := ⟨List.reverse, [], 64⟩

theorem links : Links Bull.Ex.U where
  inj {a b} ha hb := Bull.Ex.setup.certs.digestInj ha hb
  parentRound := by
    have : ∀ x ∈ Bull.Ex.certs, ∀ y ∈ Bull.Ex.certs, y.digest ∈ x.parents → y.round + 1 = x.round := by
      decide +kernel
    intro x y hx hy; exact this x hx y hy

def mgr (cs : List Header) : Mgr :=
  cs.foldl (fun m h => (processOne cfg 0 m ⟨h, .verifiedDirectly 0, []⟩).1) ⟨{}, [], []⟩

theorem mgr_reach (cs : List Header) (h : ∀ x ∈ cs, Bull.Ex.U x) :
    ∃ subs, Reach cfg Bull.Ex.U [] (mgr cs) subs 0 0 := by
  induction cs using List.reverseRecOn with
  | nil => exact ⟨[], .init 0⟩
  | append_singleton cs c ih =>
    obtain ⟨subs, hr⟩ := ih (fun x hx => h x (by simp [hx]))
    refine ⟨subs ++ [⟨c, .verifiedDirectly 0, []⟩], ?_⟩
    have := Reach.cert (cert := ⟨c, .verifiedDirectly 0, []⟩) hr (Nat.le_refl 0) (fun _ => h c (by simp))
    unfold mgr at this ⊢
    rw [List.foldl_append]
    exact this

/-- All hypotheses of `restart_from_store` at once: 27 certificates accepted out of order, three sub-dags emitted. -/
theorem example_restart : ∃ (st : Bull.State) (n : Bull.Node), n.log.map (·.leaderRound) = [2, 4, 6] ∧ (mgr Bull.Ex.certs.reverse).store.length = 27 ∧
    Bull.recover Bull.Ex.p n.log (mgr Bull.Ex.certs.reverse).store = .ok st ∧
    Bull.Reachable Bull.Ex.p Bull.Ex.U ⟨st, n.log⟩ := by
  have hrun : ((Bull.run Bull.Ex.p (fun _ => 0) Bull.Ex.certs ⟨Bull.Ex.st0, []⟩).map (fun m =>
      (m.log.map (·.leaderRound), Bull.roundOf m.log, (Bull.lastN 2 m.log).any (fun s => s.scores.final)))) =
      some ([2, 4, 6], 6, true) := by decide +kernel
  cases h : Bull.run Bull.Ex.p (fun _ => 0) Bull.Ex.certs ⟨Bull.Ex.st0, []⟩ with
  | none => rw [h] at hrun; cases hrun
  | some n =>
  rw [h] at hrun
  simp only [Option.map_some, Option.some.injEq, Prod.mk.injEq] at hrun
  obtain ⟨hlog, hround, hfin⟩ := hrun
  have hn : Bull.Reachable Bull.Ex.p Bull.Ex.U n := Bull.run_reachable Bull.Ex.start (fun _ h => h) h
  obtain ⟨subs, hm⟩ := mgr_reach Bull.Ex.certs.reverse (fun x hx => List.mem_reverse.mp hx)
  obtain ⟨st, h1, h2⟩ := restart_from_store Bull.Ex.setup links (fun l => List.reverse_perm l) hm
    (fun x _ _ d _ h => by cases h) hn
    (.inr (by obtain ⟨s, hs, e⟩ := List.any_eq_true.mp hfin; exact ⟨s, hs, e⟩))
    (Nat.zero_le _) ⟨by simp, by simp⟩
    (by
      rw [hround]
      have : ∀ c ∈ (mgr Bull.Ex.certs.reverse).out, c.1.header.round ≤ 7 := by decide +kernel
      intro c hc
      have := this c hc
      show _ ≤ 6 - 4 + 1 + 64
      omega)
  exact ⟨st, n, hlog, by decide +kernel, h1, h2⟩

end RetEx
end Sync

end Verif
