import Mathlib.Data.List.Nodup
import Verif.Rpc.BlockingMain
/-
Property C102: what the answers say, for a registry that behaves as its interface promises, and a concrete history.
-/
namespace Verif
namespace Rpc

variable {R V K : Type}

/-- Specification: the promise of the registry (the contract is not in the repository): `getValidatorsInfo(status)` gives
the validators of exactly this status for the five real ones, and reverts on the two sentinels. `listed r` are the
validators of the registry, `statusOf` their status. -/
structure Promise (e : Env R V K) (listed : R → List V) (statusOf : V → Nat) (why : List Nat) : Prop where
  real : ∀ r u, 1 ≤ u → u ≤ 5 → e.exec r (.validatorsInfo u) = .success (.infos ((listed r).filter fun v => statusOf v == u))
  sentinel : ∀ r u, u = 0 ∨ 6 ≤ u → e.exec r (.validatorsInfo u) = .revert why

theorem collect_length {T : Type} (f : Calldata → Except ReadErr T) : ∀ (cds : List Calldata) (vs : List T),
    collect f cds = .ok vs → vs.length = cds.length ∧ ∀ (i : Nat) cd, cds[i]? = some cd → ∃ v, vs[i]? = some v ∧ f cd = .ok v
  | [], vs, h => by
      simp only [collect, Except.ok.injEq] at h
      subst h
      exact ⟨rfl, fun i cd hcd => by simp at hcd⟩
  | cd :: cds, vs, h => by
      rw [collect] at h
      cases hf : f cd with
      | error x => rw [hf] at h; cases h
      | ok v =>
        rw [hf] at h
        dsimp only at h
        cases hr : collect f cds with
        | error x => rw [hr] at h; cases h
        | ok ws =>
          rw [hr] at h
          simp only [Except.ok.injEq] at h
          subst h
          obtain ⟨h1, h2⟩ := collect_length f cds ws hr
          refine ⟨by simp [h1], ?_⟩
          intro i d hd
          cases i with
          | zero =>
            simp only [List.getElem?_cons_zero, Option.some.injEq] at hd
            subst hd
            exact ⟨v, rfl, hf⟩
          | succ i =>
            simp only [List.getElem?_cons_succ] at hd
            exact h2 i d hd

theorem single_eq {T : Type} (e : Env R V K) (dec : Data V → Option T) (r : R) (cd : Calldata) :
    single e dec (some r) cd = callRegistry e dec r cd := by
  unfold single batch
  dsimp only
  rw [collect]
  cases callRegistry e dec r cd with
  | error x => rfl
  | ok v => rfl

/-- **C102.** A request for one status is answered with the validators of that status. -/
theorem one_status {e : Env R V K} {listed : R → List V} {statusOf : V → Nat} {why : List Nat}
    (p : Promise e listed statusOf why) (r : R) (st : Status) (h : st ∈ concrete) :
    work e (some r) (.validators st) = .infos ((listed r).filter fun v => statusOf v == st.code) := by
  have hc : 1 ≤ st.code ∧ st.code ≤ 5 := by
    simp only [concrete, List.mem_cons, List.not_mem_nil, or_false] at h
    rcases h with h | h | h | h | h <;> subst h <;> decide
  have hne : st ≠ .any := by
    intro h'
    subst h'
    simp [concrete] at h
  have hw : work e (some r) (.validators st) = mapReply Reply.infos (single e asInfos (some r) (.validatorsInfo st.code)) := by
    cases st <;> first | rfl | exact absurd rfl hne
  rw [hw, single_eq]
  unfold callRegistry
  rw [p.real r st.code hc.1 hc.2]
  rfl

/-- **C102.** "Undefined" surfaces the revert of the registry, with its bytes. -/
theorem undefined_reverts {e : Env R V K} {listed : R → List V} {statusOf : V → Nat} {why : List Nat}
    (p : Promise e listed statusOf why) (r : R) : work e (some r) (.validators .undefined) = .revert why := by
  have hw : work e (some r) (.validators .undefined) =
      mapReply Reply.infos (single e asInfos (some r) (.validatorsInfo 0)) := rfl
  rw [hw, single_eq]
  unfold callRegistry
  rw [p.sentinel r 0 (Or.inl rfl)]
  rfl

theorem countP_filter_cons (q P : V → Bool) (v : V) (l : List V) :
    ((v :: l).filter q).countP P = (if q v && P v then 1 else 0) + (l.filter q).countP P := by
  rw [List.filter_cons]
  cases q v with
  | false => simp
  | true => simp only [if_true, List.countP_cons, Bool.true_and]; omega

theorem count_filters (p : V → Nat) (P : V → Bool) : ∀ (l : List V),
    ((l.filter fun v => p v == 1) ++ (l.filter fun v => p v == 2) ++ (l.filter fun v => p v == 3) ++
      (l.filter fun v => p v == 4) ++ (l.filter fun v => p v == 5)).countP P
      = (l.filter fun v => decide (1 ≤ p v ∧ p v ≤ 5)).countP P
  | [] => rfl
  | v :: l => by
      have ih := count_filters p P l
      simp only [List.countP_append] at ih
      simp only [List.countP_append, countP_filter_cons]
      have hk : (if (p v == 1) && P v then 1 else 0) + (if (p v == 2) && P v then 1 else 0) + (if (p v == 3) && P v then 1 else 0)
          + (if (p v == 4) && P v then 1 else 0) + (if (p v == 5) && P v then 1 else 0)
          = (if decide (1 ≤ p v ∧ p v ≤ 5) && P v then 1 else 0 : Nat) := by
        cases P v with
        | false => simp
        | true =>
          generalize p v = n
          simp only [Bool.and_true, beq_iff_eq, decide_eq_true_eq]
          split <;> split <;> split <;> split <;> split <;> split <;> omega
      omega

/-- **C102.** "Any" is answered with all validators that have one of the five statuses, each exactly as often as the
registry of that one block lists it: none is lost and none is doubled, whatever blocks are committed meanwhile. -/
theorem any_is_all [DecidableEq V] {e : Env R V K} {listed : R → List V} {statusOf : V → Nat} {why : List Nat}
    (p : Promise e listed statusOf why) (r : R) :
    ∃ l, work e (some r) (.validators .any) = .infos l ∧
      (∀ v, l.count v = ((listed r).filter fun v => decide (1 ≤ statusOf v ∧ statusOf v ≤ 5)).count v) ∧
      ((listed r).Nodup → l.Nodup) := by
  have hb : batch e asInfos (some r) (concrete.map fun st => Calldata.validatorsInfo st.code)
      = .ok [(listed r).filter fun v => statusOf v == 1, (listed r).filter fun v => statusOf v == 2,
        (listed r).filter fun v => statusOf v == 3, (listed r).filter fun v => statusOf v == 4,
        (listed r).filter fun v => statusOf v == 5] := by
    have hc : ∀ u, 1 ≤ u → u ≤ 5 → callRegistry e asInfos r (.validatorsInfo u)
        = .ok ((listed r).filter fun v => statusOf v == u) := by
      intro u h1 h2
      unfold callRegistry
      rw [p.real r u h1 h2]
      rfl
    show collect (callRegistry e asInfos r) [.validatorsInfo 1, .validatorsInfo 2, .validatorsInfo 3, .validatorsInfo 4,
      .validatorsInfo 5] = _
    simp only [collect, hc 1 (by omega) (by omega), hc 2 (by omega) (by omega), hc 3 (by omega) (by omega),
      hc 4 (by omega) (by omega), hc 5 (by omega) (by omega)]
  have hcount : ∀ v, ([(listed r).filter fun v => statusOf v == 1, (listed r).filter fun v => statusOf v == 2,
        (listed r).filter fun v => statusOf v == 3, (listed r).filter fun v => statusOf v == 4,
        (listed r).filter fun v => statusOf v == 5].flatten).count v
        = ((listed r).filter fun v => decide (1 ≤ statusOf v ∧ statusOf v ≤ 5)).count v := by
    intro v
    have := count_filters statusOf (fun w => w == v) (listed r)
    simp only [List.flatten_cons, List.flatten_nil, List.append_nil, List.count]
    simp only [List.append_assoc] at this
    exact this
  refine ⟨_, ?_, hcount, ?_⟩
  · show mapReply (fun (sets : List (List V)) => Reply.infos sets.flatten) (batch e asInfos (some r) _) = _
    rw [hb]
    rfl
  · intro hnd
    rw [List.nodup_iff_count_le_one]
    intro v
    rw [hcount v]
    exact List.nodup_iff_count_le_one.mp (hnd.filter _) v

/-- **C102.** No partial list: if any of the five reads fails the answer is not a list. -/
theorem any_all_or_error {e : Env R V K} {r : R} {l : List V} (h : work e (some r) (.validators .any) = .infos l) :
    ∀ st ∈ concrete, ∃ m, work e (some r) (.validators st) = .infos m ∧ ∀ v ∈ m, v ∈ l := by
  have hw : work e (some r) (.validators .any) = mapReply (fun (sets : List (List V)) => Reply.infos sets.flatten)
      (batch e asInfos (some r) (concrete.map fun st => Calldata.validatorsInfo st.code)) := rfl
  rw [hw] at h
  cases hb : batch e asInfos (some r) (concrete.map fun st => Calldata.validatorsInfo st.code) with
  | error x =>
    rw [hb] at h
    cases x <;> cases h
  | ok sets =>
    rw [hb] at h
    simp only [mapReply, Reply.infos.injEq] at h
    intro st hst
    obtain ⟨i, hi⟩ := List.getElem?_of_mem hst
    have hcd : (concrete.map fun st => Calldata.validatorsInfo st.code)[i]? = some (Calldata.validatorsInfo st.code) := by
      rw [List.getElem?_map, hi]
      rfl
    obtain ⟨m, hm, hok⟩ := (collect_length _ _ _ hb).2 i _ hcd
    have hne : st ≠ .any := by
      intro h'
      subst h'
      simp [concrete] at hst
    have hws : work e (some r) (.validators st) = mapReply Reply.infos (single e asInfos (some r) (.validatorsInfo st.code)) := by
      cases st <;> first | rfl | exact absurd rfl hne
    refine ⟨m, ?_, ?_⟩
    · rw [hws, single_eq, hok]
      rfl
    · intro v hv
      rw [← h]
      exact List.mem_flatten.mpr ⟨m, List.mem_of_getElem? hm, hv⟩

/-- **C102.** A revert of any single read reaches the client with its bytes, everything else that goes wrong (a halt,
return data that does not decode, a block whose state cannot be opened) says nothing but "internal". -/
theorem failures (e : Env R V K) (r : R) (n : Nat) :
    (∀ out, e.exec r (.other n) = .revert out → work e (some r) (.other n) = .revert out) ∧
    (e.exec r (.other n) = .halt → work e (some r) (.other n) = .internal) ∧
    (∀ d, e.exec r (.other n) = .success d → asRaw d = none → work e (some r) (.other n) = .internal) ∧
    (∀ d v, e.exec r (.other n) = .success d → asRaw d = some v → work e (some r) (.other n) = .raw v) ∧
    work e none (.other n) = .internal := by
  have hw : work e (some r) (.other n) = mapReply Reply.raw (callRegistry e asRaw r (.other n)) := by
    show mapReply Reply.raw (single e asRaw (some r) (.other n)) = _
    rw [single_eq]
  refine ⟨?_, ?_, ?_, ?_, rfl⟩
  · intro out h
    rw [hw]
    unfold callRegistry
    rw [h]
    rfl
  · intro h
    rw [hw]
    unfold callRegistry
    rw [h]
    rfl
  · intro d h hd
    rw [hw]
    unfold callRegistry
    rw [h]
    dsimp only
    rw [hd]
    rfl
  · intro d v h hd
    rw [hw]
    unfold callRegistry
    rw [h]
    dsimp only
    rw [hd]
    rfl

/-- **C102.** The stake version the registry keeps as a `uint8` is answered unchanged. -/
theorem stake_version (e : Env R V K) (r : R) (n : Nat) (hn : n < 256) (h : e.exec r .stakeVersion = .success (.word n)) :
    work e (some r) .stakeVersion = .num n := by
  show mapReply (fun n => Reply.num (n % 256)) (single e asWord (some r) .stakeVersion) = _
  rw [single_eq]
  unfold callRegistry
  rw [h]
  have h2 : n < 65536 := by omega
  simp [asWord, h2, mapReply, Nat.mod_eq_of_lt hn]

/-- **C102.** The message to sign: it is the same for all encodings of a key, has 119 bytes, and names its key and
address. -/
theorem pop_message (e : Env R V K) (pin : Option R) (key address : List Nat) (k : K) (hk : e.parse key = some k) :
    work e pin (.popMessage key address) = .bytes ([0, 0, 0] ++ e.compress k ++ address) := by
  show (match e.parse key with | some k => Reply.bytes (popBytes (e.compress k) address) | none => .invalidParams) = _
  rw [hk]
  rfl

theorem pop_same_for_encodings (e : Env R V K) (pin : Option R) (key key' address : List Nat) (k : K)
    (h1 : e.parse key = some k) (h2 : e.parse key' = some k) :
    work e pin (.popMessage key address) = work e pin (.popMessage key' address) := by
  rw [pop_message e pin key address k h1, pop_message e pin key' address k h2]

theorem pop_binds (c c' a a' : List Nat) (hc : c.length = 96) (hc' : c'.length = 96)
    (h : popBytes c a = popBytes c' a') : c = c' ∧ a = a' := by
  unfold popBytes at h
  rw [List.append_assoc, List.append_assoc] at h
  have h1 := List.append_cancel_left h
  exact List.append_inj h1 (by omega)

theorem pop_length (c a : List Nat) (hc : c.length = 96) (ha : a.length = 20) : (popBytes c a).length = 119 := by
  simp [popBytes, hc, ha]

/-! ### A concrete history -/

/-- A registry is the list of (validator, status). -/
def demoEnv : Env (List (Nat × Nat)) (Nat × Nat) Nat where
  exec r cd :=
    match cd with
    | .validatorsInfo u =>
      if decide (1 ≤ u ∧ u ≤ 5) then .success (.infos (r.filter fun v => v.2 == u)) else .revert [9]
    | .stakeVersion => .success (.word 3)
    | .other n => if n = 0 then .halt else .success (.raw n)
  parse key := if key.length == 96 || key.length == 192 then key.head? else none
  compress k := List.replicate 96 k

/-- The registry keeps its promise: the hypotheses of the theorems above are met. -/
theorem demo_promise : Promise demoEnv (fun r => r) (fun v => v.2) [9] := by
  refine ⟨?_, ?_⟩
  · intro r u h1 h2
    show (if decide (1 ≤ u ∧ u ≤ 5) = true then _ else _) = _
    rw [if_pos (by simp [h1, h2])]
  · intro r u h
    show (if decide (1 ≤ u ∧ u ≤ 5) = true then _ else _) = _
    rw [if_neg (by simp; omega)]

def before : List (Nat × Nat) := [(1, 3), (2, 1), (3, 6), (4, 5)]

/-- Validator 2 is activated and validator 1 begins to exit. -/
def after : List (Nat × Nat) := [(1, 4), (2, 3), (3, 6), (4, 5)]

/-- A block is committed while "Any" is being answered: the answer is the whole list of the block before. Validator 3 is
retired and in no set. -/
def demo : List (Ev (List (Nat × Nat))) :=
  [.call (.validators .any), .start 0, .commit after, .finish 0 false, .send 0]

theorem demo_runs : (run demoEnv (start [before]) demo).map (fun s => (s.free, s.calls.map fun c => c.client))
    = some (64, [.answered (.infos [(2, 1), (1, 3), (4, 5)])]) := by decide +kernel

/-- Five reads on different blocks would list validator 2 twice. -/
example : ((before.filter fun v => v.2 == 1) ++ (after.filter fun v => v.2 == 3)).map (·.1) = [2, 2] := by decide

/-- 64 calls run and one waits. -/
def busy : List (Ev (List (Nat × Nat))) :=
  (List.replicate 65 (Ev.call .stakeVersion)) ++ [Ev.call (.popMessage [1] [])] ++
    (List.range 64).map (fun i => Ev.start i) ++ [Ev.leave 3]

/-- All permits are taken, the disconnect of call 3 freed none, and the malformed key was answered. -/
theorem busy_runs : (run demoEnv (start [before]) busy).map
    (fun s => (s.free, s.queue, occupied s)) = some (0, [64], 64) := by decide +kernel

theorem busy_refused : ((run demoEnv (start [before]) busy).bind fun s => s.calls[65]?.map fun c => c.client)
    = some (.answered .invalidParams) := by decide +kernel

/-- The end of call 3 gives the permit to the one that waits. -/
theorem busy_then : (run demoEnv (start [before])
      (busy ++ [Ev.finish 3 false, Ev.poll 64, Ev.start 64, Ev.finish 64 false, Ev.send 64])).map
    (fun s => (s.free, s.queue, occupied s)) = some (1, [], 63) := by decide +kernel

theorem busy_served : ((run demoEnv (start [before])
      (busy ++ [Ev.finish 3 false, Ev.poll 64, Ev.start 64, Ev.finish 64 false, Ev.send 64])).bind
      fun s => s.calls[64]?.map fun c => c.client) = some (.answered (.num 3)) := by decide +kernel

theorem reach_of_run {e : Env R V K} : ∀ (vs : List (Ev R)) {s t : St R V}, Reach e s → run e s vs = some t → Reach e t
  | [], s, t, h, hr => by
      simp only [run, Option.some.injEq] at hr
      exact hr ▸ h
  | v :: vs, s, t, h, hr => by
      rw [run] at hr
      cases hs : step e s v with
      | none => rw [hs] at hr; cases hr
      | some m =>
        rw [hs] at hr
        exact reach_of_run vs (Reach.step v h hs) hr

/-- The states of these histories are among those the theorems speak of. -/
theorem busy_reach : ∃ s : St (List (Nat × Nat)) (Nat × Nat), Reach demoEnv s ∧ occupied s = 64 ∧ s.queue = [64] := by
  have h := busy_runs
  cases hr : run demoEnv (start [before]) busy with
  | none => rw [hr] at h; cases h
  | some s =>
    rw [hr] at h
    simp only [Option.map_some, Option.some.injEq, Prod.mk.injEq] at h
    exact ⟨s, reach_of_run busy (Reach.start [before] (by simp)) hr, h.2.2, h.2.1⟩

end Rpc
end Verif
