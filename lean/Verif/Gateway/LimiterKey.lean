import Verif.Gateway.LimiterMain

/-!
# The key of a client, and what the limiters do not guarantee
-/

namespace Verif.Gate

open Verif.Net (get put del keys)

/-! ## The key -/

theorem maskAddr_bit {w : Nat} (a : BitVec w) (p i : Nat) (hi : i < w) :
    (maskAddr a p).getLsbD i = (a.getLsbD i && decide (w - p ≤ i)) := by
  unfold maskAddr mask
  dsimp only
  rw [BitVec.getLsbD_and]
  split
  · rw [BitVec.getLsbD_shiftLeft, BitVec.getLsbD_allOnes]
    by_cases h : w - p ≤ i
    · have h1 : ¬ i < w - p := by omega
      have h2 : i - (w - p) < w := by omega
      simp [hi, h, h1, h2]
    · have h1 : i < w - p := by omega
      simp [h, h1]
  · have h1 : ¬ w - p ≤ i := by omega
    simp [h1]

/-- Two addresses of one family mask to the same key exactly when their first `p` bits agree. -/
theorem maskAddr_eq_iff {w : Nat} (a b : BitVec w) (p : Nat) :
    maskAddr a p = maskAddr b p ↔ a.toNat / 2 ^ (w - p) = b.toNat / 2 ^ (w - p) := by
  have e : a.toNat / 2 ^ (w - p) = b.toNat / 2 ^ (w - p) ↔ a >>> (w - p) = b >>> (w - p) := by
    rw [← BitVec.toNat_inj, BitVec.toNat_ushiftRight, BitVec.toNat_ushiftRight,
      Nat.shiftRight_eq_div_pow, Nat.shiftRight_eq_div_pow]
  rw [e]
  constructor
  · intro h
    apply BitVec.eq_of_getLsbD_eq
    intro i hi
    rw [BitVec.getLsbD_ushiftRight, BitVec.getLsbD_ushiftRight]
    by_cases hw : w - p + i < w
    · have h1 := maskAddr_bit a p _ hw
      have h2 := maskAddr_bit b p _ hw
      rw [h, h2] at h1
      simpa using h1.symm
    · rw [BitVec.getLsbD_of_ge _ _ (by omega), BitVec.getLsbD_of_ge _ _ (by omega)]
  · intro h
    apply BitVec.eq_of_getLsbD_eq
    intro i hi
    rw [maskAddr_bit a p i hi, maskAddr_bit b p i hi]
    by_cases hp : w - p ≤ i
    · have : (a >>> (w - p)).getLsbD (i - (w - p)) = (b >>> (w - p)).getLsbD (i - (w - p)) := by
        rw [h]
      rw [BitVec.getLsbD_ushiftRight, BitVec.getLsbD_ushiftRight] at this
      have e : w - p + (i - (w - p)) = i := by omega
      rw [e] at this
      rw [this]
    · simp [hp]

/-- **Two IPv4 clients share a bucket exactly when the first `v4` bits of their addresses agree.** -/
theorem key_v4_iff (p : Prefix) (a b : BitVec 32) :
    p.key (.v4 a) = p.key (.v4 b) ↔ a.toNat / 2 ^ (32 - p.v4) = b.toNat / 2 ^ (32 - p.v4) := by
  show Ip.v4 _ = Ip.v4 _ ↔ _
  rw [Ip.v4.injEq]
  exact maskAddr_eq_iff a b p.v4

/-- **Two IPv6 clients that are not mapped IPv4 share a bucket exactly when the first `v6` bits of
their addresses agree.** -/
theorem key_v6_iff (p : Prefix) (a b : BitVec 128) (ha : toV4Mapped a = none)
    (hb : toV4Mapped b = none) :
    p.key (.v6 a) = p.key (.v6 b) ↔ a.toNat / 2 ^ (128 - p.v6) = b.toNat / 2 ^ (128 - p.v6) := by
  dsimp only [Prefix.key]
  rw [ha, hb]
  dsimp only
  rw [Ip.v6.injEq]
  exact maskAddr_eq_iff a b p.v6

/-- **An IPv4 client on a dual-stack listener (`::ffff:a.b.c.d`) has the bucket it would have on an
IPv4 listener.** -/
theorem key_mapped (p : Prefix) (a : BitVec 32) :
    p.key (.v6 (BitVec.ofNat 128 (0xffff * 2 ^ 32 + a.toNat))) = p.key (.v4 a) := by
  have ha := a.isLt
  have hlt : 0xffff * 2 ^ 32 + a.toNat < 2 ^ 128 := by omega
  have hm : toV4Mapped (BitVec.ofNat 128 (0xffff * 2 ^ 32 + a.toNat)) = some a := by
    unfold toV4Mapped
    rw [BitVec.toNat_ofNat, Nat.mod_eq_of_lt hlt, if_pos (by omega)]
    congr 1
    apply BitVec.eq_of_toNat_eq
    rw [BitVec.toNat_setWidth, BitVec.toNat_ofNat, Nat.mod_eq_of_lt hlt]
    omega
  dsimp only [Prefix.key]
  rw [hm]

/-- **An IPv4 client and an IPv6 client never share a bucket.** -/
theorem key_families (p : Prefix) (a : BitVec 32) (b : BitVec 128) (hb : toV4Mapped b = none) :
    p.key (.v4 a) ≠ p.key (.v6 b) := by
  dsimp only [Prefix.key]
  rw [hb]
  intro h
  cases h

/-- **With the shipped prefixes an IPv4 address has a bucket of its own and the addresses of an IPv6
`/64` share one.** -/
theorem key_default (a b : BitVec 32) (x y : BitVec 128) (hx : toV4Mapped x = none)
    (hy : toV4Mapped y = none) :
    (Prefix.default.key (.v4 a) = Prefix.default.key (.v4 b) ↔ a = b) ∧
      (Prefix.default.key (.v6 x) = Prefix.default.key (.v6 y)
        ↔ x.toNat / 2 ^ 64 = y.toNat / 2 ^ 64) := by
  refine ⟨?_, key_v6_iff Prefix.default x y hx hy⟩
  rw [key_v4_iff, ← BitVec.toNat_inj]
  have : Prefix.default.v4 = 32 := rfl
  rw [this]
  simp

/-- **A prefix length longer than the address is rejected at startup, every other is taken as is.** -/
theorem prefix_checked (bits max : Nat) :
    (prefixChecked bits max = none ↔ max < bits) ∧
      ∀ q, prefixChecked bits max = some q → q = bits ∧ bits ≤ max := by
  unfold prefixChecked
  constructor
  · split <;> simp <;> omega
  · intro q hq
    split at hq
    · cases hq; exact ⟨rfl, ‹_›⟩
    · cases hq

/-! ## What the limiters do not guarantee -/

theorem runs_append (c : Cfg) (s : S) (u v : List Ev) :
    s.runs c (u ++ v) = (s.runs c u).bind fun s' => s'.runs c v := by
  induction u generalizing s with
  | nil => rfl
  | cons e u ih =>
    show (s.step c e).bind _ = _
    have : (fun s' : S => s'.runs c (u ++ v)) = fun s' => (s'.runs c u).bind fun x => x.runs c v :=
      funext ih
    rw [List.append_eq, this]
    show _ = ((s.step c e).bind _).bind _
    rw [Option.bind_assoc]

/-- One request from `ip`, run to its answer before anything else happens. -/
def oneCheck (ip : Ip) : List Ev := [.arrive "/" (some ip), .global 0, .perIp 0]

/-- The bucket of a client that has asked `n` times at time `t`. -/
def drained (l : Limit) (n t : Nat) : Bucket := { tokens := (l.burst - n) * unit, last := t }

theorem drained_replenished (l : Limit) (n t : Nat) :
    (drained l n t).replenished t l = (l.burst - n) * unit := by
  unfold Bucket.replenished drained Limit.capacity
  dsimp only
  rw [Nat.sub_self, Nat.zero_mul, Nat.add_zero]
  exact Nat.min_eq_left (Nat.mul_le_mul_right _ (Nat.sub_le _ _))

theorem drained_admit (l : Limit) (n t : Nat) :
    (drained l n t).tryAdmit t l = (decide (n < l.burst), drained l (n + 1) t) := by
  unfold Bucket.tryAdmit
  rw [drained_replenished]
  dsimp only
  by_cases h : n < l.burst
  · have e : (l.burst - n) * unit = (l.burst - (n + 1)) * unit + unit := by
      have : l.burst - n = (l.burst - (n + 1)) + 1 := by omega
      rw [this, Nat.add_mul, Nat.one_mul]
    rw [if_pos (by omega), e]
    simp [h, drained]
  · have e : l.burst - n = 0 := by omega
    have e' : l.burst - (n + 1) = 0 := by omega
    rw [e, Nat.zero_mul, if_neg (by have := unit_pos; omega)]
    simp [h, drained, e']

theorem full_eq_drained (l : Limit) (t : Nat) : Bucket.full t l = drained l 0 t := rfl

/-- The limiters after one client's `n` requests at the start. -/
structure Flooded (c : Cfg) (l lp : Limit) (ip : Ip) (t n : Nat) (s : S) : Prop where
  clock : s.clock = t
  global : s.global = some (drained l n t)
  flights : s.flights = []
  table : s.table = if n = 0 then [] else [(c.pre.key ip, drained lp n t)]
  from_ip : ∀ a ∈ s.answers, a.peer = some ip ∧ a.path = "/"
  len : s.answers.length = n
  count : (allowedAns s.answers).length = Nat.min n lp.burst

theorem flood_one {c : Cfg} {l lp : Limit} (hg : c.global = some l) (hp : c.perIp = some lp) {ip : Ip}
    {t n : Nat} {s : S} (h : Flooded c l lp ip t n s) (hn : n < l.burst) :
    ∃ s', s.runs c (oneCheck ip) = some s' ∧ Flooded c l lp ip t (n + 1) s' := by
  have hcheck : admitKey lp c.max t (c.pre.key ip) s.table
      = (Pass.ofBool (decide (n < lp.burst)), [(c.pre.key ip, drained lp (n + 1) t)]) := by
    rw [h.table]
    unfold admitKey admitNew
    by_cases h0 : n = 0
    · subst h0
      rw [if_pos rfl]
      have hm : ([] : Table).length < c.max := Nat.lt_of_lt_of_le Nat.zero_lt_one (Nat.le_max_right ..)
      have hz : get (c.pre.key ip) ([] : Table) = none := rfl
      rw [hz]
      dsimp only
      rw [if_pos hm, full_eq_drained, drained_admit]
      rfl
    · rw [if_neg h0]
      have hz : get (c.pre.key ip) [(c.pre.key ip, drained lp n t)] = some (drained lp n t) := by
        simp [Net.get]
      rw [hz]
      dsimp only
      rw [drained_admit]
      simp [put, del]
  refine ⟨
    { s with
      global := some (drained l (n + 1) t)
      flights := []
      glog := s.glog ++ [(t, true)]
      table := [(c.pre.key ip, drained lp (n + 1) t)]
      tlog := s.tlog ++ [TEv.took (c.pre.key ip) t (Pass.ofBool (decide (n < lp.burst)))]
      answers := s.answers ++ [⟨"/", some ip,
        if (Pass.ofBool (decide (n < lp.burst))).ok then .allowed else .rateLimited⟩] }, ?_, ?_⟩
  · show ((s.step c (.arrive "/" (some ip))).bind fun a => (a.step c (.global 0)).bind fun b =>
      (b.step c (.perIp 0)).bind fun d => some d) = _
    have e1 : s.step c (.arrive "/" (some ip))
        = some { s with flights := [⟨"/", some ip, t, .sampled⟩] } := by
      dsimp only [S.step]
      have hx : exempt "/" = false := by decide
      rw [hx, h.flights, h.clock]; rfl
    rw [e1]
    dsimp only [Option.bind]
    have e2 : S.step c { s with flights := [⟨"/", some ip, t, .sampled⟩] } (.global 0)
        = some { s with global := some (drained l (n + 1) t), glog := s.glog ++ [(t, true)],
                        flights := [⟨"/", some ip, t, .passedGlobal⟩] } := by
      dsimp only [S.step]
      rw [hg, h.global]
      dsimp only [List.getElem?_cons_zero]
      rw [drained_admit, decide_eq_true hn]
      dsimp only
      simp only [if_true, S.passGlobal, hp]
      rfl
    rw [e2]
    dsimp only [S.step]
    rw [hp]
    dsimp only [List.getElem?_cons_zero]
    rw [hcheck]
    rfl
  · refine
      { clock := h.clock, global := rfl, flights := rfl, table := ?_, from_ip := ?_, len := ?_,
        count := ?_ }
    · exact (if_neg (Nat.succ_ne_zero n)).symm
    · intro a ha
      rcases List.mem_append.1 ha with ha | ha
      · exact h.from_ip a ha
      · simp at ha; rw [ha]; exact ⟨rfl, rfl⟩
    · show (s.answers ++ [_]).length = n + 1
      rw [List.length_append, h.len]; rfl
    · show (allowedAns (s.answers ++ [_])).length = _
      rw [allowedAns_snoc, h.count]
      have hx : exempt "/" = false := by decide
      by_cases hb : n < lp.burst
      · have e1 : Nat.min n lp.burst = n := Nat.min_eq_left (by omega)
        have e2 : Nat.min (n + 1) lp.burst = n + 1 := Nat.min_eq_left (by omega)
        rw [e1, e2]
        simp [hx, hb, Pass.ofBool, Pass.ok]
      · have e1 : Nat.min n lp.burst = lp.burst := Nat.min_eq_right (by omega)
        have e2 : Nat.min (n + 1) lp.burst = lp.burst := Nat.min_eq_right (by omega)
        rw [e1, e2]
        simp [hb, Pass.ofBool, Pass.ok]

theorem flood_n {c : Cfg} {l lp : Limit} (hg : c.global = some l) (hp : c.perIp = some lp) (ip : Ip)
    (t n : Nat) (hn : n ≤ l.burst) :
    ∃ es s, (S.init c t).runs c es = some s ∧ Flooded c l lp ip t n s := by
  induction n with
  | zero =>
    refine ⟨[], S.init c t, rfl, ?_⟩
    exact
      { clock := rfl, global := by unfold S.init; rw [hg]; rfl, flights := rfl, table := rfl,
        from_ip := by simp [S.init], len := rfl, count := by simp [S.init, allowedAns] }
  | succ n ih =>
    obtain ⟨es, s, hr, hf⟩ := ih (by omega)
    obtain ⟨s', hr', hf'⟩ := flood_one hg hp hf (by omega)
    exact ⟨es ++ oneCheck ip, s', by rw [runs_append, hr]; exact hr', hf'⟩

/-- The refused request of another client. -/
theorem flood_next {c : Cfg} {l : Limit} (hg : c.global = some l) (b : Ip) {t n : Nat} {s : S}
    (hcl : s.clock = t) (hgl : s.global = some (drained l n t)) (hfl : s.flights = [])
    (hn : ¬ n < l.burst) :
    s.runs c [.arrive "/" (some b), .global 0] = some
      { s with
        global := some (drained l (n + 1) t)
        glog := s.glog ++ [(t, false)]
        flights := []
        answers := s.answers ++ [⟨"/", some b, .rateLimited⟩] } := by
  have e1 : s.step c (.arrive "/" (some b))
      = some { s with flights := [⟨"/", some b, t, .sampled⟩] } := by
    dsimp only [S.step]
    have hx : exempt "/" = false := by decide
    rw [hx, hfl, hcl]; rfl
  have e2 : S.step c { s with flights := [⟨"/", some b, t, .sampled⟩] } (.global 0) = some
      { s with
        global := some (drained l (n + 1) t)
        glog := s.glog ++ [(t, false)]
        flights := []
        answers := s.answers ++ [⟨"/", some b, .rateLimited⟩] } := by
    dsimp only [S.step]
    rw [hg, hgl]
    dsimp only [List.getElem?_cons_zero]
    rw [drained_admit, decide_eq_false hn]
    rfl
  show ((s.step c (.arrive "/" (some b))).bind fun x => (x.step c (.global 0)).bind fun y =>
    some y) = _
  rw [e1]
  show ((S.step c { s with flights := [⟨"/", some b, t, .sampled⟩] } (.global 0)).bind fun y =>
    some y) = _
  rw [e2]
  rfl

/-- **One client can take the whole gateway-wide budget although its own bucket stops it**, for all
limits: `burst` requests of one prefix at one instant, of which only the prefix's own burst is passed on,
leave the gateway-wide bucket empty, and the first request of another client is answered with `429`.  The
refused requests have each spent a gateway-wide token, so the per-client bucket does not cap "what one
source can take of that budget" (ratelimit.rs:6-7). -/
theorem flood_starves {c : Cfg} {l lp : Limit} (hg : c.global = some l) (hp : c.perIp = some lp)
    (a b : Ip) (t : Nat) :
    ∃ es s as, (S.init c t).runs c es = some s ∧ s.clock = t ∧
      s.answers = as ++ [⟨"/", some b, .rateLimited⟩] ∧
      (∀ x ∈ as, x.peer = some a ∧ x.path = "/") ∧ as.length = l.burst ∧
      (allowedAns s.answers).length = Nat.min l.burst lp.burst := by
  obtain ⟨es, s, hr, hf⟩ := flood_n hg hp a t l.burst (Nat.le_refl _)
  have hn := flood_next hg b hf.clock hf.global hf.flights (Nat.lt_irrefl _)
  generalize hs' : ({ s with
        global := some (drained l (l.burst + 1) t)
        glog := s.glog ++ [(t, false)]
        flights := []
        answers := s.answers ++ [⟨"/", some b, .rateLimited⟩] } : S) = s' at hn
  have ha : s'.answers = s.answers ++ [⟨"/", some b, .rateLimited⟩] := by rw [← hs']
  have hc : s'.clock = t := by rw [← hs']; exact hf.clock
  refine ⟨es ++ [.arrive "/" (some b), .global 0], s', s.answers, ?_, hc, ha, hf.from_ip, hf.len, ?_⟩
  · rw [runs_append, hr]; exact hn
  · rw [ha, allowedAns_snoc, hf.count, if_neg (fun h => by cases h.2)]
    rfl

/-- State of the skew example: `m` requests that read the clock at `t` and `m` that read it a second
later are waiting for the lock. -/
structure Skewed (l : Limit) (t m k : Nat) (s : S) : Prop where
  clock : s.clock = t + unit
  flights : s.flights = List.replicate m ⟨"/", none, t, .sampled⟩
    ++ List.replicate m ⟨"/", none, t + unit, .sampled⟩
  global : ∃ b, s.global = some b ∧ unit ≤ b.replenished (t + unit) l
  count : k ≤ (allowedAns s.answers).length

theorem tokens_last_replenished (l : Limit) (b : Bucket) (t : Nat) (h : b.last = t) :
    unit ≤ b.replenished (t + unit) l := by
  unfold Bucket.replenished
  have h1 := unit_le_capacity l
  have h2 : unit * 1 ≤ unit * l.rate := Nat.mul_le_mul_left _ l.rate_pos
  rw [h, Nat.add_sub_cancel_left]
  omega

/-- The lock of the gateway-wide bucket, for a request without a peer. -/
theorem global_step {c : Cfg} {l : Limit} (hg : c.global = some l) (hp : c.perIp = none) {s : S}
    {b : Bucket} (hb : s.global = some b) {i n : Nat}
    (hget : s.flights[i]? = some ⟨"/", none, n, .sampled⟩) :
    ∃ s', s.step c (.global i) = some s' ∧ s'.clock = s.clock ∧
      s'.flights = s.flights.eraseIdx i ∧ s'.global = some (b.tryAdmit n l).2 ∧
      (allowedAns s'.answers).length
        = (allowedAns s.answers).length + (if (b.tryAdmit n l).1 then 1 else 0) := by
  have hx : exempt "/" = false := by decide
  dsimp only [S.step]
  rw [hget, hg, hb]
  dsimp only
  cases hadm : (b.tryAdmit n l).1 with
  | true =>
    refine ⟨_, if_pos rfl, ?_⟩
    unfold S.passGlobal
    rw [hp]
    refine ⟨rfl, rfl, rfl, ?_⟩
    show (allowedAns (s.answers ++ [_])).length = _
    rw [allowedAns_snoc, if_pos ⟨hx, rfl⟩]; rfl
  | false =>
    refine ⟨_, if_neg (by decide), rfl, rfl, rfl, ?_⟩
    show (allowedAns (s.answers ++ [_])).length = _
    rw [allowedAns_snoc, if_neg (fun h => by cases h.2)]; rfl

theorem skew_one {c : Cfg} {l : Limit} (hg : c.global = some l) (hp : c.perIp = none)
    {t m k : Nat} {s : S} (h : Skewed l t (m + 1) k s) :
    ∃ s', s.runs c [.global (m + 1), .global 0] = some s' ∧ Skewed l t m (k + 1) s' := by
  obtain ⟨b, hb, hr⟩ := h.global
  have hadm : (b.tryAdmit (t + unit) l).1 = true := (tryAdmit_iff ..).2 hr
  have hget : s.flights[m + 1]? = some ⟨"/", none, t + unit, .sampled⟩ := by
    rw [h.flights, List.getElem?_append_right (by simp)]
    simp
  obtain ⟨s1, e1, c1, f1, g1, a1⟩ := global_step hg hp hb hget
  have f1' : s1.flights = List.replicate (m + 1) ⟨"/", none, t, .sampled⟩
      ++ List.replicate m ⟨"/", none, t + unit, .sampled⟩ := by
    rw [f1, h.flights, List.eraseIdx_append_of_length_le (by simp)]
    simp
  have hget1 : s1.flights[0]? = some ⟨"/", none, t, .sampled⟩ := by
    rw [f1', List.replicate_succ]; rfl
  obtain ⟨s2, e2, c2, f2, g2, a2⟩ := global_step hg hp g1 hget1
  refine ⟨s2, ?_, ?_⟩
  · show ((s.step c (.global (m + 1))).bind fun x => (x.step c (.global 0)).bind fun y =>
      some y) = some s2
    rw [e1]
    show ((s1.step c (.global 0)).bind fun y => some y) = some s2
    rw [e2]; rfl
  · refine { clock := ?_, flights := ?_, global := ?_, count := ?_ }
    · rw [c2, c1]; exact h.clock
    · rw [f2, f1', List.replicate_succ]; rfl
    · exact ⟨_, g2, tokens_last_replenished l _ t (tryAdmit_last ..)⟩
    · have := h.count
      rw [hadm, if_pos rfl] at a1
      omega

theorem skew_n {c : Cfg} {l : Limit} (hg : c.global = some l) (hp : c.perIp = none) (m : Nat) :
    ∀ {t k : Nat} {s : S}, Skewed l t m k s →
      ∃ es s', s.runs c es = some s' ∧ Skewed l t 0 (k + m) s' := by
  induction m with
  | zero => intro t k s h; exact ⟨[], s, rfl, h⟩
  | succ m ih =>
    intro t k s h
    obtain ⟨s1, h1, h2⟩ := skew_one hg hp h
    obtain ⟨es, s', h3, h4⟩ := ih h2
    refine ⟨[.global (m + 1), .global 0] ++ es, s', by rw [runs_append, h1]; exact h3, ?_⟩
    have : k + 1 + m = k + (m + 1) := by omega
    rw [← this]; exact h4

theorem arrive_n (c : Cfg) (m : Nat) : ∀ s : S,
    ∃ s', s.runs c (List.replicate m (.arrive "/" none)) = some s' ∧ s'.clock = s.clock ∧
      s'.global = s.global ∧ s'.answers = s.answers ∧
      s'.flights = s.flights ++ List.replicate m ⟨"/", none, s.clock, .sampled⟩ := by
  induction m with
  | zero => intro s; exact ⟨s, rfl, rfl, rfl, rfl, by simp⟩
  | succ m ih =>
    intro s
    have hx : exempt "/" = false := by decide
    have e1 : s.step c (.arrive "/" none)
        = some { s with flights := s.flights ++ [⟨"/", none, s.clock, .sampled⟩] } := by
      dsimp only [S.step]
      rw [hx]; rfl
    obtain ⟨s', h1, h2, h3, h4, h5⟩ :=
      ih { s with flights := s.flights ++ [⟨"/", none, s.clock, .sampled⟩] }
    refine ⟨s', ?_, h2, h3, h4, ?_⟩
    · show ((s.step c (.arrive "/" none)).bind fun x => x.runs c (List.replicate m _)) = _
      rw [e1]; exact h1
    · rw [h5]; simp [List.replicate_succ]

/-- **The gateway-wide limit fails when requests take the lock out of the order of their clock readings**,
for all limits: the clock is read before the lock is taken (line 426 before 428), a request with an older
reading puts `last_refill` back, and the same second is credited again.  For every `k` some schedule passes
`k` requests on within one second of clock time. -/
theorem skew_unbounded {c : Cfg} {l : Limit} (hg : c.global = some l) (hp : c.perIp = none)
    (k t : Nat) :
    ∃ es s, (S.init c t).runs c es = some s ∧ s.clock = t + unit ∧
      k ≤ (allowedAns s.answers).length := by
  obtain ⟨s1, r1, c1, g1, _, f1⟩ := arrive_n c k (S.init c t)
  obtain ⟨s2, r2, c2, g2, _, f2⟩ := arrive_n c k { s1 with clock := s1.clock + unit }
  have hsk : Skewed l t k 0 s2 := by
    refine { clock := ?_, flights := ?_, global := ?_, count := Nat.zero_le _ }
    · rw [c2]; show s1.clock + unit = _; rw [c1]; rfl
    · rw [f2]
      show s1.flights ++ List.replicate k ⟨"/", none, s1.clock + unit, .sampled⟩ = _
      rw [f1, c1]; rfl
    · refine ⟨Bucket.full t l, ?_, ?_⟩
      · rw [g2]; show s1.global = _; rw [g1]; unfold S.init; rw [hg]; rfl
      · rw [full_replenished]; exact unit_le_capacity l
  obtain ⟨es, s, hr, hs⟩ := skew_n hg hp k hsk
  refine ⟨List.replicate k (.arrive "/" none) ++ ([.tick unit] ++
    (List.replicate k (.arrive "/" none) ++ es)), s, ?_, hs.clock, ?_⟩
  · rw [runs_append, r1]
    show (s1.runs c _) = _
    rw [runs_append]
    show S.runs c { s1 with clock := s1.clock + unit } _ = _
    rw [runs_append, r2]
    exact hr
  · have := hs.count; omega

/-- **While the table is full a client without a bucket is not limited at all by the per-client limit**:
any number of its requests are passed on at one instant. -/
theorem full_table_unlimited {c : Cfg} {lp : Limit} (hg : c.global = none) (hp : c.perIp = some lp)
    {s : S} (hfl : s.flights = []) (hfull : c.max ≤ s.table.length) (ip : Ip)
    (hnew : get (c.pre.key ip) s.table = none) (n : Nat) :
    ∃ es s', s.runs c es = some s' ∧ s'.clock = s.clock ∧ s'.table = s.table ∧ s'.flights = [] ∧
      s'.answers = s.answers ++ List.replicate n ⟨"/", some ip, .allowed⟩ := by
  induction n with
  | zero => exact ⟨[], s, rfl, rfl, rfl, hfl, by simp⟩
  | succ n ih =>
    obtain ⟨es, s1, hr, h1, h2, h3, h4⟩ := ih
    have hx : exempt "/" = false := by decide
    have hk : admitKey lp c.max s1.clock (c.pre.key ip) s1.table = (.untracked, s1.table) := by
      unfold admitKey admitNew
      rw [h2, hnew]
      dsimp only
      rw [if_neg (by omega)]
    refine ⟨es ++ oneCheck ip,
      { s1 with tlog := s1.tlog ++ [TEv.took (c.pre.key ip) s1.clock .untracked],
                answers := s1.answers ++ [⟨"/", some ip, .allowed⟩] },
      ?_, h1, h2, h3, ?_⟩
    · rw [runs_append, hr]
      show ((s1.step c (.arrive "/" (some ip))).bind fun a => (a.step c (.global 0)).bind fun b =>
        (b.step c (.perIp 0)).bind fun d => some d) = _
      have e1 : s1.step c (.arrive "/" (some ip))
          = some { s1 with flights := [⟨"/", some ip, s1.clock, .sampled⟩] } := by
        dsimp only [S.step]
        rw [hx, h3]; rfl
      rw [e1]
      dsimp only [Option.bind, S.step]
      rw [hg]
      dsimp only [List.getElem?_cons_zero, S.passGlobal]
      rw [hp]
      dsimp only [List.set, List.getElem?_cons_zero]
      rw [hk]
      dsimp only [S.finish, List.eraseIdx]
      rw [h3]
      rfl
    · show s1.answers ++ [_] = _
      rw [h4, List.append_assoc, List.replicate_succ']

end Verif.Gate
