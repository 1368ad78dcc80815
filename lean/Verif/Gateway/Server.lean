import Mathlib.Tactic.Common

/-!
# The gateway's accept loop and its check against forwarding to itself

Model of `accept_loop` (`bin/worker-gateway/src/server.rs:197-308`) and of `ensure_not_gateway`
(`bin/worker-gateway/src/cli.rs:394-423`).  Every await is a point at which connections may end and
shutdown may be signalled; both arms of a `select!` that are ready may win.
-/

namespace Verif.Gserve

/-- Where the accept loop is. -/
inductive Phase
  /-- Waiting for a permit (server.rs:217-220). -/
  | acquire
  /-- Holding a permit, waiting for a connection (server.rs:225-228). -/
  | accept
  /-- After a failed accept, the permit given back (server.rs:229-234). -/
  | retry
  /-- The listener is closed, connections drain (server.rs:290-305). -/
  | drain
  | ended
  deriving DecidableEq

/-- The loop.  A connection is a number, given out in the order of acceptance; `conns` are the open
ones, each holding a permit.  `atBreak` is a history variable: how many were accepted when the loop
left. -/
structure S where
  max : Nat
  free : Nat
  phase : Phase
  conns : List Nat
  accepted : Nat
  shutdown : Bool
  atBreak : Option Nat
  /-- Whether the drain ended by its deadline. -/
  forced : Bool

/-- The start of the loop (server.rs:210-212); `max_connections` is non-zero. -/
def S.init (max : Nat) : S :=
  { max := max, free := max, phase := .acquire, conns := [], accepted := 0, shutdown := false,
    atBreak := none, forced := false }

inductive Ev
  | shutdown
  /-- A `select!` takes its shutdown arm (server.rs:218, 226). -/
  | notice
  | acquire
  /-- The listener returns a connection, or an error. -/
  | accept (ok : Bool)
  /-- The pause after an error is over. -/
  | slept
  /-- Connection `c` ends: completed, failed, or over its lifetime cap (server.rs:267-285). -/
  | close (c : Nat)
  /-- All connections have drained (server.rs:295). -/
  | drained
  /-- The graceful deadline elapses (server.rs:298). -/
  | deadline

/-- Leave the loop: a held permit is dropped with the stack, the listener is closed. -/
def S.leave (s : S) (held : Nat) : S :=
  { s with phase := .drain, free := s.free + held, atBreak := some s.accepted }

/-- One step (server.rs:214-305). -/
def S.step (s : S) : Ev → Option S
  | .shutdown => some { s with shutdown := true }
  | .notice =>
    if s.shutdown then
      match s.phase with
      | .acquire => some (s.leave 0)
      | .accept => some (s.leave 1)
      | _ => none
    else none
  | .acquire =>
    if s.phase = .acquire ∧ 0 < s.free then some { s with phase := .accept, free := s.free - 1 }
    else none
  | .accept true =>
    if s.phase = .accept then
      some { s with phase := .acquire, conns := s.accepted :: s.conns, accepted := s.accepted + 1 }
    else none
  | .accept false =>
    if s.phase = .accept then some { s with phase := .retry, free := s.free + 1 } else none
  | .slept => if s.phase = .retry then some { s with phase := .acquire } else none
  | .close c =>
    if c ∈ s.conns then some { s with conns := s.conns.erase c, free := s.free + 1 } else none
  | .drained => if s.phase = .drain ∧ s.conns = [] then some { s with phase := .ended } else none
  | .deadline => if s.phase = .drain then some { s with phase := .ended, forced := true } else none

def S.runs : S → List Ev → Option S
  | s, [] => some s
  | s, e :: es => (s.step e).bind fun s' => s'.runs es

def Reach (max : Nat) (s : S) : Prop := ∃ es, (S.init max).runs es = some s

structure Inv (max : Nat) (s : S) : Prop where
  same : s.max = max
  permits : s.free + s.conns.length + (if s.phase = .accept then 1 else 0) = max
  old : ∀ c ∈ s.conns, c < s.accepted
  nodup : s.conns.Nodup
  left : s.phase = .drain ∨ s.phase = .ended → s.shutdown = true ∧ s.atBreak = some s.accepted
  open_ : s.phase = .acquire ∨ s.phase = .accept ∨ s.phase = .retry → s.atBreak = none
  clean : s.phase = .ended → s.forced = false → s.conns = []

theorem inv_init (max : Nat) : Inv max (S.init max) where
  same := rfl
  permits := by simp [S.init]
  old := by simp [S.init]
  nodup := by simp [S.init]
  left := by simp [S.init]
  open_ := by simp [S.init]
  clean := by simp [S.init]

theorem inv_step {max : Nat} {s s' : S} {e : Ev} (h : Inv max s) (hs : s.step e = some s') :
    Inv max s' := by
  obtain ⟨hm, hp, ho, hn, hl, hop, hc⟩ := h
  cases e with
  | shutdown =>
    cases hs
    exact ⟨hm, hp, ho, hn, fun h => ⟨rfl, (hl h).2⟩, hop, hc⟩
  | notice =>
    dsimp only [S.step] at hs
    split at hs
    · rename_i hsd
      split at hs
      · rename_i hph
        cases hs
        refine ⟨hm, ?_, ho, hn, fun _ => ⟨hsd, rfl⟩, ?_, ?_⟩
        · simp [hph] at hp; simpa [S.leave] using hp
        · simp [S.leave]
        · simp [S.leave]
      · rename_i hph
        cases hs
        refine ⟨hm, ?_, ho, hn, fun _ => ⟨hsd, rfl⟩, ?_, ?_⟩
        · simp [hph] at hp; simp [S.leave]; omega
        · simp [S.leave]
        · simp [S.leave]
      · cases hs
    · cases hs
  | acquire =>
    dsimp only [S.step] at hs
    split at hs
    · rename_i hc2
      cases hs
      refine ⟨hm, ?_, ho, hn, ?_, ?_, ?_⟩
      · simp [hc2.1] at hp; simp; omega
      · simp
      · exact fun _ => hop (Or.inl hc2.1)
      · simp
    · cases hs
  | accept ok =>
    cases ok with
    | true =>
      dsimp only [S.step] at hs
      split at hs
      · rename_i hph
        cases hs
        refine ⟨hm, ?_, ?_, ?_, ?_, ?_, ?_⟩
        · simp [hph] at hp; simp; omega
        · intro c hc2
          rcases List.mem_cons.1 hc2 with rfl | h2
          · exact Nat.lt_succ_self _
          · exact Nat.lt_succ_of_lt (ho c h2)
        · refine List.nodup_cons.2 ⟨fun h2 => ?_, hn⟩
          exact absurd (ho _ h2) (Nat.lt_irrefl _)
        · simp
        · exact fun _ => hop (Or.inr (Or.inl hph))
        · simp
      · cases hs
    | false =>
      dsimp only [S.step] at hs
      split at hs
      · rename_i hph
        cases hs
        refine ⟨hm, ?_, ho, hn, ?_, ?_, ?_⟩
        · simp [hph] at hp; simp; omega
        · simp
        · exact fun _ => hop (Or.inr (Or.inl hph))
        · simp
      · cases hs
  | slept =>
    dsimp only [S.step] at hs
    split at hs
    · rename_i hph
      cases hs
      refine ⟨hm, ?_, ho, hn, ?_, ?_, ?_⟩
      · simp [hph] at hp; simpa using hp
      · simp
      · exact fun _ => hop (Or.inr (Or.inr hph))
      · simp
    · cases hs
  | close c =>
    dsimp only [S.step] at hs
    split at hs
    · rename_i hc2
      cases hs
      have hpos : 0 < s.conns.length := List.length_pos_of_mem hc2
      refine ⟨hm, ?_, ?_, hn.erase c, hl, hop, ?_⟩
      · have := List.length_erase_of_mem hc2
        show s.free + 1 + (s.conns.erase c).length + (if s.phase = .accept then 1 else 0) = max
        rw [this]; omega
      · exact fun x hx => ho x (List.mem_of_mem_erase hx)
      · intro h1 h2
        show s.conns.erase c = []
        rw [hc h1 h2]; rfl
    · cases hs
  | drained =>
    dsimp only [S.step] at hs
    split at hs
    · rename_i hc2
      cases hs
      refine ⟨hm, ?_, ho, hn, fun _ => hl (Or.inl hc2.1), ?_, fun _ _ => hc2.2⟩
      · simp [hc2.1] at hp; simpa using hp
      · simp
    · cases hs
  | deadline =>
    dsimp only [S.step] at hs
    split at hs
    · rename_i hc2
      cases hs
      refine ⟨hm, ?_, ho, hn, fun _ => hl (Or.inl hc2), ?_, ?_⟩
      · simp [hc2] at hp; simpa using hp
      · simp
      · simp
    · cases hs

theorem inv_runs {max : Nat} {es : List Ev} {s s' : S} (h : Inv max s)
    (hr : s.runs es = some s') : Inv max s' := by
  induction es generalizing s with
  | nil => cases hr; exact h
  | cons e es ih =>
    obtain ⟨m, h1, h2⟩ := Option.bind_eq_some_iff.1 hr
    exact ih (inv_step h h1) h2

theorem reach_inv {max : Nat} {s : S} (h : Reach max s) : Inv max s := by
  obtain ⟨es, hr⟩ := h
  exact inv_runs (inv_init max) hr

/-- **Never more than `--max-connections` connections are open**, and no permit is ever lost: what is
free, what the open connections hold and what the loop holds add up to the maximum in every state. -/
theorem connections_bounded {max : Nat} {s : S} (h : Reach max s) :
    s.conns.length ≤ max ∧
      s.free + s.conns.length + (if s.phase = .accept then 1 else 0) = max :=
  ⟨by have := (reach_inv h).permits; omega, (reach_inv h).permits⟩

/-- **The loop never wedges below the maximum**: unless shutdown was noticed, whatever failed before, a
waiting client is accepted in at most three steps of the loop as long as fewer than the maximum are
open. -/
theorem accept_enabled {max : Nat} {s : S} (h : Reach max s) (hl : s.conns.length < max)
    (hp : s.atBreak = none) :
    ∃ es s', es.length ≤ 3 ∧ (∀ e ∈ es, e = .slept ∨ e = .acquire ∨ e = .accept true) ∧
      s.runs es = some s' ∧ s'.conns = s.accepted :: s.conns := by
  have inv := reach_inv h
  have hpm := inv.permits
  cases hph : s.phase with
  | acquire =>
    rw [hph] at hpm; simp at hpm
    have hf : 0 < s.free := by omega
    refine ⟨[.acquire, .accept true],
      { s with phase := .acquire, free := s.free - 1, conns := s.accepted :: s.conns, accepted := s.accepted + 1 },
      by simp, by simp, ?_, ?_⟩
    · simp [S.runs, S.step, hph, hf]
    · rfl
  | accept =>
    refine ⟨[.accept true],
      { s with phase := .acquire, conns := s.accepted :: s.conns, accepted := s.accepted + 1 },
      by simp, by simp, ?_, ?_⟩
    · simp [S.runs, S.step, hph]
    · rfl
  | retry =>
    rw [hph] at hpm; simp at hpm
    have hf : 0 < s.free := by omega
    refine ⟨[.slept, .acquire, .accept true],
      { s with phase := .acquire, free := s.free - 1, conns := s.accepted :: s.conns, accepted := s.accepted + 1 },
      by simp, by simp, ?_, ?_⟩
    · simp [S.runs, S.step, hph, hf]
    · rfl
  | drain => have := (inv.left (Or.inl hph)).2; rw [hp] at this; cases this
  | ended => have := (inv.left (Or.inr hph)).2; rw [hp] at this; cases this

/-- **Once the loop has noticed the shutdown nothing more is accepted**, and it leaves only on a
shutdown: an accept error never ends the gateway. -/
theorem nothing_after_break {max : Nat} {s : S} (h : Reach max s) {n : Nat}
    (hb : s.atBreak = some n) : s.accepted = n ∧ s.shutdown = true := by
  have inv := reach_inv h
  have hd : s.phase = .drain ∨ s.phase = .ended := by
    cases hph : s.phase with
    | acquire => have := inv.open_ (Or.inl hph); rw [hb] at this; cases this
    | accept => have := inv.open_ (Or.inr (Or.inl hph)); rw [hb] at this; cases this
    | retry => have := inv.open_ (Or.inr (Or.inr hph)); rw [hb] at this; cases this
    | drain => exact Or.inl rfl
    | ended => exact Or.inr rfl
  obtain ⟨h1, h2⟩ := inv.left hd
  rw [hb] at h2
  exact ⟨(Option.some.inj h2).symm, h1⟩

/-- **The server returns after the shutdown only when every connection has finished, or at the graceful
deadline.** -/
theorem drained_or_deadline {max : Nat} {s : S} (h : Reach max s) (he : s.phase = .ended) :
    s.conns = [] ∨ s.forced = true := by
  cases hf : s.forced with
  | true => exact Or.inr rfl
  | false => exact Or.inl ((reach_inv h).clean he hf)

/-- **The deadline does not close anything by itself**: the loop can have returned while connections it
accepted are still open (their tasks are detached, server.rs:267; the warning says "forcing close"). -/
theorem forced_leaves_open : ∃ s, Reach 1 s ∧ s.phase = .ended ∧ s.conns = [0] := by
  refine ⟨_, ⟨[.acquire, .accept true, .shutdown, .notice, .deadline], rfl⟩, ?_⟩
  exact ⟨rfl, rfl⟩

/-- Between the signal and its notice the loop may still accept, any number of times: a `select!` with
both arms ready picks either. -/
theorem accepts_after_signal (n : Nat) :
    ∃ s, Reach (n + 1) s ∧ s.shutdown = true ∧ s.atBreak = none ∧ s.accepted = n := by
  have : ∀ k, k ≤ n → ∃ es s, (S.init (n + 1)).runs (.shutdown :: es) = some s ∧
      s.phase = .acquire ∧ s.shutdown = true ∧ s.atBreak = none ∧ s.accepted = k ∧
      s.free = n + 1 - k := by
    intro k
    induction k with
    | zero => intro _; exact ⟨[], _, rfl, rfl, rfl, rfl, rfl, rfl⟩
    | succ k ih =>
      intro hk
      obtain ⟨es, s, h1, h2, h3, h4, h5, h6⟩ := ih (by omega)
      have happ : ∀ (l m : List Ev) (a b : S), a.runs l = some b → a.runs (l ++ m) = b.runs m := by
        intro l
        induction l with
        | nil => intro m a b h; cases h; rfl
        | cons e l ih =>
          intro m a b h
          obtain ⟨c, hc1, hc2⟩ := Option.bind_eq_some_iff.1 h
          show (a.step e).bind (fun s' => s'.runs (l ++ m)) = _
          rw [hc1]
          exact ih m c b hc2
      have hf : 0 < s.free := by omega
      refine ⟨es ++ [.acquire, .accept true], { s with phase := .acquire, free := s.free - 1, conns := s.accepted :: s.conns, accepted := s.accepted + 1 }, ?_, rfl, h3, h4, ?_, ?_⟩
      · have := happ (.shutdown :: es) [.acquire, .accept true] _ _ h1
        rw [List.cons_append] at this
        rw [this]
        simp [S.runs, S.step, h2, hf]
      · show s.accepted + 1 = k + 1; omega
      · show s.free - 1 = _; omega
  obtain ⟨es, s, h1, _, h3, h4, h5, _⟩ := this n (Nat.le_refl n)
  exact ⟨s, ⟨_, h1⟩, h3, h4, h5⟩

/-! ## Forwarding to oneself -/

/-- An address (`IpAddr`). -/
inductive Ip
  | v4 (n : Nat)
  | v6 (n : Nat)
  deriving DecidableEq

/-- `is_ipv4`. -/
def Ip.isV4 : Ip → Bool
  | .v4 _ => true
  | .v6 _ => false

/-- `is_unspecified`. -/
def Ip.unspecified : Ip → Bool
  | .v4 n => decide (n = 0)
  | .v6 n => decide (n = 0)

/-- `is_loopback`: `127.0.0.0/8`, `::1`. -/
def Ip.loopback : Ip → Bool
  | .v4 n => decide (n / 2 ^ 24 = 127)
  | .v6 n => decide (n = 1)

/-- The host of a URL (`url::Host`); the name of a domain is only compared with `localhost`. -/
inductive Host
  | localhost
  | domain (name : String)
  | ip (a : Ip)

/-- `url_host_ip` (cli.rs:415-423): 127.0.0.1 for `localhost`. -/
def hostIp : Host → Option Ip
  | .localhost => some (.v4 (127 * 2 ^ 24 + 1))
  | .domain _ => none
  | .ip a => some a

/-- The address half of `ensure_not_gateway` (cli.rs:396-404). -/
def hits (listen ip : Ip) : Bool :=
  let same := decide (ip.isV4 = listen.isV4)
  decide (ip = listen) || (same && ip.unspecified) || (same && ip.loopback && listen.unspecified)

/-- `ensure_not_gateway` (cli.rs:394-411): `true` when the URL is let through. -/
def allowed (listen : Ip) (lport : Nat) (host : Host) (port : Nat) : Bool :=
  !(decide (port = lport) && ((hostIp host).map (hits listen)).getD false)

/-- Specification: where a connection from the gateway's own host to `dst` lands.  The unspecified
address means this host; a listener on the unspecified address takes every address of the host, also
those of the other family when it is `[::]` on a dual-stack socket (the default on Linux). -/
def lands (dual : Bool) (isLocal : Ip → Prop) (listen dst : Ip) : Prop :=
  let d : Ip := if dst.unspecified then (if dst.isV4 then .v4 (127 * 2 ^ 24 + 1) else .v6 1) else dst
  d = listen ∨
    (listen.unspecified = true ∧ isLocal d ∧
      (d.isV4 = listen.isV4 ∨ (dual = true ∧ listen.isV4 = false)))

/-- **An upstream written as a loopback or unspecified address, as `localhost` or as the listen address
itself is let through only when a request to it cannot land at the gateway** - for a listener of one
family. -/
theorem self_refused (isLocal : Ip → Prop) (listen : Ip) (lport : Nat) (host : Host) (ip : Ip)
    (hip : hostIp host = some ip) (hk : ip.unspecified = true ∨ ip.loopback = true ∨ ip = listen)
    (ha : allowed listen lport host lport = true) : ¬ lands false isLocal listen ip := by
  unfold allowed at ha
  rw [hip] at ha
  have hh : hits listen ip = false := by simpa using ha
  unfold hits at hh
  simp only [Bool.or_eq_false_iff, Bool.and_eq_false_iff, decide_eq_false_iff_not] at hh
  obtain ⟨⟨hne, h1⟩, h2⟩ := hh
  unfold lands
  dsimp only
  rintro (hd | ⟨hu, _, hs | ⟨hf, _⟩⟩)
  · by_cases hun : ip.unspecified = true
    · rw [if_pos hun] at hd
      rcases h1 with h1 | h1
      · apply h1
        rw [← hd]
        cases ip with
        | v4 n => rfl
        | v6 n => rfl
      · rw [hun] at h1; cases h1
    · rw [if_neg hun] at hd
      exact hne hd
  · by_cases hun : ip.unspecified = true
    · rw [if_pos hun] at hs
      rcases h1 with h1 | h1
      · apply h1
        rw [← hs]
        cases ip with
        | v4 n => rfl
        | v6 n => rfl
      · rw [hun] at h1; cases h1
    · rw [if_neg hun] at hs
      rcases hk with hk | hk | hk
      · exact hun hk
      · rcases h2 with (h2 | h2) | h2
        · exact h2 hs
        · rw [hk] at h2; cases h2
        · rw [hu] at h2; cases h2
      · exact hne hk
  · cases hf

/-- A URL on another port is never refused. -/
theorem other_port_allowed (listen : Ip) (lport : Nat) (host : Host) (port : Nat) (h : port ≠ lport) :
    allowed listen lport host port = true := by
  simp [allowed, h]

/-- **A gateway listening on `[::]` lets an upstream `localhost` on its own port through, although every
request to it comes back** - only the hop marker then breaks the loop. -/
theorem dual_stack_slips : ∃ isLocal : Ip → Prop,
    allowed (.v6 0) 8545 .localhost 8545 = true ∧
      lands true isLocal (.v6 0) (.v4 (127 * 2 ^ 24 + 1)) := by
  refine ⟨fun _ => True, by decide, ?_⟩
  right
  exact ⟨rfl, trivial, Or.inr ⟨rfl, rfl⟩⟩

/-- The default set-up of one host (`0.0.0.0:8545` and `http://127.0.0.1:8545`) is refused. -/
theorem default_refused : allowed (.v4 0) 8545 (.ip (.v4 (127 * 2 ^ 24 + 1))) 8545 = false ∧
    allowed (.v4 0) 8545 .localhost 8545 = false ∧
    allowed (.v4 0) 8545 (.ip (.v4 (127 * 2 ^ 24 + 1))) 8546 = true := by decide

end Verif.Gserve
