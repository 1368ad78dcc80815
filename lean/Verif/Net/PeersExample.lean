import Verif.Net.PeersIdent

/-!
# Concrete histories of the peer table

They meet the hypotheses of the theorems C56-C58 and C60 and show that the findings are
reachable.
-/

namespace Verif.Net.Ex

open State

/-- thresholds of the default configuration (`crates/config/src/network.rs`), short times -/
def cfg : Cfg where
  dflt := 0
  maxScore := 100
  minScore := -100
  discAt := -20
  banAt := -50
  lockout := 100
  decay := fun dt v => if dt < 50 then v else 0
  dialTimeout := 10
  maxBanned := 3
  maxDisc := 3

theorem cfg_sane : cfg.Sane := ⟨by decide +kernel, by decide +kernel⟩

theorem cfg_relaxes : Relaxes cfg.toScoreCfg := by
  intro dt v hv
  change cfg.banAt < if dt < 50 then v else 0
  split
  · exact hv
  · decide +kernel

/-- the legality of a history is decidable -/
instance (s : State) (o : Op) : Decidable (o.legal s) := by
  cases o <;> unfold Op.legal <;> infer_instance

/-- a checker for `Always` -/
def alwaysB (c : Cfg) (Q : State → Op → Bool) : List (Nat × Op) → State → Bool
  | [], _ => true
  | (t, o) :: l, s => Q s o && alwaysB c Q l (o.run c t s)

theorem always_of_B {c : Cfg} {Q : State → Op → Bool} {P : State → Op → Prop}
    (h : ∀ s o, Q s o = true → P s o) : ∀ {l : List (Nat × Op)} {s : State},
      alwaysB c Q l s = true → Always c P l s := by
  intro l
  induction l with
  | nil => intro s _; exact trivial
  | cons e l ih =>
    intro s hq
    obtain ⟨t, o⟩ := e
    rw [alwaysB, Bool.and_eq_true] at hq
    exact ⟨h s o hq.1, ih hq.2⟩

theorem legal_of_B {l : List (Nat × Op)} {s : State}
    (h : alwaysB cfg (fun s o => decide (o.legal s)) l s = true) : Legal cfg l s :=
  always_of_B (fun _ _ h => of_decide_eq_true h) h

/-! ### Two attackers behind one address, and a validator behind the same address -/

/-- validator 1 (key 10) and two anonymous peers (20, 21) connect from address 5; the two are
banned and closed -/
def nat : List (Nat × Op) :=
  [(1, .committees [] [1] []), (1, .known 1 10), (2, .connected 10 (some 5)),
   (3, .connected 20 (some 5)), (3, .connected 21 (some 5)),
   (4, .penalty 20 .fatal), (5, .closed 20), (6, .penalty 21 .fatal), (7, .closed 21)]

theorem nat_legal : Legal cfg nat State.init := legal_of_B (by decide +kernel)

/-- the address is blocked, and with it the validator, although its score is perfect -/
example : (runOps cfg nat State.init).ctr.ipBanned 5 = true ∧
    (runOps cfg nat State.init).peerBanned cfg 10 = true ∧
    (runOps cfg nat State.init).peerBanned cfg 20 = true ∧
    ((runOps cfg nat State.init).getPeer 10).map (fun p => p.score.val) = some 100 ∧
    (runOps cfg nat State.init).ctr.total = 2 := by decide +kernel

/-- `ip_blocked_sound` applies to it -/
example : ∃ id₁ id₂ p₁ p₂ t₁ t₂, id₁ ≠ id₂ ∧
      get id₁ (runOps cfg nat State.init).peers = some p₁ ∧
      get id₂ (runOps cfg nat State.init).peers = some p₂ ∧
      p₁.status = .banned t₁ ∧ p₂.status = .banned t₂ ∧ 5 ∈ p₁.ips ∧ 5 ∈ p₂.ips :=
  ip_blocked_sound nat_legal 5 (by decide +kernel)

/-- no call of the history forgives a committee member at address 5 -/
theorem nat_clear : Always cfg (fun s o => o.clear 5 s) nat State.init := by
  refine always_of_B (Q := fun s o => match o with
    | .committees p cu n => (p ++ cu ++ n).all fun b =>
        match get (.conf b) s.peers with | some r => !decide (5 ∈ r.ips) | none => true
    | .known b k => (match get (.conf b) s.peers with | some r => !decide (5 ∈ r.ips) | none => true)
        && (match s.getPeer k with | some r => !decide (5 ∈ r.ips) | none => true)
    | .connected _ _ => true
    | .closed _ => true
    | .penalty _ _ => true
    | _ => false) ?_ (by decide +kernel)
  intro s o h
  cases o with
  | connected _ _ => exact trivial
  | closed _ => exact trivial
  | penalty _ _ => exact trivial
  | committees p cu n =>
    intro b hb r hr
    have := List.all_eq_true.mp h b hb
    rw [hr] at this
    simpa using this
  | known b k =>
    intro _
    rw [Bool.and_eq_true] at h
    refine ⟨fun r hr => ?_, fun r hr => ?_⟩
    · have := h.1; rw [hr] at this; simpa using this
    · have := h.2; rw [hr] at this; simpa using this
  | _ => cases h

/-- the committee update of the next epoch opens the address again -/
example : ((Op.committees [1] [2] []).run cfg 8 (runOps cfg nat State.init)).peerBanned cfg 10 =
    false := by decide +kernel

/-- the limit on banned records: with two more bans the oldest is forgotten -/
def crowd : List (Nat × Op) := nat ++
  [(8, .connected 22 (some 6)), (8, .connected 23 (some 6)),
   (9, .penalty 22 .fatal), (10, .closed 22), (11, .penalty 23 .fatal), (12, .closed 23)]

theorem crowd_legal : Legal cfg crowd State.init := legal_of_B (by decide +kernel)

example : (runOps cfg crowd State.init).ctr.total = 3 ∧
    (runOps cfg crowd State.init).peerBanned cfg 20 = false ∧
    (runOps cfg crowd State.init).peerBanned cfg 23 = true := by decide +kernel

/-! ### A ban and its end -/

/-- a peer is banned at 4, with the score last updated at 3: locked until 103 -/
def ban : List (Nat × Op) :=
  [(3, .connected 20 (some 5)), (4, .penalty 20 .severe), (4, .penalty 20 .fatal),
   (5, .closed 20)]

theorem ban_legal : Legal cfg ban State.init := legal_of_B (by decide +kernel)

example : (runOps cfg ban State.init).getPeer 20 =
    some ⟨none, ⟨-100, 103⟩, [5], .banned 5, false⟩ := by decide +kernel

/-- what happens before 103: heartbeats, penalties, another connection attempt, and a record
that gives the peer a BLS identity -/
def meanwhile : List (Nat × Op) :=
  [(20, .heartbeat), (60, .penalty 20 .mild), (61, .advertised 30 7 30 false), (102, .heartbeat)]

/-- `ban_lasts` on it -/
example : ∃ q pid, get (.anon 20) (runOps cfg meanwhile (runOps cfg ban State.init)).peers = some q ∧
    peerIdFor (.anon 20) q = some pid ∧
    (runOps cfg meanwhile (runOps cfg ban State.init)).peerBanned cfg pid = true := by
  refine ban_lasts cfg_sane (u := 103) ban_legal (p := ⟨none, ⟨-100, 103⟩, [5], .banned 5, false⟩)
    (by decide +kernel) (by unfold LowScore; decide +kernel) (Nat.le_refl _) meanwhile
    (legal_of_B (by decide +kernel)) (by decide) ?_ ?_
  · refine ⟨trivial, trivial, .inl ⟨by decide +kernel, by decide +kernel⟩, trivial, trivial⟩
  · refine ⟨?_, ?_, ?_, ?_, trivial⟩ <;> decide +kernel

/-- at 153 the score has decayed and the ban is lifted (`ban_ends`) -/
example : ((Op.heartbeat.run cfg 153 (runOps cfg ban State.init)).getPeer 20).map
    (fun p => (p.score.val, p.status)) = some (0, .disconnected 5) := by decide +kernel

example : ∃ q, get (.anon 20) (Op.heartbeat.run cfg 153 (runOps cfg ban State.init)).peers = some q ∧
      q.reputation cfg.toScoreCfg ≠ .banned ∧ ¬ BanStatus q := by
  refine ban_ends ban_legal (p := ⟨none, ⟨-100, 103⟩, [5], .banned 5, false⟩) (by decide +kernel)
    rfl (by intro b hb; cases hb) (by intro t ht; cases ht) (by unfold LowScore; decide +kernel)
    (by decide) (by decide +kernel)

/-- a record that gives the banned peer a BLS identity does not free it -/
example : ((runOps cfg ban State.init).upsert cfg 7 20 6).peerBanned cfg 20 = true :=
  ban_follows_identity ban_legal 7 20 6 (p := ⟨none, ⟨-100, 103⟩, [5], .banned 5, false⟩)
    (.inr (by decide +kernel)) (by unfold LowScore; decide +kernel)

/-! ### Findings -/

/-- three severe penalties take a connected peer to the disconnect threshold; after the close it
is marked banned although its score is far from the ban threshold -/
def stuck : List (Nat × Op) :=
  [(3, .connected 20 (some 5)), (4, .penalty 20 .severe), (4, .penalty 20 .severe), (5, .closed 20),
   (6, .connected 21 (some 5)), (7, .penalty 21 .severe), (7, .penalty 21 .severe), (8, .closed 21)]

theorem stuck_legal : Legal cfg stuck State.init := legal_of_B (by decide +kernel)

/-- the hypotheses of `stuck_forever`: two records banned without a term, which together block
their address -/
example : ∃ p, get (.anon 20) (runOps cfg stuck State.init).peers = some p ∧
    p.status = .banned 5 ∧ cfg.banAt < p.score.val ∧
    (runOps cfg stuck State.init).ctr.ipBanned 5 = true := by
  refine ⟨⟨none, ⟨-20, 3⟩, [5], .banned 5, false⟩, ?_⟩
  decide +kernel

/-- long after, with the score back at zero, the address is still blocked -/
example : (runOps cfg [(1000, .heartbeat), (2000, .heartbeat)]
      (runOps cfg stuck State.init)).ctr.ipBanned 5 = true ∧
    (runOps cfg [(1000, .heartbeat), (2000, .heartbeat)]
      (runOps cfg stuck State.init)).peerBanned cfg 20 = true ∧
    ((runOps cfg [(1000, .heartbeat), (2000, .heartbeat)]
      (runOps cfg stuck State.init)).getPeer 20).map (fun p => p.score.val) = some 0 := by
  decide +kernel

/-- a validator joins at time 1 and leaves the committees at 500; its score was not updated
meanwhile, so the lockout of a fatal penalty at 501 has ended before it begins and the next
heartbeat lifts the ban -/
def exValidator : List (Nat × Op) :=
  [(1, .committees [] [1] []), (1, .known 1 10), (2, .connected 10 (some 5)),
   (500, .committees [2] [3] [4]), (501, .penalty 10 .fatal)]

example : (runOps cfg exValidator State.init).peerBanned cfg 10 = true ∧
    ((runOps cfg exValidator State.init).getPeer 10).map (fun p => p.score.last) = some 101 ∧
    (Op.heartbeat.run cfg 502 (runOps cfg exValidator State.init)).peerBanned cfg 10 = false := by
  decide +kernel

/-- a banned identity (BLS 7, key 20) connects with a new key 30 and then publishes its record:
the ban follows it, but the live connection stays and the address is released -/
def carried : List (Nat × Op) :=
  [(3, .connected 20 (some 5)), (3, .advertised 20 7 20 false), (4, .penalty 20 .fatal),
   (5, .closed 20), (6, .connected 30 (some 5)), (7, .advertised 30 7 30 false)]

theorem carried_legal : Legal cfg carried State.init := legal_of_B (by decide +kernel)

example : (runOps cfg carried State.init).peerBanned cfg 30 = true ∧
    ((runOps cfg carried State.init).getPeer 30).map (fun p => p.status) = some .connected ∧
    (runOps cfg carried State.init).ctr.total = 0 ∧
    (runOps cfg carried State.init).ctr.byIp 5 = 0 := by decide +kernel

/-- two validators are connected; validator 2 publishes a record that names the key of
validator 1, and the key then stands for validator 2 (`member_takes_key`) -/
def hijack : List (Nat × Op) :=
  [(1, .committees [] [1, 2] []), (1, .known 1 10), (1, .known 2 11),
   (2, .connected 10 (some 5)), (2, .connected 11 (some 6))]

theorem hijack_legal : Legal cfg hijack State.init := legal_of_B (by decide +kernel)

example : (runOps cfg hijack State.init).identityFor 10 = .conf 1 ∧
    ((Op.advertised 11 2 10 false).run cfg 3 (runOps cfg hijack State.init)).identityFor 10 =
      .conf 2 ∧
    get (.conf 1) ((Op.advertised 11 2 10 false).run cfg 3 (runOps cfg hijack State.init)).peers =
      none := by decide +kernel

/-- an outsider (BLS 9, key 40) cannot: `outsider_record_is_local` applies -/
example : ((Op.advertised 40 9 40 false).run cfg 3 (runOps cfg hijack State.init)).identityFor 10 =
    .conf 1 := by
  have h := (outsider_record_is_local (c := cfg) hijack_legal 40 9 40 false 3
    (by unfold Member; decide +kernel) (pid := 10) (by decide) (by decide +kernel)).1
  rw [h]; decide +kernel

/-- an allowlisted peer (BLS 7, key 20) that rotates to key 30 while connected under it loses its
place on the allowlist (`rotation_drops_allowlist`) -/
example : ((runOps cfg [(1, .trusted 7 20), (2, .connected 30 (some 5)),
    (3, .advertised 30 7 30 false)] State.init).getPeer 30).map (fun p => p.allow) = some false := by
  decide +kernel

/-- a disconnect requested for a banned record (`disconnect_of_banned_leaks`) -/
example : (runOps cfg ban State.init).pidBanned 20 = true := by decide +kernel

end Verif.Net.Ex
