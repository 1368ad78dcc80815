import Verif.Kad.Store

/-!
# Properties of the record store

Specification: a row is *authentic* when its record passes the signature, address and publisher
checks under the key it is stored under; a record is *current* when nothing older can replace it.
-/

namespace Verif.Kad

open Verif.Net (get put del keys)

/-- the record is one its owner made: its key is a BLS key, it is signed with it, it names at
most the allowed number of addresses and its publisher is the network identity in it -/
structure Authentic (c : Cfg) (env : Env) (r : Rec) (i : Info) : Prop where
  key : env.parse r.key = true
  content : env.dec r.value = some i
  signed : env.signed r.value r.key = true
  addrs : i.addrs ≤ c.maxAddrs
  publisher : r.publisher = some i.pid

theorem valid_iff (c : Cfg) (env : Env) (r : Rec) (i : Info) : valid c env r = some i ↔ Authentic c env r i := by
  unfold valid
  constructor
  · intro h
    split at h
    · rename_i hp
      split at h
      · cases h
      · rename_i j hj
        split at h
        · rename_i hs
          split at h
          · cases h
          · rename_i ha
            split at h
            · rename_i hpub
              cases h
              exact ⟨hp, hj, hs, Nat.not_lt.mp ha, hpub⟩
            · cases h
        · cases h
    · cases h
  · rintro ⟨hp, hj, hs, ha, hpub⟩
    rw [if_pos hp, hj]
    dsimp only
    rw [if_pos hs, if_neg (Nat.not_lt.mpr ha), if_pos hpub]

/-- every row is a record stored under its key, authentic and small enough; keys are different -/
structure Sound (c : Cfg) (env : Env) (s : Store) : Prop where
  nodup : (keys s.rows).Nodup
  rows : ∀ k x, (k, x) ∈ s.rows → ∃ r i, x = .good r ∧ r.key = k ∧ Authentic c env r i ∧ env.size r.value < c.maxValue

/-- what the node itself does is right: its own record is authentic and does not expire -/
def Op.Ok (c : Cfg) (env : Env) : Op → Prop
  | .own r => (∃ i, Authentic c env r i) ∧ r.expires = none
  | _ => True

theorem empty_sound (c : Cfg) (env : Env) : Sound c env Store.empty :=
  ⟨List.nodup_nil, fun _ _ h => by cases h⟩

theorem Sound.noJunk {c : Cfg} {env : Env} {s : Store} (h : Sound c env s) :
    s.rows.any (fun e => e.2.isJunk) = false := by
  rw [List.any_eq_false]
  rintro ⟨k, x⟩ hm
  obtain ⟨r, -, rfl, -⟩ := h.rows k x hm
  simp [Cell.isJunk]

theorem keys_filter (p : Nat × Cell → Bool) {l : List (Nat × Cell)} (h : (keys l).Nodup) : (keys (l.filter p)).Nodup :=
  h.sublist (List.filter_sublist.map _)

theorem Sound.filter {c : Cfg} {env : Env} {s : Store} (h : Sound c env s) (p : Nat × Cell → Bool) (n : Nat) :
    Sound c env ⟨s.rows.filter p, n⟩ :=
  ⟨keys_filter p h.nodup, fun k x hm => h.rows k x (List.mem_filter.mp hm).1⟩

theorem Sound.write {c : Cfg} {env : Env} {s : Store} (h : Sound c env s) {r : Rec} {i : Info} (b : Bool)
    (hr : Authentic c env r i) (hs : env.size r.value < c.maxValue) : Sound c env (s.write r b) := by
  refine ⟨Verif.Net.nodup_put _ _ h.nodup, ?_⟩
  intro k x hm
  rcases List.mem_cons.mp hm with e | hm
  · cases e; exact ⟨r, i, rfl, rfl, hr, hs⟩
  · exact h.rows k x (List.mem_filter.mp hm).1

theorem evict_sound {c : Cfg} {env : Env} {s : Store} (h : Sound c env s) (now : Nat) :
    s.evict now = some ⟨s.rows.filter (fun e => !e.2.expired now), s.num - s.rows.countP (fun e => e.2.expired now)⟩ := by
  unfold Store.evict
  rw [h.noJunk]
  rfl

theorem put_sound {c : Cfg} {env : Env} {s : Store} (h : Sound c env s) {now : Nat} {r : Rec} {i : Info}
    (hr : Authentic c env r i) : ∃ s' o, s.put c env now r = some (s', o) ∧ Sound c env s' := by
  unfold Store.put
  split
  · exact ⟨_, _, rfl, h⟩
  · rename_i hs
    have hs := Nat.not_le.mp hs
    split
    · exact ⟨_, _, rfl, h.write false hr hs⟩
    · split
      · rw [evict_sound h now]
        dsimp only
        split
        · exact ⟨_, _, rfl, h.filter _ _⟩
        · exact ⟨_, _, rfl, (h.filter _ _).write true hr hs⟩
      · exact ⟨_, _, rfl, h.write true hr hs⟩

theorem lookup_sound {c : Cfg} {env : Env} {s : Store} (h : Sound c env s) (k now : Nat) :
    ∃ o, s.lookup k now = some o := by
  unfold Store.lookup
  split
  · exact ⟨_, rfl⟩
  · rename_i hg
    obtain ⟨r, -, hj, -⟩ := h.rows _ _ (Verif.Net.mem_of_get hg)
    cases hj
  · exact ⟨_, rfl⟩

theorem isNewer_sound {c : Cfg} {env : Env} {s : Store} (h : Sound c env s) (now : Nat) (r : Rec) :
    ∃ b, isNewer env now r s = some b := by
  unfold isNewer
  obtain ⟨o, ho⟩ := lookup_sound h r.key now
  rw [ho]
  cases o with
  | none => exact ⟨_, rfl⟩
  | some e =>
    dsimp only
    split
    · exact ⟨_, rfl⟩
    · exact ⟨_, rfl⟩

theorem inbound_sound {c : Cfg} {env : Env} {s : Store} (h : Sound c env s) (banned : Nat → Bool) (now src : Nat)
    (r : Rec) : ∃ s' o, inbound c env banned now src r s = some (s', o) ∧ Sound c env s' := by
  unfold inbound
  split
  · exact ⟨_, _, rfl, h⟩
  · split
    · exact ⟨_, _, rfl, h⟩
    · rename_i i hi
      have hi := (valid_iff c env r i).mp hi
      obtain ⟨b, hb⟩ := isNewer_sound h now r
      rw [hb]
      cases b with
      | false => exact ⟨_, _, rfl, h⟩
      | true =>
        obtain ⟨s', o, hp, hs'⟩ := put_sound (now := now) h hi
        dsimp only
        rw [hp]
        cases o with
        | none => exact ⟨_, _, rfl, hs'⟩
        | some e => exact ⟨_, _, rfl, hs'⟩

theorem remove_sound {c : Cfg} {env : Env} {s : Store} (h : Sound c env s) (k : Nat) : Sound c env (s.remove k) :=
  ⟨Verif.Net.nodup_del k h.nodup, fun k' x hm => h.rows k' x (List.mem_filter.mp hm).1⟩

theorem not_corrupt {c : Cfg} {env : Env} {s : Store} (h : Sound c env s) (now : Nat) :
    s.rows.filter (fun e => corrupt env now e.2) = [] := by
  rw [List.filter_eq_nil_iff]
  rintro ⟨k, x⟩ hm
  obtain ⟨r, i, rfl, hk, ha, -⟩ := h.rows k x hm
  simp [corrupt, ha.key, ha.content]

theorem restart_sound {c : Cfg} {env : Env} {s : Store} (h : Sound c env s) (now : Nat) :
    restart env now s = some ⟨s.rows, s.rows.length⟩ := by
  unfold restart
  rw [h.noJunk, not_corrupt h now]
  rfl

theorem run_sound {c : Cfg} {env : Env} {s : Store} (h : Sound c env s) {now : Nat} {o : Op} (ho : o.Ok c env) :
    ∃ s', o.run c env now s = some s' ∧ Sound c env s' := by
  cases o with
  | inbound b src r =>
    obtain ⟨s', o, h1, h2⟩ := inbound_sound h b now src r
    exact ⟨s', by simp only [Op.run, h1, Option.map_some], h2⟩
  | own r =>
    obtain ⟨⟨i, hi⟩, -⟩ := ho
    obtain ⟨s', o, h1, h2⟩ := put_sound (now := now) h hi
    exact ⟨s', by simp only [Op.run, h1, Option.map_some], h2⟩
  | remove k => exact ⟨_, rfl, remove_sound h k⟩
  | restart => exact ⟨_, restart_sound h now, ⟨h.nodup, h.rows⟩⟩

/-- **Authentic.**  Whatever peers send, in every order and with any bans, and however often the
node is restarted: no operation panics, and every record held is one that its owner signed, under
its own key, naming its own publisher, with at most the allowed number of addresses and below the
size limit. -/
theorem held_authentic {c : Cfg} {env : Env} (l : List (Nat × Op)) (hl : ∀ e ∈ l, e.2.Ok c env) :
    ∀ {s : Store}, Sound c env s → ∃ s', runs c env l s = some s' ∧ Sound c env s' := by
  induction l with
  | nil => intro s h; exact ⟨s, rfl, h⟩
  | cons e l ih =>
    intro s h
    obtain ⟨t, o⟩ := e
    obtain ⟨s1, h1, hs1⟩ := run_sound (now := t) h (hl (t, o) (by simp))
    obtain ⟨s2, h2, hs2⟩ := ih (fun e he => hl e (by simp [he])) hs1
    refine ⟨s2, ?_, hs2⟩
    simp only [runs, h1, Option.bind_some, h2]

/-! ## The newest record stays -/

/-- the time stamp a row carries -/
def stamp (env : Env) (s : Store) (k : Nat) : Option Nat :=
  match get k s.rows with
  | some (.good r) => (env.dec r.value).map Info.ts
  | _ => none

theorem put_get {c : Cfg} {env : Env} {s s' : Store} {now : Nat} {r : Rec} {o : Option Refusal}
    (h : Sound c env s) (hp : s.put c env now r = some (s', o)) :
    (o = none ∧ get r.key s'.rows = some (.good r) ∧
      ∀ k, k ≠ r.key → ∀ x, get k s.rows = some x → x.expired now = false → get k s'.rows = some x) ∨
    (o ≠ none ∧ ∀ k x, get k s.rows = some x → x.expired now = false → get k s'.rows = some x) := by
  have evicted : ∀ k x, get k s.rows = some x → x.expired now = false →
      get k (s.rows.filter (fun e => !e.2.expired now)) = some x := by
    intro k x hg hx
    exact Verif.Net.get_of_mem (keys_filter _ h.nodup)
      (List.mem_filter.mpr ⟨Verif.Net.mem_of_get hg, by simp [hx]⟩)
  unfold Store.put at hp
  split at hp
  · cases hp
    exact .inr ⟨by simp, fun k x hg _ => hg⟩
  · split at hp
    · cases hp
      exact .inl ⟨rfl, Verif.Net.get_put_self _ _ _, fun k hk x hg _ => by
        rw [Store.write, Verif.Net.get_put_ne hk]; exact hg⟩
    · split at hp
      · rw [evict_sound h now] at hp
        dsimp only at hp
        split at hp
        · cases hp
          exact .inr ⟨by simp, evicted⟩
        · cases hp
          exact .inl ⟨rfl, Verif.Net.get_put_self _ _ _, fun k hk x hg hx => by
            rw [Store.write, Verif.Net.get_put_ne hk]; exact evicted k x hg hx⟩
      · cases hp
        exact .inl ⟨rfl, Verif.Net.get_put_self _ _ _, fun k hk x hg _ => by
          rw [Store.write, Verif.Net.get_put_ne hk]; exact hg⟩

/-- **Only a newer record replaces.**  As long as a record has not expired, an inbound record
leaves it as it is, or replaces it by one of the same owner with a later time stamp. -/
theorem replaced_by_newer {c : Cfg} {env : Env} {s s' : Store} {banned : Nat → Bool} {now src : Nat} {r : Rec} {o : Out}
    (h : Sound c env s) (hi : inbound c env banned now src r s = some (s', o)) {k : Nat} {old : Rec} {a : Info}
    (hg : get k s.rows = some (.good old)) (hx : old.expired now = false) (ha : env.dec old.value = some a) :
    get k s'.rows = some (.good old) ∨
      (r.key = k ∧ get k s'.rows = some (.good r) ∧ ∃ b, env.dec r.value = some b ∧ env.signed r.value k = true ∧ a.ts < b.ts) := by
  unfold inbound at hi
  split at hi
  · cases hi; exact .inl hg
  · split at hi
    · cases hi; exact .inl hg
    · rename_i i hv
      have hv := (valid_iff c env r i).mp hv
      split at hi
      · cases hi
      · cases hi; exact .inl hg
      · rename_i hn
        have key : ∀ s1 o1, s.put c env now r = some (s1, o1) → s1 = s' →
            get k s'.rows = some (.good old) ∨
            (r.key = k ∧ get k s'.rows = some (.good r) ∧ ∃ b, env.dec r.value = some b ∧ env.signed r.value k = true ∧ a.ts < b.ts) := by
          intro s1 o1 hp e
          subst e
          rcases put_get h hp with ⟨-, hself, hoth⟩ | ⟨-, hall⟩
          · by_cases hk : k = r.key
            · right
              subst hk
              refine ⟨rfl, hself, ?_⟩
              unfold isNewer Store.lookup at hn
              rw [hg] at hn
              dsimp only at hn
              rw [hx] at hn
              simp only [Bool.false_eq_true, if_false, ha, hv.content] at hn
              exact ⟨i, hv.content, hv.signed, of_decide_eq_true (Option.some.inj hn)⟩
            · exact .inl (hoth k hk _ hg hx)
          · exact .inl (hall k _ hg hx)
        split at hi
        · cases hi
        · rename_i s1 hp; cases hi; exact key _ _ hp rfl
        · rename_i s1 e1 hp; cases hi; exact key _ _ hp rfl

/-- **The node's own record stays.**  Once the node has published its record, nothing a peer
sends changes or removes it, if the node never signed a later one: not a replayed older record
of its own, not a full table, not a restart.  (The replication job does not remove it, since it
does not expire.) -/
theorem own_record_kept {c : Cfg} {env : Env} {own : Rec} {a : Info} (ha : Authentic c env own a) (he : own.expires = none)
    (hlast : ∀ v b, env.signed v own.key = true → env.dec v = some b → b.ts ≤ a.ts) (l : List (Nat × Op))
    (hl : ∀ e ∈ l, match e.2 with
      | .own r => r = own
      | .remove k => k ≠ own.key
      | _ => True) :
    ∀ {s s' : Store}, Sound c env s → get own.key s.rows = some (.good own) → runs c env l s = some s' →
      get own.key s'.rows = some (.good own) := by
  have hx : ∀ now, own.expired now = false := fun now => by simp [Rec.expired, he]
  induction l with
  | nil => intro s s' _ hg h; cases h; exact hg
  | cons e l ih =>
    intro s s' hs hg h
    obtain ⟨t, o⟩ := e
    have ho := hl (t, o) (by simp)
    simp only [runs] at h
    obtain ⟨s1, h1, h2⟩ := Option.bind_eq_some_iff.mp h
    have hok : o.Ok c env := by
      cases o with
      | own r => dsimp only at ho; subst ho; exact ⟨⟨a, ha⟩, he⟩
      | _ => trivial
    obtain ⟨s1', h1', hs1⟩ := run_sound (now := t) hs hok
    rw [h1] at h1'
    cases h1'
    refine ih (fun e he => hl e (by simp [he])) hs1 ?_ h2
    cases o with
    | inbound b src r =>
      obtain ⟨⟨s2, o2⟩, h3, h4⟩ := Option.map_eq_some_iff.mp h1
      cases h4
      rcases replaced_by_newer hs h3 hg (hx t) ha.content with h5 | ⟨-, -, b', hb, hsig, hlt⟩
      · exact h5
      · have := hlast _ _ hsig hb
        omega
    | own r =>
      dsimp only at ho
      subst ho
      obtain ⟨⟨s2, o2⟩, h3, h4⟩ := Option.map_eq_some_iff.mp h1
      cases h4
      rcases put_get hs h3 with ⟨-, h5, -⟩ | ⟨-, h5⟩
      · exact h5
      · exact h5 _ _ hg (hx t)
    | remove k =>
      cases h1
      rw [Store.remove, Verif.Net.get_del_ne (fun e => ho e.symm)]
      exact hg
    | restart =>
      have h1 : restart env t s = some s1 := h1
      rw [restart_sound hs t] at h1
      cases h1
      exact hg

/-- **Replay after expiry** (finding).  Time stamps are compared only with records that have not
expired, and the expiry of a stored record is what its sender wrote (capped by the own time to
live).  So when the sender of the newest record gave it a short life, the older record of the
same owner is accepted afterwards, and the time stamp goes back. -/
theorem replay_after_expiry {c : Cfg} {env : Env} {s : Store} {banned : Nat → Bool} {now src : Nat} {old : Rec} {i : Info}
    (h : Sound c env s) (hs : banned src = false) (hp : banned i.pid = false) (hv : Authentic c env old i)
    (hsz : env.size old.value < c.maxValue) {new : Rec} (hg : get old.key s.rows = some (.good new))
    (hexp : new.expired now = true) :
    ∃ s', inbound c env banned now src old s = some (s', .learned i) ∧ stamp env s' old.key = some i.ts := by
  have h1 : (publisherBanned banned old.publisher || banned src) = false := by
    rw [hv.publisher]; simp [publisherBanned, hs, hp]
  have h2 : isNewer env now old s = some true := by
    unfold isNewer Store.lookup
    rw [hg]
    dsimp only
    rw [hexp]
    rfl
  have h3 : s.put c env now old = some (s.write old false, none) := by
    unfold Store.put
    rw [if_neg (Nat.not_le.mpr hsz), hg]
  refine ⟨s.write old false, ?_, ?_⟩
  · unfold inbound
    rw [h1, (valid_iff c env old i).mpr hv, h2]
    dsimp only
    rw [h3]
    rfl
  · unfold stamp
    rw [Store.write, Verif.Net.get_put_self]
    simp [hv.content]

/-! ## Limits -/

/-- removals of keys that are not there -/
def absent (c : Cfg) (env : Env) : List (Nat × Op) → Store → Nat
  | [], _ => 0
  | (t, o) :: l, s =>
    (match o with
      | .remove k => if get k s.rows = none then 1 else 0
      | _ => 0) +
    (match o.run c env t s with
      | some s' => absent c env l s'
      | none => 0)

theorem length_del_none {k : Nat} {l : List (Nat × Cell)} (h : get k l = none) : (del k l).length = l.length := by
  rw [Verif.Net.del_eq_self h]

theorem length_del_some {k : Nat} {x : Cell} {l : List (Nat × Cell)} (hn : (keys l).Nodup) (h : get k l = some x) :
    (del k l).length + 1 = l.length := by
  have := Verif.Net.cnt_del_some (fun _ => true) hn h
  simp only [Verif.Net.cnt, List.countP_true, Verif.Net.b2n, if_true] at this
  exact this.symm

theorem length_filter_expired (l : List (Nat × Cell)) (now : Nat) :
    (l.filter (fun e => !e.2.expired now)).length + l.countP (fun e => e.2.expired now) = l.length := by
  induction l with
  | nil => rfl
  | cons e l ih =>
    by_cases h : e.2.expired now = true
    · simp [h]; omega
    · simp only [Bool.not_eq_true] at h
      simp [h]; omega

/-- the counter runs at most `d` behind the table, and neither passes the limit -/
structure Counted (c : Cfg) (d : Nat) (s : Store) : Prop where
  le : s.num ≤ s.rows.length
  ge : s.rows.length ≤ s.num + d
  cap : s.num ≤ c.maxRecords

theorem put_counted {c : Cfg} {env : Env} {s s' : Store} {now : Nat} {r : Rec} {o : Option Refusal} {d : Nat}
    (hs : Sound c env s) (h : Counted c d s) (hp : s.put c env now r = some (s', o)) : Counted c d s' := by
  have hf := length_filter_expired s.rows now
  obtain ⟨h1, h2, h3⟩ := h
  unfold Store.put at hp
  split at hp
  · cases hp; exact ⟨h1, h2, h3⟩
  · split at hp
    · rename_i x hg
      cases hp
      have hl := length_del_some hs.nodup hg
      refine ⟨?_, ?_, h3⟩
      · show s.num ≤ (del r.key s.rows).length + 1
        omega
      · show (del r.key s.rows).length + 1 ≤ s.num + d
        omega
    · rename_i hg
      split at hp
      · rw [evict_sound hs now] at hp
        dsimp only at hp
        have hg' : get r.key (s.rows.filter (fun e => !e.2.expired now)) = none := by
          rw [Verif.Net.get_eq_none] at hg ⊢
          intro hm
          exact hg ((List.filter_sublist.map _).subset hm)
        have hl := length_del_none hg'
        split at hp
        · cases hp
          refine ⟨?_, ?_, ?_⟩ <;> dsimp only <;> omega
        · rename_i hlt
          cases hp
          refine ⟨?_, ?_, ?_⟩
          · simp only [Store.write, put, List.length_cons, if_true]
            omega
          · simp only [Store.write, put, List.length_cons, if_true]
            omega
          · simp only [Store.write, if_true]
            omega
      · rename_i hlt
        cases hp
        have hl := length_del_none hg
        refine ⟨?_, ?_, ?_⟩
        · show s.num + 1 ≤ (del r.key s.rows).length + 1
          omega
        · show (del r.key s.rows).length + 1 ≤ s.num + 1 + d
          omega
        · show s.num + 1 ≤ c.maxRecords
          omega

theorem inbound_cases {c : Cfg} {env : Env} {s s' : Store} {banned : Nat → Bool} {now src : Nat} {r : Rec} {o : Out}
    (hi : inbound c env banned now src r s = some (s', o)) : s' = s ∨ ∃ e, s.put c env now r = some (s', e) := by
  unfold inbound at hi
  split at hi
  · cases hi; exact .inl rfl
  · split at hi
    · cases hi; exact .inl rfl
    · split at hi
      · cases hi
      · cases hi; exact .inl rfl
      · split at hi
        · cases hi
        · rename_i hp; cases hi; exact .inr ⟨_, hp⟩
        · rename_i hp; cases hi; exact .inr ⟨_, hp⟩

/-- operations other than a start -/
def Op.running : Op → Bool
  | .restart => false
  | _ => true

/-- **Bounded.**  The table never holds more than the allowed number of records, beyond the
number of times a key was removed that was not there; and if that never happens, the counter is
exactly the size of the table. -/
theorem table_bounded {c : Cfg} {env : Env} (l : List (Nat × Op)) (hl : ∀ e ∈ l, e.2.Ok c env ∧ e.2.running = true) :
    ∀ {s s' : Store} {d : Nat}, Sound c env s → Counted c d s → runs c env l s = some s' →
      Counted c (d + absent c env l s) s' ∧ s'.rows.length ≤ c.maxRecords + (d + absent c env l s) := by
  induction l with
  | nil =>
    intro s s' d hs hc h
    cases h
    exact ⟨hc, by have := hc.ge; have := hc.cap; simp only [absent]; omega⟩
  | cons e l ih =>
    intro s s' d hs hc h
    obtain ⟨t, o⟩ := e
    have ho := hl (t, o) (by simp)
    simp only [runs] at h
    obtain ⟨s1, h1, h2⟩ := Option.bind_eq_some_iff.mp h
    obtain ⟨s1', h1', hs1⟩ := run_sound (now := t) hs ho.1
    rw [h1] at h1'
    cases h1'
    have step : ∀ d', Counted c (d + d') s1 → absent c env ((t, o) :: l) s = d' + absent c env l s1 →
        Counted c (d + absent c env ((t, o) :: l) s) s' ∧
          s'.rows.length ≤ c.maxRecords + (d + absent c env ((t, o) :: l) s) := by
      intro d' hc' e
      have := ih (fun e he => hl e (by simp [he])) hs1 hc' h2
      rw [e, ← Nat.add_assoc]
      exact this
    cases o with
    | inbound b src r =>
      obtain ⟨⟨s2, o2⟩, h3, h4⟩ := Option.map_eq_some_iff.mp h1
      cases h4
      refine step 0 ?_ (by simp only [absent, h1, Nat.zero_add])
      rcases inbound_cases h3 with e | ⟨e, hp⟩
      · rw [e]; exact hc
      · exact put_counted hs hc hp
    | own r =>
      obtain ⟨⟨s2, o2⟩, h3, h4⟩ := Option.map_eq_some_iff.mp h1
      cases h4
      exact step 0 (put_counted hs hc h3) (by simp only [absent, h1, Nat.zero_add])
    | remove k =>
      cases h1
      cases hg : get k s.rows with
      | none =>
        refine step 1 ?_ (by simp only [absent, hg, if_true, Op.run])
        have := length_del_none hg
        obtain ⟨h5, h6, h7⟩ := hc
        refine ⟨?_, ?_, ?_⟩
        · show s.num - 1 ≤ (del k s.rows).length; omega
        · show (del k s.rows).length ≤ s.num - 1 + (d + 1); omega
        · show s.num - 1 ≤ c.maxRecords; omega
      | some x =>
        refine step 0 ?_ (by simp [absent, hg, Op.run])
        have := length_del_some hs.nodup hg
        obtain ⟨h5, h6, h7⟩ := hc
        refine ⟨?_, ?_, ?_⟩
        · show s.num - 1 ≤ (del k s.rows).length; omega
        · show (del k s.rows).length ≤ s.num - 1 + d; omega
        · show s.num - 1 ≤ c.maxRecords; omega
    | restart => exact absurd ho.2 (by simp [Op.running])

theorem empty_counted (c : Cfg) : Counted c 0 Store.empty := ⟨Nat.le_refl _, Nat.le_refl _, Nat.zero_le _⟩

/-- A start counts afresh: the counter is the size of the table. -/
theorem restart_recounts {c : Cfg} {env : Env} {s s' : Store} {now : Nat} (h : Sound c env s)
    (hr : restart env now s = some s') : s'.rows = s.rows ∧ s'.num = s'.rows.length := by
  rw [restart_sound h now] at hr
  cases hr
  exact ⟨rfl, rfl⟩

/-! ## What a full table does -/

/-- **Refreshing works in a full table.**  A newer record of an owner whose record is held is
stored, however full the table is. -/
theorem refresh_accepted {c : Cfg} {env : Env} {s : Store} {banned : Nat → Bool} {now src : Nat} {r : Rec} {i a : Info}
    (hs : banned src = false) (hp : banned i.pid = false) (hv : Authentic c env r i)
    (hsz : env.size r.value < c.maxValue) {old : Rec} (hg : get r.key s.rows = some (.good old))
    (ha : env.dec old.value = some a) (hn : a.ts < i.ts) :
    inbound c env banned now src r s = some (s.write r false, .learned i) := by
  have h1 : (publisherBanned banned r.publisher || banned src) = false := by
    rw [hv.publisher]; simp [publisherBanned, hs, hp]
  have h2 : isNewer env now r s = some true := by
    unfold isNewer Store.lookup
    rw [hg]
    dsimp only
    by_cases hx : old.expired now = true
    · rw [hx]; rfl
    · rw [Bool.not_eq_true] at hx
      rw [hx]
      simp [ha, hv.content, hn]
  have h3 : s.put c env now r = some (s.write r false, none) := by
    unfold Store.put
    rw [if_neg (Nat.not_le.mpr hsz), hg]
  unfold inbound
  rw [h1, (valid_iff c env r i).mpr hv, h2]
  dsimp only
  rw [h3]
  rfl

/-- what becomes of a good record of an owner not yet in the table -/
theorem fresh_inbound {c : Cfg} {env : Env} {s : Store} {banned : Nat → Bool} {now src : Nat} {r : Rec} {i : Info}
    (hs : banned src = false) (hp : banned i.pid = false) (hv : Authentic c env r i)
    (hg : get r.key s.rows = none) :
    inbound c env banned now src r s = (match s.put c env now r with
      | none => none
      | some (s', none) => some (s', .learned i)
      | some (s', some _) => some (s', .refused)) := by
  have h1 : (publisherBanned banned r.publisher || banned src) = false := by
    rw [hv.publisher]; simp [publisherBanned, hs, hp]
  have h2 : isNewer env now r s = some true := by
    unfold isNewer Store.lookup
    rw [hg]
  unfold inbound
  rw [h1, (valid_iff c env r i).mpr hv, h2]
  rfl

/-- **Accepted unless full.**  A good record of a new owner is stored and the owner learned,
exactly if the table has room once its expired rows are dropped. -/
theorem fresh_accepted_iff {c : Cfg} {env : Env} {s : Store} {banned : Nat → Bool} {now src : Nat} {r : Rec} {i : Info}
    (h : Sound c env s) (hcnt : s.num = s.rows.length)
    (hs : banned src = false) (hp : banned i.pid = false) (hv : Authentic c env r i)
    (hsz : env.size r.value < c.maxValue) (hg : get r.key s.rows = none) :
    (∃ s', inbound c env banned now src r s = some (s', .learned i)) ↔
      (s.rows.filter (fun e => !e.2.expired now)).length < c.maxRecords := by
  rw [fresh_inbound hs hp hv hg]
  have hf := length_filter_expired s.rows now
  unfold Store.put
  rw [if_neg (Nat.not_le.mpr hsz), hg]
  dsimp only
  by_cases hfull : c.maxRecords ≤ s.num
  · rw [if_pos hfull, evict_sound h now]
    dsimp only
    by_cases h2 : c.maxRecords ≤ s.num - s.rows.countP (fun e => e.2.expired now)
    · rw [if_pos h2]
      constructor
      · rintro ⟨s', e⟩; cases e
      · intro hlt; omega
    · rw [if_neg h2]
      exact ⟨fun _ => by omega, fun _ => ⟨_, rfl⟩⟩
  · rw [if_neg hfull]
    exact ⟨fun _ => by omega, fun _ => ⟨_, rfl⟩⟩

/-- **A full table hides newcomers** (finding).  When it is full of unexpired records, the good
record that a new peer pushes over its own connection is refused, and with it the peer's
identity: `add_self_advertised_peer` is not called. -/
theorem full_hides_newcomer {c : Cfg} {env : Env} {s : Store} {banned : Nat → Bool} {now src : Nat} {r : Rec} {i : Info}
    (h : Sound c env s) (hfull : c.maxRecords ≤ s.num) (hun : ∀ e ∈ s.rows, e.2.expired now = false)
    (hs : banned src = false) (hp : banned i.pid = false) (hv : Authentic c env r i)
    (hsz : env.size r.value < c.maxValue) (hg : get r.key s.rows = none) :
    inbound c env banned now src r s = some (s, .refused) := by
  rw [fresh_inbound hs hp hv hg]
  have hz : s.rows.countP (fun e => e.2.expired now) = 0 := by
    rw [List.countP_eq_zero]
    intro e he
    simp [hun e he]
  have hf : s.rows.filter (fun e => !e.2.expired now) = s.rows := by
    rw [List.filter_eq_self]
    intro e he
    simp [hun e he]
  have : s.evict now = some s := by rw [evict_sound h now, hz, hf, Nat.sub_zero]
  unfold Store.put
  rw [if_neg (Nat.not_le.mpr hsz), hg]
  dsimp only
  rw [if_pos hfull, this]
  dsimp only
  rw [if_pos hfull]

/-- pushing a list of records from one peer, at one time -/
def pushAll (banned : Nat → Bool) (src now : Nat) (rs : List Rec) : List (Nat × Op) :=
  rs.map fun r => (now, .inbound banned src r)

/-- **One peer fills the table** (finding).  Keys cost nothing: any peer that is not banned can
fill the table by itself with records for keys it made up, each signed with its key and naming
an identity that is not banned; afterwards newcomers are refused until the records expire. -/
theorem one_peer_fills {c : Cfg} {env : Env} {banned : Nat → Bool} {src now : Nat} (hs : banned src = false)
    (rs : List Rec) (hd : (rs.map Rec.key).Nodup)
    (hr : ∀ r ∈ rs, (∃ i, Authentic c env r i ∧ banned i.pid = false) ∧ env.size r.value < c.maxValue ∧ r.expired now = false) :
    ∀ {s : Store}, Sound c env s → s.num + rs.length ≤ c.maxRecords → (∀ r ∈ rs, get r.key s.rows = none) →
      (∀ e ∈ s.rows, e.2.expired now = false) →
      ∃ s', runs c env (pushAll banned src now rs) s = some s' ∧ s'.num = s.num + rs.length ∧ Sound c env s' ∧
        ∀ e ∈ s'.rows, e.2.expired now = false := by
  induction rs with
  | nil => intro s h _ _ hu; exact ⟨s, rfl, rfl, h, hu⟩
  | cons r rs ih =>
    intro s h hroom hfresh hu
    obtain ⟨⟨i, hv, hb⟩, hsz, hx⟩ := hr r (by simp)
    have hd' := List.nodup_cons.mp hd
    have hg := hfresh r (by simp)
    have hput : s.put c env now r = some (s.write r true, none) := by
      unfold Store.put
      rw [if_neg (Nat.not_le.mpr hsz), hg]
      dsimp only
      rw [if_neg (by simp only [List.length_cons] at hroom; omega)]
    have hin : inbound c env banned now src r s = some (s.write r true, .learned i) := by
      rw [fresh_inbound hs hb hv hg, hput]
    have hs1 : Sound c env (s.write r true) := h.write true hv hsz
    obtain ⟨s', h1, h2, h3, h4⟩ := ih hd'.2 (fun x hx => hr x (by simp [hx])) hs1
      (by simp only [List.length_cons] at hroom; show s.num + 1 + rs.length ≤ _; omega)
      (by
        intro x hxm
        have hne : x.key ≠ r.key := fun e => hd'.1 (e ▸ List.mem_map_of_mem hxm)
        rw [Store.write, Verif.Net.get_put_ne hne]
        exact hfresh x (by simp [hxm]))
      (by
        intro e he
        rcases List.mem_cons.mp he with e1 | he
        · subst e1; exact hx
        · exact hu e (List.mem_filter.mp he).1)
    refine ⟨s', ?_, ?_, h3, h4⟩
    · simp only [pushAll, List.map_cons, runs, Op.run, hin, Option.map_some, Option.bind_some]
      exact h1
    · rw [h2]; show s.num + 1 + rs.length = _; simp only [List.length_cons]; omega

/-! ## Who is penalised -/

/-- **Penalties.**  The sender of a record is penalised exactly when the record has no publisher
or, neither its publisher nor the sender being banned, it is not authentic. -/
theorem penalised_iff {c : Cfg} {env : Env} {s s' : Store} (h : Sound c env s) {banned : Nat → Bool} {now src : Nat} {r : Rec}
    {o : Out} (hi : inbound c env banned now src r s = some (s', o)) :
    o = .penalised ↔ r.publisher = none ∨
      ((∀ p, r.publisher = some p → banned p = false) ∧ banned src = false ∧ ¬ ∃ i, Authentic c env r i) := by
  unfold inbound at hi
  cases hpub : r.publisher with
  | none =>
    rw [hpub] at hi
    simp only [publisherBanned, Bool.true_or, if_true] at hi
    cases hi
    simp
  | some p =>
    rw [hpub] at hi
    by_cases hb : (publisherBanned banned (some p) || banned src) = true
    · rw [if_pos hb] at hi
      cases hi
      have hb : banned p = true ∨ banned src = true := by simpa [publisherBanned] using hb
      constructor
      · intro e; simp at e
      · rintro (e | ⟨h1, h2, -⟩)
        · cases e
        · rcases hb with hb | hb
          · rw [h1 p rfl] at hb; cases hb
          · rw [h2] at hb; cases hb
    · rw [if_neg hb] at hi
      have hb : banned p = false ∧ banned src = false := by simpa [publisherBanned] using hb
      cases hv : valid c env r with
      | none =>
        rw [hv] at hi
        cases hi
        have : ¬ ∃ i, Authentic c env r i := by
          rintro ⟨i, hi⟩
          rw [(valid_iff c env r i).mpr hi] at hv
          cases hv
        simp only [true_iff]
        exact .inr ⟨fun q hq => by cases hq; exact hb.1, hb.2, this⟩
      | some i =>
        rw [hv] at hi
        have hne : o ≠ .penalised := by
          dsimp only at hi
          split at hi
          · cases hi
          · cases hi; simp
          · split at hi
            · cases hi
            · cases hi; simp
            · cases hi; simp
        constructor
        · intro e; exact absurd e hne
        · rintro (e | ⟨-, -, e⟩)
          · cases e
          · exact absurd ⟨i, (valid_iff c env r i).mp hv⟩ e

/-- **Replication is never punished.**  A record that one correct node holds, sent on to
another, with whatever expiry, is not a reason for that node to penalise it. -/
theorem replica_not_penalised {c : Cfg} {env : Env} {a b b' : Store} (ha : Sound c env a) (hb : Sound c env b)
    {k : Nat} {r : Rec} (hg : get k a.rows = some (.good r)) (e : Option Nat) {banned : Nat → Bool} {now src : Nat} {o : Out}
    (hi : inbound c env banned now src { r with expires := e } b = some (b', o)) : o ≠ .penalised := by
  intro ho
  obtain ⟨r', i, he, -, hv, -⟩ := ha.rows k _ (Verif.Net.mem_of_get hg)
  cases he
  rcases (penalised_iff hb hi).mp ho with h | ⟨-, -, h⟩
  · have h : r.publisher = none := h
    rw [hv.publisher] at h
    cases h
  · exact h ⟨i, ⟨hv.key, hv.content, hv.signed, hv.addrs, hv.publisher⟩⟩

/-- Records of banned publishers and from banned peers are not stored. -/
theorem banned_not_stored {c : Cfg} {env : Env} {s s' : Store} {banned : Nat → Bool} {now src : Nat} {r : Rec} {o : Out}
    (hb : banned src = true ∨ ∃ p, r.publisher = some p ∧ banned p = true)
    (hi : inbound c env banned now src r s = some (s', o)) : s' = s ∧ ∀ i, o ≠ .learned i := by
  unfold inbound at hi
  have : (publisherBanned banned r.publisher || banned src) = true := by
    rcases hb with h | ⟨p, h, h'⟩
    · simp [h]
    · rw [h]; simp [publisherBanned, h']
  rw [if_pos this] at hi
  cases hi
  refine ⟨rfl, ?_⟩
  intro i
  split <;> simp

/-! ## Undecodable rows -/

/-- **One bad row stops every start** (finding).  A row of the record table whose bytes do not
decode makes the load at start panic, at every start, although the load claims to tolerate
corrupt rows: it tolerates only bad values inside a row that decodes. -/
theorem junk_stops_start (env : Env) (now : Nat) {s : Store} {k : Nat} (h : (k, Cell.junk) ∈ s.rows) :
    restart env now s = none := by
  unfold restart
  rw [if_pos]
  rw [List.any_eq_true]
  exact ⟨_, h, rfl⟩

/-- A row that decodes but holds a value that does not, or a key that is none, is removed at start. -/
theorem bad_value_removed {env : Env} {now : Nat} {s s' : Store} (hn : (keys s.rows).Nodup) (hr : restart env now s = some s')
    {k : Nat} {r : Rec} (hg : get k s.rows = some (.good r)) (hx : r.expired now = false)
    (hbad : env.parse r.key = false ∨ env.dec r.value = none) : get k s'.rows = none := by
  unfold restart at hr
  split at hr
  · cases hr
  · cases hr
    have hc : corrupt env now (.good r) = true := by
      rcases hbad with h | h <;> simp [corrupt, hx, h]
    have hm : (k, Cell.good r) ∈ s.rows.filter (fun e => corrupt env now e.2) :=
      List.mem_filter.mpr ⟨Verif.Net.mem_of_get hg, hc⟩
    have gone : ∀ (l : List (Nat × Cell)) (s : Store), get k s.rows = none →
        get k (l.foldl (fun s e => s.remove e.1) s).rows = none := by
      intro l
      induction l with
      | nil => intro s h; exact h
      | cons e l ih =>
        intro s h
        apply ih
        show get k (del e.1 s.rows) = none
        rw [Verif.Net.get_del]
        split
        · rfl
        · exact h
    have gen : ∀ (l : List (Nat × Cell)) (s : Store), (k, Cell.good r) ∈ l →
        get k (l.foldl (fun s e => s.remove e.1) s).rows = none := by
      intro l
      induction l with
      | nil => intro s h; cases h
      | cons e l ih =>
        intro s h
        rcases List.mem_cons.mp h with e1 | h
        · subst e1
          exact gone l _ (Verif.Net.get_del_self k _)
        · exact ih _ h
    exact gen _ _ hm

end Verif.Kad

namespace Verif.Kad

open Verif.Net (get put del keys)

/-- **The limit can be passed** (finding).  The counter goes down also when the removed key is
not in the table; so after one such removal a table full of unexpired records takes one record
more than allowed. -/
theorem absent_removal_overfills {c : Cfg} {env : Env} {s : Store} {banned : Nat → Bool} {now src k : Nat} {r : Rec} {i : Info}
    (hpos : 0 < c.maxRecords) (hfull : s.rows.length = c.maxRecords) (hcnt : s.num = s.rows.length)
    (hk : get k s.rows = none) (hs : banned src = false) (hp : banned i.pid = false) (hv : Authentic c env r i)
    (hsz : env.size r.value < c.maxValue) (hg : get r.key s.rows = none) :
    ∃ s', runs c env [(now, .remove k), (now, .inbound banned src r)] s = some s' ∧ s'.rows.length = c.maxRecords + 1 := by
  have hd : del k s.rows = s.rows := Verif.Net.del_eq_self hk
  have hrem : s.remove k = ⟨s.rows, s.num - 1⟩ := by rw [Store.remove, hd]
  refine ⟨Store.write ⟨s.rows, s.num - 1⟩ r true, ?_, ?_⟩
  · have hput : Store.put c env now r ⟨s.rows, s.num - 1⟩ = some (Store.write ⟨s.rows, s.num - 1⟩ r true, none) := by
      unfold Store.put
      rw [if_neg (Nat.not_le.mpr hsz), hg]
      dsimp only
      rw [if_neg (by omega)]
    have hin := fresh_inbound (c := c) (env := env) (s := ⟨s.rows, s.num - 1⟩) (now := now) hs hp hv hg
    rw [hput] at hin
    dsimp only at hin
    simp only [runs, Op.run, hrem, Option.bind_some, hin, Option.map_some]
  · show (del r.key s.rows).length + 1 = _
    rw [length_del_none hg, hfull]

/-! ## Example: three owners and a limit of two -/

namespace Ex

/-- values below 100 decode: value `10 * k + t` is owner `k`'s record with time stamp `t`; owner 1
has signed records up to time 3 -/
def env : Env where
  parse k := decide (k < 10)
  size _ := 5
  dec v := if v < 100 then some ⟨200 + v / 10, 1, v % 10⟩ else none
  signed v k := decide (v / 10 = k ∧ (k = 1 → v % 10 ≤ 3))

def cfg : Cfg := ⟨2, 64, 1⟩

/-- owner `k`'s record of time `t`, living until `e` -/
def record (k t : Nat) (e : Option Nat) : Rec := ⟨k, 10 * k + t, some (200 + k), e⟩

/-- the node (owner 1) publishes its record, hears of owner 2, sees a replay of both, is full for
owner 3, and accepts owner 3 when owner 2's record has expired -/
def story : List (Nat × Op) :=
  [(0, .own (record 1 3 none)), (1, .inbound (fun _ => false) 7 (record 2 5 (some 20))),
   (2, .inbound (fun _ => false) 7 (record 2 4 (some 90))), (3, .inbound (fun _ => false) 7 (record 1 2 (some 90))),
   (4, .inbound (fun _ => false) 8 (record 3 1 (some 90))), (5, .restart),
   (20, .inbound (fun _ => false) 8 (record 3 1 (some 90)))]

example : runs cfg env (story.take 6) Store.empty =
    some ⟨[(2, .good (record 2 5 (some 20))), (1, .good (record 1 3 none))], 2⟩ := by decide

example : runs cfg env story Store.empty =
    some ⟨[(3, .good (record 3 1 (some 90))), (1, .good (record 1 3 none))], 2⟩ := by decide

theorem record_authentic {k t : Nat} (hk : k < 10) (ht : t < 10) (h3 : k = 1 → t ≤ 3) (e : Option Nat) :
    Authentic cfg env (record k t e) ⟨200 + k, 1, t⟩ := by
  have h1 : (10 * k + t) / 10 = k := by omega
  have h2 : (10 * k + t) % 10 = t := by omega
  refine ⟨by simp [env, record, hk], ?_, ?_, Nat.le_refl _, rfl⟩
  · show (if 10 * k + t < 100 then some (⟨200 + (10 * k + t) / 10, 1, (10 * k + t) % 10⟩ : Info) else none) = _
    rw [if_pos (by omega), h1, h2]
  · show decide ((10 * k + t) / 10 = k ∧ (k = 1 → (10 * k + t) % 10 ≤ 3)) = true
    rw [h1, h2]
    exact decide_eq_true ⟨rfl, h3⟩

example : ∀ e ∈ story, e.2.Ok cfg env := by
  intro e he
  simp only [story, List.mem_cons, List.not_mem_nil, or_false] at he
  rcases he with rfl | rfl | rfl | rfl | rfl | rfl | rfl
  · exact ⟨⟨_, record_authentic (by decide) (by decide) (by decide) _⟩, rfl⟩
  all_goals exact trivial

/-- the hypothesis of `own_record_kept` is met: owner 1 signed nothing later than time 3 -/
example : ∀ v b, env.signed v (record 1 3 none).key = true → env.dec v = some b → b.ts ≤ 3 := by
  intro v b h hd
  have h : v / 10 = 1 ∧ (1 = 1 → v % 10 ≤ 3) := of_decide_eq_true h
  have hd : (if v < 100 then some (⟨200 + v / 10, 1, v % 10⟩ : Info) else none) = some b := hd
  rw [if_pos (by omega)] at hd
  cases hd
  exact h.2 rfl

/-- a malicious sender gives the newest record of owner 2 a life of one tick; the older one is
taken afterwards -/
example : (runs cfg env [(1, .inbound (fun _ => false) 7 (record 2 5 (some 2))),
    (2, .inbound (fun _ => false) 7 (record 2 1 (some 90)))] Store.empty).map (fun s => stamp env s 2) = some (some 1) := by
  decide

/-- a table of two takes three after the removal of an absent key -/
example : (runs cfg env [(0, .inbound (fun _ => false) 7 (record 2 5 none)), (0, .inbound (fun _ => false) 7 (record 3 5 none)),
    (1, .remove 6), (1, .inbound (fun _ => false) 7 (record 4 5 none))] Store.empty).map (fun s => s.rows.length) = some 3 := by
  decide

end Ex

end Verif.Kad
