import Verif.Gossip.Blame

/-!
# Gossip: what is proved (C107)
-/

namespace Verif.Gsp

theorem upd_same {α : Type} (f : Nat → α) (n : Nat) (x : α) : upd f n x n = x := by
  unfold upd; rw [if_pos rfl]

theorem upd_other {α : Type} (f : Nat → α) {n i : Nat} (x : α) (h : i ≠ n) :
    upd f n x i = f i := by
  unfold upd; rw [if_neg h]

theorem mem_upd {α : Type} {f : Nat → List α} {n i : Nat} {l : List α} {x a : α}
    (hl : l = f n ++ [x]) (h : a ∈ upd f n l i) : a ∈ f i ∨ (i = n ∧ a = x) := by
  by_cases e : i = n
  · subst e
    rw [upd_same, hl] at h
    rcases List.mem_append.mp h with h | h
    · exact Or.inl h
    · exact Or.inr ⟨rfl, List.mem_singleton.mp h⟩
  · rw [upd_other _ _ e] at h; exact Or.inl h

/-! ## The verdict -/

/-- A message is taken exactly if it is within the size limit, names its source, and its topic is
subscribed either for everybody or with the source's resolved identity among the publishers. -/
theorem verify_accept (m : Msg) (entry : Option (Option (List Nat))) (author : Option Nat) :
    verify m entry author = .accept ↔ m.size ≤ maxSize ∧ m.source ≠ none ∧
      (entry = some none ∨ ∃ l k, entry = some (some l) ∧ author = some k ∧ k ∈ l) := by
  unfold verify
  by_cases h : maxSize < m.size
  · rw [if_pos h]
    exact ⟨fun h => (nomatch h), fun h' => absurd h'.1 (Nat.not_le.mpr h)⟩
  · rw [if_neg h]
    have hs : m.size ≤ maxSize := Nat.le_of_not_lt h
    cases hm : m.source with
    | none => exact ⟨fun h => (nomatch h), fun h => absurd rfl h.2.1⟩
    | some a =>
        cases entry with
        | none =>
            refine ⟨fun h => (nomatch h), fun h => ?_⟩
            rcases h.2.2 with h | ⟨l, k, h, _⟩ <;> cases h
        | some o =>
            cases o with
            | none => exact ⟨fun _ => ⟨hs, (fun h => nomatch h), Or.inl rfl⟩, fun _ => rfl⟩
            | some l =>
                cases author with
                | none =>
                    refine ⟨fun h => (nomatch h), fun h => ?_⟩
                    rcases h.2.2 with h | ⟨l, k, h, h2, _⟩
                    · cases h
                    · cases h2
                | some k =>
                    by_cases hk : k ∈ l
                    · dsimp only
                      rw [if_pos hk]
                      exact ⟨fun _ => ⟨hs, (fun h => nomatch h), Or.inr ⟨l, k, rfl, rfl, hk⟩⟩,
                        fun _ => rfl⟩
                    · dsimp only
                      rw [if_neg hk]
                      refine ⟨fun h => (nomatch h), fun h => ?_⟩
                      rcases h.2.2 with h | ⟨l', k', h, h2, h3⟩
                      · cases h
                      · cases h; cases h2; exact absurd h3 hk

theorem verify_tooLarge (m : Msg) (entry : Option (Option (List Nat))) (author : Option Nat)
    (h : verify m entry author = .tooLarge) : maxSize < m.size := by
  unfold verify at h
  split at h
  · assumption
  · exfalso
    split at h
    · cases h
    · split at h
      · split at h <;> cases h
      · cases h
    · cases h

/-- Whatever fault the application of a primary or of a worker finds in a message, the peer that
passed it on is not charged: a fault with a penalty is the author's. -/
theorem app_spares_relayer (f : Fault) (h : f.ofAuthor = false) : f.penalty = none := by
  cases f <;> first | rfl | cases h

/-- A message whose content is right costs its author at most a mild penalty, and that only for a
certificate that arrives after its round was collected: it is of the right kind for the topic, the
aggregate is readable, signatures and digest are right, and the certificate's header has no fault
that is charged. -/
theorem right_content (m : Msg) (k : Checks) (f : Fault) (ht : m.body.topic = some m.topic)
    (ha : k.aggregate = true) (hs : k.signed = true) (hd : k.digest = true)
    (hc : ∀ c, k.process = some c → c = .old ∨ c = .header none ∨ c = .local)
    (h : primaryFault m k = some f ∧ m.topic ≠ .batches ∨ workerFault m k = some f ∧
      m.topic = .batches) :
    f.penalty = none ∨ f = .cert .old := by
  rcases h with ⟨h, hb⟩ | ⟨h, hb⟩
  · unfold primaryFault at h
    cases hm : m.body <;> rw [hm] at h ht
    · cases ht
    · have : m.topic = .primary := (Option.some.inj ht).symm
      simp only [this, ne_eq, not_true_eq_false, if_false, ha, Bool.true_eq_false] at h
      split at h
      · cases hp : k.process with
        | none => rw [hp] at h; cases h
        | some c =>
            rw [hp] at h
            cases h
            rcases hc c hp with e | e | e <;> subst e
            · exact Or.inr rfl
            · exact Or.inl rfl
            · exact Or.inl rfl
      · cases h
    · have : m.topic = .outputs := (Option.some.inj ht).symm
      simp only [this, ne_eq, not_true_eq_false, if_false, hs, Bool.true_eq_false] at h
      repeat' split at h
      all_goals first | cases h | skip
      all_goals exact Or.inl rfl
    · have : m.topic = .votes := (Option.some.inj ht).symm
      simp only [this, ne_eq, not_true_eq_false, if_false, hs, hd, Bool.true_eq_false] at h
      repeat' split at h
      all_goals first | cases h | skip
      all_goals exact Or.inl rfl
    · exact absurd (Option.some.inj ht).symm hb
  · unfold workerFault at h
    cases hm : m.body <;> rw [hm] at h ht
    · cases ht
    · rw [hb] at ht; cases ht
    · rw [hb] at ht; cases ht
    · rw [hb] at ht; cases ht
    · dsimp only at h
      rw [if_neg (by rw [hb]; exact fun h => h rfl)] at h
      split at h
      · cases h; exact Or.inl rfl
      · split at h
        · cases h; exact Or.inl rfl
        · cases h

/-! ## The invariant -/

/-- A message that an honest node has is within the limit, and if it is under the name of an honest
node, that node published it. -/
def Genuine (W : World) (s : Net) (m : Msg) : Prop :=
  m.size ≤ maxSize ∧ ∀ a, m.source = some a → W.honest a = true → m ∈ s.published a

structure Inv (W : World) (s : Net) : Prop where
  pubs : ∀ a m, m ∈ s.published a → W.proper a m ∧ m.size ≤ maxSize
  has : ∀ n m, m ∈ s.have' n → Genuine W s m
  items : ∀ n i, i ∈ s.items n → Genuine W s i.msg ∧ ∀ a, i.author = some a → i.msg.source = some a
  /-- every charge is either for an oversized message, against a relayer that is not honest, or
  against the author of the message, who - if honest - published it -/
  charges : ∀ c ∈ s.charges,
    (c.role = .relayer → c.app = false ∧ maxSize < c.msg.size ∧ W.honest c.whom = false) ∧
    (c.role = .author → c.msg.source = some c.whom ∧
      (W.honest c.whom = true → c.msg ∈ s.published c.whom)) ∧
    (c.effective = true → W.key c.whom ∉ W.window c.slot ∧ c.whom ≠ c.by')

theorem init_inv (W : World) : Inv W Net.init where
  pubs := fun _ _ h => nomatch h
  has := fun _ _ h => nomatch h
  items := fun _ _ h => nomatch h
  charges := fun _ h => nomatch h

theorem charge_inv {W : World} {s : Net} (i : Inv W s) (n whom : Nat) (r : Role) (app : Bool)
    (p : Penalty) (m : Msg)
    (h1 : r = .relayer → app = false ∧ maxSize < m.size ∧ W.honest whom = false)
    (h2 : r = .author → m.source = some whom ∧ (W.honest whom = true → m ∈ s.published whom)) :
    Inv W (s.charge W n whom r app p m) := by
  refine { i with charges := ?_ }
  intro c hc
  rcases List.mem_append.mp hc with hc | hc
  · exact i.charges c hc
  · rw [List.mem_singleton] at hc
    subst hc
    refine ⟨h1, h2, fun h => ?_⟩
    have := of_decide_eq_true h
    exact ⟨this.2, this.1⟩

/-- What anybody can send names only honest sources that published it. -/
theorem canSend_auth {W : World} {s : Net} (i : Inv W s) {p : Nat} {m : Msg}
    (h : s.canSend W p m) : ∀ a, m.source = some a → W.honest a = true → m ∈ s.published a := by
  unfold Net.canSend at h
  split at h
  · exact (i.has p m h).2
  · intro a ha; exact h a ha

/-- What an honest peer sends is within the limit. -/
theorem canSend_size {W : World} {s : Net} (i : Inv W s) {p : Nat} {m : Msg}
    (h : s.canSend W p m) (hp : W.honest p = true) : m.size ≤ maxSize := by
  unfold Net.canSend at h
  rw [if_pos hp] at h
  exact (i.has p m h).1

theorem handle_inv {W : World} {s : Net} (i : Inv W s) (p n : Nat) (m : Msg)
    (ha : ∀ a, m.source = some a → W.honest a = true → m ∈ s.published a)
    (hz : W.honest p = true → m.size ≤ maxSize) : Inv W (s.handle W p n m) := by
  unfold Net.handle
  dsimp only
  cases hv : verify m (s.allow n m.topic) (m.source.bind (s.ident W n)) with
  | accept =>
      have hs := ((verify_accept _ _ _).mp hv).1
      refine { i with has := ?_, items := ?_ }
      · intro q x hx
        rcases mem_upd rfl hx with hx | ⟨_, rfl⟩
        · exact i.has q x hx
        · exact ⟨hs, ha⟩
      · intro q x hx
        rcases mem_upd rfl hx with hx | ⟨_, rfl⟩
        · exact i.items q x hx
        · refine ⟨⟨hs, ha⟩, fun a h => ?_⟩
          dsimp only at h ⊢
          rw [Option.filter_eq_some_iff] at h
          exact h.1
  | tooLarge =>
      have hl := verify_tooLarge _ _ _ hv
      have hh : W.honest p = false := by
        cases h : W.honest p
        · rfl
        · exact absurd (hz h) (Nat.not_le.mpr hl)
      dsimp only
      cases s.known n p
      · exact i
      · exact charge_inv i n p .relayer false .fatal m (fun _ => ⟨rfl, hl, hh⟩)
          (fun h => (nomatch h))
  | unauthorized =>
      dsimp only
      cases (m.source.bind (s.ident W n)).isSome
      · cases s.known n p <;> exact i
      · have : Verdict.blames .unauthorized (s.known n p) true = some .author := by
          cases s.known n p <;> rfl
        rw [this]
        cases hm : m.source with
        | none => exact i
        | some a =>
            exact charge_inv i n a .author false .fatal m (fun h => (nomatch h))
              (fun _ => ⟨hm, ha a hm⟩)

theorem process_inv {W : World} {s : Net} (i : Inv W s) (n : Nat) (x : Item) (k : Checks)
    (hx : x ∈ s.items n) : Inv W (s.process W n x k) := by
  unfold Net.process
  split
  · exact i
  · rename_i f _
    split
    · rename_i q p hq hp
      cases hf : f.ofAuthor
      · rw [app_spares_relayer f hf] at hp; cases hp
      · rw [hf] at hq
        have h := i.items n x hx
        have hs := h.2 q hq
        exact charge_inv i n q _ true p x.msg (fun h => by simp at h)
          (fun _ => ⟨hs, h.1.2 q hs⟩)
    · exact i

theorem step_inv {W : World} {s : Net} (i : Inv W s) (e : Ev) : Inv W (s.step W e) := by
  cases e with
  | slots n e => exact { i with }
  | subscribe n t e => exact { i with }
  | unsubscribe n t => exact { i with }
  | resolve n p => exact { i with }
  | unresolve n p => exact { i with }
  | forget n => exact { i with }
  | publish a m =>
      dsimp only [Net.step]
      split
      · rename_i h
        have mono : ∀ (b : Nat) (x : Msg), x ∈ s.published b →
            x ∈ upd s.published a (s.published a ++ [m]) b := by
          intro b x hx
          by_cases e : b = a
          · subst e; rw [upd_same]; exact List.mem_append_left _ hx
          · rw [upd_other _ _ e]; exact hx
        refine ⟨?_, ?_, ?_, ?_⟩
        · intro b x hx
          rcases mem_upd rfl hx with hx | ⟨rfl, rfl⟩
          · exact i.pubs b x hx
          · exact h
        · intro b x hx
          rcases mem_upd rfl hx with hx | ⟨rfl, rfl⟩
          · exact ⟨(i.has b x hx).1, fun c h1 h2 => mono c x ((i.has b x hx).2 c h1 h2)⟩
          · refine ⟨h.2, fun c h1 _ => ?_⟩
            have : c = b := by
              have := h.1.2.1; rw [this] at h1; exact (Option.some.inj h1).symm
            subst this
            show x ∈ upd s.published c (s.published c ++ [x]) c
            rw [upd_same]
            exact List.mem_append_right _ (List.mem_singleton.mpr rfl)
        · intro b x hx
          exact ⟨⟨(i.items b x hx).1.1, fun c h1 h2 => mono c _ ((i.items b x hx).1.2 c h1 h2)⟩,
            (i.items b x hx).2⟩
        · intro c hc
          have := i.charges c hc
          exact ⟨this.1, fun h => ⟨(this.2.1 h).1, fun h' => mono _ _ ((this.2.1 h).2 h')⟩,
            this.2.2⟩
      · exact i
  | deliver p n m =>
      dsimp only [Net.step]
      split
      · rename_i h
        have j : Inv W { s with seen := upd s.seen n (s.seen n ++ [m.id]) } := { i with }
        exact handle_inv j p n m (canSend_auth i h.1) (canSend_size i h.1)
      · exact i
  | app n x k =>
      dsimp only [Net.step]
      split
      · rename_i h; exact process_inv i n x k h
      · exact i

theorem exec_inv (W : World) (es : List Ev) : Inv W (W.exec es) := by
  have : ∀ (es : List Ev) (s : Net), Inv W s → Inv W (es.foldl (Net.step W) s) := by
    intro es
    induction es with
    | nil => intro s i; exact i
    | cons x l ih => intro s i; exact ih _ (step_inv i x)
  exact this es _ (init_inv W)

/-! ## Who pays -/

/-- An honest peer is never charged for what it passed on: a charge against a relayer is for an
oversized message, by the network layer, and against a dishonest peer. -/
theorem honest_relayer_safe (W : World) (es : List Ev) (c : Charge) (h : c ∈ (W.exec es).charges)
    (hr : c.role = .relayer) :
    W.honest c.whom = false ∧ c.app = false ∧ maxSize < c.msg.size :=
  let i := ((exec_inv W es).charges c h).1 hr
  ⟨i.2.2, i.1, i.2.1⟩

/-- A charge against an author is for a message it made: nobody is charged for a message put under
its name by others. -/
theorem honest_author_own (W : World) (es : List Ev) (c : Charge) (h : c ∈ (W.exec es).charges)
    (hr : c.role = .author) (hh : W.honest c.whom = true) :
    c.msg.source = some c.whom ∧ c.msg ∈ (W.exec es).published c.whom ∧
      W.key c.whom ∈ W.committee c.msg.epoch := by
  have i := exec_inv W es
  have k := (i.charges c h).2.1 hr
  exact ⟨k.1, k.2 hh, (i.pubs _ _ (k.2 hh)).1.2.2.1⟩

theorem mem_window (W : World) (k e v : Nat) (hk : k ∈ W.committee e)
    (h : e + 1 = v ∨ e = v ∨ e = v + 1) : k ∈ W.window (some v) := by
  cases v with
  | zero =>
      show k ∈ W.committee 0 ++ W.committee 1
      rcases h with h | h | h
      · omega
      · subst h; exact List.mem_append_left _ hk
      · subst h; exact List.mem_append_right _ hk
  | succ v =>
      show k ∈ W.committee v ++ W.committee (v + 1) ++ W.committee (v + 2)
      rcases h with h | h | h
      · have : e = v := by omega
        subst this; exact List.mem_append_left _ (List.mem_append_left _ hk)
      · subst h; exact List.mem_append_left _ (List.mem_append_right _ hk)
      · subst h; exact List.mem_append_right _ hk

/-- A charge against an honest peer has an effect only where the epochs are two or more apart: the
node that charges has its committee slots at an epoch at least two from the one in which the peer
made the message (or has not set them yet). -/
theorem honest_effective_far (W : World) (es : List Ev) (c : Charge)
    (h : c ∈ (W.exec es).charges) (hh : W.honest c.whom = true) (he : c.effective = true)
    (v : Nat) (hv : c.slot = some v) :
    c.msg.epoch + 1 < v ∨ v + 1 < c.msg.epoch := by
  have i := ((exec_inv W es).charges c h)
  have hr : c.role = .author := by
    cases hr : c.role
    · have := (i.1 hr).2.2; rw [hh] at this; cases this
    · rfl
  have hm := (honest_author_own W es c h hr hh).2.2
  have hn := (i.2.2 he).1
  rw [hv] at hn
  by_cases hx : c.msg.epoch + 1 = v ∨ c.msg.epoch = v ∨ c.msg.epoch = v + 1
  · exact absurd (mem_window W _ _ _ hm hx) hn
  · omega

/-- A node is never charged by itself with effect. -/
theorem never_self (W : World) (es : List Ev) (c : Charge) (h : c ∈ (W.exec es).charges)
    (he : c.effective = true) : c.whom ≠ c.by' :=
  (((exec_inv W es).charges c h).2.2 he).2

/-! ## What gets through -/

/-- Nothing reaches an application, and nothing is passed on, but what was taken: the size is within
the limit and the source honest only if it published the message. -/
theorem taken_genuine (W : World) (es : List Ev) (n : Nat) (m : Msg)
    (h : m ∈ (W.exec es).have' n ∨ ∃ i ∈ (W.exec es).items n, i.msg = m) :
    m.size ≤ maxSize ∧ ∀ a, m.source = some a → W.honest a = true → m ∈ (W.exec es).published a := by
  have i := exec_inv W es
  rcases h with h | ⟨x, hx, rfl⟩
  · exact i.has n m h
  · exact (i.items n x hx).1

/-- One hop: a node that has the message's topic subscribed for an epoch whose publishers include the
source, knows the source and has not seen the message, takes it from any peer that can send it:
its application gets it, it can pass it on, and nobody is charged. -/
theorem hop (W : World) (s : Net) (p n e a : Nat) (m : Msg) (hs : s.canSend W p m)
    (hn : m.id ∉ s.seen n) (hz : m.size ≤ maxSize) (hm : m.source = some a)
    (hk : s.known n a = true) (hsub : s.allow n m.topic = some (some (W.publishers e m.topic)))
    (hp : W.key a ∈ W.publishers e m.topic) :
    m ∈ (s.step W (.deliver p n m)).have' n ∧
    (∃ r, { msg := m, relayer := r, author := some a } ∈ (s.step W (.deliver p n m)).items n) ∧
    (s.step W (.deliver p n m)).charges = s.charges ∧
    (∀ q ≠ n, (s.step W (.deliver p n m)).seen q = s.seen q) ∧
    (s.step W (.deliver p n m)).known = s.known ∧ (s.step W (.deliver p n m)).allow = s.allow := by
  have hid : m.source.bind (Net.ident W s n) = some (W.key a) := by
    rw [hm]; show Net.ident W s n a = _; unfold Net.ident; rw [if_pos hk]
  have hv : verify m (s.allow n m.topic) (m.source.bind (Net.ident W s n)) = .accept :=
    (verify_accept _ _ _).mpr ⟨hz, by (rw [hm]; exact fun h => (nomatch h)),
      Or.inr ⟨_, _, hsub, hid, hp⟩⟩
  have e1 : s.step W (.deliver p n m) =
      { s with seen := upd s.seen n (s.seen n ++ [m.id]),
               have' := upd s.have' n (s.have' n ++ [m]),
               items := upd s.items n
                 (s.items n ++ [{ msg := m, relayer := if s.known n p then some p else none,
                                  author := m.source.filter (s.known n) }]) } := by
    dsimp only [Net.step]
    rw [if_pos ⟨hs, hn⟩]
    unfold Net.handle
    dsimp only
    have hv' : verify m (s.allow n m.topic)
        (m.source.bind (Net.ident W { s with seen := upd s.seen n (s.seen n ++ [m.id]) } n)) =
        .accept := hv
    rw [hv']
  rw [e1]
  refine ⟨?_, ⟨if s.known n p then some p else none, ?_⟩, rfl, ?_, rfl, rfl⟩
  · show m ∈ upd s.have' n (s.have' n ++ [m]) n
    rw [upd_same]; exact List.mem_append_right _ (List.mem_singleton.mpr rfl)
  · show _ ∈ upd s.items n _ n
    rw [upd_same]
    refine List.mem_append_right _ (List.mem_singleton.mpr ?_)
    rw [hm]
    show _ = Item.mk _ _ (Option.filter (s.known n) (some a))
    rw [Option.filter_some, if_pos hk]
  · intro q hq; exact upd_other _ _ hq

/-- The deliveries along a path of nodes. -/
def along (m : Msg) : Nat → List Nat → List Ev
  | _, [] => []
  | p, n :: l => .deliver p n m :: along m n l

theorem have_mono (W : World) (s : Net) (p n q : Nat) (m x : Msg) (h : x ∈ s.have' q) :
    x ∈ (s.step W (.deliver p n m)).have' q := by
  dsimp only [Net.step]
  split
  · unfold Net.handle
    dsimp only
    generalize verify _ _ _ = v
    cases v with
    | accept =>
        show x ∈ upd s.have' n (s.have' n ++ [m]) q
        by_cases e : q = n
        · subst e; rw [upd_same]; exact List.mem_append_left _ h
        · rw [upd_other _ _ e]; exact h
    | tooLarge =>
        dsimp only
        generalize Verdict.blames _ _ _ = b
        cases b with
        | none => exact h
        | some r =>
            cases r
            · exact h
            · cases m.source <;> exact h
    | unauthorized =>
        dsimp only
        generalize Verdict.blames _ _ _ = b
        cases b with
        | none => exact h
        | some r =>
            cases r
            · exact h
            · cases m.source <;> exact h
  · exact h

/-- A message spreads along every path of honest nodes that have the author among the publishers of
the topic, know it and have not seen the message: at the end all of them have it, and nobody was
charged. -/
theorem spreads (W : World) (a : Nat) (m : Msg) (hm : m.source = some a) (hz : m.size ≤ maxSize) :
    ∀ (path : List Nat) (s : Net) (p : Nat), s.canSend W p m → (p :: path).Nodup →
    (∀ n ∈ path, W.honest n = true ∧ m.id ∉ s.seen n ∧ s.known n a = true ∧
      ∃ e, s.allow n m.topic = some (some (W.publishers e m.topic)) ∧
        W.key a ∈ W.publishers e m.topic) →
    (∀ n ∈ path, m ∈ ((along m p path).foldl (Net.step W) s).have' n) ∧
    ((along m p path).foldl (Net.step W) s).charges = s.charges := by
  intro path
  induction path with
  | nil => intro s p _ _ _; exact ⟨fun n h => (nomatch h), rfl⟩
  | cons n l ih =>
      intro s p hs hd hall
      obtain ⟨hh, hn, hk, e, h1, h2⟩ := hall n (List.mem_cons_self ..)
      obtain ⟨g1, _, g3, g4, g5, g6⟩ := hop W s p n e a m hs hn hz hm hk h1 h2
      have hd' := (List.nodup_cons.mp hd).2
      have hcan : (s.step W (.deliver p n m)).canSend W n m := by
        unfold Net.canSend; rw [if_pos hh]; exact g1
      have := ih (s.step W (.deliver p n m)) n hcan hd' (by
        intro q hq
        obtain ⟨a1, a2, a3, a4⟩ := hall q (List.mem_cons_of_mem _ hq)
        have hne : q ≠ n := by
          intro e; subst e; exact (List.nodup_cons.mp hd').1 hq
        rw [g4 q hne, g5, g6]
        exact ⟨a1, a2, a3, a4⟩)
      refine ⟨?_, this.2.trans g3⟩
      intro q hq
      rcases List.mem_cons.mp hq with rfl | hq
      · -- stays
        have st : ∀ (l : List Nat) (t : Net) (p' : Nat), m ∈ t.have' q →
            m ∈ ((along m p' l).foldl (Net.step W) t).have' q := by
          intro l
          induction l with
          | nil => intro t p' h; exact h
          | cons x l ih' => intro t p' h; exact ih' _ _ (have_mono W t p' x q m m h)
        exact st l _ q g1
      · exact this.1 q hq

/-- Votes and outputs cross the boundary: a member of the committee of epoch `e` is among their
publishers at every node whose subscription is of `e - 1`, `e` or `e + 1`. Certificates and batches
only at nodes of epoch `e`. -/
theorem publishers_window (W : World) (k e v : Nat) (hk : k ∈ W.committee e) :
    (e + 1 = v ∨ e = v ∨ e = v + 1 → k ∈ W.publishers v .votes ∧ k ∈ W.publishers v .outputs) ∧
    (e = v → k ∈ W.publishers v .primary ∧ k ∈ W.publishers v .batches) :=
  ⟨fun h => ⟨mem_window W k e v hk h, mem_window W k e v hk h⟩,
    fun h => by subst h; exact ⟨hk, hk⟩⟩

/-- A subscription replaces the publishers of the topic altogether, and an unsubscribed topic takes
nothing. -/
theorem subscription (W : World) (s : Net) (n e : Nat) (t : Topic) :
    (s.step W (.subscribe n t e)).allow n t = some (some (W.publishers e t)) ∧
    (s.step W (.unsubscribe n t)).allow n t = none ∧
    ∀ (m : Msg) (x : Option Nat), verify m none x ≠ .accept := by
  refine ⟨?_, ?_, fun m x h => ?_⟩
  · show upd s.allow n _ n t = _
    rw [upd_same]; exact if_pos rfl
  · show upd s.allow n _ n t = _
    rw [upd_same]; exact if_pos rfl
  · rcases ((verify_accept _ _ _).mp h).2.2 with h | ⟨l, k, h, _⟩ <;> cases h

/-! ## What the exemption means for garbage -/

/-- The slots and the subscriptions of node `n` are those of epoch `e` throughout. -/
def steady (n e : Nat) : Ev → Prop
  | .slots n' e' => n' = n → e' = e
  | .subscribe n' _ e' => n' = n → e' = e
  | _ => True

theorem publishers_sub (W : World) (e k : Nat) (t : Topic) (h : k ∈ W.publishers e t) :
    k ∈ W.window (some e) := by
  cases t
  · exact mem_window W k e e h (Or.inr (Or.inl rfl))
  · exact h
  · exact h
  · exact mem_window W k e e h (Or.inr (Or.inl rfl))

structure Steady (W : World) (n e : Nat) (s : Net) : Prop where
  slot : s.slot n = some e
  allow : ∀ t o, s.allow n t = some o → o = some (W.publishers e t)
  items : ∀ i ∈ s.items n, ∀ a, i.author = some a → W.key a ∈ W.window (some e)
  charges : ∀ c ∈ s.charges, c.by' = n → c.app = true → c.role = .author → c.effective = false

theorem Steady.charge {W : World} {n e : Nat} {s : Net} (i : Steady W n e s) (q whom : Nat)
    (r : Role) (app : Bool) (p : Penalty) (m : Msg)
    (h : q = n → app = true → r = .author → W.key whom ∈ W.window (some e)) :
    Steady W n e (s.charge W q whom r app p m) := by
  refine { i with charges := ?_ }
  intro c hc h1 h2 h3
  rcases List.mem_append.mp hc with hc | hc
  · exact i.charges c hc h1 h2 h3
  · rw [List.mem_singleton] at hc
    subst hc
    have h1 : q = n := h1
    have := h h1 h2 h3
    subst h1
    refine decide_eq_false fun hh => hh.2 ?_
    rw [i.slot]; exact this

theorem Steady.handle {W : World} {n e : Nat} {s : Net} (i : Steady W n e s) (p q : Nat) (m : Msg) :
    Steady W n e (s.handle W p q m) := by
  unfold Net.handle
  dsimp only
  cases hv : verify m (s.allow q m.topic) (m.source.bind (s.ident W q)) with
  | accept =>
      refine { i with items := ?_ }
      intro x hx a ha
      rcases mem_upd rfl hx with hx | ⟨rfl, rfl⟩
      · exact i.items x hx a ha
      · dsimp only at ha
        rw [Option.filter_eq_some_iff] at ha
        rcases ((verify_accept _ _ _).mp hv).2.2 with h | ⟨l, k, h, h2, h3⟩
        · cases i.allow _ _ h
        · have := i.allow _ _ h
          cases this
          rw [ha.1] at h2
          have h2 : Net.ident W s n a = some k := h2
          unfold Net.ident at h2
          rw [if_pos ha.2] at h2
          cases h2
          exact publishers_sub W e _ _ h3
  | tooLarge =>
      dsimp only
      generalize Verdict.blames _ _ _ = b
      cases b with
      | none => exact i
      | some r =>
          cases r
          · exact i.charge q p _ _ _ m (fun _ h => (nomatch h))
          · cases m.source with
            | none => exact i
            | some a => exact i.charge q a _ _ _ m (fun _ h => (nomatch h))
  | unauthorized =>
      dsimp only
      generalize Verdict.blames _ _ _ = b
      cases b with
      | none => exact i
      | some r =>
          cases r
          · exact i.charge q p _ _ _ m (fun _ h => (nomatch h))
          · cases m.source with
            | none => exact i
            | some a => exact i.charge q a _ _ _ m (fun _ h => (nomatch h))

theorem Steady.step {W : World} {n e : Nat} {s : Net} (i : Steady W n e s) (ev : Ev)
    (h : steady n e ev) : Steady W n e (s.step W ev) := by
  cases ev with
  | slots q v =>
      refine { i with slot := ?_ }
      show upd s.slot q (some v) n = _
      by_cases hq : n = q
      · subst hq; rw [upd_same, h rfl]
      · rw [upd_other _ _ hq]; exact i.slot
  | subscribe q t v =>
      refine { i with allow := ?_ }
      intro t' o ho
      have ho : upd s.allow q _ n t' = some o := ho
      by_cases hq : n = q
      · subst hq
        rw [upd_same] at ho
        by_cases ht : t' = t
        · subst ht
          rw [if_pos rfl] at ho
          have := h rfl
          subst this
          exact (Option.some.inj ho).symm
        · rw [if_neg ht] at ho; exact i.allow _ _ ho
      · rw [upd_other _ _ hq] at ho; exact i.allow _ _ ho
  | unsubscribe q t =>
      refine { i with allow := ?_ }
      intro t' o ho
      have ho : upd s.allow q _ n t' = some o := ho
      by_cases hq : n = q
      · subst hq
        rw [upd_same] at ho
        by_cases ht : t' = t
        · subst ht; rw [if_pos rfl] at ho; cases ho
        · rw [if_neg ht] at ho; exact i.allow _ _ ho
      · rw [upd_other _ _ hq] at ho; exact i.allow _ _ ho
  | resolve q p => exact { i with }
  | unresolve q p => exact { i with }
  | forget q => exact { i with }
  | publish a m =>
      dsimp only [Net.step]
      split
      · exact { i with }
      · exact i
  | deliver p q m =>
      dsimp only [Net.step]
      split
      · have j : Steady W n e { s with seen := upd s.seen q (s.seen q ++ [m.id]) } := { i with }
        exact j.handle p q m
      · exact i
  | app q x k =>
      dsimp only [Net.step]
      split
      · rename_i hx
        unfold Net.process
        split
        · exact i
        · rename_i f _
          split
          · rename_i y p hq hp
            cases hf : f.ofAuthor
            · rw [app_spares_relayer f hf] at hp; cases hp
            · rw [hf] at hq
              refine i.charge q y _ true p x.msg (fun e1 _ _ => ?_)
              subst e1
              exact i.items x hx y hq
          · exact i
      · exact i

/-- While a node stays in an epoch, every author whose message it takes is in its committee slots,
hence exempt: whatever the application finds wrong with a message, its penalty has no effect. -/
theorem app_penalties_void (W : World) (n e : Nat) (es : List Ev) (h : ∀ ev ∈ es, steady n e ev)
    (c : Charge) (hc : c ∈ (W.exec (.slots n e :: es)).charges) (hb : c.by' = n)
    (ha : c.app = true) : c.effective = false := by
  have key : ∀ (es : List Ev) (s : Net), (∀ ev ∈ es, steady n e ev) → Steady W n e s →
      Steady W n e (es.foldl (Net.step W) s) := by
    intro es
    induction es with
    | nil => intro s _ i; exact i
    | cons x l ih =>
        intro s hl i
        exact ih _ (fun ev hev => hl ev (List.mem_cons_of_mem _ hev))
          (i.step x (hl x (List.mem_cons_self ..)))
  have i0 : Steady W n e (Net.step W Net.init (.slots n e)) :=
    { slot := upd_same _ _ _, allow := fun _ _ h => (nomatch h), items := fun _ h => (nomatch h),
      charges := fun _ h => (nomatch h) }
  have i := key es _ h i0
  have j := (exec_inv W (.slots n e :: es)).charges c hc
  refine i.charges c hc hb ha ?_
  cases hr : c.role
  · have := (j.1 hr).1; rw [ha] at this; cases this
  · rfl

/-- A message that was judged once is not judged again while it is in the cache: whatever the verdict
was, further deliveries change nothing. -/
theorem judged_once (W : World) (s : Net) (p n : Nat) (m : Msg) (h : m.id ∈ s.seen n) :
    s.step W (.deliver p n m) = s := by
  dsimp only [Net.step]
  exact if_neg fun h' => h'.2 h

/-! ## Concrete runs -/

/-- Peers 0-4, honest but for 4; the key of peer `p` is `10 + p`. Epoch 0 has members 0 and 1, each
later epoch `e` the members 2 and, from epoch 3 on, 3. -/
def W0 : World :=
  { honest := fun p => decide (p < 4), key := fun p => 10 + p, worker := fun _ => false,
    committee := fun e => if e = 0 then [10, 11, 14] else if e < 3 then [12] else [13] }

def c0 : Msg := { id := 7, source := some 0, topic := .primary, size := 900, epoch := 0, body := .cert }

def setup : List Ev :=
  [.slots 1 0, .slots 2 0, .subscribe 1 .primary 0, .subscribe 2 .primary 0, .resolve 1 0,
   .resolve 2 0, .publish 0 c0]

/-- A certificate of member 0 reaches 2 through 1, and nobody is charged. -/
theorem spread_example :
    let s := W0.exec (setup ++ [.deliver 0 1 c0, .deliver 1 2 c0])
    c0 ∈ s.have' 2 ∧ (s.items 2).map (·.author) = [some 0] ∧ s.charges = [] := by decide

/-- The hypotheses of `spreads` hold after the setup, for the path 1, 2. -/
theorem spreads_met :
    let s := W0.exec setup
    s.canSend W0 0 c0 ∧ [0, 1, 2].Nodup ∧
    ∀ n ∈ [1, 2], W0.honest n = true ∧ c0.id ∉ s.seen n ∧ s.known n 0 = true ∧
      s.allow n c0.topic = some (some (W0.publishers 0 c0.topic)) ∧
      W0.key 0 ∈ W0.publishers 0 c0.topic := by decide

/-- An epoch vote of epoch 3. -/
def v3 : Msg := { id := 8, source := some 3, topic := .votes, size := 300, epoch := 3, body := .vote }

/-- Finding: a node that is two epochs behind charges an honest validator of the newer committee, with
effect, for a genuine epoch vote. -/
theorem behind_charges :
    (W0.exec [.slots 1 0, .subscribe 1 .votes 0, .resolve 1 3, .publish 3 v3,
      .deliver 3 1 v3]).charges =
    [{ by' := 1, whom := 3, role := .author, app := false, pen := .fatal, msg := v3,
       slot := some 0, effective := true }] := by decide

/-- Garbage under the name of member 4. -/
def junk : Msg := { id := 9, source := some 4, topic := .primary, size := 50, epoch := 0, body := .junk }

def anyChecks : Checks :=
  { aggregate := true, committee := true, verified := true, cvv := true, behind := false,
    process := none, past := false, dup := false, member := true, signed := true, digest := true,
    sameEpoch := true, storeFails := false }

/-- Finding: a member that sends garbage on the certificate topic is charged a fatal penalty that has
no effect. -/
theorem garbage_free :
    ((W0.exec [.slots 1 0, .subscribe 1 .primary 0, .resolve 1 4, .deliver 4 1 junk,
      .app 1 { msg := junk, relayer := some 4, author := some 4 } anyChecks]).charges).map
        (fun c => (c.whom, c.role, c.app, c.pen, c.effective)) =
    [(4, Role.author, true, Penalty.fatal, false)] := by decide

/-- Finding: a genuine certificate that arrives before the source's identity is resolved is rejected
without anybody being charged, and is not taken when it comes again although the identity is known by
then. -/
theorem early_lost :
    let s := W0.exec [.slots 1 0, .subscribe 1 .primary 0, .publish 0 c0, .deliver 0 1 c0,
      .resolve 1 0, .deliver 0 1 c0]
    s.items 1 = [] ∧ s.have' 1 = [] ∧ s.charges = [] := by decide

/-- An oversized message. -/
def big : Msg := { id := 5, source := some 4, topic := .primary, size := 12001, epoch := 0, body := .cert }

/-- The oversized message of a dishonest peer is charged to the relayer, without effect if it is in the
slots. -/
theorem relayer_pays_exempt :
    ((W0.exec [.slots 1 1, .resolve 1 4, .deliver 4 1 big]).charges).map
      (fun c => (c.whom, c.role, c.app, c.effective)) = [(4, Role.relayer, false, false)] := by
  decide

/-- A node that is not in the slots is charged with effect. -/
theorem relayer_pays :
    ((W0.exec [.slots 1 3, .resolve 1 4, .deliver 4 1 big]).charges).map
      (fun c => (c.whom, c.role, c.app, c.effective)) = [(4, Role.relayer, false, true)] := by
  decide

end Verif.Gsp
