import Verif.Gateway.Proxy
import Mathlib.Tactic.Common

/-!
# What the gateway does with a request
-/

namespace Verif.Gproxy

/-! ## Specification -/

/-- A path the gateway answers itself. -/
def probe (r : Req) : Prop := r.path = "/health" ∨ r.path = "/ready"

/-- What the request counter recorded for request `i`. -/
def countsOf (i : Nat) (l : List (Nat × Count)) : List Count :=
  (l.filter fun e => decide (e.1 = i)).map Prod.snd

/-- What was sent upstream for request `i`, and to whom. -/
def sentOf (i : Nat) (l : List (Nat × Nat × Sent)) : List (Nat × Sent) :=
  (l.filter fun e => decide (e.1 = i)).map Prod.snd

/-- The request was sent once, to upstream `u`, marked, unscreened; it was not itself marked. -/
def FwdTo (w : Wire) (r : Req) (u : Nat) (ss : List (Nat × Sent)) : Prop :=
  ss = [(u, outgoing r)] ∧ r.hop = false ∧ screen w r.body = none

/-- The story of a request whose answer is the gateway's error `e` with `id`. -/
def ErrorOk (w : Wire) (r : Req) (e : GErr) (id : Json) (cs : List Count) (ss : List (Nat × Sent)) :
    Prop :=
  match e with
  | .rateLimited => cs = [.rejected e] ∧ ss = [] ∧ id = .null
  | .requestTooLarge => cs = [.rejected e] ∧ ss = [] ∧ id = .null
  | .unreadableBody => cs = [.rejected e] ∧ ss = [] ∧ id = .null
  | .loopDetected => cs = [.rejected e] ∧ ss = [] ∧ r.hop = true ∧ id = recover r.body
  | .invalidTransaction =>
    cs = [.rejected e] ∧ ss = [] ∧ r.hop = false ∧ screen w r.body = some (e, id)
  | .unsupportedTransactionType =>
    cs = [.rejected e] ∧ ss = [] ∧ r.hop = false ∧ screen w r.body = some (e, id)
  | .noUpstreamReady =>
    cs = [.rejected e] ∧ ss = [] ∧ r.hop = false ∧ screen w r.body = none ∧ id = recover r.body
  | .upstreamUnreachable =>
    cs = [.rejected e] ∧ (∃ u, FwdTo w r u ss) ∧ id = recover r.body
  | .upstreamTimeout =>
    cs = [.rejected e] ∧ (∃ u, FwdTo w r u ss) ∧ id = recover r.body
  | .requestTimeout =>
    id = .null ∧ ((cs = [.rejected e] ∧ (ss = [] ∨ ∃ u, FwdTo w r u ss)) ∨
      (cs = [.forwarded, .rejected e] ∧ ∃ u, FwdTo w r u ss))

/-- The story of a request, by where it is: what was counted for it and what was sent for it. -/
def StageOk (w : Wire) (r : Req) (st : Stage) (cs : List Count) (ss : List (Nat × Sent)) : Prop :=
  match st with
  | .entered => cs = [] ∧ ss = []
  | .reading => cs = [] ∧ ss = [] ∧ ¬ probe r
  | .forwarding u => cs = [] ∧ ¬ probe r ∧ FwdTo w r u ss
  | .gone => cs = [] ∧ (ss = [] ∨ ¬ probe r ∧ ∃ u, FwdTo w r u ss)
  | .done (.upstream u status _) => cs = [.forwarded] ∧ ¬ probe r ∧ FwdTo w r u ss ∧ status ≠ 408
  | .done (.error e id) => ¬ probe r ∧ ErrorOk w r e id cs ss
  | .done .alive => r.path = "/health" ∧ r.get = true ∧ cs = [] ∧ ss = []
  | .done (.ready _) => r.path = "/ready" ∧ r.get = true ∧ cs = [] ∧ ss = []
  | .done .methodNotAllowed => probe r ∧ r.get = false ∧ cs = [] ∧ ss = []

/-- The outcome of the latest poll of upstream `u` (worker id `id`), `false` before the first. -/
def lastReady (u id : Nat) (polls : List (Nat × PollResult)) : Bool :=
  match ((polls.filter fun e => decide (e.1 = u)).map Prod.snd).getLast? with
  | none => false
  | some r => pollOne id r

/-- Requests waiting for an upstream. -/
def isFwd : Stage → Bool
  | .forwarding _ => true
  | _ => false

/-! ## Invariant -/

structure Inv (w : Wire) (ids : List Nat) (s : S) : Prop where
  ids : s.ups.map Upstream.id = ids
  ready : ∀ (u : Nat) (x : Upstream), s.ups[u]? = some x → x.ready = lastReady u x.id s.polls
  gauge : s.gauge = (s.reqs.filter fun e => isFwd e.2).length
  story : ∀ (i : Nat) (r : Req) (st : Stage), s.reqs[i]? = some (r, st) →
    StageOk w r st (countsOf i s.counts) (sentOf i s.sent)
  cnew : ∀ e ∈ s.counts, e.1 < s.reqs.length
  snew : ∀ e ∈ s.sent, e.1 < s.reqs.length

theorem inv_init (w : Wire) (ids : List Nat) : Inv w ids (S.init ids) where
  ids := by simp [S.init, Function.comp_def]
  ready := by
    intro u x h
    have : x ∈ (S.init ids).ups := List.mem_of_getElem? h
    simp [S.init] at this
    obtain ⟨i, _, rfl⟩ := this
    rfl
  gauge := rfl
  story := by intro i r st h; simp [S.init] at h
  cnew := by simp [S.init]
  snew := by simp [S.init]

theorem countsOf_append (i : Nat) (l m : List (Nat × Count)) :
    countsOf i (l ++ m) = countsOf i l ++ countsOf i m := by
  unfold countsOf; rw [List.filter_append, List.map_append]

theorem sentOf_append (i : Nat) (l m : List (Nat × Nat × Sent)) :
    sentOf i (l ++ m) = sentOf i l ++ sentOf i m := by
  unfold sentOf; rw [List.filter_append, List.map_append]

theorem countsOf_tag (i j : Nat) (cs : List Count) :
    countsOf j (cs.map fun c => (i, c)) = if i = j then cs else [] := by
  induction cs with
  | nil => simp [countsOf]
  | cons c cs ih =>
    unfold countsOf at *
    by_cases h : i = j <;> simp_all

theorem sentOf_tag (i j : Nat) (cs : List (Nat × Sent)) :
    sentOf j (cs.map fun c => (i, c)) = if i = j then cs else [] := by
  induction cs with
  | nil => simp [sentOf]
  | cons c cs ih =>
    unfold sentOf at *
    by_cases h : i = j
    · simp_all
    · rw [if_neg h] at ih ⊢
      rw [List.map_cons, List.filter_cons_of_neg (by simpa using h)]
      exact ih

theorem fwd_set (l : List (Req × Stage)) (i : Nat) (e e' : Req × Stage) (h : l[i]? = some e) :
    ((l.set i e').filter fun e => isFwd e.2).length + (if isFwd e.2 then 1 else 0)
      = (l.filter fun e => isFwd e.2).length + (if isFwd e'.2 then 1 else 0) := by
  induction l generalizing i with
  | nil => simp at h
  | cons x l ih =>
    cases i with
    | zero =>
      simp at h; subst h
      by_cases h1 : isFwd x.2 <;> by_cases h2 : isFwd e'.2 <;> simp [h1, h2]
    | succ i =>
      have := ih i (by simpa using h)
      by_cases hx : isFwd x.2 <;> simp [hx] <;> omega

/-- A step that moves request `i` and records `cs` and `ss` for it. -/
theorem inv_update {w : Wire} {ids : List Nat} {s s' : S} (h : Inv w ids s) {i : Nat} {r : Req}
    {st st' : Stage} (hi : s.reqs[i]? = some (r, st)) (cs : List Count) (ss : List (Nat × Sent))
    (hr : s'.reqs = s.reqs.set i (r, st'))
    (hc : s'.counts = s.counts ++ cs.map fun c => (i, c))
    (hs : s'.sent = s.sent ++ ss.map fun c => (i, c))
    (hu : s'.ups = s.ups) (hp : s'.polls = s.polls)
    (hg : s'.gauge + (if isFwd st then 1 else 0) = s.gauge + (if isFwd st' then 1 else 0))
    (hst : StageOk w r st (countsOf i s.counts) (sentOf i s.sent) →
      StageOk w r st' (countsOf i s.counts ++ cs) (sentOf i s.sent ++ ss)) : Inv w ids s' := by
  have hlt : i < s.reqs.length := by
    have := List.getElem?_eq_some_iff.1 hi
    exact this.1
  refine { ids := by rw [hu]; exact h.ids, ready := ?_, gauge := ?_, story := ?_, cnew := ?_, snew := ?_ }
  · intro u x hx
    rw [hu] at hx; rw [hp]; exact h.ready u x hx
  · rw [hr]
    have e := fwd_set s.reqs i (r, st) (r, st') hi
    have hgg := h.gauge
    dsimp only at e
    omega
  · intro j q sj hj
    rw [hr] at hj
    rw [hc, hs, countsOf_append, sentOf_append, countsOf_tag, sentOf_tag]
    by_cases hij : i = j
    · subst hij
      rw [List.getElem?_set_self hlt] at hj
      cases hj
      rw [if_pos rfl, if_pos rfl]
      exact hst (h.story i r st hi)
    · rw [List.getElem?_set_ne hij] at hj
      rw [if_neg hij, if_neg hij, List.append_nil, List.append_nil]
      exact h.story j q sj hj
  · intro e he
    rw [hr, List.length_set]
    rw [hc] at he
    rcases List.mem_append.1 he with he | he
    · exact h.cnew e he
    · obtain ⟨c, _, rfl⟩ := List.mem_map.1 he; exact hlt
  · intro e he
    rw [hr, List.length_set]
    rw [hs] at he
    rcases List.mem_append.1 he with he | he
    · exact h.snew e he
    · obtain ⟨c, _, rfl⟩ := List.mem_map.1 he; exact hlt

theorem fwd_pos {s : S} {w : Wire} {ids : List Nat} (h : Inv w ids s) {i u : Nat} {r : Req}
    (hi : s.reqs[i]? = some (r, .forwarding u)) : 1 ≤ s.gauge := by
  rw [h.gauge]
  have hm : (r, Stage.forwarding u) ∈ s.reqs.filter fun e => isFwd e.2 :=
    List.mem_filter.2 ⟨List.mem_of_getElem? hi, rfl⟩
  exact List.length_pos_of_mem hm

theorem screen_err {w : Wire} {b : Body} {e : GErr} {id : Json} (h : screen w b = some (e, id)) :
    e = .invalidTransaction ∨ e = .unsupportedTransactionType := by
  have hx : ∀ raw, screenTx w raw = some e →
      e = .invalidTransaction ∨ e = .unsupportedTransactionType := by
    intro raw h
    unfold screenTx at h
    split at h
    · cases h; exact Or.inl rfl
    · split at h
      · cases h; exact Or.inl rfl
      · split at h
        · cases h
        · cases h; exact Or.inr rfl
  unfold screen at h
  split at h
  · split at h
    · cases h
    · split at h
      · split at h
        · cases h
        · obtain ⟨e', h1, h2⟩ := Option.map_eq_some_iff.1 h
          cases h2
          exact hx _ h1
      · cases h
  · cases h

theorem inv_step {w : Wire} {ids : List Nat} {s s' : S} {e : Ev} (h : Inv w ids s)
    (hs : s.step w e = some s') : Inv w ids s' := by
  cases e with
  | ask u =>
    dsimp only [S.step] at hs
    split at hs
    · cases hs
    · split at hs
      · cases hs; exact { h with }
      · cases hs
  | poll u r =>
    dsimp only [S.step] at hs
    split at hs
    swap
    · cases hs
    · cases hx : s.ups[u]? with
      | none => rw [hx] at hs; cases hs
      | some x =>
        rw [hx] at hs
        cases hs
        have hlt : u < s.ups.length := (List.getElem?_eq_some_iff.1 hx).1
        refine { h with ids := ?_, ready := ?_ }
        · show (s.ups.set u _).map Upstream.id = ids
          rw [List.map_set, ← h.ids]
          apply List.ext_getElem?
          intro j
          by_cases hj : u = j
          · subst hj
            rw [List.getElem?_set_self (by simpa using hlt), List.getElem?_map, hx]; rfl
          · rw [List.getElem?_set_ne hj]
        · intro v y hy
          have hy' : (s.ups.set u { x with ready := pollOne x.id r })[v]? = some y := hy
          show y.ready = lastReady v y.id (s.polls ++ [(u, r)])
          unfold lastReady
          rw [List.filter_append, List.map_append]
          by_cases hv : u = v
          · subst hv
            rw [List.getElem?_set_self hlt] at hy'
            cases hy'
            simp
          · rw [List.getElem?_set_ne hv] at hy'
            have := h.ready v y hy'
            unfold lastReady at this
            simp [hv, this]
  | stop => cases hs; exact { h with }
  | arrive r =>
    cases hs
    have hno : ∀ j, s.reqs.length ≤ j → countsOf j s.counts = [] ∧ sentOf j s.sent = [] := by
      intro j hj
      constructor
      · unfold countsOf
        rw [List.map_eq_nil_iff, List.filter_eq_nil_iff]
        intro e he; have := h.cnew e he; simp; omega
      · unfold sentOf
        rw [List.map_eq_nil_iff, List.filter_eq_nil_iff]
        intro e he; have := h.snew e he; simp; omega
    refine { h with gauge := ?_, story := ?_, cnew := ?_, snew := ?_ }
    · show s.gauge = ((s.reqs ++ [(r, Stage.entered)]).filter _).length
      rw [List.filter_append, List.length_append, h.gauge]
      simp [isFwd]
    · intro i q st hi
      have hi' : (s.reqs ++ [(r, Stage.entered)])[i]? = some (q, st) := hi
      by_cases hlt : i < s.reqs.length
      · rw [List.getElem?_append_left hlt] at hi'
        exact h.story i q st hi'
      · rw [List.getElem?_append_right (by omega)] at hi'
        have hz : i - s.reqs.length = 0 := by
          by_contra hne
          obtain ⟨k, hk⟩ := Nat.exists_eq_succ_of_ne_zero hne
          rw [hk] at hi'; simp at hi'
        rw [hz] at hi'
        simp at hi'
        obtain ⟨rfl, rfl⟩ := hi'
        have := hno i (by omega)
        exact ⟨this.1, this.2⟩
    · intro e he
      show _ < (s.reqs ++ [_]).length
      have := h.cnew e he
      simp; omega
    · intro e he
      show _ < (s.reqs ++ [_]).length
      have := h.snew e he
      simp; omega
  | limit i ok =>
    dsimp only [S.step] at hs
    split at hs
    · rename_i r hi
      split at hs
      · cases hs
        unfold S.route
        split
        · rename_i hp
          refine inv_update h hi [] [] (st' := .done (if r.get then .alive else .methodNotAllowed))
            rfl (by simp [S.move]) (by simp [S.move]) rfl rfl ?_ ?_
          · cases r.get <;> rfl
          · rintro ⟨h1, h2⟩
            rw [h1, h2]
            cases hg : r.get
            · exact ⟨Or.inl hp, hg, rfl, rfl⟩
            · exact ⟨hp, hg, rfl, rfl⟩
        · split
          · rename_i hp
            refine inv_update h hi [] []
              (st' := .done (if r.get then .ready (anyReady s.ups) else .methodNotAllowed))
              rfl (by simp [S.move]) (by simp [S.move]) rfl rfl ?_ ?_
            · cases r.get <;> rfl
            · rintro ⟨h1, h2⟩
              rw [h1, h2]
              cases hg : r.get
              · exact ⟨Or.inr hp, hg, rfl, rfl⟩
              · exact ⟨hp, hg, rfl, rfl⟩
          · rename_i hp1 hp2
            refine inv_update h hi [] [] (st' := .reading) rfl (by simp [S.move]) (by simp [S.move])
              rfl rfl rfl ?_
            rintro ⟨h1, h2⟩
            rw [h1, h2]
            exact ⟨rfl, rfl, fun h => h.elim hp1 hp2⟩
      · rename_i hno
        cases hs
        refine inv_update h hi [.rejected .rateLimited] [] (st' := .done (.error .rateLimited .null))
          rfl rfl (by simp [S.move, S.reject]) rfl rfl rfl ?_
        rintro ⟨h1, h2⟩
        rw [h1, h2]
        refine ⟨?_, rfl, rfl, rfl⟩
        intro hp
        apply hno
        rcases hp with hp | hp <;> simp [hp]
    · cases hs
  | body i b =>
    dsimp only [S.step] at hs
    split at hs
    · rename_i r hi
      cases hs
      have rej : ∀ (e : GErr) (id : Json), (¬ probe r → ErrorOk w r e id [.rejected e] []) →
          Inv w ids (s.reject i r e id) := by
        intro e id hok
        refine inv_update h hi [.rejected e] [] (st' := .done (.error e id)) rfl rfl
          (by simp [S.move, S.reject]) rfl rfl rfl ?_
        rintro ⟨h1, h2, h3⟩
        rw [h1, h2]
        exact ⟨h3, hok h3⟩
      unfold S.handle
      split
      · exact rej _ _ fun _ => ⟨rfl, rfl, rfl⟩
      · exact rej _ _ fun _ => ⟨rfl, rfl, rfl⟩
      · split
        · rename_i hh
          exact rej _ _ fun _ => ⟨rfl, rfl, hh, rfl⟩
        · rename_i hh
          have hh' : r.hop = false := by simpa using hh
          split
          · rename_i e id hsc
            refine rej _ _ fun _ => ?_
            rcases screen_err hsc with he | he
            · subst he; exact ⟨rfl, rfl, hh', hsc⟩
            · subst he; exact ⟨rfl, rfl, hh', hsc⟩
          · rename_i hsc
            split
            · exact rej _ _ fun _ => ⟨rfl, rfl, hh', hsc, rfl⟩
            · rename_i u hu
              refine inv_update h hi [] [(u, outgoing r)] (st' := .forwarding u) rfl
                (by simp [S.move]) rfl rfl rfl rfl ?_
              rintro ⟨h1, h2, h3⟩
              rw [h1, h2]
              exact ⟨rfl, h3, rfl, hh', hsc⟩
    · cases hs
  | up i x =>
    dsimp only [S.step] at hs
    split at hs
    · rename_i r u hi
      cases hs
      have hpos := fwd_pos h hi
      have hgau : s.gauge - 1 + (if isFwd (.forwarding u) then 1 else 0)
          = s.gauge + (if isFwd (.done .alive) then 1 else 0) := by
        show s.gauge - 1 + 1 = s.gauge + 0
        omega
      unfold S.answer
      split
      · dsimp only
        split
        · refine inv_update h hi [.forwarded, .rejected .requestTimeout] []
            (st' := .done (.error .requestTimeout .null)) rfl ?_ (by simp [S.move, S.reject]) rfl rfl
            hgau ?_
          · simp [S.reject]
          · rintro ⟨h1, h2, h3⟩
            rw [h1, List.append_nil]
            exact ⟨h2, rfl, Or.inr ⟨rfl, u, h3⟩⟩
        · rename_i status ct hne
          refine inv_update h hi [.forwarded] []
            (st' := .done (.upstream u status ct)) rfl rfl (by simp [S.move]) rfl rfl
            hgau ?_
          rintro ⟨h1, h2, h3⟩
          rw [h1, List.append_nil]
          exact ⟨rfl, h2, h3, hne⟩
      · refine inv_update h hi [.rejected .upstreamUnreachable] []
          (st' := .done (.error .upstreamUnreachable (recover r.body))) rfl rfl
          (by simp [S.move, S.reject]) rfl rfl hgau ?_
        rintro ⟨h1, h2, h3⟩
        rw [h1, List.append_nil]
        exact ⟨h2, rfl, ⟨u, h3⟩, rfl⟩
      · refine inv_update h hi [.rejected .upstreamTimeout] []
          (st' := .done (.error .upstreamTimeout (recover r.body))) rfl rfl
          (by simp [S.move, S.reject]) rfl rfl hgau ?_
        rintro ⟨h1, h2, h3⟩
        rw [h1, List.append_nil]
        exact ⟨h2, rfl, ⟨u, h3⟩, rfl⟩
    · cases hs
  | deadline i =>
    dsimp only [S.step] at hs
    split at hs
    · rename_i r hi
      cases hs
      refine inv_update h hi [.rejected .requestTimeout] []
        (st' := .done (.error .requestTimeout .null)) rfl rfl (by simp [S.move, S.reject]) rfl rfl rfl ?_
      rintro ⟨h1, h2, h3⟩
      rw [h1, h2]
      exact ⟨h3, rfl, Or.inl ⟨rfl, Or.inl rfl⟩⟩
    · rename_i r u hi
      cases hs
      have hpos := fwd_pos h hi
      refine inv_update h hi [.rejected .requestTimeout] []
        (st' := .done (.error .requestTimeout .null)) rfl rfl (by simp [S.move, S.reject]) rfl rfl ?_ ?_
      · show s.gauge - 1 + 1 = s.gauge + 0
        omega
      · rintro ⟨h1, h2, h3⟩
        rw [h1, List.append_nil]
        exact ⟨h2, rfl, Or.inl ⟨rfl, Or.inr ⟨u, h3⟩⟩⟩
    · cases hs
  | hangup i =>
    dsimp only [S.step] at hs
    split at hs
    · rename_i r hi
      cases hs
      refine inv_update h hi [] [] (st' := .gone) rfl (by simp [S.move]) (by simp [S.move]) rfl rfl rfl ?_
      rintro ⟨h1, h2⟩
      rw [h1, h2]
      exact ⟨rfl, Or.inl rfl⟩
    · rename_i r hi
      cases hs
      refine inv_update h hi [] [] (st' := .gone) rfl (by simp [S.move]) (by simp [S.move]) rfl rfl rfl ?_
      rintro ⟨h1, h2, _⟩
      rw [h1, h2]
      exact ⟨rfl, Or.inl rfl⟩
    · rename_i r u hi
      cases hs
      have hpos := fwd_pos h hi
      refine inv_update h hi [] [] (st' := .gone) rfl (by simp [S.move]) (by simp [S.move]) rfl rfl ?_ ?_
      · show s.gauge - 1 + 1 = s.gauge + 0
        omega
      · rintro ⟨h1, h2, h3⟩
        rw [h1, List.append_nil, List.append_nil]
        exact ⟨rfl, Or.inr ⟨h2, u, h3⟩⟩
    · cases hs

theorem inv_runs {w : Wire} {ids : List Nat} {es : List Ev} {s s' : S} (h : Inv w ids s)
    (hr : s.runs w es = some s') : Inv w ids s' := by
  induction es generalizing s with
  | nil => cases hr; exact h
  | cons e es ih =>
    obtain ⟨m, h1, h2⟩ := Option.bind_eq_some_iff.1 hr
    exact ih (inv_step h h1) h2

theorem reach_inv {w : Wire} {ids : List Nat} {s : S} (h : Reach w ids s) : Inv w ids s := by
  obtain ⟨es, hr⟩ := h
  exact inv_runs (inv_init w ids) hr

/-! ## Results -/

/-- **The story of every request**, under every schedule: see `StageOk` and `ErrorOk`. -/
theorem request_story {w : Wire} {ids : List Nat} {s : S} (h : Reach w ids s) {i : Nat} {r : Req}
    {st : Stage} (hi : s.reqs[i]? = some (r, st)) :
    StageOk w r st (countsOf i s.counts) (sentOf i s.sent) :=
  (reach_inv h).story i r st hi

/-- What `StageOk` allows to be sent. -/
theorem stage_sent {w : Wire} {r : Req} {st : Stage} {cs : List Count} {ss : List (Nat × Sent)}
    (h : StageOk w r st cs ss) : ss = [] ∨ (¬ probe r ∧ ∃ u, FwdTo w r u ss) := by
  cases st with
  | entered => exact Or.inl h.2
  | reading => exact Or.inl h.2.1
  | forwarding u => exact Or.inr ⟨h.2.1, u, h.2.2⟩
  | gone => exact h.2
  | done resp =>
    cases resp with
    | upstream u status ct => exact Or.inr ⟨h.2.1, u, h.2.2.1⟩
    | alive => exact Or.inl h.2.2.2
    | ready b => exact Or.inl h.2.2.2
    | methodNotAllowed => exact Or.inl h.2.2.2
    | error e id =>
      obtain ⟨hp, he⟩ := h
      cases e with
      | rateLimited => exact Or.inl he.2.1
      | requestTooLarge => exact Or.inl he.2.1
      | unreadableBody => exact Or.inl he.2.1
      | loopDetected => exact Or.inl he.2.1
      | invalidTransaction => exact Or.inl he.2.1
      | unsupportedTransactionType => exact Or.inl he.2.1
      | noUpstreamReady => exact Or.inl he.2.1
      | upstreamUnreachable => exact Or.inr ⟨hp, he.2.1⟩
      | upstreamTimeout => exact Or.inr ⟨hp, he.2.1⟩
      | requestTimeout =>
        obtain ⟨_, ⟨_, h1 | h1⟩ | ⟨_, h1⟩⟩ := he
        · exact Or.inl h1
        · exact Or.inr ⟨hp, h1⟩
        · exact Or.inr ⟨hp, h1⟩

/-- **A client's request is handed to at most one upstream, at most once** - never retried, so a
submitted transaction is never submitted twice by the gateway. -/
theorem sent_at_most_once {w : Wire} {ids : List Nat} {s : S} (h : Reach w ids s) (i : Nat) :
    (sentOf i s.sent).length ≤ 1 := by
  cases hi : s.reqs[i]? with
  | none =>
    have : sentOf i s.sent = [] := by
      unfold sentOf
      rw [List.map_eq_nil_iff, List.filter_eq_nil_iff]
      intro e he
      have h1 := (reach_inv h).snew e he
      have h2 := List.getElem?_eq_none_iff.1 hi
      simp; omega
    rw [this]; exact Nat.zero_le _
  | some e =>
    obtain ⟨r, st⟩ := e
    rcases stage_sent (request_story h hi) with h1 | ⟨_, u, h1, _⟩ <;> rw [h1] <;> simp

/-- **A forwarding loop is broken at the first revisit**: everything sent carries the gateway's marker,
and a request that carries the marker is never sent.  So through any chain of gateways a client's request
is forwarded by at most one. -/
theorem loop_broken {w : Wire} {ids : List Nat} {s : S} (h : Reach w ids s) {i u : Nat} {x : Sent}
    (hx : (i, u, x) ∈ s.sent) :
    x.hop = true ∧ ∃ r st, s.reqs[i]? = some (r, st) ∧ r.hop = false ∧ x = outgoing r ∧
      ¬ probe r ∧ screen w r.body = none := by
  have hlt := (reach_inv h).snew _ hx
  obtain ⟨⟨r, st⟩, hi⟩ : ∃ e, s.reqs[i]? = some e := ⟨s.reqs[i], List.getElem?_eq_getElem hlt⟩
  have hm : (u, x) ∈ sentOf i s.sent :=
    List.mem_map.2 ⟨(i, u, x), List.mem_filter.2 ⟨hx, by simp⟩, rfl⟩
  rcases stage_sent (request_story h hi) with h1 | ⟨hp, v, h1, h2, h3⟩
  · rw [h1] at hm; cases hm
  · rw [h1] at hm
    simp at hm
    exact ⟨by rw [hm.2]; rfl, r, st, hi, h2, hm.2, hp, h3⟩

/-- **What an upstream receives of a client's request**: body untouched, the client's content type (or
`application/json`), and the peer's address appended to the chain the client sent. -/
theorem outgoing_spec (r : Req) : (outgoing r).body = r.body ∧
    (∀ c, r.ctype = some c → (outgoing r).ctype = c) ∧
    (r.ctype = none → (outgoing r).ctype = "application/json") ∧
    (r.xff = none → (outgoing r).xff = r.peer) ∧
    (∀ p, r.xff = some p → (outgoing r).xff = p ++ ", " ++ r.peer) := by
  refine ⟨rfl, ?_, ?_, ?_, ?_⟩
  · intro c hc; simp [outgoing, hc]
  · intro hc; simp [outgoing, hc]
  · intro hc; simp [outgoing, forwardedFor, hc]
  · intro p hc; simp [outgoing, forwardedFor, hc]

/-- **Every answered request that is not a probe is counted, once as forwarded or rejected** - except
that an upstream's own `408` is counted as both; unanswered requests and probes are not counted. -/
theorem counted {w : Wire} {ids : List Nat} {s : S} (h : Reach w ids s) {i : Nat} {r : Req}
    {st : Stage} (hi : s.reqs[i]? = some (r, st)) :
    match st with
    | .done (.upstream _ _ _) => countsOf i s.counts = [.forwarded]
    | .done (.error e _) => countsOf i s.counts = [.rejected e] ∨
        (e = .requestTimeout ∧ countsOf i s.counts = [.forwarded, .rejected .requestTimeout])
    | _ => countsOf i s.counts = [] := by
  have hst := request_story h hi
  cases st with
  | entered => exact hst.1
  | reading => exact hst.1
  | forwarding u => exact hst.1
  | gone => exact hst.1
  | done resp =>
    cases resp with
    | upstream u status ct => exact hst.1
    | alive => exact hst.2.2.1
    | ready b => exact hst.2.2.1
    | methodNotAllowed => exact hst.2.2.1
    | error e id =>
      obtain ⟨hp, he⟩ := hst
      cases e with
      | requestTimeout =>
        obtain ⟨_, ⟨h1, _⟩ | ⟨h1, _⟩⟩ := he
        · exact Or.inl h1
        · exact Or.inr ⟨rfl, h1⟩
      | _ => exact Or.inl he.1

/-- **The in-flight gauge is the number of requests waiting for an upstream**, after every history of
answers, time-outs and disconnects; it returns to zero when none waits. -/
theorem gauge_exact {w : Wire} {ids : List Nat} {s : S} (h : Reach w ids s) :
    s.gauge = (s.reqs.filter fun e => isFwd e.2).length := (reach_inv h).gauge

/-- **Readiness is what the latest poll said**: every failure, a malformed payload and an absent worker
count as not ready, and so does an upstream that was never polled. -/
theorem ready_is_last_poll {w : Wire} {ids : List Nat} {s : S} (h : Reach w ids s) {u : Nat}
    {x : Upstream} (hx : s.ups[u]? = some x) :
    ids[u]? = some x.id ∧ x.ready = lastReady u x.id s.polls := by
  refine ⟨?_, (reach_inv h).ready u x hx⟩
  rw [← (reach_inv h).ids, List.getElem?_map, hx]; rfl

/-- **Only the poll under way changes readiness**: whatever requests do, an upstream's record changes in a
step only when that step is the result of the poll of this very upstream. -/
theorem only_its_poll_changes {w : Wire} {s s' : S} {e : Ev} (hs : s.step w e = some s') (u : Nat) :
    s'.ups[u]? = s.ups[u]? ∨ ∃ r, e = .poll u r ∧ s.polling = some u := by
  cases e with
  | ask v =>
    dsimp only [S.step] at hs
    split at hs
    · cases hs
    · split at hs
      · cases hs; exact Or.inl rfl
      · cases hs
  | poll v r =>
    dsimp only [S.step] at hs
    split at hs
    · rename_i hp
      split at hs
      · cases hs
        by_cases hv : v = u
        · subst hv; exact Or.inr ⟨r, rfl, hp⟩
        · exact Or.inl (List.getElem?_set_ne hv)
      · cases hs
    · cases hs
  | stop => cases hs; exact Or.inl rfl
  | arrive r => cases hs; exact Or.inl rfl
  | limit i ok =>
    dsimp only [S.step] at hs
    split at hs
    · split at hs
      · cases hs
        unfold S.route
        repeat' split
        all_goals exact Or.inl rfl
      · cases hs; exact Or.inl rfl
    · cases hs
  | body i b =>
    dsimp only [S.step] at hs
    split at hs
    · cases hs
      unfold S.handle
      repeat' split
      all_goals exact Or.inl rfl
    · cases hs
  | up i x =>
    dsimp only [S.step] at hs
    split at hs
    · cases hs
      unfold S.answer
      split
      · dsimp only
        split
        all_goals exact Or.inl rfl
      all_goals exact Or.inl rfl
    · cases hs
  | deadline i =>
    dsimp only [S.step] at hs
    split at hs
    all_goals first | (cases hs; exact Or.inl rfl) | cases hs
  | hangup i =>
    dsimp only [S.step] at hs
    split at hs
    all_goals first | (cases hs; exact Or.inl rfl) | cases hs

/-- What the poller owns. -/
def Quiet (s m : S) : Prop := m.stopped = s.stopped ∧ m.polls = s.polls ∧ m.polling = s.polling

theorem quiet_limit {w : Wire} {s m : S} {i : Nat} {ok : Bool} (h : s.step w (.limit i ok) = some m) :
    Quiet s m := by
  dsimp only [S.step] at h
  split at h
  · split at h
    · cases h
      unfold S.route
      repeat' split
      all_goals exact ⟨rfl, rfl, rfl⟩
    · cases h; exact ⟨rfl, rfl, rfl⟩
  · cases h

theorem quiet_body {w : Wire} {s m : S} {i : Nat} {b : BodyIn} (h : s.step w (.body i b) = some m) :
    Quiet s m := by
  dsimp only [S.step] at h
  split at h
  · cases h
    unfold S.handle
    repeat' split
    all_goals exact ⟨rfl, rfl, rfl⟩
  · cases h

theorem quiet_up {w : Wire} {s m : S} {i : Nat} {x : UpIn} (h : s.step w (.up i x) = some m) :
    Quiet s m := by
  dsimp only [S.step] at h
  split at h
  · cases h
    unfold S.answer
    split
    · dsimp only
      split
      all_goals exact ⟨rfl, rfl, rfl⟩
    · exact ⟨rfl, rfl, rfl⟩
    · exact ⟨rfl, rfl, rfl⟩
  · cases h

/-- **After a shutdown at most the poll already under way still reports**: whatever else goes on, no
further upstream is polled. -/
theorem stop_ends_polls {w : Wire} {es : List Ev} {s s' : S} (hst : s.stopped = true)
    (hr : s.runs w es = some s') : s'.stopped = true ∧
      s'.polls.length + (if s'.polling.isSome then 1 else 0)
        ≤ s.polls.length + (if s.polling.isSome then 1 else 0) := by
  induction es generalizing s with
  | nil => cases hr; exact ⟨hst, Nat.le_refl _⟩
  | cons e es ih =>
    obtain ⟨m, h1, h2⟩ := Option.bind_eq_some_iff.1 hr
    have key : m.stopped = true ∧ m.polls.length + (if m.polling.isSome then 1 else 0)
        ≤ s.polls.length + (if s.polling.isSome then 1 else 0) := by
      cases e with
      | ask u => simp [S.step, hst] at h1
      | poll u r =>
        dsimp only [S.step] at h1
        split at h1
        · rename_i hp
          cases hx : s.ups[u]? with
          | none => rw [hx] at h1; cases h1
          | some x =>
            rw [hx] at h1
            cases h1
            exact ⟨hst, by simp [hp]⟩
        · cases h1
      | stop => cases h1; exact ⟨rfl, Nat.le_refl _⟩
      | arrive r => cases h1; exact ⟨hst, Nat.le_refl _⟩
      | limit i ok => obtain ⟨a, b, c⟩ := quiet_limit h1; rw [a, b, c]; exact ⟨hst, Nat.le_refl _⟩
      | body i b => obtain ⟨a, b, c⟩ := quiet_body h1; rw [a, b, c]; exact ⟨hst, Nat.le_refl _⟩
      | up i x => obtain ⟨a, b, c⟩ := quiet_up h1; rw [a, b, c]; exact ⟨hst, Nat.le_refl _⟩
      | deadline i =>
        dsimp only [S.step] at h1
        split at h1
        · cases h1; exact ⟨hst, Nat.le_refl _⟩
        · cases h1; exact ⟨hst, Nat.le_refl _⟩
        · cases h1
      | hangup i =>
        dsimp only [S.step] at h1
        split at h1
        · cases h1; exact ⟨hst, Nat.le_refl _⟩
        · cases h1; exact ⟨hst, Nat.le_refl _⟩
        · cases h1; exact ⟨hst, Nat.le_refl _⟩
        · cases h1
    obtain ⟨h3, h4⟩ := ih key.1 h2
    exact ⟨h3, Nat.le_trans h4 key.2⟩

/-- A poll result makes the upstream ready exactly when it is a payload whose first entry for the worker
says it accepts transactions. -/
theorem pollOne_iff (id : Nat) (r : PollResult) : pollOne id r = true ↔
    ∃ v a x b, r = .payload v (a ++ x :: b) ∧ x.id = id ∧ x.accepting = true ∧
      ∀ y ∈ a, y.id ≠ id := by
  cases r with
  | failed => simp [pollOne, parseReady]
  | malformed => simp [pollOne, parseReady]
  | payload v ws =>
    show ((ws.find? fun w => decide (w.id = id)).map WorkerEntry.accepting).getD false = true ↔ _
    constructor
    · intro h
      cases hf : ws.find? fun w => decide (w.id = id) with
      | none => rw [hf] at h; cases h
      | some x =>
        rw [hf] at h
        obtain ⟨h1, a, b, rfl, h2⟩ := List.find?_eq_some_iff_append.1 hf
        refine ⟨v, a, x, b, rfl, by simpa using h1, h, ?_⟩
        intro y hy; simpa using h2 y hy
    · rintro ⟨v', a, x, b, h1, h2, h3, h4⟩
      cases h1
      have : (a ++ x :: b).find? (fun w => decide (w.id = id)) = some x :=
        List.find?_eq_some_iff_append.2
          ⟨by simpa using h2, a, b, rfl, fun y hy => by simpa using h4 y hy⟩
      rw [this]; exact h3

/-- **A request goes to the first upstream, in the configured order, whose latest poll said ready; when
there is none it is answered with `503` and sent nowhere.** -/
theorem forward_choice {w : Wire} {ids : List Nat} {s s' : S} (h : Reach w ids s) {i : Nat} {r : Req}
    (hi : s.reqs[i]? = some (r, .reading)) (hs : s.step w (.body i .ok) = some s')
    (hh : r.hop = false) (hsc : screen w r.body = none) :
    (∃ u id, ids[u]? = some id ∧ lastReady u id s.polls = true ∧
        (∀ v id', v < u → ids[v]? = some id' → lastReady v id' s.polls = false) ∧
        s'.reqs[i]? = some (r, .forwarding u) ∧ s'.sent = s.sent ++ [(i, u, outgoing r)]) ∨
      ((∀ v id', ids[v]? = some id' → lastReady v id' s.polls = false) ∧
        s'.reqs[i]? = some (r, .done (.error .noUpstreamReady (recover r.body))) ∧
        s'.sent = s.sent) := by
  have inv := reach_inv h
  have hlt : i < s.reqs.length := (List.getElem?_eq_some_iff.1 hi).1
  have hid : ∀ (v id' : Nat), ids[v]? = some id' → ∃ x : Upstream, s.ups[v]? = some x ∧ x.id = id' := by
    intro v id' hv
    rw [← inv.ids, List.getElem?_map] at hv
    obtain ⟨x, h1, h2⟩ := Option.map_eq_some_iff.1 hv
    exact ⟨x, h1, h2⟩
  dsimp only [S.step] at hs
  rw [hi] at hs
  dsimp only at hs
  cases hs
  unfold S.handle
  dsimp only
  rw [hh, hsc]
  simp only [Bool.false_eq_true, if_false]
  cases hf : firstReady s.ups with
  | none =>
    right
    refine ⟨?_, ?_, rfl⟩
    · intro v id' hv
      obtain ⟨x, hx, rfl⟩ := hid v id' hv
      rw [← inv.ready v x hx]
      unfold firstReady at hf
      rw [List.findIdx?_eq_none_iff] at hf
      exact hf x (List.mem_of_getElem? hx)
    · show (s.reqs.set i _)[i]? = _
      rw [List.getElem?_set_self hlt]
  | some u =>
    left
    unfold firstReady at hf
    rw [List.findIdx?_eq_some_iff_getElem] at hf
    obtain ⟨hu, h1, h2⟩ := hf
    have hx : s.ups[u]? = some s.ups[u] := List.getElem?_eq_getElem hu
    refine ⟨u, s.ups[u].id, ?_, ?_, ?_, ?_, rfl⟩
    · rw [← inv.ids, List.getElem?_map, hx]; rfl
    · rw [← inv.ready u _ hx]; exact h1
    · intro v id' hv hiv
      obtain ⟨x, hxv, rfl⟩ := hid v id' hiv
      rw [← inv.ready v x hxv]
      have := h2 v hv
      obtain ⟨hvl, e⟩ := List.getElem?_eq_some_iff.1 hxv
      rw [e] at this
      simpa using this
    · show (s.reqs.set i _)[i]? = _
      rw [List.getElem?_set_self hlt]

/-- **`GET /ready` says ready exactly when a request could be forwarded.** -/
theorem ready_probe {w : Wire} {ids : List Nat} {s : S} (h : Reach w ids s) :
    anyReady s.ups = true ↔ ∃ u id, ids[u]? = some id ∧ lastReady u id s.polls = true := by
  have inv := reach_inv h
  unfold anyReady
  rw [List.any_eq_true]
  constructor
  · rintro ⟨x, hx, hr⟩
    obtain ⟨u, hu⟩ := List.getElem?_of_mem hx
    refine ⟨u, x.id, ?_, by rw [← inv.ready u x hu]; exact hr⟩
    rw [← inv.ids, List.getElem?_map, hu]; rfl
  · rintro ⟨u, id, hu, hr⟩
    rw [← inv.ids, List.getElem?_map] at hu
    obtain ⟨x, h1, rfl⟩ := Option.map_eq_some_iff.1 hu
    exact ⟨x, List.mem_of_getElem? h1, by rw [inv.ready u x h1]; exact hr⟩

/-- **The screen rejects exactly a single raw-transaction call whose string the worker's wire format
cannot decode, or that decodes to a type the network does not accept**; everything else is passed on. -/
theorem screen_iff (w : Wire) (b : Body) (e : GErr) (id : Json) : screen w b = some (e, id) ↔
    b.mentions = true ∧ ∃ j raw, b.parsed = some j ∧ (j.get "method").bind Json.asStr = some sendRaw ∧
      ((j.get "params").bind (Json.item 0)).bind Json.asStr = some raw ∧ id = idOf j ∧
      ((e = .invalidTransaction ∧ ∀ bytes, w.hex raw = some bytes → w.decode bytes = none) ∨
       (e = .unsupportedTransactionType ∧ ∃ bytes ty, w.hex raw = some bytes ∧
          w.decode bytes = some ty ∧ w.allowed ty = false)) := by
  have hx : ∀ raw, screenTx w raw = some e ↔
      ((e = .invalidTransaction ∧ ∀ bytes, w.hex raw = some bytes → w.decode bytes = none) ∨
       (e = .unsupportedTransactionType ∧ ∃ bytes ty, w.hex raw = some bytes ∧
          w.decode bytes = some ty ∧ w.allowed ty = false)) := by
    intro raw
    unfold screenTx
    cases hh : w.hex raw with
    | none => constructor
              · intro h; cases h; exact Or.inl ⟨rfl, fun b hb => by cases hb⟩
              · rintro (⟨rfl, _⟩ | ⟨_, b, t, hb, _⟩)
                · rfl
                · cases hb
    | some bytes =>
      dsimp only
      cases hd : w.decode bytes with
      | none => constructor
                · intro h; cases h
                  exact Or.inl ⟨rfl, fun b hb => by cases hb; exact hd⟩
                · rintro (⟨rfl, _⟩ | ⟨_, b, t, hb, ht, _⟩)
                  · rfl
                  · cases hb; rw [hd] at ht; cases ht
      | some ty =>
        dsimp only
        cases ha : w.allowed ty with
        | true =>
          simp only [if_true]
          constructor
          · intro h; cases h
          · rintro (⟨_, h⟩ | ⟨_, b, t, hb, ht, hf⟩)
            · have := h bytes rfl; rw [hd] at this; cases this
            · cases hb; rw [hd] at ht; cases ht; rw [ha] at hf; cases hf
        | false =>
          simp only [Bool.false_eq_true, if_false]
          constructor
          · intro h; cases h
            exact Or.inr ⟨rfl, bytes, ty, rfl, hd, ha⟩
          · rintro (⟨_, h⟩ | ⟨rfl, _⟩)
            · have := h bytes rfl; rw [hd] at this; cases this
            · rfl
  unfold screen
  cases hm : b.mentions with
  | false => simp
  | true =>
    simp only [if_true]
    cases hp : b.parsed with
    | none => simp
    | some j =>
      dsimp only
      split
      · rename_i hmeth
        split
        · rename_i hr
          simp only [true_and]
          constructor
          · intro h; cases h
          · rintro ⟨j', raw, h1, _, h2, _⟩
            cases h1; rw [hr] at h2; cases h2
        · rename_i raw hr
          rw [Option.map_eq_some_iff]
          constructor
          · rintro ⟨e', h1, h2⟩
            cases h2
            exact ⟨by trivial, j, raw, rfl, hmeth, hr, rfl, (hx raw).1 h1⟩
          · rintro ⟨_, j', raw', h1, _, h2, h3, h4⟩
            cases h1; rw [hr] at h2; cases h2
            exact ⟨e, (hx raw).2 h4, by rw [h3]⟩
      · rename_i hmeth
        constructor
        · intro h; cases h
        · rintro ⟨_, j', raw, h1, h2, _⟩
          cases h1; exact absurd h2 hmeth

/-- **No false rejection**: a raw transaction the worker's wire format decodes to an accepted type passes
the screen, whatever else is in the request; so do batches, other methods and odd parameters. -/
theorem screen_passes (w : Wire) (b : Body)
    (h : ∀ j raw, b.parsed = some j → (j.get "method").bind Json.asStr = some sendRaw →
      ((j.get "params").bind (Json.item 0)).bind Json.asStr = some raw →
      ∃ bytes ty, w.hex raw = some bytes ∧ w.decode bytes = some ty ∧ w.allowed ty = true) :
    screen w b = none := by
  cases hs : screen w b with
  | none => rfl
  | some x =>
    obtain ⟨e, id⟩ := x
    obtain ⟨_, j, raw, h1, h2, h3, _, h4⟩ := (screen_iff w b e id).1 hs
    obtain ⟨bytes, ty, g1, g2, g3⟩ := h j raw h1 h2 h3
    rcases h4 with ⟨_, h5⟩ | ⟨_, b', t', k1, k2, k3⟩
    · have := h5 bytes g1; rw [g2] at this; cases this
    · rw [g1] at k1; cases k1; rw [g2] at k2; cases k2; rw [g3] at k3; cases k3

theorem foldl_id (l : List (String × Json)) (init : Json) : l.foldl idFold init
    = ((l.reverse.find? fun m => decide (m.1 = "id")).map Prod.snd).getD init := by
  induction l generalizing init with
  | nil => rfl
  | cons m l ih =>
    rw [List.foldl_cons, ih, List.reverse_cons, List.find?_append]
    cases hf : l.reverse.find? fun m => decide (m.1 = "id") with
    | some x => simp
    | none =>
      by_cases hm : m.1 = "id"
      · simp [idFold, hm]
      · simp [idFold, hm]

/-- **The id echoed by the two ways the gateway has of reading it is the same**: the request's own
top-level `id` (the last, when repeated), `null` when it has none or is not a single call. -/
theorem recover_eq (b : Body) : recover b
    = match b.parsed with
      | some (.obj l) => idOf (.obj l)
      | _ => .null := by
  unfold recover
  split
  · rename_i l hp
    rw [foldl_id, hp]; rfl
  · rename_i hne
    split
    · rename_i l hp
      exact absurd hp (hne l)
    · rfl

/-- Each error has its own JSON-RPC code. -/
theorem code_injective (a b : GErr) (h : a.code = b.code) : a = b := by
  cases a <;> cases b <;> first | rfl | (exact absurd h (by decide))

/-! ## The node's side -/

/-- **The gateway sees a worker as ready exactly when the node's own probe said so in time**: a node that
is polled for worker 0 answers with its probe's outcome, and a probe that does not resolve, a request the
node could not read in one piece and any other path count as not ready.  A gateway configured with any
other worker id never sees it ready. -/
theorem node_to_gateway (id : Nat) (path : Option String) (p : Option Bool) :
    pollOne id (nodeAnswer path p) = true
      ↔ path = some "/health/workers" ∧ id = 0 ∧ p = some true := by
  unfold nodeAnswer
  split
  · rename_i hp
    unfold nodePayload pollOne parseReady
    by_cases h0 : id = 0
    · subst h0
      cases p with
      | none => simp
      | some b => simp [hp]
    · have : ¬ 0 = id := fun h => h0 h.symm
      simp [h0, this]
  · rename_i hp
    simp [pollOne, parseReady, hp]

/-! ## Settings -/

/-- **An accepted connection-lifetime cap never cuts off the first request of a connection**: reading the
head and the whole-request deadline fit into it. -/
theorem cap_covers_request (cap header upstream : Nat) (h : capOk cap header upstream = true)
    (hc : cap ≠ 0) : header + requestDeadline header upstream ≤ cap := by
  unfold capOk at h
  rw [if_neg hc] at h
  exact of_decide_eq_true h

/-- **A zero rate disables a limiter, a zero burst means twice the rate, and a limiter never has a burst
of zero.** -/
theorem resolveLimit_spec (rate burst : Nat) :
    (resolveLimit rate burst = none ↔ rate = 0) ∧
      ∀ r b, resolveLimit rate burst = some (r, b) → r = rate ∧ 0 < b ∧
        (burst ≠ 0 → b = burst) ∧ (burst = 0 → 2 * rate ≤ 4294967295 → b = 2 * rate) := by
  unfold resolveLimit
  constructor
  · split <;> simp_all
  · intro r b h
    split at h
    · cases h
    · rename_i hr
      cases h
      refine ⟨rfl, ?_, ?_, ?_⟩
      · split
        · exact Nat.lt_min.2 ⟨by omega, by omega⟩
        · omega
      · intro hb; rw [if_neg hb]
      · intro hb hm; rw [if_pos hb]; exact Nat.min_eq_left hm

end Verif.Gproxy
