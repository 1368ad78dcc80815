import Verif.Sync.PendingSpec
/-
Property C20: certificates are handed to consensus in causal order and none is stranded.
-/
namespace Verif
namespace Sync

variable {U : Header → Prop}

/-- The certificates handed to consensus so far, as digests. -/
def Mgr.accepted (m : Mgr) : List Digest := m.out.map (·.1.header.digest)

/-- The certificates that wait, as digests. -/
def Mgr.waiting (m : Mgr) : List Digest := m.pend.pending.map (·.1)

/-- A certificate manager from its start, with `S0` in the store: verified (or unverified) certificates arrive one
by one and garbage collection rounds are announced, in any order. `subs` lists what arrived, `g` is
the last garbage collection round read, `lo` the last one announced. -/
inductive Reach (C : Cfg) (U : Header → Prop) (S0 : List Header) :
    Mgr → List Certificate → (g lo : Round) → Prop
  | init (g : Round) : Reach C U S0 ⟨{}, S0, []⟩ [] g 0
  | cert {m : Mgr} {subs : List Certificate} {g lo g' : Round} {cert : Certificate} (h : Reach C U S0 m subs g lo)
      (hg : g ≤ g') (hU : cert.isVerified = true → U cert.header) :
      Reach C U S0 (processOne C g' m cert).1 (subs ++ [cert]) g' lo
  | gc {m : Mgr} {subs : List Certificate} {g lo g' : Round} (h : Reach C U S0 m subs g lo) (hg : g ≤ g') :
      Reach C U S0 (processGc C g' m).1 subs g' g'

/-- Specification: each certificate was handed over after its parents, unless its round was at most one
above the garbage collection round. `base`: the genesis and what was in the store at the start. -/
def OutCausal (base : List Digest) (out : List (Certificate × Round)) : Prop :=
  ∀ a c g b, out = a ++ (c, g) :: b → ∀ d ∈ c.header.parents,
    d ∈ base ∨ d ∈ a.map (·.1.header.digest) ∨ c.header.round ≤ g + 1

theorem OutCausal.snoc {base : List Digest} {out : List (Certificate × Round)} {c : Certificate} {g : Round}
    (h : OutCausal base out)
    (hc : ∀ d ∈ c.header.parents, d ∈ base ∨ d ∈ out.map (·.1.header.digest) ∨ c.header.round ≤ g + 1) :
    OutCausal base (out ++ [(c, g)]) := by
  intro a c' g' b heq d hd
  rcases List.eq_nil_or_concat b with rfl | ⟨b', x, rfl⟩
  · have := List.append_inj' heq rfl
    obtain ⟨rfl, h2⟩ := this
    cases h2
    exact hc d hd
  · rw [List.concat_eq_append] at heq
    rw [show a ++ (c', g') :: (b' ++ [x]) = (a ++ (c', g') :: b') ++ [x] by simp] at heq
    have := List.append_inj' heq rfl
    exact h a c' g' b' this.1 d hd

theorem OutCausal.append {base acc : List Digest} {out : List (Certificate × Round)} {new : List Certificate} {g : Round}
    (h : OutCausal base out) (hacc : ∀ d ∈ acc, d ∈ base ∨ d ∈ out.map (·.1.header.digest))
    (hc : Causal g acc new) : OutCausal base (out ++ new.map (fun c => (c, g))) := by
  induction new generalizing out acc with
  | nil => simpa using h
  | cons c cs ih =>
    have h1 := h.snoc (c := c) (g := g) (fun d hd => by
      rcases hc.1 d hd with h | h
      · rcases hacc d h with h | h
        · exact .inl h
        · exact .inr (.inl h)
      · exact .inr (.inr h))
    have h2 := ih (acc := acc ++ [c.header.digest]) h1 (fun d hd => by
      rcases List.mem_append.mp hd with hd | hd
      · rcases hacc d hd with h | h
        · exact .inl h
        · exact .inr (by simp only [List.map_append]; exact List.mem_append_left _ h)
      · exact .inr (by simp only [List.map_append]; exact List.mem_append_right _ (by simpa using hd))) hc.2
    simpa [List.append_assoc] using h2

theorem mem_writeAll {keep : Nat} {store : List Header} {certs : List Certificate} {h : Header}
    (hm : h ∈ writeAll keep store certs) : h ∈ certs.map (·.header) ∨ h ∈ store := by
  unfold writeAll at hm
  dsimp only at hm
  split at hm
  · exact List.mem_append.mp hm
  · exact List.mem_append.mp (List.mem_filter.mp hm).1

/-- What holds of every reachable state. -/
structure Inv (C : Cfg) (U : Header → Prop) (S0 : List Header) (m : Mgr) (subs : List Certificate) (g lo : Round) :
    Prop where
  le : lo ≤ g
  j : J U lo g (C.genesis ++ S0.map (·.digest) ++ m.accepted) (m.store.map (·.digest)) [] none [] m.pend
  store : ∀ h ∈ m.store, h ∈ S0 ∨ ∃ c ∈ m.out, c.1.header = h
  out : ∀ c ∈ m.out, c.1.isVerified = true ∧ U c.1.header
  causal : OutCausal (C.genesis ++ S0.map (·.digest)) m.out
  count : ∀ d, m.accepted.count d + m.waiting.count d ≤ (subs.map (·.header.digest)).count d
  sub : ∀ d ∈ m.accepted ++ m.waiting, ∃ c ∈ subs, c.header.digest = d
  kept : ∀ c ∈ subs, c.isVerified = true →
    c.header.digest ∈ m.accepted ∨ c.header.digest ∈ m.waiting

theorem inv_acc {C : Cfg} {S0 : List Header} {m : Mgr} {subs : List Certificate} {g lo : Round}
    (I : Inv C U S0 m subs g lo) {h : Header} (hm : h ∈ m.store) :
    h.digest ∈ C.genesis ++ S0.map (·.digest) ++ m.accepted := by
  rcases I.store h hm with h1 | ⟨c, hc, rfl⟩
  · exact List.mem_append_left _ (List.mem_append_right _ (List.mem_map_of_mem h1))
  · exact List.mem_append_right _ (List.mem_map.mpr ⟨c, hc, rfl⟩)

/-- What `release` does. -/
theorem release_ok (hL : Links U) {C : Cfg} (hord : ∀ l, (C.ord l).Perm l) {S0 : List Header} {m : Mgr}
    {subs subs' : List Certificate} {g lo : Round} (I : Inv C U S0 m subs g lo) {k : Round × Digest}
    {front : List Certificate}
    (hJ : J U lo g (C.genesis ++ S0.map (·.digest) ++ m.accepted ++ digests front)
      (m.store.map (·.digest) ++ digests front) [k] none [] m.pend)
    (hfc : Causal g (C.genesis ++ S0.map (·.digest) ++ m.accepted) front)
    (hfv : ∀ c ∈ front, c.isVerified = true ∧ U c.header)
    (hcount : ∀ d, (subs.map (·.header.digest)).count d + (digests front).count d =
      (subs'.map (·.header.digest)).count d)
    (hsub : ∀ c ∈ subs, c ∈ subs') (hfs : ∀ c ∈ front, c ∈ subs')
    (hsub' : ∀ c ∈ subs', c ∈ subs ∨ c ∈ front) :
    ∃ new m', release C g m k front = (m', .ok ()) ∧ Inv C U S0 m' subs' g lo ∧
      m'.out = m.out ++ (front ++ new).map (fun c => (c, g)) ∧
      m'.pend.blocked.Sublist m.pend.blocked ∧ PMap.get? k m'.pend.blocked = none := by
  obtain ⟨new, p, h1, h2, h3, h4, h5⟩ := cascade_ok hL hord (ready := []) hJ
    (n := 2 * m.pend.pending.length + 1) (by simp)
  refine ⟨new, accept C g { m with pend := p } (front ++ new), ?_, ?_, rfl, h4, h5 k (by simp)⟩
  · unfold release updatePending
    rw [h1]
    simp
  have hacc : (accept C g { m with pend := p } (front ++ new)).accepted =
      m.accepted ++ digests front ++ digests new := by
    simp [Mgr.accepted, accept, digests, Function.comp_def]
  have hwait : ∀ d, p.keys.count d + (digests new).count d = m.waiting.count d := h3.count
  refine ⟨I.le, ?_, ?_, ?_, ?_, ?_, ?_, ?_⟩
  · rw [hacc]
    refine h2.mono ?_ ?_ (Nat.le_refl _)
    · intro d hd; simpa [List.append_assoc] using hd
    · intro d hd
      obtain ⟨h, hh, rfl⟩ := List.mem_map.mp hd
      rcases mem_writeAll hh with h' | h'
      · rw [List.map_append] at h'
        rcases List.mem_append.mp h' with h' | h'
        · obtain ⟨c, hc, rfl⟩ := List.mem_map.mp h'
          exact List.mem_append_left _ (List.mem_append_right _ (List.mem_map.mpr ⟨c, hc, rfl⟩))
        · obtain ⟨c, hc, rfl⟩ := List.mem_map.mp h'
          exact List.mem_append_right _ (List.mem_map.mpr ⟨c, hc, rfl⟩)
      · exact List.mem_append_left _ (List.mem_append_left _ (List.mem_map_of_mem h'))
  · intro h hh
    rcases mem_writeAll hh with h' | h'
    · obtain ⟨c, hc, rfl⟩ := List.mem_map.mp h'
      exact .inr ⟨(c, g), List.mem_append_right _ (List.mem_map.mpr ⟨c, hc, rfl⟩), rfl⟩
    · rcases I.store h h' with h'' | ⟨c, hc, e⟩
      · exact .inl h''
      · exact .inr ⟨c, List.mem_append_left _ hc, e⟩
  · intro c hc
    rcases List.mem_append.mp hc with hc | hc
    · exact I.out c hc
    · obtain ⟨c', hc', rfl⟩ := List.mem_map.mp hc
      rcases List.mem_append.mp hc' with hc' | hc'
      · exact hfv c' hc'
      · exact ⟨h3.verified c' hc', h3.ok c' hc'⟩
  · refine I.causal.append (acc := C.genesis ++ S0.map (·.digest) ++ m.accepted) ?_ (hfc.append h3.causal)
    intro d hd
    exact List.mem_append.mp hd
  · intro d
    have e1 := hwait d
    have e2 := I.count d
    have e3 := hcount d
    have e4 : (accept C g { m with pend := p } (front ++ new)).waiting = p.keys := rfl
    rw [hacc, e4, List.count_append, List.count_append]
    omega
  · intro d hd
    rw [hacc] at hd
    have hin : d ∈ digests front ∨ d ∈ m.accepted ++ m.waiting := by
      rcases List.mem_append.mp hd with hd | hd
      · rcases List.mem_append.mp hd with hd | hd
        · rcases List.mem_append.mp hd with hd | hd
          · exact .inr (List.mem_append_left _ hd)
          · exact .inl hd
        · refine .inr (List.mem_append_right _ ?_)
          have e1 := hwait d
          have e2 := List.count_pos_iff.mpr hd
          exact List.count_pos_iff.mp (by omega)
      · refine .inr (List.mem_append_right _ ?_)
        have e1 := hwait d
        have e2 : 0 < p.keys.count d := List.count_pos_iff.mpr hd
        exact List.count_pos_iff.mp (by omega)
    rcases hin with h | h
    · obtain ⟨c, hc, rfl⟩ := List.mem_map.mp h
      exact ⟨c, hfs c hc, rfl⟩
    · obtain ⟨c, hc, rfl⟩ := I.sub d h
      exact ⟨c, hsub c hc, rfl⟩
  · intro c hc hv
    rw [hacc]
    rcases hsub' c hc with hc' | hc'
    · rcases I.kept c hc' hv with h | h
      · exact .inl (List.mem_append_left _ (List.mem_append_left _ h))
      · have e1 := hwait c.header.digest
        have e2 := List.count_pos_iff.mpr h
        by_cases hn : c.header.digest ∈ digests new
        · exact .inl (List.mem_append_right _ hn)
        · have e3 := List.count_eq_zero_of_not_mem hn
          exact .inr (List.count_pos_iff.mp (show 0 < p.keys.count _ by omega))
    · exact .inl (List.mem_append_left _ (List.mem_append_right _ (List.mem_map.mpr ⟨c, hc', rfl⟩)))

theorem Inv.mono {C : Cfg} {S0 : List Header} {m : Mgr} {subs : List Certificate} {g g' lo : Round}
    (I : Inv C U S0 m subs g lo) (h : g ≤ g') : Inv C U S0 m subs g' lo :=
  ⟨Nat.le_trans I.le h, I.j.mono (fun _ h => h) (fun _ h => h) h, I.store, I.out, I.causal, I.count, I.sub, I.kept⟩

theorem mem_waiting {C : Cfg} {S0 : List Header} {m : Mgr} {subs : List Certificate} {g lo : Round}
    (I : Inv C U S0 m subs g lo) {x : Digest} : x ∈ m.waiting ↔ (SMap.get? x m.pend.pending).isSome := by
  rw [Option.isSome_iff_ne_none, Ne, SMap.get?_eq_none]
  simp [Mgr.waiting]

/-- A certificate that changes nothing was noticed. -/
theorem Inv.noted {C : Cfg} {S0 : List Header} {m : Mgr} {subs : List Certificate} {g lo : Round} {cert : Certificate}
    (I : Inv C U S0 m subs g lo)
    (h : cert.isVerified = true → cert.header.digest ∈ m.accepted ∨ cert.header.digest ∈ m.waiting) :
    Inv C U S0 m (subs ++ [cert]) g lo := by
  refine ⟨I.le, I.j, I.store, I.out, I.causal, ?_, ?_, ?_⟩
  · intro d
    have := I.count d
    rw [List.map_append, List.count_append]
    omega
  · intro d hd
    obtain ⟨c, hc, e⟩ := I.sub d hd
    exact ⟨c, List.mem_append_left _ hc, e⟩
  · intro c hc hv
    rcases List.mem_append.mp hc with hc | hc
    · exact I.kept c hc hv
    · rw [List.mem_singleton.mp hc] at hv ⊢
      exact h hv

/-- Specification: what becomes of an arriving certificate. -/
inductive Outcome (C : Cfg) (gc : Round) (m m' : Mgr) (cert : Certificate) : Except Err Unit → Prop
  /-- handed over, with what waited for it -/
  | accepted (new : List Certificate)
      (why : cert.header.round ≤ gc + 1 ∨ ∀ d ∈ cert.header.parents, d ∈ m.store.map (·.digest))
      (out : m'.out = m.out ++ (cert :: new).map (fun c => (c, gc))) : Outcome C gc m m' cert (.ok ())
  /-- has to wait -/
  | waits (why : cert.header.digest ∈ m.waiting ∨
        (gc + 1 < cert.header.round ∧ ∃ d ∈ cert.header.parents, d ∉ m.store.map (·.digest)))
      (wait : cert.header.digest ∈ m'.waiting) (out : m'.out = m.out) :
      Outcome C gc m m' cert (.error (.pending cert.header.digest))
  /-- refused -/
  | unverified (why : cert.isVerified = false) (same : m' = m) :
      Outcome C gc m m' cert (.error (.unverified cert.header.digest))

/-- One arriving certificate. -/
theorem processOne_ok (hL : Links U) {C : Cfg} (hord : ∀ l, (C.ord l).Perm l) {S0 : List Header} {m : Mgr}
    {subs : List Certificate} {g lo : Round} {cert : Certificate} (I : Inv C U S0 m subs g lo)
    (hU : cert.isVerified = true → U cert.header) :
    Inv C U S0 (processOne C g m cert).1 (subs ++ [cert]) g lo ∧
      Outcome C g m (processOne C g m cert).1 cert (processOne C g m cert).2 := by
  unfold processOne
  dsimp only
  by_cases hv : cert.isVerified = false
  · rw [if_pos hv]
    exact ⟨I.noted (fun h => by rw [hv] at h; cases h), .unverified hv rfl⟩
  rw [if_neg hv]
  have hv' : cert.isVerified = true := by simpa using hv
  have hU' := hU hv'
  by_cases hp : (SMap.get? cert.header.digest m.pend.pending).isSome
  · rw [if_pos hp]
    have := (mem_waiting I).mpr hp
    exact ⟨I.noted (fun _ => .inr this), .waits (.inl this) this rfl⟩
  rw [if_neg hp]
  have hnew : SMap.get? cert.header.digest m.pend.pending = none := by simpa using hp
  have key : ∀ (_ : cert.header.round ≤ g + 1 ∨
      ∀ d ∈ cert.header.parents, d ∈ m.store.map (·.digest)),
      Inv C U S0 (release C g m (cert.header.round, cert.header.digest) [cert]).1 (subs ++ [cert]) g lo ∧
      Outcome C g m (release C g m (cert.header.round, cert.header.digest) [cert]).1 cert
        (release C g m (cert.header.round, cert.header.digest) [cert]).2 := by
    intro why
    obtain ⟨new, m', h1, h2, h3, -, -⟩ := release_ok hL hord (subs' := subs ++ [cert])
      (k := (cert.header.round, cert.header.digest)) (front := [cert]) I (by
        have hj := I.j
        refine ⟨hj.sortedP, hj.sortedB, ?_, hj.some, hj.none, hj.cur, ?_⟩
        · intro x e he
          have h := hj.entries x e he
          refine ⟨h.key, h.ok, h.verified, h.round, h.low, h.ne, h.sub, ?_, ?_⟩
          · intro d hd
            rcases h.parents d hd with h | h | h
            · exact .inl h
            · exact .inr (.inl (List.mem_append_left _ h))
            · exact .inr (.inr h)
          · intro d hd hh
            rcases List.mem_append.mp hh with hh | hh
            · rcases h.queued d hd hh with h | h
              · cases h
              · cases h
            · left
              have hdx : d = cert.header.digest := by simpa [digests] using hh
              have := hL.parentRound h.ok hU' (by rw [← hdx]; exact h.sub d hd)
              rw [List.mem_singleton, hdx, show e.cert.header.round - 1 = cert.header.round by omega]
        · intro k hk
          rw [List.mem_singleton.mp hk]
          exact .inl (List.mem_append_right _ (by simp [digests])))
      ⟨fun d hd => by
        rcases why with h | h
        · exact .inr h
        · obtain ⟨h', hh', rfl⟩ := List.mem_map.mp (h d hd)
          exact .inl (inv_acc I hh'), trivial⟩
      (fun c hc => by rw [List.mem_singleton.mp hc]; exact ⟨hv', hU'⟩)
      (fun d => by simp [digests])
      (fun c hc => List.mem_append_left _ hc) (fun c hc => List.mem_append_right _ hc)
      (fun c hc => List.mem_append.mp hc)
    rw [h1]
    exact ⟨h2, .accepted new why h3⟩
  by_cases hgc : g + 1 < cert.header.round
  swap
  · rw [if_neg hgc]; exact key (.inl (by omega))
  rw [if_pos hgc]
  unfold missingParents
  by_cases hr1 : cert.header.round = 1
  · omega
  rw [if_neg hr1]
  cases hm : cert.header.parents.filter (fun d => decide (d ∉ m.store.map (·.digest))) with
  | nil =>
    refine key (.inr ?_)
    intro d hd
    by_contra hn
    have : d ∈ cert.header.parents.filter (fun d => decide (d ∉ m.store.map (·.digest))) :=
      List.mem_filter.mpr ⟨hd, by simpa using hn⟩
    rw [hm] at this; cases this
  | cons d ds =>
    have hmem : ∀ x, x ∈ d :: ds ↔ x ∈ cert.header.parents ∧ x ∉ m.store.map (·.digest) := by
      intro x
      rw [← hm, List.mem_filter]
      simp
    obtain ⟨p, h1, h2, h3⟩ := insertPending_ok (missing := d :: ds) I.j hnew hU' hv' (by omega)
      (by have := I.le; omega) (by simp) (fun x hx => ((hmem x).mp hx).1)
      (fun x hx => by
        by_cases hs : x ∈ m.store.map (·.digest)
        · obtain ⟨h', hh', rfl⟩ := List.mem_map.mp hs
          exact .inr (inv_acc I hh')
        · exact .inl ((hmem x).mpr ⟨hx, hs⟩))
      (fun x hx => ((hmem x).mp hx).2)
    dsimp only
    rw [h1]
    dsimp only
    have hkeys : ∀ y, ((SMap.insert cert.header.digest (⟨cert, d :: ds⟩ : Entry) m.pend.pending).map (·.1)).count y =
        m.waiting.count y + (if y = cert.header.digest then 1 else 0) := by
      intro y
      have hn1 := SMap.nodup_keys (SMap.sorted_insert (k := cert.header.digest) (v := (⟨cert, d :: ds⟩ : Entry))
        I.j.sortedP)
      have hn2 := SMap.nodup_keys I.j.sortedP
      have hx := (SMap.get?_eq_none (m := m.pend.pending)).mp hnew
      by_cases hy : y = cert.header.digest
      · subst hy
        rw [if_pos rfl, List.count_eq_one_of_mem hn1 (SMap.mem_keys_insert.mpr (.inl rfl)),
          show m.waiting.count cert.header.digest = 0 from List.count_eq_zero_of_not_mem hx]
      · rw [if_neg hy]
        by_cases hin : y ∈ m.waiting
        · rw [List.count_eq_one_of_mem hn1 (SMap.mem_keys_insert.mpr (.inr hin)),
            show m.waiting.count y = 1 from List.count_eq_one_of_mem hn2 hin]
        · rw [show m.waiting.count y = 0 from List.count_eq_zero_of_not_mem hin,
            List.count_eq_zero_of_not_mem (fun h => (SMap.mem_keys_insert.mp h).elim hy hin)]
    have hw : Mgr.waiting { m with pend := p } =
        (SMap.insert cert.header.digest (⟨cert, d :: ds⟩ : Entry) m.pend.pending).map (·.1) := by
      unfold Mgr.waiting; rw [← h3]
    have hin : cert.header.digest ∈ Mgr.waiting { m with pend := p } := by
      rw [hw]; exact SMap.mem_keys_insert.mpr (.inl rfl)
    refine ⟨⟨I.le, h2, I.store, I.out, I.causal, ?_, ?_, ?_⟩,
      .waits (.inr ⟨hgc, d, (hmem d).mp (List.mem_cons_self ..)⟩) hin rfl⟩
    · intro y
      have e1 := I.count y
      have e2 := hkeys y
      rw [hw, e2]
      simp only [Mgr.accepted, List.map_append, List.count_append, List.map_cons, List.map_nil, List.count_cons,
        List.count_nil, beq_iff_eq] at e1 ⊢
      by_cases hy : y = cert.header.digest
      · subst hy; simp only [if_true]; omega
      · rw [if_neg hy, if_neg (fun h => hy h.symm)]; omega
    · intro y hy
      rcases List.mem_append.mp hy with hy | hy
      · obtain ⟨c, hc, e⟩ := I.sub y (List.mem_append_left _ hy)
        exact ⟨c, List.mem_append_left _ hc, e⟩
      · rw [hw] at hy
        rcases SMap.mem_keys_insert.mp hy with hy | hy
        · exact ⟨cert, List.mem_append_right _ (by simp), hy.symm⟩
        · obtain ⟨c, hc, e⟩ := I.sub y (List.mem_append_right _ hy)
          exact ⟨c, List.mem_append_left _ hc, e⟩
    · intro c hc hvc
      rcases List.mem_append.mp hc with hc | hc
      · rcases I.kept c hc hvc with h | h
        · exact .inl h
        · exact .inr (by rw [hw]; exact SMap.mem_keys_insert.mpr (.inr h))
      · rw [List.mem_singleton.mp hc]; exact .inr hin

/-- One announced garbage collection round. -/
theorem gcLoop_ok (hL : Links U) {C : Cfg} (hord : ∀ l, (C.ord l).Perm l) {S0 : List Header} {m : Mgr}
    {subs : List Certificate} {g lo : Round} (I : Inv C U S0 m subs g lo) {n : Nat}
    (hn : m.pend.blocked.length ≤ n) :
    ∃ m' new, gcLoop C g n m = (m', .ok ()) ∧ Inv C U S0 m' subs g lo ∧ m'.out = m.out ++ new ∧
      ∀ r d x, Waits m'.pend r d x → g < r := by
  induction n generalizing m with
  | zero =>
    have hb : m.pend.blocked = [] := List.length_eq_zero_iff.mp (by omega)
    refine ⟨m, [], ?_, I, by simp, ?_⟩
    · unfold gcLoop nextForGc; rw [hb]; rfl
    · intro r d x hw
      exact absurd hw (I.j.none r d (by rw [hb]; rfl) (by simp) x)
  | succ n ih =>
    unfold gcLoop
    rcases nextForGc_ok hL I.j g with ⟨h1, h2⟩ | ⟨k, h1, h2, h3⟩
    · rw [h1]
      exact ⟨m, [], rfl, I, by simp, h2⟩
    · rw [h1]
      dsimp only
      obtain ⟨new, m', e1, e2, e3, e4, e5⟩ := release_ok hL hord (subs' := subs) (k := k) (front := []) I (by
          have hj := I.j
          simp only [digests, List.map_nil, List.append_nil]
          refine ⟨hj.sortedP, hj.sortedB, ?_, hj.some, hj.none, hj.cur, ?_⟩
          · intro x e he
            have h := hj.entries x e he
            refine ⟨h.key, h.ok, h.verified, h.round, h.low, h.ne, h.sub, h.parents, ?_⟩
            intro d hd hh
            rcases h.queued d hd hh with h | h
            · cases h
            · cases h
          · intro k' hk
            rw [List.mem_singleton.mp hk]
            exact .inr h2)
        trivial (by simp) (by simp [digests]) (fun c hc => hc) (by simp) (fun c hc => .inl hc)
      rw [e1]
      dsimp only
      have hlt : m'.pend.blocked.length < m.pend.blocked.length := by
        rcases Nat.lt_or_ge m'.pend.blocked.length m.pend.blocked.length with h | h
        · exact h
        · rw [e4.eq_of_length_le h] at e5
          rw [e5] at h3; cases h3
      obtain ⟨m2, new2, f1, f2, f3, f4⟩ := ih e2 (by omega)
      exact ⟨m2, _, f1, f2, by rw [f3, e3, List.append_assoc], f4⟩

theorem processGc_ok (hL : Links U) {C : Cfg} (hord : ∀ l, (C.ord l).Perm l) {S0 : List Header} {m : Mgr}
    {subs : List Certificate} {g lo : Round} (I : Inv C U S0 m subs g lo) :
    (processGc C g m).2 = .ok () ∧ Inv C U S0 (processGc C g m).1 subs g g ∧
      ∃ new, (processGc C g m).1.out = m.out ++ new := by
  obtain ⟨m', new, h1, h2, h3, h4⟩ := gcLoop_ok hL hord I (Nat.le_refl _)
  unfold processGc
  rw [h1]
  refine ⟨rfl, ⟨Nat.le_refl _, ?_, h2.store, h2.out, h2.causal, h2.count, h2.sub, h2.kept⟩, new, h3⟩
  have hj := h2.j
  refine ⟨hj.sortedP, hj.sortedB, ?_, hj.some, hj.none, hj.cur, hj.queue⟩
  intro x e he
  have h := hj.entries x e he
  refine ⟨h.key, h.ok, h.verified, h.round, ?_, h.ne, h.sub, h.parents, h.queued⟩
  obtain ⟨d, hd⟩ := List.exists_mem_of_ne_nil _ h.ne
  have := h4 (e.cert.header.round - 1) d x ⟨e, he, by have := h.round; omega, hd⟩
  omega

theorem Reach.inv (hL : Links U) {C : Cfg} (hord : ∀ l, (C.ord l).Perm l) {S0 : List Header} {m : Mgr}
    {subs : List Certificate} {g lo : Round} (h : Reach C U S0 m subs g lo) : Inv C U S0 m subs g lo := by
  induction h with
  | init g =>
    refine ⟨Nat.zero_le _, ⟨?_, ?_, ?_, ?_, ?_, ?_, ?_⟩, ?_, ?_, ?_, ?_, ?_, ?_⟩
    · exact SMap.sorted_nil
    · exact PMap.sorted_nil
    · intro x e he; cases he
    · intro r d s hs; cases hs
    · rintro r d - - x ⟨e, he, -⟩; cases he
    · intro k hk; cases hk
    · intro k hk; cases hk
    · intro h hh; exact .inl hh
    · intro c hc; cases hc
    · intro a c g b h; simp at h
    · intro d; simp [Mgr.accepted, Mgr.waiting]
    · intro d hd; simp [Mgr.accepted, Mgr.waiting] at hd
    · intro c hc; cases hc
  | cert h hg hU ih => exact (processOne_ok hL hord (ih.mono hg) hU).1
  | gc h hg ih => exact (processGc_ok hL hord (ih.mono hg)).2.1

/-! ### The property -/

section
variable {C : Cfg} {S0 : List Header} {m : Mgr} {subs : List Certificate} {g lo : Round}

/-- **C20** Every certificate is handed to consensus after all of its parents, unless its round is at most one
above the garbage collection round. -/
theorem causal_order (hL : Links U) (hord : ∀ l, (C.ord l).Perm l) (h : Reach C U S0 m subs g lo) :
    OutCausal (C.genesis ++ S0.map (·.digest)) m.out := (h.inv hL hord).causal

/-- **C20** Only verified certificates that arrived are handed over, never more often than they arrived (and a
certificate that waits counts for the arrival it waits for). -/
theorem handed_over_at_most_once_per_arrival (hL : Links U) (hord : ∀ l, (C.ord l).Perm l)
    (h : Reach C U S0 m subs g lo) (d : Digest) :
    m.accepted.count d + m.waiting.count d ≤ (subs.map (·.header.digest)).count d ∧
      ∀ c ∈ m.out, c.1.isVerified = true := ⟨(h.inv hL hord).count d, fun c hc => ((h.inv hL hord).out c hc).1⟩

/-- **C20** No verified certificate is lost: it was handed over or it waits. -/
theorem not_lost (hL : Links U) (hord : ∀ l, (C.ord l).Perm l) (h : Reach C U S0 m subs g lo) {c : Certificate}
    (hc : c ∈ subs) (hv : c.isVerified = true) :
    c.header.digest ∈ m.accepted ∨ c.header.digest ∈ m.waiting := (h.inv hL hord).kept c hc hv

/-- **C20** Nothing is stranded: a certificate that waits has a parent that is not in the store, and is more than one
round above the last garbage collection round announced. -/
theorem not_stranded (hL : Links U) (hord : ∀ l, (C.ord l).Perm l) (h : Reach C U S0 m subs g lo) {x : Digest}
    (hx : x ∈ m.waiting) : ∃ c : Certificate, c.header.digest = x ∧ U c.header ∧ lo + 1 < c.header.round ∧
      ∃ d ∈ c.header.parents, d ∉ m.store.map (·.digest) := by
  have I := h.inv hL hord
  obtain ⟨e, he⟩ := Option.isSome_iff_exists.mp ((mem_waiting I).mp hx)
  have hE := I.j.entries x e he
  obtain ⟨d, hd⟩ := List.exists_mem_of_ne_nil _ hE.ne
  refine ⟨e.cert, hE.key, hE.ok, hE.low, d, hE.sub d hd, fun hh => ?_⟩
  rcases hE.queued d hd hh with h | h
  · cases h
  · cases h

/-- **C20** What becomes of an arriving certificate: accepted if all parents are in the store or it is at most one round
above the garbage collection round, otherwise it waits; no other failure is possible. -/
theorem arrival (hL : Links U) (hord : ∀ l, (C.ord l).Perm l) (h : Reach C U S0 m subs g lo) {g' : Round} (hg : g ≤ g')
    {cert : Certificate} (hU : cert.isVerified = true → U cert.header) :
    Outcome C g' m (processOne C g' m cert).1 cert (processOne C g' m cert).2 :=
  (processOne_ok hL hord ((h.inv hL hord).mono hg) hU).2

/-- **C20** Announcing a garbage collection round never fails and only hands over more. -/
theorem gc_never_fails (hL : Links U) (hord : ∀ l, (C.ord l).Perm l) (h : Reach C U S0 m subs g lo) {g' : Round}
    (hg : g ≤ g') : (processGc C g' m).2 = .ok () ∧ ∃ new, (processGc C g' m).1.out = m.out ++ new := by
  obtain ⟨h1, -, h2⟩ := processGc_ok hL hord ((h.inv hL hord).mono hg)
  exact ⟨h1, h2⟩

/-- A batch is worked off one by one; with only verified certificates it is worked off completely. -/
theorem processBatch_reach (hL : Links U) (hord : ∀ l, (C.ord l).Perm l) (h : Reach C U S0 m subs g lo)
    {cs : List (Certificate × Round)} (hg : (g :: cs.map (·.2)).Pairwise (· ≤ ·))
    (hU : ∀ c ∈ cs, c.1.isVerified = true ∧ U c.1.header) :
    ∃ g', Reach C U S0 (processBatch C m cs).1 (subs ++ cs.map (·.1)) g' lo := by
  induction cs generalizing m subs g with
  | nil => exact ⟨g, by simpa [processBatch] using h⟩
  | cons x rest ih =>
    obtain ⟨cert, gc⟩ := x
    have hgg := List.pairwise_cons.mp hg
    have hle : g ≤ gc := hgg.1 gc (by simp)
    have hc := hU (cert, gc) (by simp)
    have h' := Reach.cert (cert := cert) h hle (fun _ => hc.2)
    obtain ⟨g2, h2⟩ := ih h' hgg.2 (fun c hc => hU c (List.mem_cons_of_mem _ hc))
    have ho := arrival hL hord h hle (fun _ => hc.2)
    refine ⟨g2, ?_⟩
    rw [List.map_cons, show subs ++ cert :: rest.map (·.1) = subs ++ [cert] ++ rest.map (·.1) by simp]
    unfold processBatch
    generalize hp : processOne C gc m cert = r at *
    obtain ⟨m', res⟩ := r
    dsimp only at ho h2
    cases ho with
    | accepted _ _ _ => exact h2
    | waits _ _ _ =>
      dsimp only
      generalize processBatch C m' rest = r' at h2
      obtain ⟨m'', r''⟩ := r'
      cases r'' <;> exact h2
    | unverified hv _ => rw [hc.1] at hv; cases hv

end

end Sync
end Verif
