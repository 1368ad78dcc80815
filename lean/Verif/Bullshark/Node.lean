import Verif.Bullshark.Recover
/-
A consensus node over its whole life: certificates in any order, crashes, restarts and state sync.
-/
namespace Verif
namespace Bull

variable {U : Header → Prop} {p : Params}

/-- The setting of an epoch: a well-formed committee, certificates `U` as `Universe` describes them,
and the configuration bounds. `config` validates `10 < gc_depth ≤ 50`
(crates/config/src/node.rs:419-460), and recovery reads 50 sub-dags, so the last two hold with room. -/
structure Setup (p : Params) (U : Header → Prop) : Prop where
  committee : p.committee.WF
  certs : Universe p.committee U
  gcPos : 1 ≤ p.gcDepth
  window : 1 ≤ p.lcWindow
  gcWindow : p.gcDepth ≤ 2 * p.lcWindow

/-- A consensus node: its state in memory and the sub-dags it has emitted in this epoch. -/
structure Node where
  st : State
  log : List SubDag

/-- The nodes that some execution leads to. `start`: the beginning of an epoch, nothing stored.
`deliver`: a certificate is processed without error (any certificate of the epoch, at any time, any
number of times; `agg` is the aggregate signature this node happens to hold for it).
`restart`: start-up from a stored sequence that is a prefix of what some node had
emitted - a crash of this node with the last sub-dags not yet stored, or a sequence fetched from a
peer by state sync - and from a certificate store. -/
inductive Reachable (p : Params) (U : Header → Prop) : Node → Prop
  | start {st} : recover p [] [] = .ok st → Reachable p U ⟨st, []⟩
  | deliver {n agg h o st' subs} : Reachable p U n → U h →
      processCertificate p agg n.st h = .ok (o, st', subs) → Reachable p U ⟨st', n.log ++ subs⟩
  | restart {n log store st} : Reachable p U n → log <+: n.log →
      StoreOk U (gcOf p (roundOf log)) store → FinalInWindow p log →
      recover p log store = .ok st → Reachable p U ⟨st, log⟩

/-- A prefix of a legal sequence is legal. -/
theorem Legal.of_prefix {a b : List SubDag} (h : Legal p U b) (hp : a <+: b) : Legal p U a := by
  induction h generalizing a with
  | nil => rw [List.prefix_nil] at hp; subst hp; exact .nil
  | snoc hl hn ih =>
    rcases (List.prefix_concat_iff).mp hp with rfl | hp
    · exact Legal.snoc hl hn
    · exact ih hp

theorem Reachable.inv (hS : Setup p U) {n : Node} (h : Reachable p U n) :
    Legal p U n.log ∧ Sync p U n.log n.st := by
  induction h with
  | start h =>
    obtain ⟨st, e, hs⟩ := recover_ok hS.certs (WfLog.nil (p := p) (U := U)) hS.window hS.gcWindow
      (Or.inl (by simp)) (store := []) ⟨by simp, by simp⟩
    rw [h] at e; cases e
    exact ⟨.nil, hs⟩
  | deliver _ hu he ih =>
    have := processCertificate_sync hS.committee hS.gcPos hS.certs _ ih.1 ih.2 hu he
    exact ⟨this.2, this.1⟩
  | restart _ hp hst hf he ih =>
    have hl := ih.1.of_prefix hp
    obtain ⟨st, e, hs⟩ := recover_ok hS.certs (hl.wf hS.committee hS.gcPos hS.certs) hS.window
      hS.gcWindow hf hst
    rw [he] at e; cases e
    exact ⟨hl, hs⟩

/-- Every element of a legal sequence is a legal next step after the ones before it. -/
theorem Legal.split {pre post : List SubDag} {s : SubDag} (h : Legal p U (pre ++ s :: post)) :
    Legal p U pre ∧ NextCommit p U pre s := by
  have h2 : Legal p U (pre ++ [s]) := h.of_prefix ⟨post, by simp⟩
  generalize hx : pre ++ [s] = x at h2
  cases h2 with
  | nil => simp at hx
  | snoc hl hn =>
    obtain ⟨rfl, h2⟩ := List.append_inj' hx rfl
    cases h2
    exact ⟨hl, hn⟩

/-- The history of a leader depends on the last committed rounds above the horizon only. -/
theorem History.congr {f g : AuthorityId → Round} {gc : Round} {l y : Header}
    (h : ∀ a r, gc < r → (f a < r ↔ g a < r)) (hl : gc < l.round)
    (hy : History U f gc l y) : History U g gc l y := by
  induction hy with
  | leader => exact .leader
  | parent h1 h2 h3 h4 h5 h6 ih =>
    exact .parent ih h2 h3 h4 h5 ((h _ _ (by omega)).mp h6)

/-- What one committed sub-dag looks like, in terms of the sequence committed before it. -/
theorem NextCommit.facts (hS : Setup p U) {pre : List SubDag} {s : SubDag} (hL : Legal p U pre)
    (h : NextCommit p U pre s) : ∃ (l : Header) (agg : Header → Sig), s.leader? = some l ∧ U l ∧ roundOf pre + 2 ≤ l.round ∧
      l.round % 2 = 0 ∧
      (∀ y, y ∈ s.headers ↔ History U (maxRound (committedOf pre)) (l.round - p.gcDepth) l y) ∧
      s.headers.Nodup ∧ s.headers.Pairwise (fun a b => a.round ≤ b.round) ∧
      s.timestamp = max ((pre.getLast?.map (·.timestamp)).getD 0) l.createdAt ∧
      s.randomness = (if p.seedActive then p.fold (seedOf p pre) l.round l.seedSig
        else p.hashSig (agg l)) ∧
      s.scores = nextScores p pre.getLast? s.headers (nonce l) := by
  have hw := hL.wf hS.committee hS.gcPos hS.certs
  obtain ⟨st, agg, L, k, s1, hs, hl, hLd, hsup, hk, hco⟩ := h
  have hev := hw.even
  have hgc := hs.gc
  rw [hs.committed] at hgc
  have ho := oldest_mem (p := p) (t := st.table) hS.certs hs.good
    (by rw [hgc]; unfold gcOf; omega) hLd hk
  generalize oldest p st.table st.dag k (L.round - 2) L = l at *
  obtain ⟨_, sub, e, e2, e3, -, -, -, -, e4, e5, e6⟩ :=
    commitOne_ok hS.committee hS.gcPos hS.certs hw hs agg ho.1 ho.2.1 (by omega)
  rw [hco] at e
  cases e
  have hgp := hS.gcPos
  have hgl : gcOf p l.round < l.round := by unfold gcOf; omega
  have hgg : st.gcRound ≤ gcOf p l.round := by rw [hgc]; unfold gcOf; omega
  have hm := mem_orderDag (p := p) hS.certs hs.good st.lastCommitted ho.1 hgg hgl
  have hcongr : ∀ a r, gcOf p l.round < r →
      (lcGet st.lastCommitted a < r ↔ maxRound (committedOf pre) a < r) := by
    intro a r hr
    have := hs.lc a
    omega
  refine ⟨l, agg, e3, hs.good.sub _ ho.1, ho.2.1, by omega, ?_, ?_, ?_, ?_, ?_, ?_⟩
  · intro y
    rw [e2, hm]
    exact ⟨History.congr hcongr hgl, History.congr (fun a r hr => (hcongr a r hr).symm) hgl⟩
  · rw [e2]; exact orderDag_nodup hS.certs hs.good _ _
  · rw [e2]; exact orderDag_sorted _ _ _
  · rw [e4, hs.last]
  · rw [e5, hs.seed]
  · rw [e6, hs.last]

end Bull
end Verif
