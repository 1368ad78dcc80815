import Verif.Voting.Model
import Verif.Storage.LayeredReads
/-
A node never casts two different votes for the same author, epoch and round, in any schedule, with crashes.
-/
namespace Verif
namespace Voting

open Layered

/-- Order on stored records: a later epoch, a later round in the epoch, or the same record. -/
def VoteInfo.le (v w : VoteInfo) : Prop :=
  v.epoch < w.epoch ∨ (v.epoch = w.epoch ∧ (v.round < w.round ∨ v = w))

theorem VoteInfo.le_refl (v : VoteInfo) : v.le v := .inr ⟨rfl, .inr rfl⟩

theorem VoteInfo.le_trans {u v w : VoteInfo} (h : u.le v) (h2 : v.le w) : u.le w := by
  rcases h with h | ⟨h, h' | rfl⟩
  · rcases h2 with h2 | ⟨h2, _⟩
    · exact .inl (by omega)
    · exact .inl (by omega)
  · rcases h2 with h2 | ⟨h2, h3 | rfl⟩
    · exact .inl (by omega)
    · exact .inr ⟨by omega, .inl (by omega)⟩
    · exact .inr ⟨h, .inl h'⟩
  · exact h2

/-- The value a write records for author `a`, if it does. -/
def insAt (a : Nat) : Op VoteInfo → Option VoteInfo
  | .ins t k v => if t = votesTable ∧ k = a then some v else none
  | _ => none

/-- The records for `a` of a run, oldest first: the one found at start, then those written. -/
def recs (d0 : KV VoteInfo) (W : List (Op VoteInfo)) (a : Nat) : List VoteInfo :=
  (d0 votesTable a).toList ++ W.filterMap (insAt a)

/-- A write that removes records from the `Votes` table. -/
def clears : Op VoteInfo → Prop
  | .ins _ _ _ => False
  | .rm t _ => t = votesTable
  | .clr t => t = votesTable

theorem apply_keep {m : KV VoteInfo} {o : Op VoteInfo} (hc : ¬ clears o) (a : Nat) :
    o.apply m votesTable a = (insAt a o).orElse (fun _ => m votesTable a) := by
  cases o with
  | ins t k v =>
    simp only [Op.apply, insAt]
    by_cases h : votesTable = t ∧ a = k
    · rw [if_pos h, if_pos ⟨h.1.symm, h.2.symm⟩]; rfl
    · rw [if_neg h, if_neg (fun h' => h ⟨h'.1.symm, h'.2.symm⟩)]; rfl
  | rm t k =>
    simp only [Op.apply, insAt]
    rw [if_neg (fun h => hc h.1.symm)]; rfl
  | clr t =>
    simp only [Op.apply, insAt]
    rw [if_neg (fun h => hc h.symm)]; rfl

/-- Applying writes that clear nothing and record only values above `v` keeps a record above `v`. -/
theorem applyOps_above {v : VoteInfo} {a : Nat} (l : List (Op VoteInfo)) :
    ∀ (m : KV VoteInfo), (∃ w, m votesTable a = some w ∧ v.le w) → (∀ o ∈ l, ¬ clears o) →
      (∀ o ∈ l, ∀ x, insAt a o = some x → v.le x) →
      ∃ w, applyOps m l votesTable a = some w ∧ v.le w := by
  induction l with
  | nil => intro m h _ _; exact h
  | cons o l ih =>
    intro m h hc hi
    refine ih (o.apply m) ?_ (fun x hx => hc x (List.mem_cons_of_mem _ hx))
      (fun x hx => hi x (List.mem_cons_of_mem _ hx))
    rw [apply_keep (hc o (List.mem_cons_self ..))]
    cases ho : insAt a o with
    | none => exact h
    | some x => exact ⟨x, rfl, hi o (List.mem_cons_self ..) x ho⟩

/-- Whatever is read was found at the start or written. -/
theorem applyOps_mem {a : Nat} {w : VoteInfo} (l : List (Op VoteInfo)) :
    ∀ (m : KV VoteInfo), applyOps m l votesTable a = some w → w ∈ recs m l a := by
  induction l with
  | nil => intro m h; simp only [applyOps, List.foldl_nil] at h; simp [recs, h]
  | cons o l ih =>
    intro m h
    have := ih (o.apply m) h
    simp only [recs, List.mem_append, Option.mem_toList] at this ⊢
    rcases this with this | this
    · by_cases hc : clears o
      · cases o with
        | ins t k v => exact hc.elim
        | rm t k =>
          have hc : t = votesTable := hc
          subst hc
          simp only [Op.apply] at this
          split at this
          · cases this
          · exact .inl this
        | clr t =>
          have hc : t = votesTable := hc
          subst hc
          simp [Op.apply] at this
      · rw [apply_keep hc] at this
        cases ho : insAt a o with
        | none => rw [ho] at this; exact .inl this
        | some x =>
          rw [ho] at this
          exact .inr (List.mem_filterMap.mpr ⟨o, List.mem_cons_self .., by rw [ho]; exact this⟩)
    · exact .inr (by
        obtain ⟨y, h1, h2⟩ := List.mem_filterMap.mp this
        exact List.mem_filterMap.mpr ⟨y, List.mem_cons_of_mem _ h1, h2⟩)

/-- The history of the `Votes` table in the present run of the process. -/
structure Hist (e : Nat) (d0 : KV VoteInfo) (W : List (Op VoteInfo)) : Prop where
  epochs : ∀ a, ∀ w ∈ recs d0 W a, w.epoch ≤ e
  chain : ∀ a, (recs d0 W a).Pairwise VoteInfo.le
  fresh : ∀ P o Q, W = P ++ o :: Q → clears o → ∀ a, ∀ w ∈ recs d0 P a, w.epoch < e

theorem recs_append (d0 : KV VoteInfo) (P Q : List (Op VoteInfo)) (a : Nat) :
    recs d0 (P ++ Q) a = recs d0 P a ++ Q.filterMap (insAt a) := by
  simp [recs]

/-- If a record above `v` (of the current epoch) was there at some point, it is there in any store that
has all writes up to that point and some of the later ones. -/
theorem Hist.protected {e : Nat} {d0 : KV VoteInfo} {P Q l : List (Op VoteInfo)}
    (h : Hist e d0 (P ++ Q)) {a : Nat} {v w : VoteInfo} (hv : v.epoch = e)
    (hP : applyOps d0 P votesTable a = some w) (hvw : v.le w) (hl : l.Sublist Q) :
    ∃ w', applyOps d0 (P ++ l) votesTable a = some w' ∧ v.le w' := by
  have hw : w ∈ recs d0 P a := applyOps_mem P d0 hP
  have hwe : w.epoch = e := by
    have := h.epochs a w (by rw [recs_append]; exact List.mem_append_left _ hw)
    rcases hvw with hvw | hvw
    · omega
    · omega
  rw [applyOps_append]
  refine applyOps_above l _ ⟨w, hP, hvw⟩ ?_ ?_
  · intro o ho hc
    obtain ⟨Q1, Q2, rfl⟩ := List.append_of_mem (hl.subset ho)
    have := h.fresh (P ++ Q1) o Q2 (by simp) hc a w
      (by rw [recs_append]; exact List.mem_append_left _ hw)
    omega
  · intro o ho x hx
    have hch := h.chain a
    rw [recs_append, List.pairwise_append] at hch
    exact VoteInfo.le_trans hvw (hch.2.2 w hw x (List.mem_filterMap.mpr ⟨o, hl.subset ho, hx⟩))

/-- A record of the current epoch is below what the store with all writes holds. -/
theorem Hist.current {e : Nat} {d0 : KV VoteInfo} {W : List (Op VoteInfo)}
    (h : Hist e d0 W) {a : Nat} {v : VoteInfo} (hv : v.epoch = e) (hm : v ∈ recs d0 W a) :
    ∃ w, applyOps d0 W votesTable a = some w ∧ v.le w := by
  simp only [recs, List.mem_append, Option.mem_toList] at hm
  rcases hm with hm | hm
  · have h' : Hist e d0 ([] ++ W) := h
    have := h'.protected (P := []) (l := W) hv hm (VoteInfo.le_refl v) (List.Sublist.refl _)
    simpa using this
  · obtain ⟨o, ho, hov⟩ := List.mem_filterMap.mp hm
    obtain ⟨P, Q, rfl⟩ := List.append_of_mem ho
    have h' : Hist e d0 ((P ++ [o]) ++ Q) := by simpa using h
    have hc : ¬ clears o := by
      intro hc
      cases o <;> simp_all [insAt, clears]
    have hP : applyOps d0 (P ++ [o]) votesTable a = some v := by
      rw [applyOps_append]
      show o.apply _ votesTable a = some v
      rw [apply_keep hc, hov]; rfl
    have := h'.protected (l := Q) hv hP (VoteInfo.le_refl v) (List.Sublist.refl _)
    simpa using this

theorem Hist.comparable {e : Nat} {d0 : KV VoteInfo} {W : List (Op VoteInfo)}
    (h : Hist e d0 W) {a : Nat} {v w : VoteInfo} (hv : v ∈ recs d0 W a) (hw : w ∈ recs d0 W a) :
    v.le w ∨ w.le v := by
  have hch := h.chain a
  rw [List.pairwise_iff_getElem] at hch
  obtain ⟨i, hi, rfl⟩ := List.getElem_of_mem hv
  obtain ⟨j, hj, rfl⟩ := List.getElem_of_mem hw
  rcases Nat.lt_trichotomy i j with hij | rfl | hij
  · exact .inl (hch i j hi hj hij)
  · exact .inl (VoteInfo.le_refl _)
  · exact .inr (hch j i hj hi hij)

theorem VoteInfo.le_eq {v w : VoteInfo} (h : v.le w) (he : v.epoch = w.epoch)
    (hr : v.round = w.round) : v = w := by
  rcases h with h | ⟨_, h | h⟩
  · omega
  · omega
  · exact h

/-- The record a cast vote corresponds to. -/
def CastVote.info (v : CastVote) : VoteInfo := ⟨v.epoch, v.round, v.digest⟩

/-- A barrier `b` is behind a record above `v`: everything written before its request leaves such a record. -/
def Behind (n : Node) (a : Nat) (v : VoteInfo) (b : Nat) : Prop :=
  ∃ pre post, n.evs = pre ++ .persist :: post ∧ b = persists pre ∧
    (v.epoch = n.epoch → ∃ w, applyOps n.disk0 (written pre) votesTable a = some w ∧ v.le w)

/-- Invariant of the reachable states. -/
structure Inv (H : Headers) (n : Node) : Prop where
  hist : Hist n.epoch n.disk0 (written n.evs)
  headers : ∀ a, ∀ w ∈ recs n.disk0 (written n.evs) a, ∃ h ctx e, (h, ctx, e) ∈ n.approved ∧
    h.author = a ∧ infoOf h = w ∧ H.ok h
  slowOk : ∀ a s, n.slow a = some s → match s with
    | .inner h => h.author = a ∧ H.ok h
    | .persist h b => h.author = a ∧ H.ok h ∧ infoOf h ∈ recs n.disk0 (written n.evs) a ∧
        Behind n a (infoOf h) b
  fastOk : ∀ h b, (h, b) ∈ n.fast → infoOf h ∈ recs n.disk0 (written n.evs) h.author ∧
    Behind n h.author (infoOf h) b ∧ H.ok h
  cacheOk : ∀ a l v, n.cache a = some l → l.resp = some (.vote v) → v ∈ n.sent
  sentEpoch : ∀ v ∈ n.sent, v.epoch ≤ n.epoch
  compat : ∀ v ∈ n.sent, ∀ w ∈ recs n.disk0 (written n.evs) v.origin,
    w.epoch = v.epoch → w.round = v.round → w.digest = v.digest
  durable : ∀ v ∈ n.sent, v.epoch = n.epoch →
    (∃ w, n.disk0 votesTable v.origin = some w ∧ v.info.le w) ∨
    (∃ b, (b, true) ∈ n.db.acks ∧ Behind n v.origin v.info b)
  once : ∀ v ∈ n.sent, ∀ v' ∈ n.sent, v.origin = v'.origin → v.epoch = v'.epoch →
    v.round = v'.round → v = v'
  sentHeader : ∀ v ∈ n.sent, ∃ h ctx e, (h, ctx, e) ∈ n.approved ∧ castOf h = v ∧ H.ok h
  approvedOk : ∀ h ctx e, (h, ctx, e) ∈ n.approved → H.ok h

/-! ### Answered barriers stay answered -/

theorem handle_acks {V : Type} (d : DB V) (m : Msg V) (ok : Bool) (x : Nat × Bool)
    (h : x ∈ d.acks) : x ∈ (handle d m ok).acks := by
  obtain ⟨full, mem, disk, queue, txn, failed, retained, pending, acks, nb⟩ := d
  have h : x ∈ acks := h
  rcases txn with _ | ⟨s, n⟩
  · cases m <;> cases ok <;> simp [handle, runOp, endTxn, ackPending, h]
  · by_cases hn : n ≤ 1 <;> cases m <;> cases ok <;> simp [handle, runOp, endTxn, ackPending, hn, h]

theorem exec_acks {V : Type} (d : DB V) (evs : List (Ev V)) (x : Nat × Bool) (h : x ∈ d.acks) :
    x ∈ (exec d evs).acks := by
  induction evs generalizing d with
  | nil => exact h
  | cons e evs ih =>
    refine ih (step d e) ?_
    cases e with
    | run ok =>
      simp only [step]
      cases hq : d.queue with
      | nil => exact h
      | cons m q => exact handle_acks { d with queue := q } m ok x h
    | _ => exact h

theorem db_acks_mono {n n' : Node} {evs : List (Ev VoteInfo)} (hd : n'.disk0 = n.disk0)
    (he : n'.evs = n.evs ++ evs) {x : Nat × Bool} (h : x ∈ n.db.acks) : x ∈ n'.db.acks := by
  unfold Node.db
  rw [hd, he, exec_append]
  exact exec_acks _ _ _ h

theorem Behind.extend {n n' : Node} {evs : List (Ev VoteInfo)} (hd : n'.disk0 = n.disk0)
    (he : n'.evs = n.evs ++ evs) (hep : n'.epoch = n.epoch) {a : Nat} {v : VoteInfo} {b : Nat}
    (h : Behind n a v b) : Behind n' a v b := by
  obtain ⟨pre, post, h1, h2, h3⟩ := h
  exact ⟨pre, post ++ evs, by rw [he, h1]; simp, h2, by rw [hep, hd]; exact h3⟩

/-- What a node reads for an author is one of the records. -/
theorem stored_mem {n : Node} {a : Nat} {w : VoteInfo} (h : n.stored a = some w) :
    w ∈ recs n.disk0 (written n.evs) a := by
  unfold Node.stored DB.get at h
  split at h
  · rename_i v hm
    cases h
    rw [show n.db.mem = applyOps n.disk0 (written n.evs) from mem_full n.disk0 n.evs] at hm
    exact applyOps_mem _ _ hm
  · obtain ⟨done, g, hi⟩ := inv_exec true n.disk0 n.evs
    obtain ⟨l, h1, h2⟩ := hi.diskOk
    have h : n.db.disk votesTable a = some w := h
    rw [show n.db.disk = _ from h2] at h
    have := applyOps_mem _ _ h
    have hs := hi.split
    simp only [recs, List.mem_append, Option.mem_toList] at this ⊢
    rcases this with this | this
    · exact .inl this
    · refine .inr ?_
      obtain ⟨o, ho, hx⟩ := List.mem_filterMap.mp this
      refine List.mem_filterMap.mpr ⟨o, ?_, hx⟩
      rw [hs]
      refine List.mem_append_left _ ?_
      rcases List.mem_append.mp ho with ho | ho
      · exact List.mem_of_mem_take ho
      · exact List.mem_of_mem_drop (h1.subset ho)

/-- The memory layer answers when it has a record. -/
theorem stored_eq {n : Node} {a : Nat} {w : VoteInfo}
    (h : applyOps n.disk0 (written n.evs) votesTable a = some w) : n.stored a = some w :=
  (get_full_written n.disk0 n.evs votesTable a w h).1

/-! ### The invariant is kept -/

theorem foreign_written {e : Ev VoteInfo} (he : foreign e) :
    (∀ a, (written [e]).filterMap (insAt a) = []) ∧ (∀ o ∈ written [e], ¬ clears o) := by
  cases e with
  | write o =>
    cases o with
    | ins t k v =>
      have he : t ≠ votesTable := he
      exact ⟨fun a => by simp [written, insAt, he], fun o ho => by simp [written] at ho; subst ho; exact id⟩
    | rm t k =>
      have he : t ≠ votesTable := he
      exact ⟨fun a => by simp [written, insAt], fun o ho => by simp [written] at ho; subst ho; exact he⟩
    | clr t =>
      have he : t ≠ votesTable := he
      exact ⟨fun a => by simp [written, insAt], fun o ho => by simp [written] at ho; subst ho; exact he⟩
  | _ => exact ⟨fun a => rfl, fun o ho => by cases ho⟩

theorem recs_foreign {e : Ev VoteInfo} (he : foreign e) (d0 : KV VoteInfo) (evs : List (Ev VoteInfo))
    (a : Nat) : recs d0 (written (evs ++ [e])) a = recs d0 (written evs) a := by
  rw [written_append, recs_append, (foreign_written he).1, List.append_nil]

theorem hist_foreign {e : Ev VoteInfo} (he : foreign e) {ep : Nat} {d0 : KV VoteInfo}
    {evs : List (Ev VoteInfo)} (h : Hist ep d0 (written evs)) : Hist ep d0 (written (evs ++ [e])) where
  epochs a w hw := h.epochs a w (by rw [← recs_foreign he]; exact hw)
  chain a := by rw [recs_foreign he]; exact h.chain a
  fresh P o Q hW hc a w hw := by
    rw [written_append] at hW
    rcases List.append_eq_append_iff.mp hW with ⟨A, h1, h2⟩ | ⟨A, h1, h2⟩
    · -- the clearing write would be in the foreign part
      exfalso
      have : o ∈ written [e] := by rw [h2]; simp
      exact (foreign_written he).2 o this hc
    · cases A with
      | nil =>
        exfalso
        have : o ∈ written [e] := by
          have h2 : o :: Q = written [e] := by simpa using h2
          rw [← h2]; simp
        exact (foreign_written he).2 o this hc
      | cons x A =>
        simp only [List.cons_append, List.cons.injEq] at h2
        obtain ⟨rfl, h2⟩ := h2
        exact h.fresh P o A h1 hc a w hw

/-- A foreign event (also a barrier request) keeps the invariant. -/
theorem Inv.foreignEv {H : Headers} {n : Node} (h : Inv H n) {e : Ev VoteInfo} (he : foreign e) :
    Inv H { n with evs := n.evs ++ [e] } := by
  have hr : ∀ a, recs n.disk0 (written (n.evs ++ [e])) a = recs n.disk0 (written n.evs) a :=
    recs_foreign he n.disk0 n.evs
  have hb : ∀ {a v b}, Behind n a v b → Behind { n with evs := n.evs ++ [e] } a v b :=
    fun hb => Behind.extend (n := n) (n' := { n with evs := n.evs ++ [e] }) (evs := [e]) rfl rfl rfl hb
  refine ⟨hist_foreign he h.hist, ?_, ?_, ?_, h.cacheOk, h.sentEpoch, ?_, ?_, h.once, h.sentHeader,
    h.approvedOk⟩
  · intro a w hw; exact h.headers a w (by rw [← hr]; exact hw)
  · intro a s hs
    have := h.slowOk a s hs
    cases s with
    | inner x => exact this
    | persist x b =>
      exact ⟨this.1, this.2.1, by show _ ∈ recs n.disk0 (written (n.evs ++ [e])) a; rw [hr]; exact this.2.2.1, hb this.2.2.2⟩
  · intro x b hx
    obtain ⟨h1, h2, h3⟩ := h.fastOk x b hx
    exact ⟨by show _ ∈ recs n.disk0 (written (n.evs ++ [e])) _; rw [hr]; exact h1, hb h2, h3⟩
  · intro v hv w hw; exact h.compat v hv w (by rw [← hr]; exact hw)
  · intro v hv hve
    rcases h.durable v hv hve with h1 | ⟨b, h1, h2⟩
    · exact .inl h1
    · exact .inr ⟨b, db_acks_mono (n := n) (n' := { n with evs := n.evs ++ [e] }) (evs := [e]) rfl rfl h1, hb h2⟩

/-- A record leaves a vote: requests waiting for a passed barrier may answer. -/
theorem Inv.send {H : Headers} {n : Node} (h : Inv H n) {x : Header} {b : Nat} (hok : H.ok x)
    (hrec : infoOf x ∈ recs n.disk0 (written n.evs) x.author) (hb : Behind n x.author (infoOf x) b)
    (hack : (b, true) ∈ n.db.acks) :
    Inv H { n with sent := castOf x :: n.sent } := by
  have hcomp : ∀ w ∈ recs n.disk0 (written n.evs) x.author, w.epoch = x.epoch → w.round = x.round →
      w.digest = x.digest := by
    intro w hw he hr
    rcases h.hist.comparable hrec hw with hle | hle
    · have := VoteInfo.le_eq hle he.symm hr.symm; rw [← this]; rfl
    · have := VoteInfo.le_eq hle he hr; rw [this]; rfl
  have honce : ∀ v ∈ n.sent, v.origin = x.author → v.epoch = x.epoch → v.round = x.round →
      v = castOf x := by
    intro v hv h1 h2 h3
    have := h.compat v hv (infoOf x) (by rw [h1]; exact hrec) h2.symm h3.symm
    obtain ⟨o, e, r, d⟩ := v
    simp only [infoOf] at this h1 h2 h3
    simp [castOf, ← h1, ← h2, ← h3, this]
  obtain ⟨x', ctx, e', ha, hx1, hx2, hx3⟩ := h.headers _ _ hrec
  have hxx : x' = x := H.inj hx3 hok (by
    have := congrArg VoteInfo.digest hx2; exact this)
  subst hxx
  refine ⟨h.hist, h.headers, h.slowOk, h.fastOk, ?_, ?_, ?_, ?_, ?_, ?_, h.approvedOk⟩
  · intro a l v hl hv; exact List.mem_cons_of_mem _ (h.cacheOk a l v hl hv)
  · intro v hv
    rcases List.mem_cons.mp hv with rfl | hv
    · exact h.hist.epochs _ _ hrec
    · exact h.sentEpoch v hv
  · intro v hv w hw he hr
    rcases List.mem_cons.mp hv with rfl | hv
    · exact hcomp w hw he hr
    · exact h.compat v hv w hw he hr
  · intro v hv hve
    rcases List.mem_cons.mp hv with rfl | hv
    · exact .inr ⟨b, hack, hb⟩
    · exact h.durable v hv hve
  · intro v hv v' hv' h1 h2 h3
    rcases List.mem_cons.mp hv with rfl | hv
    · rcases List.mem_cons.mp hv' with rfl | hv'
      · rfl
      · exact (honce v' hv' h1.symm h2.symm h3.symm).symm
    · rcases List.mem_cons.mp hv' with rfl | hv'
      · exact honce v hv h1 h2 h3
      · exact h.once v hv v' hv' h1 h2 h3
  · intro v hv
    rcases List.mem_cons.mp hv with rfl | hv
    · exact ⟨x', ctx, e', ha, rfl, hok⟩
    · exact h.sentHeader v hv

/-- Changes of the per-author request state. -/
theorem Inv.slowCache {H : Headers} {n : Node} (h : Inv H n) {slow : Nat → Option Slow}
    {cache : Nat → Option Last} {fast : List (Header × Nat)}
    (hs : ∀ a s, slow a = some s → n.slow a = some s ∨ ∃ x, s = .inner x ∧ x.author = a ∧ H.ok x)
    (hc : ∀ a l v, cache a = some l → l.resp = some (.vote v) → v ∈ n.sent)
    (hf : ∀ x, x ∈ fast → x ∈ n.fast) :
    Inv H { n with slow := slow, cache := cache, fast := fast } := by
  refine ⟨h.hist, h.headers, ?_, fun x b hx => h.fastOk x b (hf _ hx), hc, h.sentEpoch, h.compat,
    h.durable, h.once, h.sentHeader, h.approvedOk⟩
  intro a s hsl
  rcases hs a s hsl with h1 | ⟨x, rfl, h2, h3⟩
  · exact h.slowOk a s h1
  · exact ⟨h2, h3⟩

theorem setAt_some {β : Type} {f : Nat → Option β} {a x : Nat} {v : Option β} {y : β}
    (h : setAt f a v x = some y) : (x = a ∧ v = some y) ∨ (x ≠ a ∧ f x = some y) := by
  unfold setAt at h
  split at h
  · exact .inl ⟨‹_›, h⟩
  · exact .inr ⟨‹_›, h⟩

/-- The cache after consulting it holds no vote that was not there. -/
theorem consultCache_vote {c c' : Option Last} {h : Header} {ps : List Nat} {r : CacheRes}
    (he : consultCache c h ps = (c', r)) :
    (∀ l v, c' = some l → l.resp = some (.vote v) → ∃ l0, c = some l0 ∧ l0.resp = some (.vote v)) ∧
    (∀ v, r = .reply (.vote v) → ∃ l0, c = some l0 ∧ l0.resp = some (.vote v) ∧ l0.digest = h.digest) := by
  unfold consultCache at he
  cases c with
  | none => cases he; exact ⟨fun l v h => (by cases h), fun v h => by cases h⟩
  | some l0 =>
    dsimp only at he
    obtain ⟨le, lr, ld, resp⟩ := l0
    by_cases hd : ld = h.digest
    · rw [if_pos hd] at he
      rcases resp with _ | r0
      · cases he; exact ⟨fun l v h => (by cases h), fun v h => by cases h⟩
      · cases r0 with
        | vote v0 =>
          cases he
          exact ⟨fun l v h => (by cases h), fun v h => by cases h; exact ⟨_, rfl, rfl, hd⟩⟩
        | other => cases he; exact ⟨fun l v h => (by cases h), fun v h => by cases h⟩
        | recoverable => cases he; exact ⟨fun l v h => (by cases h), fun v h => by cases h⟩
        | missing ds =>
          dsimp only at he
          split at he
          · cases he
            exact ⟨fun l v h1 h2 => (by cases h1; exact ⟨_, rfl, h2⟩), fun v h => by cases h⟩
          · split at he
            · split at he
              · cases he; exact ⟨fun l v h => (by cases h), fun v h => by cases h⟩
              · cases he
                exact ⟨fun l v h1 h2 => (by cases h1; exact ⟨_, rfl, h2⟩), fun v h => by cases h⟩
            · cases he
              exact ⟨fun l v h1 h2 => (by cases h1; exact ⟨_, rfl, h2⟩), fun v h => by cases h⟩
    · rw [if_neg hd] at he
      split at he
      · cases he
        exact ⟨fun l v h1 h2 => (by cases h1; cases h2), fun v h => by cases h⟩
      · cases he; exact ⟨fun l v h => (by cases h), fun v h => by cases h⟩

/-- What is known after a decision not to refuse. -/
theorem decision_cases {st : Option VoteInfo} {h : Header} :
    (decision st h = .resend → ∃ w, st = some w ∧ w = infoOf h) ∧
    (decision st h = .fresh → ∀ w, st = some w → w.epoch < h.epoch ∨ (w.epoch = h.epoch ∧ w.round < h.round)) := by
  unfold decision
  cases st with
  | none => exact ⟨(by intro h; cases h), (by intro _ w h; cases h)⟩
  | some w =>
    dsimp only
    obtain ⟨we, wr, wd⟩ := w
    dsimp only
    split
    · exact ⟨(by intro h; cases h), (by intro h; cases h)⟩
    · split
      · split
        · exact ⟨(by intro h; cases h), (by intro h; cases h)⟩
        · split
          · split
            · refine ⟨fun _ => ⟨_, rfl, ?_⟩, (by intro h; cases h)⟩
              simp only [infoOf, VoteInfo.mk.injEq]; omega
            · exact ⟨(by intro h; cases h), (by intro h; cases h)⟩
          · refine ⟨(by intro h; cases h), ?_⟩
            intro _ w hw; cases hw; right; dsimp only; omega
      · refine ⟨(by intro h; cases h), ?_⟩
        intro _ w hw; cases hw; left; dsimp only; omega

/-- All votes of the current epoch that left the node are covered by what the node reads. -/
theorem Inv.covered {H : Headers} {n : Node} (h : Inv H n) {v : CastVote} (hv : v ∈ n.sent)
    (he : v.epoch = n.epoch) : ∃ w, n.stored v.origin = some w ∧ v.info.le w := by
  have key : ∃ w, applyOps n.disk0 (written n.evs) votesTable v.origin = some w ∧ v.info.le w := by
    rcases h.durable v hv he with ⟨w, h1, h2⟩ | ⟨b, _, pre, post, h1, _, h3⟩
    · have hh : Hist n.epoch n.disk0 ([] ++ written n.evs) := h.hist
      have := hh.protected (P := []) (l := written n.evs) (v := v.info) he h1 h2 (List.Sublist.refl _)
      simpa using this
    · obtain ⟨w, h4, h5⟩ := h3 he
      have hW : written n.evs = written pre ++ written post := by
        rw [h1, written_append]; rfl
      have hh : Hist n.epoch n.disk0 (written pre ++ written post) := hW ▸ h.hist
      rw [hW]
      exact hh.protected (l := written post) (v := v.info) he h4 h5 (List.Sublist.refl _)
  obtain ⟨w, h1, h2⟩ := key
  exact ⟨w, stored_eq h1, h2⟩

/-- …and by what a crash leaves on the disk. -/
theorem Inv.coveredDisk {H : Headers} {n : Node} (h : Inv H n) {v : CastVote} (hv : v ∈ n.sent)
    (he : v.epoch = n.epoch) : ∃ w, n.db.disk votesTable v.origin = some w ∧ v.info.le w := by
  rcases h.durable v hv he with ⟨w, h1, h2⟩ | ⟨b, hack, pre, post, h1, hb, h3⟩
  · obtain ⟨done, g, hi⟩ := inv_exec true n.disk0 n.evs
    obtain ⟨l, h4, h5⟩ := hi.diskOk
    have hh : Hist n.epoch n.disk0 ([] ++ written n.evs) := h.hist
    have hs := hi.split
    have := hh.protected (P := []) (l := done.take g ++ l) (v := v.info) he h1 h2 (by
      rw [hs]
      refine List.Sublist.trans ?_ (List.sublist_append_left _ _)
      conv_rhs => rw [← List.take_append_drop g done]
      exact List.Sublist.append (List.Sublist.refl _) h4)
    rw [show n.db.disk = _ from h5]
    simpa using this
  · obtain ⟨w, h4, h5⟩ := h3 he
    have hack' : (persists pre, true) ∈ (exec (openDb true n.disk0) (pre ++ .persist :: post)).acks := by
      rw [← h1, ← hb]; exact hack
    obtain ⟨l, h6, h7⟩ := persist_durable true n.disk0 pre post hack'
    have hW : written n.evs = written pre ++ written post := by
      rw [h1, written_append]; rfl
    have hh : Hist n.epoch n.disk0 (written pre ++ written post) := hW ▸ h.hist
    have hd : n.db.disk = applyOps n.disk0 (written pre ++ l) := by
      unfold Node.db; rw [h1]; exact h7
    rw [hd]
    exact hh.protected (v := v.info) he h4 h5 h6

/-- A new record. -/
theorem Inv.record {H : Headers} {n : Node} (h : Inv H n) {x : Header} {ctx : Ctx} (hok : H.ok x)
    (he : x.epoch = n.epoch) (hd : decision (n.stored x.author) x = .fresh) :
    Inv H { n with evs := n.evs ++ [.write (.ins votesTable x.author (infoOf x))],
                   approved := (x, ctx, n.epoch) :: n.approved } := by
  have hfresh := (decision_cases (st := n.stored x.author) (h := x)).2 hd
  have hw1 : written (n.evs ++ [.write (.ins votesTable x.author (infoOf x))])
      = written n.evs ++ [.ins votesTable x.author (infoOf x)] := by
    rw [written_append]; rfl
  have hrec : ∀ a, recs n.disk0 (written (n.evs ++ [.write (.ins votesTable x.author (infoOf x))])) a
      = recs n.disk0 (written n.evs) a ++ (if x.author = a then [infoOf x] else []) := by
    intro a
    rw [hw1, recs_append]
    congr 1
    by_cases ha : x.author = a
    · simp [insAt, ha]
    · simp [insAt, ha]
  -- every earlier record for this author is below the new one
  have hbelow : ∀ w ∈ recs n.disk0 (written n.evs) x.author, w.le (infoOf x) ∧
      (w.epoch = x.epoch → w.round < x.round) := by
    intro w hw
    have hle := h.hist.epochs _ w hw
    by_cases hwe : w.epoch = n.epoch
    · obtain ⟨w', h1, h2⟩ := h.hist.current hwe hw
      have h3 := hfresh w' (stored_eq h1)
      have h4 := h.hist.epochs _ w' (stored_mem (stored_eq h1))
      have hlt : w.round < x.round := by
        rcases h2 with h2 | ⟨_, h2 | rfl⟩ <;> omega
      exact ⟨.inr ⟨by show w.epoch = x.epoch; omega, .inl hlt⟩, fun _ => hlt⟩
    · exact ⟨.inl (by show w.epoch < x.epoch; omega), fun h' => by omega⟩
  have hbeh : ∀ {a v b}, Behind n a v b → Behind { n with
      evs := n.evs ++ [.write (.ins votesTable x.author (infoOf x))],
      approved := (x, ctx, n.epoch) :: n.approved } a v b :=
    fun hb => Behind.extend (n := n) (n' := { n with
      evs := n.evs ++ [.write (.ins votesTable x.author (infoOf x))],
      approved := (x, ctx, n.epoch) :: n.approved })
      (evs := [.write (.ins votesTable x.author (infoOf x))]) rfl rfl rfl hb
  refine ⟨⟨?_, ?_, ?_⟩, ?_, ?_, ?_, h.cacheOk, h.sentEpoch, ?_, ?_, h.once, ?_, ?_⟩
  · intro a w hw
    rw [hrec] at hw
    rcases List.mem_append.mp hw with hw | hw
    · exact h.hist.epochs a w hw
    · split at hw
      · rw [List.mem_singleton.mp hw]; exact Nat.le_of_eq he
      · cases hw
  · intro a
    rw [hrec, List.pairwise_append]
    refine ⟨h.hist.chain a, ?_, ?_⟩
    · split <;> simp
    · intro w hw w' hw'
      split at hw'
      · rename_i ha
        subst ha
        rw [List.mem_singleton.mp hw']
        exact (hbelow w hw).1
      · cases hw'
  · intro P o Q hW hc a w hw
    rw [hw1] at hW
    rcases List.append_eq_append_iff.mp hW with ⟨A, h1, h2⟩ | ⟨A, h1, h2⟩
    · exfalso
      cases A with
      | nil => simp at h2; rw [← h2.1] at hc; exact hc
      | cons y A => simp at h2
    · cases A with
      | nil => simp at h2; rw [h2.1] at hc; exact hc.elim
      | cons y A =>
        simp only [List.cons_append, List.cons.injEq] at h2
        obtain ⟨rfl, h2⟩ := h2
        exact h.hist.fresh P o A h1 hc a w hw
  · intro a w hw
    change w ∈ recs n.disk0 _ a at hw
    rw [hrec] at hw
    rcases List.mem_append.mp hw with hw | hw
    · obtain ⟨x', c', e', h1, h2⟩ := h.headers a w hw
      exact ⟨x', c', e', List.mem_cons_of_mem _ h1, h2⟩
    · split at hw
      · rename_i ha
        exact ⟨x, ctx, n.epoch, List.mem_cons_self .., ha, (List.mem_singleton.mp hw).symm, hok⟩
      · cases hw
  · intro a s hs
    have := h.slowOk a s hs
    cases s with
    | inner y => exact this
    | persist y b =>
      refine ⟨this.1, this.2.1, ?_, hbeh this.2.2.2⟩
      show _ ∈ recs n.disk0 _ a
      rw [hrec]; exact List.mem_append_left _ this.2.2.1
  · intro y b hy
    obtain ⟨h1, h2, h3⟩ := h.fastOk y b hy
    refine ⟨?_, hbeh h2, h3⟩
    show _ ∈ recs n.disk0 _ _
    rw [hrec]; exact List.mem_append_left _ h1
  · intro v hv w hw hwe hwr
    change w ∈ recs n.disk0 _ v.origin at hw
    rw [hrec] at hw
    rcases List.mem_append.mp hw with hw | hw
    · exact h.compat v hv w hw hwe hwr
    · split at hw
      · rename_i ha
        exfalso
        rw [List.mem_singleton.mp hw] at hwe hwr
        have hwe : x.epoch = v.epoch := hwe
        have hwr : x.round = v.round := hwr
        obtain ⟨w', h1, h2⟩ := h.covered hv (by omega)
        have h3 := hfresh w' (by rw [ha]; exact h1)
        have h4 := h.hist.epochs _ w' (stored_mem h1)
        rcases h2 with h2 | ⟨h2, h5 | h5⟩
        · have h2 : v.epoch < w'.epoch := h2; omega
        · have h2 : v.epoch = w'.epoch := h2
          have h5 : v.round < w'.round := h5; omega
        · have h6 : w'.round = v.round := by rw [← h5]; rfl
          have h7 : w'.epoch = v.epoch := by rw [← h5]; rfl
          omega
      · cases hw
  · intro v hv hve
    rcases h.durable v hv hve with h1 | ⟨b, h1, h2⟩
    · exact .inl h1
    · refine .inr ⟨b, ?_, hbeh h2⟩
      exact db_acks_mono (n := n) (n' := { n with
        evs := n.evs ++ [.write (.ins votesTable x.author (infoOf x))],
        approved := (x, ctx, n.epoch) :: n.approved })
        (evs := [.write (.ins votesTable x.author (infoOf x))]) rfl rfl h1
  · intro v hv
    obtain ⟨x', c', e', h1, h2⟩ := h.sentHeader v hv
    exact ⟨x', c', e', List.mem_cons_of_mem _ h1, h2⟩
  · intro x' c' e' h1
    rcases List.mem_cons.mp h1 with h1 | h1
    · cases h1; exact hok
    · exact h.approvedOk x' c' e' h1

/-- A barrier requested now is behind every record there is. -/
theorem Inv.behindNow {H : Headers} {n : Node} (h : Inv H n) {a : Nat} {v : VoteInfo}
    (hv : v ∈ recs n.disk0 (written n.evs) a) :
    Behind { n with evs := n.evs ++ [.persist] } a v (persists n.evs) :=
  ⟨n.evs, [], by simp, rfl, fun he => h.hist.current he hv⟩

theorem innerChecks_epoch {c : Committee} {ctx : Ctx} {h : Header} (hc : innerChecks c ctx h = true) :
    h.epoch = c.epoch := by
  unfold innerChecks Header.validate at hc
  by_contra hne
  simp [hne] at hc

theorem inv_step {H : Headers} {C : Nat → Committee} (hC : ∀ e, (C e).epoch = e) {n n' : Node}
    (h : Inv H n) (hs : Step H C n n') : Inv H n' := by
  cases hs with
  | fastStart x w hok peer hm hst hd =>
    have hrec := stored_mem hst
    obtain ⟨x', ctx, e', h1, h2, h3, h4⟩ := h.headers _ _ hrec
    have hxx : x' = x := H.inj h4 hok (by rw [← hd, ← h3]; rfl)
    subst hxx
    have hb := h.behindNow hrec
    have hi := h.foreignEv (e := .persist) trivial
    refine ⟨hi.hist, hi.headers, hi.slowOk, ?_, hi.cacheOk, hi.sentEpoch, hi.compat, hi.durable,
      hi.once, hi.sentHeader, hi.approvedOk⟩
    intro y b hy
    rcases List.mem_cons.mp hy with hy | hy
    · cases hy
      refine ⟨?_, ?_, hok⟩
      · show _ ∈ recs n.disk0 (written (n.evs ++ [.persist])) _
        rw [recs_foreign (by trivial), h3]; exact hrec
      · rw [h3]; exact hb
    · exact hi.fastOk y b hy
  | fastDone x b hf hack =>
    obtain ⟨h1, h2, h3⟩ := h.fastOk x b hf
    have hi := h.send h3 h1 h2 hack
    exact ⟨hi.hist, hi.headers, hi.slowOk, fun y b' hy => hi.fastOk y b' (List.mem_of_mem_erase hy),
      hi.cacheOk, hi.sentEpoch, hi.compat, hi.durable, hi.once, hi.sentHeader, hi.approvedOk⟩
  | fastDrop x b =>
    exact h.slowCache (fun a s hs => .inl hs) h.cacheOk (fun y hy => List.mem_of_mem_erase hy)
  | lockRun x ps c' hok peer hm hl hc =>
    refine h.slowCache (fast := n.fast) ?_ ?_ (fun y hy => hy)
    · intro a s hs
      rcases setAt_some hs with ⟨rfl, h1⟩ | ⟨_, h1⟩
      · cases h1; exact .inr ⟨x, rfl, rfl, hok⟩
      · exact .inl h1
    · intro a l v hl' hv
      rcases setAt_some hl' with ⟨rfl, h1⟩ | ⟨_, h1⟩
      · obtain ⟨l0, h2, h3⟩ := (consultCache_vote hc).1 l v h1 hv
        exact h.cacheOk _ l0 v h2 h3
      · exact h.cacheOk a l v h1 hv
  | lockReply x ps c' r hok peer hm hl hc =>
    have hsub : ∀ v, r = .vote v → v ∈ n.sent := by
      intro v hr
      obtain ⟨l0, h2, h3, _⟩ := (consultCache_vote hc).2 v (by rw [hr])
      exact h.cacheOk _ l0 v h2 h3
    have hi : Inv H { n with cache := setAt n.cache x.author c' } := by
      refine h.slowCache (slow := n.slow) (fast := n.fast) (fun a s hs => .inl hs) ?_ (fun y hy => hy)
      intro a l v hl' hv
      rcases setAt_some hl' with ⟨rfl, h1⟩ | ⟨_, h1⟩
      · obtain ⟨l0, h2, h3⟩ := (consultCache_vote hc).1 l v h1 hv
        exact h.cacheOk _ l0 v h2 h3
      · exact h.cacheOk a l v h1 hv
    cases r with
    | vote v =>
      have hv := hsub v rfl
      have hmem : ∀ w, w ∈ v :: n.sent → w ∈ n.sent := by
        intro w hw
        rcases List.mem_cons.mp hw with rfl | hw
        · exact hv
        · exact hw
      exact ⟨hi.hist, hi.headers, hi.slowOk, hi.fastOk,
        fun a l w h1 h2 => List.mem_cons_of_mem _ (hi.cacheOk a l w h1 h2),
        fun w hw => hi.sentEpoch w (hmem w hw), fun w hw => hi.compat w (hmem w hw),
        fun w hw => hi.durable w (hmem w hw),
        fun w hw w' hw' => hi.once w (hmem w hw) w' (hmem w' hw'),
        fun w hw => hi.sentHeader w (hmem w hw), hi.approvedOk⟩
    | missing ds => exact hi
    | recoverable => exact hi
    | other => exact hi
  | lockReject x ps c' hok peer hm hl hc =>
    refine h.slowCache (slow := n.slow) (fast := n.fast) (fun a s hs => .inl hs) ?_ (fun y hy => hy)
    intro a l v hl' hv
    rcases setAt_some hl' with ⟨rfl, h1⟩ | ⟨_, h1⟩
    · obtain ⟨l0, h2, h3⟩ := (consultCache_vote hc).1 l v h1 hv
      exact h.cacheOk _ l0 v h2 h3
    · exact h.cacheOk a l v h1 hv
  | innerAnswer a x r hl hr =>
    refine h.slowCache (fast := n.fast) ?_ ?_ (fun y hy => hy)
    · intro a' s hs
      rcases setAt_some hs with ⟨_, h1⟩ | ⟨_, h1⟩
      · cases h1
      · exact .inl h1
    · intro a' l v hl' hv
      rcases setAt_some hl' with ⟨_, h1⟩ | ⟨_, h1⟩
      · cases h1; cases hv; exact absurd rfl (hr v)
      · exact h.cacheOk a' l v h1 hv
  | innerResend a x ctx hl hck hd =>
    obtain ⟨w, hst, rfl⟩ := (decision_cases (st := n.stored a) (h := x)).1 hd
    have hx : x.author = a ∧ H.ok x := h.slowOk a _ hl
    have hrec := stored_mem hst
    have hb := h.behindNow hrec
    have hi := h.foreignEv (e := .persist) trivial
    refine ⟨hi.hist, hi.headers, ?_, hi.fastOk, hi.cacheOk, hi.sentEpoch, hi.compat, hi.durable,
      hi.once, hi.sentHeader, hi.approvedOk⟩
    intro a' s hs
    rcases setAt_some hs with ⟨rfl, h1⟩ | ⟨_, h1⟩
    · cases h1
      refine ⟨hx.1, hx.2, ?_, hb⟩
      show _ ∈ recs n.disk0 (written (n.evs ++ [.persist])) _
      rw [recs_foreign (by trivial)]; exact hrec
    · exact hi.slowOk a' s h1
  | innerFresh a x ctx hl hck hd =>
    have hx : x.author = a ∧ H.ok x := h.slowOk a _ hl
    obtain ⟨rfl, hok⟩ := hx
    have hi := h.record (ctx := ctx) hok ((innerChecks_epoch hck).trans (hC _)) hd
    have hrec : infoOf x ∈ recs n.disk0
        (written (n.evs ++ [.write (.ins votesTable x.author (infoOf x))])) x.author := by
      rw [written_append, recs_append]
      exact List.mem_append_right _ (by simp [written, insAt])
    have hb := hi.behindNow hrec
    have hj := hi.foreignEv (e := .persist) trivial
    have hev : n.evs ++ [.write (.ins votesTable x.author (infoOf x)), .persist] =
        (n.evs ++ [.write (.ins votesTable x.author (infoOf x))]) ++ [.persist] := by simp
    rw [hev]
    have hp : persists (n.evs ++ [.write (.ins votesTable x.author (infoOf x))]) = persists n.evs := by
      simp [persists_append, persists]
    rw [← hp]
    refine ⟨hj.hist, hj.headers, ?_, hj.fastOk, hj.cacheOk, hj.sentEpoch, hj.compat, hj.durable,
      hj.once, hj.sentHeader, hj.approvedOk⟩
    intro a' s hs
    rcases setAt_some hs with ⟨rfl, h1⟩ | ⟨_, h1⟩
    · cases h1
      refine ⟨rfl, hok, ?_, hb⟩
      show _ ∈ recs n.disk0 (written (_ ++ [.persist])) _
      rw [recs_foreign (by trivial)]; exact hrec
    · exact hj.slowOk a' s h1
  | persistDone a x b hl hack =>
    obtain ⟨rfl, hok, hrec, hb⟩ := h.slowOk a _ hl
    have hi := h.send hok hrec hb hack
    refine hi.slowCache (fast := n.fast) ?_ ?_ (fun y hy => hy)
    · intro a' s hs
      rcases setAt_some hs with ⟨_, h1⟩ | ⟨_, h1⟩
      · cases h1
      · exact .inl h1
    · intro a' l v hl' hv
      rcases setAt_some hl' with ⟨_, h1⟩ | ⟨_, h1⟩
      · cases h1; cases hv; exact List.mem_cons_self ..
      · exact hi.cacheOk a' l v h1 hv
  | persistFail a x b hl hack =>
    refine h.slowCache (fast := n.fast) ?_ ?_ (fun y hy => hy)
    · intro a' s hs
      rcases setAt_some hs with ⟨_, h1⟩ | ⟨_, h1⟩
      · cases h1
      · exact .inl h1
    · intro a' l v hl' hv
      rcases setAt_some hl' with ⟨_, h1⟩ | ⟨_, h1⟩
      · cases h1; cases hv
      · exact h.cacheOk a' l v h1 hv
  | timeout a =>
    refine h.slowCache (cache := n.cache) (fast := n.fast) ?_ h.cacheOk (fun y hy => hy)
    intro a' s hs
    rcases setAt_some hs with ⟨_, h1⟩ | ⟨_, h1⟩
    · cases h1
    · exact .inl h1
  | env e he => exact h.foreignEv he
  | restartPrimary =>
    exact h.slowCache (fun a s hs => by cases hs) (fun a l v hl => by cases hl)
      (fun y hy => by cases hy)
  | nextEpoch e he =>
    have hw : written (n.evs ++ [.write (.clr votesTable)]) = written n.evs ++ [.clr votesTable] := by
      rw [written_append]; rfl
    have hrec : ∀ a, recs n.disk0 (written (n.evs ++ [.write (.clr votesTable)])) a
        = recs n.disk0 (written n.evs) a := by
      intro a; rw [hw, recs_append]; simp [insAt]
    refine ⟨⟨?_, ?_, ?_⟩, ?_, (fun a s hs => by cases hs), (fun y b hy => by cases hy),
      (fun a l v hl => by cases hl), ?_, ?_, ?_, h.once, h.sentHeader, h.approvedOk⟩
    · intro a w hw'; rw [hrec] at hw'; have := h.hist.epochs a w hw'; show w.epoch ≤ e; omega
    · intro a; rw [hrec]; exact h.hist.chain a
    · intro P o Q hW hc a w hw'
      rw [hw] at hW
      have : w ∈ recs n.disk0 (written n.evs) a := by
        rcases List.append_eq_append_iff.mp hW with ⟨A, h1, h2⟩ | ⟨A, h1, h2⟩
        · cases A with
          | nil => rw [List.append_nil] at h1; rw [← h1]; exact hw'
          | cons y A => simp at h2
        · rw [h1, recs_append]; exact List.mem_append_left _ hw'
      have := h.hist.epochs a w this
      show w.epoch < e
      omega
    · intro a w hw'; exact h.headers a w (by rw [← hrec]; exact hw')
    · intro v hv; have := h.sentEpoch v hv; show v.epoch ≤ e; omega
    · intro v hv w hw'; exact h.compat v hv w (by rw [← hrec]; exact hw')
    · intro v hv hve
      have := h.sentEpoch v hv
      have hve : v.epoch = e := hve
      omega
  | crash e he =>
    have hdisk : ∀ a w, n.db.disk votesTable a = some w → w ∈ recs n.disk0 (written n.evs) a := by
      intro a w hw
      obtain ⟨done, g, hi⟩ := inv_exec true n.disk0 n.evs
      obtain ⟨l, h1, h2⟩ := hi.diskOk
      rw [show n.db.disk = _ from h2] at hw
      have := applyOps_mem _ _ hw
      have hs := hi.split
      simp only [recs, List.mem_append, Option.mem_toList] at this ⊢
      rcases this with this | this
      · exact .inl this
      · refine .inr ?_
        obtain ⟨o, ho, hx⟩ := List.mem_filterMap.mp this
        refine List.mem_filterMap.mpr ⟨o, ?_, hx⟩
        rw [hs]
        refine List.mem_append_left _ ?_
        rcases List.mem_append.mp ho with ho | ho
        · exact List.mem_of_mem_take ho
        · exact List.mem_of_mem_drop (h1.subset ho)
    have hrec : ∀ a w, w ∈ recs n.db.disk (written []) a → w ∈ recs n.disk0 (written n.evs) a := by
      intro a w hw
      simp [recs, written] at hw
      exact hdisk a w hw
    refine ⟨⟨?_, ?_, ?_⟩, ?_, (fun a s hs => by cases hs), (fun y b hy => by cases hy),
      (fun a l v hl => by cases hl), ?_, ?_, ?_, h.once, h.sentHeader, h.approvedOk⟩
    · intro a w hw; have := h.hist.epochs a w (hrec a w hw); show w.epoch ≤ e; omega
    · intro a
      show (recs n.db.disk (written []) a).Pairwise _
      simp only [recs, written, List.filterMap_nil, List.append_nil]
      cases n.db.disk votesTable a <;> simp
    · intro P o Q hW; simp [written] at hW
    · intro a w hw; exact h.headers a w (hrec a w hw)
    · intro v hv; have := h.sentEpoch v hv; show v.epoch ≤ e; omega
    · intro v hv w hw; exact h.compat v hv w (hrec _ w hw)
    · intro v hv hve
      have := h.sentEpoch v hv
      have hve : v.epoch = e := hve
      exact .inl (h.coveredDisk hv (by omega))

theorem inv_reachable {H : Headers} {C : Nat → Committee} (hC : ∀ e, (C e).epoch = e) {n : Node}
    (h : Reachable H C n) : Inv H n := by
  induction h with
  | start e =>
    refine ⟨⟨?_, ?_, ?_⟩, ?_, (fun a s hs => by cases hs), (fun y b hy => by cases hy),
      (fun a l v hl => by cases hl), (fun v hv => by cases hv), (fun v hv => by cases hv),
      (fun v hv => by cases hv), (fun v hv => by cases hv), (fun v hv => by cases hv),
      (fun x c e hx => by cases hx)⟩
    · intro a w hw; simp [recs, written] at hw
    · intro a; simp [recs, written]
    · intro P o Q hW; simp [written] at hW
    · intro a w hw; simp [recs, written] at hw
  | step _ hs ih => exact inv_step hC ih hs

end Voting
end Verif
