import Verif.Snapshot.PublishInv
/-
Property C105: the theorems about the publication of snapshot bundles.
-/
namespace Verif
namespace Pub
open Ep (Rec Cert)
open Snapshot (verifyChain parentOf expected)

/-! ### What is published -/

/-- A published bundle is complete: one block's state, the epoch's consensus pack, the records of all epochs up to its own
and a certificate for each of them; nothing of an earlier attempt is in it. -/
theorem published_complete (P : Params) (es : List Ev) {n : Nat} {d : Dir} (h : (run P es).final n = some d) :
    Complete P es n d := (run_inv P es).done n d h

/-- Without a crash no published consensus pack is torn. -/
theorem whole_without_crash (P : Params) (es : List Ev) (hc : ∀ e ∈ es, ¬ e.isCrash) {n : Nat} {d : Dir}
    (h : (run P es).final n = some d) : d.cons = some (.whole n) := by
  rcases (published_complete P es h).cons with h1 | ⟨_, e, he, h2⟩
  · exact h1
  · exact absurd h2 (hc e he)

theorem get_range {α : Type} {l : List α} {f : Nat → α} {n : Nat} (hl : l.length = n) (h : ∀ i x, l[i]? = some x → x = f i) :
    l = (List.range n).map f := by
  refine List.ext_getElem? fun i => ?_
  rw [List.getElem?_map]
  by_cases hi : i < n
  · rw [List.getElem?_range hi]
    obtain ⟨x, hx⟩ : ∃ x, l[i]? = some x := ⟨l[i], List.getElem?_eq_getElem (by omega)⟩
    rw [hx, h i x hx]
    rfl
  · rw [List.getElem?_eq_none (by omega), List.getElem?_eq_none (by rw [List.length_range]; omega)]
    rfl

/-- If every record the node stores is the one true record of its epoch, a published bundle holds exactly the true records,
in order, whether it was built from the bundle before it or anew. -/
theorem published_truth (P : Params) (es : List Ev) {truth : Nat → Rec} (ht : ∀ r, Ev.record r ∈ es → r = truth r.epoch)
    {n : Nat} {d : Dir} (h : (run P es).final n = some d) : d.recs = some ((List.range (n + 1)).map fun e => some (truth e)) := by
  obtain ⟨rs, cs, h1, _, h3, _, h5, _⟩ := (published_complete P es h).packs
  have : rs = (List.range (n + 1)).map truth := get_range h3 fun i x hx => by
    obtain ⟨a, b⟩ := h5 i x hx
    rw [ht x b, a]
  rw [h1, this, List.map_map]
  rfl

theorem certMap_some {cs : List Cert} {k : Nat} (h : ∃ c ∈ cs, c.hash = k) : ∃ c ∈ cs, c.hash = k ∧ certMap cs k = some c := by
  unfold certMap
  cases hf : cs.reverse.find? (fun c => decide (c.hash = k)) with
  | none =>
    obtain ⟨c, h1, h2⟩ := h
    have := List.find?_eq_none.mp hf c (List.mem_reverse.mpr h1)
    simp [h2] at this
  | some c =>
    refine ⟨c, List.mem_reverse.mp (List.mem_of_find?_eq_some hf), ?_, rfl⟩
    have := List.find?_some hf
    simpa using this

/-- **A published bundle can be imported.** If the records stored are the true ones, the certificates stored for them are
valid, and each epoch was closed with the block its record names, then the importer's check of the record chain accepts
the bundle, and its state is that of the block the last record names. -/
theorem published_importable (P : Params) (es : List Ev) {truth : Nat → Rec} {B : Bls} {genesis : Finset Nat}
    (ht : ∀ r, Ev.record r ∈ es → r = truth r.epoch)
    (hv : ∀ c e, Ev.cert c ∈ es → c.hash = P.dig (truth e) →
      Ep.validAgainst B P.dig e (truth e) c (parentOf P.dig truth e) (expected truth genesis e) = true)
    (hb : ∀ n b o, Ev.boundary n b o ∈ es → (truth n).finalState = b)
    {n : Nat} {d : Dir} (h : (run P es).final n = some d) :
    d.state = [(truth n).finalState] ∧
    ∃ (rs : List Rec) (cs : List Cert), d.recs = some (rs.map some) ∧ d.certs = some (cs.map some) ∧
      verifyChain B P.dig (certMap cs) rs 0 0 genesis none = .ok (truth n) := by
  have hc := published_complete P es h
  constructor
  · obtain ⟨b, o, h1, h2, _⟩ := hc.state
    rw [h1, hb n b o h2]
  · obtain ⟨rs, cs, h1, h2, h3, h4, h5, h6⟩ := hc.packs
    have hrs : rs = (List.range (n + 1)).map truth := get_range h3 fun i x hx => by
      obtain ⟨a, b⟩ := h5 i x hx
      rw [ht x b, a]
    refine ⟨rs, cs, h1, h2, ?_⟩
    have hall : ∀ e, ∃ c : Cert, e < n + 1 → c ∈ cs ∧ c.hash = P.dig (truth e) ∧ certMap cs (P.dig (truth e)) = some c := by
      intro e
      by_cases he : e < n + 1
      · have hr : rs[e]? = some (truth e) := by
          rw [hrs, List.getElem?_map, List.getElem?_range he]
          rfl
        obtain ⟨c, hce⟩ : ∃ c, cs[e]? = some c := ⟨cs[e], List.getElem?_eq_getElem (by omega)⟩
        obtain ⟨c', g1, g2, g3⟩ := certMap_some (cs := cs) (k := P.dig (truth e))
          ⟨c, List.mem_of_getElem? hce, (h6 e _ c hr hce).1⟩
        exact ⟨c', fun _ => ⟨g1, g2, g3⟩⟩
      · exact ⟨⟨0, 0, []⟩, fun h => absurd h he⟩
    obtain ⟨cert, hcert⟩ := Classical.axiomOfChoice hall
    have := Snapshot.verifyChain_complete (B := B) (dig := P.dig) (truth := truth) (genesis := genesis) (cert := cert)
      (certs := certMap cs) (n + 1) 0 none (by omega) (fun e _ he => by
        obtain ⟨g1, g2, g3⟩ := hcert e (by omega)
        refine ⟨g3, hv _ e ?_ g2⟩
        obtain ⟨i, hi⟩ := List.getElem?_of_mem g1
        have hin := (List.getElem?_eq_some_iff.mp hi).1
        obtain ⟨x, hx⟩ : ∃ x, rs[i]? = some x := ⟨rs[i]'(by omega), List.getElem?_eq_getElem (by omega)⟩
        exact (h6 i x _ hx hi).2)
    rw [← List.range_eq_range', show 0 + (n + 1) - 1 = n by omega] at this
    rw [hrs]
    exact this

/-! ### A published bundle stays -/

def Ev.isPrune (n : Nat) : Ev → Prop
  | .prune m => m = n
  | _ => False

theorem at_final {s : Sys} {n k : Nat} {p : Phase} {f : Job → Sys} (h : ∀ j, (f j).final k = s.final k) :
    (s.at_ n p f).final k = s.final k := by
  unfold Sys.at_
  cases s.job n with
  | none => rfl
  | some j =>
    dsimp only
    split
    · exact h j
    · rfl

theorem at_fresh {s : Sys} {n : Nat} {p : Phase} {f : Job → Sys} (h : ∀ j, (f j).fresh = s.fresh) :
    (s.at_ n p f).fresh = s.fresh := by
  unfold Sys.at_
  cases s.job n with
  | none => rfl
  | some j =>
    dsimp only
    split
    · exact h j
    · rfl

theorem boundary_final (P : Params) (s : Sys) (n : Nat) (b : Block) (o : Out) :
    (s.boundary P n b o).final = s.final ∧ (s.boundary P n b o).fresh = s.fresh := by
  unfold Sys.boundary
  split
  · exact ⟨rfl, rfl⟩
  · dsimp only
    split
    · exact ⟨rfl, rfl⟩
    · split
      · exact ⟨rfl, rfl⟩
      · cases o with
        | unsynced => exact ⟨rfl, rfl⟩
        | stuck left => exact ⟨rfl, rfl⟩
        | fine =>
          dsimp only
          split <;> exact ⟨rfl, rfl⟩

theorem attempt_final (P : Params) (s : Sys) (n : Nat) (j : Job) (disk : Bool) (left : Option Dir) :
    (s.attempt P n j disk left).final = s.final ∧ (s.attempt P n j disk left).fresh = s.fresh := by
  unfold Sys.attempt
  split
  · split <;> exact ⟨rfl, rfl⟩
  · split <;> exact ⟨rfl, rfl⟩

/-- What a step without a crash does to a published bundle: nothing, unless the operator deletes it. -/
theorem step_final {P : Params} {s : Sys} {e : Ev} {k : Nat} {d : Dir} (hc : ¬ e.isCrash) (hp : ¬ e.isPrune k)
    (h : s.final k = some d) : (s.step P e).final k = some d ∧ (k ∉ s.fresh → k ∉ (s.step P e).fresh) := by
  have same : ∀ {t : Sys}, t.final k = s.final k → t.fresh = s.fresh →
      t.final k = some d ∧ (k ∉ s.fresh → k ∉ t.fresh) := fun h1 h2 => ⟨by rw [h1, h], by rw [h2]; exact id⟩
  cases e with
  | record r =>
    show (if _ then _ else s : Sys).final k = _ ∧ (_ → k ∉ (if _ then _ else s : Sys).fresh)
    split <;> exact same rfl rfl
  | cert c =>
    show (if _ then s else _ : Sys).final k = _ ∧ (_ → k ∉ (if _ then s else _ : Sys).fresh)
    split <;> exact same rfl rfl
  | tip b =>
    show (if _ then _ else s : Sys).final k = _ ∧ (_ → k ∉ (if _ then _ else s : Sys).fresh)
    split <;> exact same rfl rfl
  | boundary n b o => exact same (by rw [show s.step P (.boundary n b o) = s.boundary P n b o from rfl, (boundary_final P s n b o).1]) (boundary_final P s n b o).2
  | take =>
    unfold Sys.step
    dsimp only
    split <;> exact same rfl rfl
  | pin disk left =>
    unfold Sys.step
    dsimp only
    split
    · split
      · exact same (by rw [(attempt_final P s _ _ disk left).1]) (attempt_final P s _ _ disk left).2
      · exact same rfl rfl
    · exact same rfl rfl
  | copy n disk left =>
    refine same (at_final fun j => ?_) (at_fresh fun j => ?_) <;> (unfold Sys.copied; split <;> rfl)
  | await n late left =>
    refine same (at_final fun j => ?_) (at_fresh fun j => ?_) <;>
      (unfold Sys.awaited; split; · rfl
       · split
         · rfl
         · split <;> rfl)
  | bundle n inc full left =>
    refine same (at_final fun j => ?_) (at_fresh fun j => ?_) <;> (unfold Sys.bundled; split <;> rfl)
  | rename n disk left =>
    show (s.at_ n .bundled fun _ => s.renamed n disk left).final k = _ ∧ (_ → k ∉ (s.at_ n .bundled fun _ => s.renamed n disk left).fresh)
    have hr : (s.renamed n disk left).final k = some d ∧ (k ∉ s.fresh → k ∉ (s.renamed n disk left).fresh) := by
      unfold Sys.renamed
      split
      · rename_i hn
        have hkn : k ≠ n := by
          rintro rfl
          rw [h] at hn; cases hn.2
        refine ⟨?_, ?_⟩
        · show upd s.final n _ k = _
          rw [upd_other _ _ hkn]; exact h
        · intro hk hm
          rcases List.mem_cons.mp hm with hm | hm
          · exact hkn hm
          · exact hk hm
      · exact same rfl rfl
    unfold Sys.at_
    cases s.job n with
    | none => exact same rfl rfl
    | some j =>
      dsimp only
      split
      · exact hr
      · exact same rfl rfl
  | prune n =>
    have hkn : k ≠ n := fun e => hp e.symm
    refine ⟨?_, fun hk hm => hk (List.mem_filter.mp hm).1⟩
    show upd s.final n none k = _
    rw [upd_other _ _ hkn]; exact h
  | crash c => exact absurd trivial hc

/-- A published bundle is never changed, added to or replaced while the node runs, unless the operator deletes it. -/
theorem published_stays {P : Params} {k : Nat} {d : Dir} : ∀ (l : List Ev) {s : Sys}, s.final k = some d →
    (∀ e ∈ l, ¬ e.isCrash ∧ ¬ e.isPrune k) → (s.steps P l).final k = some d
  | [], _, h, _ => h
  | e :: l, _, h, hl => published_stays l
      (step_final (hl e List.mem_cons_self).1 (hl e List.mem_cons_self).2 h).1
      (fun x hx => hl x (List.mem_cons_of_mem _ hx))

/-- A bundle that was there when the node was started survives every crash. -/
theorem published_durable {P : Params} {k : Nat} {d : Dir} : ∀ (l : List Ev) {s : Sys}, s.final k = some d → k ∉ s.fresh →
    (∀ e ∈ l, ¬ e.isPrune k) → (s.steps P l).final k = some d
  | [], _, h, _, _ => h
  | e :: l, s, h, hf, hl => by
    have hrest : ∀ x ∈ l, ¬ x.isPrune k := fun x hx => hl x (List.mem_cons_of_mem _ hx)
    by_cases hc : e.isCrash
    · cases e with
      | crash c =>
        refine published_durable l (s := s.step P (.crash c)) ?_ (fun hm => by cases hm) hrest
        show s.found c k = some d
        unfold Sys.found
        rw [if_neg hf]
        exact h
      | _ => cases hc
    · obtain ⟨h1, h2⟩ := step_final (P := P) hc (hl e List.mem_cons_self) h
      exact published_durable l h1 (h2 hf) hrest

/-- An epoch whose bundle is there is not exported again. -/
theorem exists_noop {P : Params} {s : Sys} {n : Nat} {d : Dir} (h : s.final n = some d) (b : Block) (o : Out) :
    (s.boundary P n b o).job = s.job ∧ (s.boundary P n b o).tmp = s.tmp ∧ (s.boundary P n b o).queue = s.queue := by
  unfold Sys.boundary
  split
  · exact ⟨rfl, rfl, rfl⟩
  · dsimp only
    rw [if_pos (by rw [h]; rfl)]
    exact ⟨rfl, rfl, rfl⟩

/-! ### The exports do not disturb each other -/

theorem at_frame {α : Type} {g : Sys → α} {s : Sys} {n : Nat} {p : Phase} {f : Job → Sys} (h : ∀ j, g (f j) = g s) :
    g (s.at_ n p f) = g s := by
  unfold Sys.at_
  cases s.job n with
  | none => rfl
  | some j =>
    dsimp only
    split
    · exact h j
    · rfl

/-- The epoch whose export an event moves. -/
def Ev.of (s : Sys) : Ev → Option Nat
  | .boundary n _ _ => some n
  | .pin _ _ => s.busy
  | .copy n _ _ => some n
  | .await n _ _ => some n
  | .bundle n _ _ _ => some n
  | .rename n _ _ => some n
  | .prune n => some n
  | _ => none

/-- What is left of the other exports: task, working directory and published bundle. -/
def Sys.view (k : Nat) (s : Sys) : Option Job × Option Dir × Option Dir := (s.job k, s.tmp k, s.final k)

theorem view_drop (s : Sys) {n k : Nat} (left : Option Dir) (h : k ≠ n) : (s.drop n left).view k = s.view k := by
  show (upd s.job n none k, upd s.tmp n left k, s.final k) = _
  rw [upd_other _ _ h, upd_other _ _ h]
  rfl

theorem view_next (s : Sys) {n k : Nat} (j : Job) (d : Dir) (h : k ≠ n) : (s.next n j d).view k = s.view k := by
  show (upd s.job n (some j) k, upd s.tmp n (some d) k, s.final k) = _
  rw [upd_other _ _ h, upd_other _ _ h]
  rfl

/-- The export of one epoch touches neither the task, nor the working directory, nor the bundle of another. -/
theorem other_kept {P : Params} {s : Sys} {e : Ev} {k : Nat} (hc : ¬ e.isCrash) (h : e.of s ≠ some k) :
    (s.step P e).view k = s.view k := by
  have ne : ∀ {n : Nat}, some n ≠ some k → k ≠ n := fun h' e => h' (by rw [e])
  cases e with
  | record r =>
    show (if _ then _ else s : Sys).view k = _
    split <;> rfl
  | cert c =>
    show (if _ then s else _ : Sys).view k = _
    split <;> rfl
  | tip b =>
    show (if _ then _ else s : Sys).view k = _
    split <;> rfl
  | boundary n b o =>
    have hk := ne h
    show (s.boundary P n b o).view k = _
    unfold Sys.boundary
    split
    · rfl
    · dsimp only
      split
      · rfl
      · split
        · rfl
        · cases o with
          | unsynced => rfl
          | stuck left =>
            show (s.job k, upd s.tmp n left k, s.final k) = _
            rw [upd_other _ _ hk]; rfl
          | fine =>
            dsimp only
            split
            · show (s.job k, upd s.tmp n none k, s.final k) = _
              rw [upd_other _ _ hk]; rfl
            · show (upd s.job n _ k, upd s.tmp n none k, s.final k) = _
              rw [upd_other _ _ hk, upd_other _ _ hk]; rfl
  | take =>
    unfold Sys.step
    dsimp only
    split <;> rfl
  | pin disk left =>
    show Sys.view k (match s.busy with
      | some n => match s.job n with
        | some j => s.attempt P n j disk left
        | none => s
      | none => s) = _
    cases hb : s.busy with
    | none => rfl
    | some n =>
      have hk : k ≠ n := by
        refine ne fun e => h ?_
        show s.busy = some k
        rw [hb, e]
      dsimp only
      cases hj : s.job n with
      | none => rfl
      | some j =>
        dsimp only
        unfold Sys.attempt
        split
        · split
          · exact view_next s _ _ hk
          · exact view_drop s left hk
        · split
          · show (upd s.job n _ k, s.tmp k, s.final k) = _
            rw [upd_other _ _ hk]; rfl
          · exact view_drop s left hk
  | copy n disk left =>
    refine at_frame (g := Sys.view k) fun j => ?_
    unfold Sys.copied
    split
    · exact view_next s _ _ (ne h)
    · exact view_drop s left (ne h)
  | await n late left =>
    refine at_frame (g := Sys.view k) fun j => ?_
    unfold Sys.awaited
    split
    · exact view_drop s left (ne h)
    · split
      · show (upd s.job n _ k, s.tmp k, s.final k) = _
        rw [upd_other _ _ (ne h)]; rfl
      · split
        · exact view_drop s left (ne h)
        · rfl
  | bundle n inc full left =>
    refine at_frame (g := Sys.view k) fun j => ?_
    unfold Sys.bundled
    split
    · exact view_next s _ _ (ne h)
    · exact view_drop s left (ne h)
  | rename n disk left =>
    refine at_frame (g := Sys.view k) fun j => ?_
    unfold Sys.renamed
    split
    · show (upd s.job n _ k, upd s.tmp n _ k, upd s.final n _ k) = _
      rw [upd_other _ _ (ne h), upd_other _ _ (ne h), upd_other _ _ (ne h)]; rfl
    · exact view_drop s left (ne h)
  | prune n =>
    show (s.job k, s.tmp k, upd s.final n none k) = _
    rw [upd_other _ _ (ne h)]; rfl
  | crash c => exact absurd trivial hc

/-- At most four requests wait for the worker. -/
theorem queue_bounded (P : Params) (es : List Ev) : (run P es).queue.length ≤ 4 := (run_inv P es).queueLen

/-- The check before an export: it is skipped if and only if an earlier epoch has no record or no certificate, and the
watermark makes no difference. -/
theorem skip_exact (P : Params) (es : List Ev) (n : Nat) :
    (((run P es).firstMissing P n).2 = none ↔ ∀ e, e < n → ∃ r c, (run P es).recs[e]? = some r ∧
      (run P es).certs (P.dig r) = some c) ∧
    (∀ m, ((run P es).firstMissing P n).2 = some m → m < n ∧ (run P es).pair P m = none ∧ ∀ e, e < m → ((run P es).pair P e).isSome = true) := by
  obtain ⟨_, h2, h3⟩ := firstMissing_spec (run_inv P es).mark n
  refine ⟨⟨fun h e he => ?_, fun h => ?_⟩, fun m hm => ?_⟩
  · obtain ⟨⟨r, c⟩, hp⟩ := Option.isSome_iff_exists.mp (h3 h e he)
    exact ⟨r, c, pair_some hp⟩
  · cases hm : ((run P es).firstMissing P n).2 with
    | none => rfl
    | some m =>
      obtain ⟨g1, g2, _⟩ := h2 m hm
      obtain ⟨r, c, g3, g4⟩ := h m g1
      unfold Sys.certified at g2
      rw [pair_of g3 g4] at g2
      cases g2
  · obtain ⟨g1, g2, g3⟩ := h2 m hm
    refine ⟨g1, ?_, g3⟩
    unfold Sys.certified at g2
    cases hp : (run P es).pair P m with
    | none => rfl
    | some x => rw [hp] at g2; cases g2

/-! ### An export succeeds -/

theorem at_of {s : Sys} {n : Nat} {p : Phase} {f : Job → Sys} {j : Job} (h : s.job n = some j) (hp : j.phase = p) :
    s.at_ n p f = f j := by
  unfold Sys.at_
  rw [h]
  dsimp only
  rw [if_pos hp]

/-- If all epochs up to `n` are certified, the exporter is idle, the block is the persisted tip and the disk works, the
bundle of epoch `n` is published; whether or not there is a bundle of the epoch before. -/
theorem export_succeeds {P : Params} {s : Sys} (hm : ∀ e, e < s.mark → s.certified P e = true) {n : Nat} {b : Block}
    (hl : ∀ m, s.last = some m → m < n) (hf : s.final n = none) (hall : ∀ e, e ≤ n → s.certified P e = true)
    (hq : s.queue = []) (hb : s.busy = none) (ht : s.tip = some b) (hr : P.ready b = true) (inc : Bool) :
    ∃ d, (s.steps P [.boundary n b .fine, .take, .pin true none, .copy n true none, .await n false none,
      .bundle n inc true none, .rename n true none]).final n = some d := by
  have h1 : ∃ mk, s.step P (.boundary n b .fine) = { s with last := some n, mark := mk, tmp := upd s.tmp n none, queue := [n], job := upd s.job n (some ⟨.queued, b, 0⟩) } := by
    refine ⟨(({ s with last := some n } : Sys).firstMissing P n).1, ?_⟩
    show s.boundary P n b .fine = _
    unfold Sys.boundary
    rw [if_neg (by
      intro h
      cases hla : s.last with
      | none => rw [hla] at h; cases h
      | some m =>
        rw [hla] at h
        simp at h
        have := hl m hla
        omega)]
    dsimp only
    rw [if_neg (by rw [hf]; exact Bool.false_ne_true)]
    have hfm : (({ s with last := some n } : Sys).firstMissing P n).2 = none := by
      cases hx : (({ s with last := some n } : Sys).firstMissing P n).2 with
      | none => rfl
      | some m =>
        obtain ⟨g1, g2, _⟩ := (firstMissing_spec (P := P) (s := { s with last := some n }) hm n).2.1 m hx
        have := hall m (by omega)
        change s.certified P m = false at g2
        rw [this] at g2
        cases g2
    rw [if_neg (by rw [hfm]; exact Bool.false_ne_true), if_neg (by rw [hq]; exact fun h => by (cases h)), hq]
    rfl
  obtain ⟨mk, h1⟩ := h1
  obtain ⟨⟨r, c⟩, hp⟩ := Option.isSome_iff_exists.mp (hall n (Nat.le_refl n))
  obtain ⟨hp1, hp2⟩ := pair_some hp
  show ∃ d, ((((((((s.step P (.boundary n b .fine)).step P .take).step P (.pin true none)).step P (.copy n true none)).step P (.await n false none)).step P (.bundle n inc true none)).step P (.rename n true none))).final n = some d
  rw [h1]
  generalize hs2 : Sys.step P _ Ev.take = s2
  have e2 : s2.busy = some n ∧ s2.job n = some ⟨.queued, b, 0⟩ ∧ s2.tip = some b ∧ s2.recs = s.recs ∧ s2.certs = s.certs ∧ s2.final = s.final := by
    subst hs2
    unfold Sys.step
    dsimp only
    rw [hb]
    exact ⟨rfl, upd_same _ _ _, ht, rfl, rfl, rfl⟩
  clear hs2 h1
  obtain ⟨a1, a2, a3, a4, a5, a6⟩ := e2
  generalize hs3 : Sys.step P s2 _ = s3
  have e3 : s3.job n = some ⟨.walked, b, 0⟩ ∧ s3.recs = s.recs ∧ s3.certs = s.certs ∧ s3.final = s.final := by
    subst hs3
    unfold Sys.step
    rw [a1]
    dsimp only
    rw [a2]
    dsimp only
    unfold Sys.attempt
    rw [if_pos a3, if_pos ⟨hr, rfl⟩]
    exact ⟨upd_same _ _ _, a4, a5, a6⟩
  clear hs3 a1 a2 a3 a4 a5 a6
  obtain ⟨a1, a2, a3, a4⟩ := e3
  generalize hs4 : Sys.step P s3 _ = s4
  have e4 : s4.job n = some ⟨.copied, b, 0⟩ ∧ s4.recs = s.recs ∧ s4.certs = s.certs ∧ s4.final = s.final := by
    subst hs4
    unfold Sys.step
    dsimp only
    rw [at_of a1 rfl]
    unfold Sys.copied
    rw [if_pos rfl]
    exact ⟨upd_same _ _ _, a2, a3, a4⟩
  clear hs4 a1 a2 a3 a4
  obtain ⟨a1, a2, a3, a4⟩ := e4
  generalize hs5 : Sys.step P s4 _ = s5
  have e5 : s5.job n = some ⟨.certified, b, 0⟩ ∧ s5.recs = s.recs ∧ s5.certs = s.certs ∧ s5.final = s.final := by
    subst hs5
    unfold Sys.step
    dsimp only
    rw [at_of a1 rfl]
    unfold Sys.awaited
    have hx : s4.recs[n]? = some r := by rw [a2]; exact hp1
    rw [hx]
    dsimp only
    rw [if_pos (show (s4.certs (P.dig r)).isSome = true by rw [a3, hp2]; rfl)]
    exact ⟨upd_same _ _ _, a2, a3, a4⟩
  clear hs5 a1 a2 a3 a4
  obtain ⟨a1, a2, a3, a4⟩ := e5
  have hcert : ∀ e, e ≤ n → s5.certified P e = true := by
    intro e he
    have := hall e he
    unfold Sys.certified Sys.pair at this ⊢
    rw [a2, a3]
    exact this
  have hw : ∃ rs cs, s5.writeBundle P n inc true = some (rs, cs) := by
    unfold Sys.writeBundle
    cases hx : (if inc then s5.tryAppend P n else none) with
    | some o => exact ⟨o.1, o.2, rfl⟩
    | none =>
      dsimp only
      rw [if_pos rfl]
      exact bounded_of hcert
  obtain ⟨rs, cs, hw⟩ := hw
  generalize hs6 : Sys.step P s5 _ = s6
  have e6 : s6.job n = some ⟨.bundled, b, 0⟩ ∧ s6.final = s.final ∧ ∃ d, s6.tmp n = some d := by
    subst hs6
    unfold Sys.step
    dsimp only
    rw [at_of a1 rfl]
    unfold Sys.bundled
    rw [hw]
    exact ⟨upd_same _ _ _, a4, _, upd_same _ _ _⟩
  obtain ⟨c1, c2, d, c3⟩ := e6
  refine ⟨d, ?_⟩
  unfold Sys.step
  dsimp only
  rw [at_of c1 rfl]
  unfold Sys.renamed
  rw [if_pos ⟨rfl, by rw [c2]; exact hf⟩]
  show upd s6.final n (s6.tmp n) n = some d
  rw [upd_same, c3]

/-- The bundle of the epoch before is used whenever it is what it should be: then the new one is the old one and the new
entries. -/
theorem increment_works {P : Params} {s : Sys} {m : Nat} {prev : Dir} {rl : List Rec} {cl : List Cert} {r x : Rec} {c y : Cert}
    (hf : s.final m = some prev) (hr : prev.recs = some (rl.map some)) (hc : prev.certs = some (cl.map some))
    (hrl : rl.length = m + 1) (hcl : cl.length = m + 1) (hp : s.pair P (m + 1) = some (r, c)) (hre : r.epoch = m + 1)
    (hx : rl.getLast? = some x) (hxe : x.epoch = m) (hxd : P.dig x = r.parent) (hy : cl.getLast? = some y)
    (hyh : y.hash = P.dig x) :
    s.tryAppend P (m + 1) = some ((rl ++ [r]).map some, (cl ++ [c]).map some) := by
  have hall : ∀ {α : Type} (l : List α), (l.map some).all Option.isSome = true := by
    intro α l
    simp
  unfold Sys.tryAppend
  dsimp only
  rw [hf, hp]
  dsimp only
  unfold increment
  rw [hr, hc, appendPack_of (hall rl) (by rw [List.getLast?_map, hx]; rfl) (by rw [List.length_map, hrl, hre])
    (by simp [hxe, hxd, hre])]
  dsimp only
  rw [appendPack_of (hall cl) (by rw [List.getLast?_map, hy]; rfl) (by rw [List.length_map, hcl, hre])
    (by simp [hyh, hxd])]
  simp

/-! ### An export that comes too late -/

/-- The persisted tip never goes back. -/
theorem step_tip {P : Params} {s : Sys} {e : Ev} {t : Block} (h : s.tip = some t) : ∃ t', (s.step P e).tip = some t' ∧ t.1 ≤ t'.1 := by
  have same : ∀ {u : Sys}, u.tip = s.tip → ∃ t', u.tip = some t' ∧ t.1 ≤ t'.1 := fun hu => ⟨t, by rw [hu, h], Nat.le_refl _⟩
  cases e with
  | record r =>
    refine same ?_
    show (if _ then _ else s : Sys).tip = _
    split <;> rfl
  | cert c =>
    refine same ?_
    show (if _ then s else _ : Sys).tip = _
    split <;> rfl
  | tip b =>
    show ∃ t', (if s.tip.all (fun t => decide (t.1 < b.1)) = true then { s with tip := some b } else s : Sys).tip = some t' ∧ _
    by_cases hb : s.tip.all (fun t => decide (t.1 < b.1)) = true
    · rw [if_pos hb]
      refine ⟨b, rfl, ?_⟩
      rw [h] at hb
      simp at hb
      omega
    · rw [if_neg hb]
      exact same rfl
  | boundary n b o =>
    refine same ?_
    show (s.boundary P n b o).tip = _
    unfold Sys.boundary
    split
    · rfl
    · dsimp only
      split
      · rfl
      · split
        · rfl
        · cases o with
          | unsynced => rfl
          | stuck left => rfl
          | fine =>
            dsimp only
            split <;> rfl
  | take =>
    unfold Sys.step
    dsimp only
    split <;> exact same rfl
  | pin disk left =>
    unfold Sys.step
    dsimp only
    split
    · split
      · refine same ?_
        unfold Sys.attempt
        split
        · split <;> rfl
        · split <;> rfl
      · exact same rfl
    · exact same rfl
  | copy n disk left =>
    refine same (at_frame (g := Sys.tip) fun j => ?_)
    unfold Sys.copied
    split <;> rfl
  | await n late left =>
    refine same (at_frame (g := Sys.tip) fun j => ?_)
    unfold Sys.awaited
    split
    · rfl
    · split
      · rfl
      · split <;> rfl
  | bundle n inc full left =>
    refine same (at_frame (g := Sys.tip) fun j => ?_)
    unfold Sys.bundled
    split <;> rfl
  | rename n disk left =>
    refine same (at_frame (g := Sys.tip) fun j => ?_)
    unfold Sys.renamed
    split <;> rfl
  | prune n => exact same rfl
  | crash c => exact same rfl

theorem step_last {P : Params} {s : Sys} {e : Ev} {m : Nat} (hc : ¬ e.isCrash) (h : s.last = some m) :
    ∃ m', (s.step P e).last = some m' ∧ m ≤ m' := by
  have same : ∀ {u : Sys}, u.last = s.last → ∃ m', u.last = some m' ∧ m ≤ m' := fun hu => ⟨m, by rw [hu, h], Nat.le_refl _⟩
  cases e with
  | record r =>
    refine same ?_
    show (if _ then _ else s : Sys).last = _
    split <;> rfl
  | cert c =>
    refine same ?_
    show (if _ then s else _ : Sys).last = _
    split <;> rfl
  | tip b =>
    refine same ?_
    show (if _ then _ else s : Sys).last = _
    split <;> rfl
  | boundary n b o =>
    show ∃ t', (s.boundary P n b o).last = some t' ∧ _
    unfold Sys.boundary
    split
    · exact same rfl
    · rename_i hg
      have hmn : m ≤ n := by
        rw [h] at hg
        simp at hg
        omega
      have hn : ∀ {u : Sys}, u.last = some n → ∃ m', u.last = some m' ∧ m ≤ m' := fun hu => ⟨n, hu, hmn⟩
      dsimp only
      split
      · exact hn rfl
      · split
        · exact hn rfl
        · cases o with
          | unsynced => exact hn rfl
          | stuck left => exact hn rfl
          | fine =>
            dsimp only
            split <;> exact hn rfl
  | take =>
    unfold Sys.step
    dsimp only
    split <;> exact same rfl
  | pin disk left =>
    unfold Sys.step
    dsimp only
    split
    · split
      · refine same ?_
        unfold Sys.attempt
        split
        · split <;> rfl
        · split <;> rfl
      · exact same rfl
    · exact same rfl
  | copy n disk left =>
    refine same (at_frame (g := Sys.last) fun j => ?_)
    unfold Sys.copied
    split <;> rfl
  | await n late left =>
    refine same (at_frame (g := Sys.last) fun j => ?_)
    unfold Sys.awaited
    split
    · rfl
    · split
      · rfl
      · split <;> rfl
  | bundle n inc full left =>
    refine same (at_frame (g := Sys.last) fun j => ?_)
    unfold Sys.bundled
    split <;> rfl
  | rename n disk left =>
    refine same (at_frame (g := Sys.last) fun j => ?_)
    unfold Sys.renamed
    split <;> rfl
  | prune n => exact same rfl
  | crash c => exact absurd trivial hc

/-- The export of `n` has not been written and its block is no longer the tip, or it is over. -/
structure Late (s : Sys) (n : Nat) (b : Block) : Prop where
  final : s.final n = none
  job : ∀ j, s.job n = some j → j.phase = .queued ∧ j.block = b
  tip : ∃ t, s.tip = some t ∧ b.1 < t.1
  last : ∃ m, s.last = some m ∧ n ≤ m

theorem late_step {P : Params} {s : Sys} {n : Nat} {b : Block} (h : Late s n b) {e : Ev} (hc : ¬ e.isCrash) :
    Late (s.step P e) n b := by
  obtain ⟨t, ht, hbt⟩ := h.tip
  obtain ⟨m, hm, hnm⟩ := h.last
  obtain ⟨t', ht', htt⟩ := step_tip (P := P) (e := e) ht
  obtain ⟨m', hm', hmm⟩ := step_last (P := P) hc hm
  suffices hv : (s.step P e).final n = none ∧ ∀ j, (s.step P e).job n = some j → j.phase = .queued ∧ j.block = b from
    ⟨hv.1, hv.2, ⟨t', ht', by omega⟩, ⟨m', hm', by omega⟩⟩
  by_cases ho : e.of s = some n
  · have hat : ∀ (p : Phase) (f : Job → Sys), p ≠ .queued → s.at_ n p f = s := by
      intro p f hp
      unfold Sys.at_
      cases hj : s.job n with
      | none => rfl
      | some j =>
        dsimp only
        rw [if_neg]
        intro e
        rw [(h.job j hj).1] at e
        exact hp e.symm
    have stay : ∀ {u : Sys}, u = s → u.final n = none ∧ ∀ j, u.job n = some j → j.phase = .queued ∧ j.block = b := by
      rintro u rfl
      exact ⟨h.final, h.job⟩
    cases e with
    | boundary k c o =>
      cases ho
      refine stay ?_
      show s.boundary P n c o = s
      unfold Sys.boundary
      rw [if_pos]
      rw [hm]
      simp
      omega
    | pin disk left =>
      have hb : s.busy = some n := ho
      show Sys.final (match s.busy with
        | some n => match s.job n with
          | some j => s.attempt P n j disk left
          | none => s
        | none => s) n = none ∧ ∀ j, Sys.job (match s.busy with
        | some n => match s.job n with
          | some j => s.attempt P n j disk left
          | none => s
        | none => s) n = some j → _
      rw [hb]
      dsimp only
      cases hj : s.job n with
      | none => exact stay rfl
      | some j =>
        dsimp only
        obtain ⟨h1, h2⟩ := h.job j hj
        have hne : s.tip ≠ some j.block := by
          rw [ht]
          intro e
          cases e
          rw [h2] at hbt
          omega
        unfold Sys.attempt
        rw [if_neg hne]
        split
        · refine ⟨h.final, fun x hx => ?_⟩
          change upd s.job n _ n = some x at hx
          rw [upd_same] at hx
          cases hx
          exact ⟨h1, h2⟩
        · refine ⟨h.final, fun x hx => ?_⟩
          change upd s.job n none n = some x at hx
          rw [upd_same] at hx
          cases hx
    | copy k disk left => cases ho; exact stay (hat _ _ (fun e => by cases e))
    | await k late left => cases ho; exact stay (hat _ _ (fun e => by cases e))
    | bundle k inc full left => cases ho; exact stay (hat _ _ (fun e => by cases e))
    | rename k disk left => cases ho; exact stay (hat _ _ (fun e => by cases e))
    | prune k =>
      cases ho
      refine ⟨?_, h.job⟩
      show upd s.final n none n = none
      exact upd_same _ _ _
    | record r => cases ho
    | cert c => cases ho
    | tip c => cases ho
    | take => cases ho
    | crash c => cases ho
  · have hk := other_kept (P := P) hc ho
    have h1 : (s.step P e).job n = s.job n := congrArg Prod.fst hk
    have h2 : (s.step P e).final n = s.final n := congrArg (fun x => x.2.2) hk
    refine ⟨by rw [h2]; exact h.final, fun j hj => ?_⟩
    rw [h1] at hj
    exact h.job j hj

/-- **An export that waits too long is lost.** Once the persisted tip has passed the block of an export that the worker has
not written, no bundle of that epoch appears while the process runs: no later boundary makes up for it. -/
theorem late_lost {P : Params} {n : Nat} {b : Block} : ∀ (l : List Ev) {s : Sys}, Late s n b → (∀ e ∈ l, ¬ e.isCrash) →
    (s.steps P l).final n = none
  | [], _, h, _ => h.final
  | e :: l, _, h, hl => late_lost l (late_step h (hl e List.mem_cons_self)) (fun x hx => hl x (List.mem_cons_of_mem _ hx))

/-! ### Concrete runs -/

def exDig (r : Rec) : Nat := 100 + r.epoch + 1000 * r.finalNum

def exP : Params := ⟨exDig, fun b => decide (b.1 ≠ 0)⟩

def rec0 : Rec := ⟨0, [1], [1], 0, (5, 50), 0, 0⟩
def rec1 : Rec := ⟨1, [1], [1], 100, (9, 90), 0, 0⟩
def rec2 : Rec := ⟨2, [1], [1], 101, (12, 120), 0, 0⟩

def cert0 : Cert := ⟨100, 7, [0]⟩
def cert1 : Cert := ⟨101, 7, [0]⟩
def cert2 : Cert := ⟨102, 7, [0]⟩

/-- The steps of an export in which nothing fails. -/
def exportAll (n : Nat) (b : Block) : List Ev :=
  [.boundary n b .fine, .take, .pin true none, .copy n true none, .await n false none, .bundle n true true none,
   .rename n true none]

/-- Two epochs are exported; before the first, a crash has left a half-written directory that cannot be removed at first. -/
def goodRun : List Ev :=
  [.record rec0, .tip (5, 50), .boundary 0 (5, 50) .fine, .take, .pin true none,
   .crash ⟨1, fun _ => false, fun _ => false, fun _ => false, fun n => if n = 0 then some ⟨[(5, 50)], none, none, none⟩ else none⟩,
   .cert cert0] ++ exportAll 0 (5, 50) ++ [.record rec1, .tip (9, 90), .cert cert1] ++ exportAll 1 (9, 90)

theorem goodRun_ok : (run exP goodRun).final 0 = some ⟨[(5, 50)], some (.whole 0), some [some rec0], some [some cert0]⟩ ∧
    (run exP goodRun).final 1 = some ⟨[(9, 90)], some (.whole 1), some [some rec0, some rec1], some [some cert0, some cert1]⟩ := by
  constructor <;> rfl

/-- The hypotheses of `export_succeeds` and of `increment_works` in one state. -/
theorem succeeds_example :
    let s := run exP (goodRun ++ [.record rec2, .tip (12, 120), .cert cert2])
    (∀ e, e < s.mark → s.certified exP e = true) ∧ (∀ m, s.last = some m → m < 2) ∧ s.final 2 = none ∧
    (∀ e, e ≤ 2 → s.certified exP e = true) ∧ s.queue = [] ∧ s.busy = none ∧ s.tip = some (12, 120) ∧
    exP.ready (12, 120) = true ∧ s.pair exP 2 = some (rec2, cert2) ∧
    s.tryAppend exP 2 = some ([some rec0, some rec1, some rec2], [some cert0, some cert1, some cert2]) := by
  intro s
  refine ⟨(run_inv exP _).mark, ?_, by rfl, ?_, by rfl, by rfl, by rfl, by rfl, by rfl, by rfl⟩
  · intro m hm
    have h1 : s.last = some 1 := by rfl
    rw [h1] at hm
    cases hm
    omega
  · intro e he
    rcases (by omega : e = 0 ∨ e = 1 ∨ e = 2) with rfl | rfl | rfl <;> rfl

def exTruth : Nat → Rec
  | 0 => rec0
  | 1 => rec1
  | _ => rec2

/-- Signatures 7 verify. -/
def exBls : Bls := ⟨fun _ _ _ => false, fun _ => none, fun x _ _ => decide (x = 7)⟩

/-- The hypotheses of `published_importable`. -/
theorem importable_example : (∀ r, Ev.record r ∈ goodRun → r = exTruth r.epoch) ∧
    (∀ c e, Ev.cert c ∈ goodRun → c.hash = exP.dig (exTruth e) →
      Ep.validAgainst exBls exP.dig e (exTruth e) c (parentOf exP.dig exTruth e) (expected exTruth {1} e) = true) ∧
    (∀ n b o, Ev.boundary n b o ∈ goodRun → (exTruth n).finalState = b) := by
  refine ⟨fun r h => ?_, fun c e h he => ?_, fun n b o h => ?_⟩
  · simp [goodRun, exportAll] at h
    rcases h with rfl | rfl <;> rfl
  · simp [goodRun, exportAll] at h
    match e with
    | 0 =>
      rcases h with rfl | rfl
      · decide
      · exact absurd he (by decide)
    | 1 =>
      rcases h with rfl | rfl
      · exact absurd he (by decide)
      · decide
    | e + 2 => rcases h with rfl | rfl <;> exact absurd he (show _ ≠ exDig rec2 by decide)
  · simp [goodRun, exportAll] at h
    rcases h with ⟨rfl, rfl, _⟩ | ⟨rfl, rfl, _⟩ <;> rfl

/-- The hypotheses of `late_lost`. -/
theorem late_example : Late (run exP [.record rec0, .tip (5, 50), .boundary 0 (5, 50) .fine, .tip (6, 60)]) 0 (5, 50) := by
  refine ⟨by rfl, ?_, ⟨(6, 60), by rfl, by decide⟩, ⟨0, by rfl, by decide⟩⟩
  intro j hj
  have h1 : (run exP [.record rec0, .tip (5, 50), .boundary 0 (5, 50) .fine, .tip (6, 60)]).job 0 = some ⟨.queued, (5, 50), 0⟩ := by rfl
  rw [h1] at hj
  cases hj
  exact ⟨rfl, rfl⟩

/-! ### What does not hold -/

/-- A crash of the machine after the bundle of epoch 0 has been published. -/
def tornRun : List Ev :=
  [.record rec0, .tip (5, 50), .cert cert0] ++ exportAll 0 (5, 50) ++
    [.crash ⟨1, fun _ => false, fun _ => false, fun _ => true, fun _ => none⟩]

/-- **A published bundle may hold a torn consensus pack for ever.** The copy of the pack is not synced before the rename, so
a crash may tear it under the final name; the directory is there, so the epoch is never exported again, and nothing but the
operator removes it. -/
theorem torn_for_ever (l : List Ev) (hl : ∀ e ∈ l, ¬ e.isPrune 0) :
    ((run exP tornRun).steps exP l).final 0 = some ⟨[(5, 50)], some .torn, some [some rec0], some [some cert0]⟩ :=
  published_durable l (by rfl) (by (intro h; cases h)) hl

def rec3 : Rec := ⟨3, [1], [1], 102, (20, 200), 0, 0⟩
def cert3 : Cert := ⟨103, 7, [0]⟩

/-- The entries of an earlier bundle in the wrong order. -/
def swapped : Dir := ⟨[(12, 120)], some (.whole 2), some [some rec1, some rec0, some rec2], some [some cert0, some cert1, some cert2]⟩

/-- **An earlier bundle in the wrong order is taken over.** Only the number of the entries and the last one are checked; the
importer refuses what comes of it, while the full rebuild, which is not tried, would be right. The code's comment says that
a reordered bundle is refused. -/
theorem reordered_accepted :
    (increment exP swapped rec3 cert3).isSome = true ∧
    ∀ (B : Bls) (certs : Nat → Option Cert) (g : Finset Nat), verifyChain B exDig certs [rec1, rec0, rec2, rec3] 0 0 g none = .error .records := by
  refine ⟨by rfl, fun B certs g => ?_⟩
  unfold verifyChain
  exact if_pos (by decide)

end Pub
end Verif
