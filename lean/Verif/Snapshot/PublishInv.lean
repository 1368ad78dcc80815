import Verif.Snapshot.Publish
import Verif.Epoch.EntryExample
import Mathlib.Tactic.Common
/-
Property C105: the invariant of the publication of snapshot bundles.
-/
namespace Verif
namespace Pub
open Ep (Rec Cert)

theorem upd_same {α : Type} (f : Nat → α) (n : Nat) (v : α) : upd f n v n = v := if_pos rfl

theorem upd_other {α : Type} (f : Nat → α) {n k : Nat} (v : α) (h : k ≠ n) : upd f n v k = f k := if_neg h

theorem upd_cases {α : Type} {f : Nat → α} {n k : Nat} {v x : α} (h : upd f n v k = x) :
    (k = n ∧ v = x) ∨ (k ≠ n ∧ f k = x) := by
  by_cases hk : k = n
  · subst hk
    rw [upd_same] at h
    exact Or.inl ⟨rfl, h⟩
  · rw [upd_other f v hk] at h
    exact Or.inr ⟨hk, h⟩

/-! ### The database -/

theorem pair_some {P : Params} {s : Sys} {e : Nat} {r : Rec} {c : Cert} (h : s.pair P e = some (r, c)) :
    s.recs[e]? = some r ∧ s.certs (P.dig r) = some c := by
  unfold Sys.pair at h
  obtain ⟨r', h1, h2⟩ := Option.bind_eq_some_iff.mp h
  obtain ⟨c', h3, h4⟩ := Option.map_eq_some_iff.mp h2
  cases h4
  exact ⟨h1, h3⟩

theorem pair_of {P : Params} {s : Sys} {e : Nat} {r : Rec} {c : Cert} (h1 : s.recs[e]? = some r)
    (h2 : s.certs (P.dig r) = some c) : s.pair P e = some (r, c) := by
  unfold Sys.pair
  rw [h1]
  show (s.certs (P.dig r)).map _ = _
  rw [h2]
  rfl

/-- The scan stops at the first epoch that is not certified. -/
theorem scan_spec (P : Params) (s : Sys) : ∀ (k e : Nat), e ≤ s.scan P e k ∧ s.scan P e k ≤ e + k ∧
    (∀ x, e ≤ x → x < s.scan P e k → s.certified P x = true) ∧
    (s.scan P e k < e + k → s.certified P (s.scan P e k) = false) := by
  intro k
  induction k with
  | zero =>
    intro e
    refine ⟨Nat.le_refl _, Nat.le_refl _, fun x h1 h2 => ?_, fun h => ?_⟩
    · change x < e at h2; omega
    · change e < e + 0 at h; omega
  | succ k ih =>
    intro e
    by_cases hc : s.certified P e = true
    · have he : s.scan P e (k + 1) = s.scan P (e + 1) k := if_pos hc
      rw [he]
      obtain ⟨h1, h2, h3, h4⟩ := ih (e + 1)
      refine ⟨by omega, by omega, fun x hx1 hx2 => ?_, fun h => h4 (by omega)⟩
      by_cases hx : x = e
      · rw [hx]; exact hc
      · exact h3 x (by omega) hx2
    · have he : s.scan P e (k + 1) = e := if_neg hc
      rw [he]
      refine ⟨Nat.le_refl _, by omega, fun x hx1 hx2 => by omega, fun _ => ?_⟩
      simpa using hc

/-- With a sound watermark the answer of the scan is the first epoch below the tip that is not certified. -/
theorem firstMissing_spec {P : Params} {s : Sys} (hm : ∀ e, e < s.mark → s.certified P e = true) (n : Nat) :
    (∀ e, e < (s.firstMissing P n).1 → s.certified P e = true) ∧
    (∀ m, (s.firstMissing P n).2 = some m → m < n ∧ s.certified P m = false ∧ ∀ e, e < m → s.certified P e = true) ∧
    ((s.firstMissing P n).2 = none → ∀ e, e < n → s.certified P e = true) := by
  unfold Sys.firstMissing
  dsimp only
  by_cases h : s.mark < n
  · rw [if_pos h]
    obtain ⟨h1, h2, h3, h4⟩ := scan_spec P s (n - s.mark) s.mark
    have hall : ∀ e, e < s.scan P s.mark (n - s.mark) → s.certified P e = true := fun e he => by
      by_cases hem : e < s.mark
      · exact hm e hem
      · exact h3 e (by omega) he
    refine ⟨fun e he => hall e (by omega), fun m hmm => ?_, fun hn e he => ?_⟩
    · split at hmm
      · rename_i hlt
        cases hmm
        exact ⟨hlt, h4 (by omega), hall⟩
      · cases hmm
    · split at hn
      · cases hn
      · exact hall e (by omega)
  · rw [if_neg h]
    refine ⟨fun e he => hm e (by omega), fun m hmm => ?_, fun _ e he => hm e (by omega)⟩
    rw [if_neg (Nat.lt_irrefl n)] at hmm
    cases hmm

/-! ### The packs -/

theorem appendPack_some {α : Type} {prev : Option (List (Option α))} {n : Nat} {ok : α → Bool} {v : α}
    {out : List (Option α)} (h : appendPack prev n ok v = some out) :
    ∃ l x, prev = some l ∧ l.all Option.isSome = true ∧ l.getLast? = some (some x) ∧ l.length = n ∧ ok x = true ∧
      out = l ++ [some v] := by
  unfold appendPack at h
  cases prev with
  | none => cases h
  | some l =>
    dsimp only at h
    by_cases ha : l.all Option.isSome = true
    · rw [if_pos ha] at h
      cases hg : l.getLast? with
      | none => rw [hg] at h; cases h
      | some y =>
        cases y with
        | none => rw [hg] at h; cases h
        | some x =>
          rw [hg] at h
          dsimp only at h
          by_cases hc : l.length = n ∧ ok x = true
          · rw [if_pos hc] at h
            cases h
            exact ⟨l, x, rfl, ha, hg, hc.1, hc.2, rfl⟩
          · rw [if_neg hc] at h; cases h
    · rw [if_neg ha] at h; cases h

theorem appendPack_of {α : Type} {l : List (Option α)} {n : Nat} {ok : α → Bool} {v x : α}
    (ha : l.all Option.isSome = true) (hg : l.getLast? = some (some x)) (hn : l.length = n) (hok : ok x = true) :
    appendPack (some l) n ok v = some (l ++ [some v]) := by
  unfold appendPack
  dsimp only
  rw [if_pos ha, hg]
  dsimp only
  rw [if_pos ⟨hn, hok⟩]

theorem bounded_some {P : Params} {s : Sys} {n : Nat} {rs : List (Option Rec)} {cs : List (Option Cert)}
    (h : s.bounded P n = some (rs, cs)) : ∃ l : List (Rec × Cert), l.length = n + 1 ∧
      (∀ i p, l[i]? = some p → s.pair P i = some p) ∧ rs = (l.map Prod.fst).map some ∧ cs = (l.map Prod.snd).map some := by
  unfold Sys.bounded at h
  obtain ⟨l, h1, h2⟩ := Option.map_eq_some_iff.mp h
  cases h2
  obtain ⟨h3, h4⟩ := Entry.mapM_getElem? _ _ _ h1
  rw [List.length_range] at h3
  refine ⟨l, h3.symm, fun i p hp => ?_, by (rw [List.map_map]; rfl), by (rw [List.map_map]; rfl)⟩
  have hi := (List.getElem?_eq_some_iff.mp hp).1
  obtain ⟨q, h5, h6⟩ := h4 i i (List.getElem?_range (by omega))
  rw [hp] at h6
  cases h6
  exact h5

theorem bounded_of {P : Params} {s : Sys} {n : Nat} (h : ∀ e, e ≤ n → s.certified P e = true) :
    ∃ rs cs, s.bounded P n = some (rs, cs) := by
  unfold Sys.bounded
  have key : ∀ l : List Nat, (∀ e ∈ l, s.certified P e = true) → ∃ out, l.mapM (s.pair P) = some out := by
    intro l
    induction l with
    | nil => intro _; exact ⟨[], rfl⟩
    | cons a l ih =>
      intro hl
      obtain ⟨out, ho⟩ := ih fun e he => hl e (List.mem_cons_of_mem _ he)
      have ha := hl a List.mem_cons_self
      unfold Sys.certified at ha
      obtain ⟨p, hp⟩ := Option.isSome_iff_exists.mp ha
      exact ⟨p :: out, by simp [List.mapM_cons, hp, ho]⟩
  obtain ⟨out, ho⟩ := key (List.range (n + 1)) fun e he => h e (by have := List.mem_range.mp he; omega)
  rw [ho]
  exact ⟨_, _, rfl⟩

/-! ### The invariant -/

/-- The directory of an export under way. -/
def JobDir (P : Params) (es : List Ev) (n : Nat) (j : Job) (t : Option Dir) : Prop :=
  match j.phase with
  | .queued => t = none
  | .walked => t = some ⟨[j.block], none, none, none⟩ ∧ Ev.tip j.block ∈ es ∧ P.ready j.block = true
  | .copied => t = some ⟨[j.block], some (.whole n), none, none⟩ ∧ Ev.tip j.block ∈ es ∧ P.ready j.block = true
  | .certified => t = some ⟨[j.block], some (.whole n), none, none⟩ ∧ Ev.tip j.block ∈ es ∧ P.ready j.block = true
  | .bundled => ∃ d, t = some d ∧ Complete P es n d

structure Inv (P : Params) (es : List Ev) (s : Sys) : Prop where
  stored : ∀ (i : Nat) (r : Rec), s.recs[i]? = some r → r.epoch = i ∧ Ev.record r ∈ es
  filed : ∀ (k : Nat) (c : Cert), s.certs k = some c → c.hash = k ∧ Ev.cert c ∈ es
  mark : ∀ e, e < s.mark → s.certified P e = true
  tipped : ∀ b, s.tip = some b → Ev.tip b ∈ es
  queueLen : s.queue.length ≤ requestQueue
  nodup : s.queue.Nodup
  busyOut : ∀ n, s.busy = some n → n ∉ s.queue
  waiting : ∀ n, n ∈ s.queue ∨ s.busy = some n → ∃ j, s.job n = some j ∧ j.phase = .queued
  closed : ∀ (n : Nat) (j : Job), s.job n = some j → ∃ m, s.last = some m ∧ n ≤ m
  asked : ∀ (n : Nat) (j : Job), s.job n = some j → ∃ o, Ev.boundary n j.block o ∈ es
  dirs : ∀ (n : Nat) (j : Job), s.job n = some j → JobDir P es n j (s.tmp n)
  done : ∀ (n : Nat) (d : Dir), s.final n = some d → Complete P es n d

theorem new_inv (P : Params) (es : List Ev) : Inv P es Sys.new :=
  ⟨fun _ _ h => by (cases h), fun _ _ h => by (cases h), fun _ h => by (cases h), fun _ h => by (cases h), Nat.zero_le _,
    List.nodup_nil, fun _ h => by (cases h), fun _ h => by (rcases h with h | h <;> cases h), fun _ _ h => by (cases h),
    fun _ _ h => by (cases h), fun _ _ h => by (cases h), fun _ _ h => by (cases h)⟩

/-- An export that is not waiting for the worker ends. -/
theorem Inv.drop {P : Params} {es : List Ev} {s : Sys} (h : Inv P es s) {n : Nat} {j : Job} (hj : s.job n = some j)
    (hp : j.phase ≠ .queued) (left : Option Dir) : Inv P es (s.drop n left) := by
  have hno : ∀ m, m ∈ s.queue ∨ s.busy = some m → m ≠ n := by
    intro m hm e
    subst e
    obtain ⟨j', h1, h2⟩ := h.waiting m hm
    rw [hj] at h1; cases h1
    exact hp h2
  have hjob : ∀ m j', (s.drop n left).job m = some j' → m ≠ n ∧ s.job m = some j' := by
    intro m j' hm
    rcases upd_cases hm with ⟨_, h2⟩ | h2
    · cases h2
    · exact h2
  refine { h with waiting := ?_, closed := ?_, asked := ?_, dirs := ?_ }
  · intro m hm
    obtain ⟨j', h1, h2⟩ := h.waiting m hm
    exact ⟨j', by (show upd s.job n none m = _; rw [upd_other _ _ (hno m hm)]; exact h1), h2⟩
  · intro m j' hm
    exact h.closed m j' (hjob m j' hm).2
  · intro m j' hm
    exact h.asked m j' (hjob m j' hm).2
  · intro m j' hm
    obtain ⟨h1, h2⟩ := hjob m j' hm
    show JobDir P es m j' (upd s.tmp n left m)
    rw [upd_other _ _ h1]
    exact h.dirs m j' h2

/-- The worker drops a request. -/
theorem Inv.dropBusy {P : Params} {es : List Ev} {s : Sys} (h : Inv P es s) {n : Nat} (hb : s.busy = some n)
    (left : Option Dir) : Inv P es { s.drop n left with busy := none } := by
  have hno : ∀ m, m ∈ s.queue → m ≠ n := fun m hm e => h.busyOut n hb (e ▸ hm)
  have hjob : ∀ m j', (s.drop n left).job m = some j' → m ≠ n ∧ s.job m = some j' := by
    intro m j' hm
    rcases upd_cases hm with ⟨_, h2⟩ | h2
    · cases h2
    · exact h2
  refine { h with busyOut := ?_, waiting := ?_, closed := ?_, asked := ?_, dirs := ?_ }
  · intro m hm; cases hm
  · intro m hm
    rcases hm with hm | hm
    · obtain ⟨j', h1, h2⟩ := h.waiting m (Or.inl hm)
      exact ⟨j', by (show upd s.job n none m = _; rw [upd_other _ _ (hno m hm)]; exact h1), h2⟩
    · cases hm
  · intro m j' hm
    exact h.closed m j' (hjob m j' hm).2
  · intro m j' hm
    exact h.asked m j' (hjob m j' hm).2
  · intro m j' hm
    obtain ⟨h1, h2⟩ := hjob m j' hm
    show JobDir P es m j' (upd s.tmp n left m)
    rw [upd_other _ _ h1]
    exact h.dirs m j' h2

/-- An export goes on. -/
theorem Inv.go {P : Params} {es : List Ev} {s : Sys} (h : Inv P es s) {n : Nat} {j j' : Job} (hj : s.job n = some j)
    (hq : n ∉ s.queue) (hb : s.busy ≠ some n) (hblock : j'.block = j.block) {t : Nat → Option Dir}
    (ht : ∀ m, m ≠ n → t m = s.tmp m) (hd : JobDir P es n j' (t n)) :
    Inv P es { s with job := upd s.job n (some j'), tmp := t } := by
  refine { h with waiting := ?_, closed := ?_, asked := ?_, dirs := ?_ }
  · intro m hm
    have hmn : m ≠ n := by
      rintro rfl
      rcases hm with hm | hm
      · exact hq hm
      · exact hb hm
    obtain ⟨x, h1, h2⟩ := h.waiting m hm
    exact ⟨x, by (show upd s.job n (some j') m = _; rw [upd_other _ _ hmn]; exact h1), h2⟩
  · intro m x hm
    rcases upd_cases hm with ⟨h1, _⟩ | ⟨_, h2⟩
    · subst h1; exact h.closed m j hj
    · exact h.closed m x h2
  · intro m x hm
    rcases upd_cases hm with ⟨h1, h2⟩ | ⟨_, h2⟩
    · subst h1
      cases h2
      rw [hblock]; exact h.asked m j hj
    · exact h.asked m x h2
  · intro m x hm
    rcases upd_cases hm with ⟨h1, h2⟩ | ⟨h1, h2⟩
    · subst h1
      cases h2
      exact hd
    · show JobDir P es m x (t m)
      rw [ht m h1]
      exact h.dirs m x h2

theorem Inv.out {P : Params} {es : List Ev} {s : Sys} (h : Inv P es s) {n : Nat} {j : Job} (hj : s.job n = some j)
    (hp : j.phase ≠ .queued) : n ∉ s.queue ∧ s.busy ≠ some n := by
  constructor
  · intro hm
    obtain ⟨j', h1, h2⟩ := h.waiting n (Or.inl hm)
    rw [hj] at h1; cases h1
    exact hp h2
  · intro hm
    obtain ⟨j', h1, h2⟩ := h.waiting n (Or.inr hm)
    rw [hj] at h1; cases h1
    exact hp h2

/-! ### The steps -/

theorem at_inv {P : Params} {es : List Ev} {s : Sys} (h : Inv P es s) {n : Nat} {p : Phase} {f : Job → Sys}
    (hf : ∀ j, s.job n = some j → j.phase = p → Inv P es (f j)) : Inv P es (s.at_ n p f) := by
  unfold Sys.at_
  cases hj : s.job n with
  | none => exact h
  | some j =>
    dsimp only
    split
    · rename_i hp
      exact hf j hj hp
    · exact h

theorem boundary_inv {P : Params} {es : List Ev} {s : Sys} (h : Inv P es s) {n : Nat} {b : Block} {o : Out}
    (he : Ev.boundary n b o ∈ es) : Inv P es (s.boundary P n b o) := by
  unfold Sys.boundary
  split
  · exact h
  · rename_i hl
    have hlast : ∀ m, s.last = some m → m < n := by
      intro m hm
      rw [hm] at hl
      simpa using hl
    have hnojob : s.job n = none := by
      cases hj : s.job n with
      | none => rfl
      | some j =>
        obtain ⟨m, h1, h2⟩ := h.closed n j hj
        have := hlast m h1
        omega
    have hcl : ∀ (k : Nat) (j : Job), s.job k = some j → ∃ m, some n = some m ∧ k ≤ m := by
      intro k j hj
      obtain ⟨m, h1, h2⟩ := h.closed k j hj
      have := hlast m h1
      exact ⟨n, rfl, by omega⟩
    have h1 : Inv P es { s with last := some n } := { h with closed := hcl }
    dsimp only
    split
    · exact h1
    · have hm : ∀ e, e < (({ s with last := some n } : Sys).firstMissing P n).1 → s.certified P e = true :=
        (firstMissing_spec (s := { s with last := some n }) h.mark n).1
      have h2 : Inv P es { s with last := some n, mark := (({ s with last := some n } : Sys).firstMissing P n).1 } :=
        { h1 with mark := hm }
      split
      · exact h2
      · have hdirs : ∀ (t : Option Dir) (k : Nat) (j : Job), s.job k = some j → JobDir P es k j (upd s.tmp n t k) := by
          intro t k j hj
          have hkn : k ≠ n := by
            rintro rfl
            rw [hnojob] at hj; cases hj
          rw [upd_other _ _ hkn]
          exact h.dirs k j hj
        cases o with
        | unsynced => exact h2
        | stuck left => exact { h2 with dirs := hdirs left }
        | fine =>
          dsimp only
          split
          · exact { h2 with dirs := hdirs none }
          · rename_i hroom
            have hnq : n ∉ s.queue := by
              intro hq
              obtain ⟨j, hj, _⟩ := h.waiting n (Or.inl hq)
              rw [hnojob] at hj; cases hj
            have hnb : s.busy ≠ some n := by
              intro hq
              obtain ⟨j, hj, _⟩ := h.waiting n (Or.inr hq)
              rw [hnojob] at hj; cases hj
            have hqueueLen : (s.queue ++ [n]).length ≤ requestQueue := by
              rw [List.length_append]
              change ¬ requestQueue ≤ s.queue.length at hroom
              simp only [List.length_singleton]
              omega
            have hnodup : (s.queue ++ [n]).Nodup := by
              rw [List.nodup_append]
              refine ⟨h.nodup, List.nodup_singleton n, fun a ha c hc e => ?_⟩
              rw [List.mem_singleton] at hc
              subst e
              subst hc
              exact hnq ha
            refine ⟨h.stored, h.filed, hm, h.tipped, hqueueLen, hnodup, ?_, ?_, ?_, ?_, ?_, h.done⟩
            · intro m hb hq
              rcases List.mem_append.mp hq with hq | hq
              · exact h.busyOut m hb hq
              · rw [List.mem_singleton] at hq
                subst hq
                exact hnb hb
            · intro m hq
              by_cases hmn : m = n
              · subst hmn
                exact ⟨_, upd_same _ _ _, rfl⟩
              · have hq' : m ∈ s.queue ∨ s.busy = some m := by
                  rcases hq with hq | hq
                  · rcases List.mem_append.mp hq with hq | hq
                    · exact Or.inl hq
                    · rw [List.mem_singleton] at hq
                      exact absurd hq hmn
                  · exact Or.inr hq
                obtain ⟨j, h3, h4⟩ := h.waiting m hq'
                exact ⟨j, by (show upd s.job n _ m = _; rw [upd_other _ _ hmn]; exact h3), h4⟩
            · intro k j hj
              rcases upd_cases hj with ⟨h3, _⟩ | ⟨_, h4⟩
              · exact ⟨n, rfl, Nat.le_of_eq h3⟩
              · exact hcl k j h4
            · intro k j hj
              rcases upd_cases hj with ⟨h3, h4⟩ | ⟨_, h4⟩
              · subst h3
                cases h4
                exact ⟨_, he⟩
              · exact h.asked k j h4
            · intro k j hj
              rcases upd_cases hj with ⟨h3, h4⟩ | ⟨_, h4⟩
              · subst h3
                cases h4
                exact upd_same _ _ _
              · exact hdirs none k j h4

theorem attempt_inv {P : Params} {es : List Ev} {s : Sys} (h : Inv P es s) {n : Nat} (hb : s.busy = some n) {j : Job}
    (hj : s.job n = some j) (disk : Bool) (left : Option Dir) : Inv P es (s.attempt P n j disk left) := by
  obtain ⟨j', hj', hph⟩ := h.waiting n (Or.inr hb)
  rw [hj] at hj'; cases hj'
  have htmp : s.tmp n = none := by
    have := h.dirs n j hj
    unfold JobDir at this
    rw [hph] at this
    exact this
  unfold Sys.attempt
  split
  · rename_i htip
    split
    · rename_i hr
      have h1 : Inv P es { s with busy := none } := by
        refine { h with busyOut := ?_, waiting := ?_ }
        · intro m hm; cases hm
        · intro m hm
          rcases hm with hm | hm
          · exact h.waiting m (Or.inl hm)
          · cases hm
      refine Inv.go (j' := { j with phase := .walked }) h1 hj (h.busyOut n hb) (fun e => by cases e) rfl
        (fun m hm => upd_other _ _ hm) ?_
      refine ⟨?_, h.tipped _ htip, hr.1⟩
      show upd s.tmp n _ n = _
      rw [upd_same, htmp]
      rfl
    · exact h.dropBusy hb left
  · split
    · refine { h with waiting := ?_, closed := ?_, asked := ?_, dirs := ?_ }
      · intro m hm
        by_cases hmn : m = n
        · subst hmn
          exact ⟨_, upd_same _ _ _, hph⟩
        · obtain ⟨x, h1, h2⟩ := h.waiting m hm
          exact ⟨x, by (show upd s.job n _ m = _; rw [upd_other _ _ hmn]; exact h1), h2⟩
      · intro m x hm
        rcases upd_cases hm with ⟨h1, _⟩ | ⟨_, h2⟩
        · subst h1; exact h.closed m j hj
        · exact h.closed m x h2
      · intro m x hm
        rcases upd_cases hm with ⟨h1, h2⟩ | ⟨_, h2⟩
        · subst h1
          cases h2
          exact h.asked m j hj
        · exact h.asked m x h2
      · intro m x hm
        rcases upd_cases hm with ⟨h1, h2⟩ | ⟨_, h2⟩
        · subst h1
          cases h2
          have := h.dirs m j hj
          unfold JobDir at this ⊢
          dsimp only
          rw [hph] at this ⊢
          exact this
        · exact h.dirs m x h2
    · exact h.dropBusy hb left

/-- What is written into a bundle. -/
theorem writeBundle_packs {P : Params} {es : List Ev} {s : Sys} (h : Inv P es s) {n : Nat} {inc full : Bool}
    {rs : List (Option Rec)} {cs : List (Option Cert)} (hw : s.writeBundle P n inc full = some (rs, cs)) :
    ∃ (rl : List Rec) (cl : List Cert), rs = rl.map some ∧ cs = cl.map some ∧ rl.length = n + 1 ∧ cl.length = n + 1 ∧
      (∀ (i : Nat) (r : Rec), rl[i]? = some r → r.epoch = i ∧ Ev.record r ∈ es) ∧
      (∀ (i : Nat) (r : Rec) (c : Cert), rl[i]? = some r → cl[i]? = some c → c.hash = P.dig r ∧ Ev.cert c ∈ es) := by
  have hfull : s.bounded P n = some (rs, cs) → ∃ (rl : List Rec) (cl : List Cert), rs = rl.map some ∧ cs = cl.map some ∧
      rl.length = n + 1 ∧ cl.length = n + 1 ∧
      (∀ (i : Nat) (r : Rec), rl[i]? = some r → r.epoch = i ∧ Ev.record r ∈ es) ∧
      (∀ (i : Nat) (r : Rec) (c : Cert), rl[i]? = some r → cl[i]? = some c → c.hash = P.dig r ∧ Ev.cert c ∈ es) := by
    intro hb
    obtain ⟨l, h1, h2, h3, h4⟩ := bounded_some hb
    refine ⟨l.map Prod.fst, l.map Prod.snd, h3, h4, by simpa using h1, by simpa using h1, ?_, ?_⟩
    · intro i r hr
      rw [List.getElem?_map] at hr
      obtain ⟨p, hp, hpr⟩ := Option.map_eq_some_iff.mp hr
      subst hpr
      exact h.stored i p.1 (pair_some (r := p.1) (c := p.2) (h2 i p hp)).1
    · intro i r c hr hc
      rw [List.getElem?_map] at hr hc
      obtain ⟨p, hp, hpr⟩ := Option.map_eq_some_iff.mp hr
      obtain ⟨q, hq, hqc⟩ := Option.map_eq_some_iff.mp hc
      rw [hp] at hq; cases hq
      subst hpr
      subst hqc
      exact h.filed _ _ (pair_some (r := p.1) (c := p.2) (h2 i p hp)).2
  unfold Sys.writeBundle at hw
  cases hinc : (if inc then s.tryAppend P n else none) with
  | none =>
    rw [hinc] at hw
    dsimp only at hw
    split at hw
    · exact hfull hw
    · cases hw
  | some o =>
    rw [hinc] at hw
    cases hw
    have ht : s.tryAppend P n = some (rs, cs) := by
      split at hinc
      · exact hinc
      · cases hinc
    unfold Sys.tryAppend at ht
    cases n with
    | zero => cases ht
    | succ m =>
      dsimp only at ht
      cases hf : s.final m with
      | none => rw [hf] at ht; cases ht
      | some prev =>
        rw [hf] at ht
        dsimp only at ht
        cases hp : s.pair P (m + 1) with
        | none => rw [hp] at ht; cases ht
        | some q =>
          obtain ⟨r, c⟩ := q
          rw [hp] at ht
          dsimp only at ht
          obtain ⟨hr1, hr2⟩ := pair_some hp
          obtain ⟨he1, he2⟩ := h.stored _ _ hr1
          obtain ⟨hc1, hc2⟩ := h.filed _ _ hr2
          obtain ⟨_, _, rl, cl, d1, d2, d3, d4, d5, d6⟩ := h.done m prev hf
          unfold increment at ht
          cases ha : appendPack prev.recs r.epoch (fun x => decide (x.epoch = r.epoch - 1) && decide (P.dig x = r.parent)) r with
          | none => rw [ha] at ht; cases ht
          | some rs' =>
            rw [ha] at ht
            dsimp only at ht
            cases hb : appendPack prev.certs r.epoch (fun x => decide (x.hash = r.parent)) c with
            | none => rw [hb] at ht; cases ht
            | some cs' =>
              rw [hb] at ht
              cases ht
              obtain ⟨l1, _, g1, _, _, _, _, g2⟩ := appendPack_some ha
              obtain ⟨l2, _, g3, _, _, _, _, g4⟩ := appendPack_some hb
              rw [d1] at g1; cases g1
              rw [d2] at g3; cases g3
              have hget : ∀ {α : Type} (l : List α) (x y : α) (i : Nat), l.length = m + 1 → (l ++ [x])[i]? = some y →
                  (i < m + 1 ∧ l[i]? = some y) ∨ (i = m + 1 ∧ x = y) := by
                intro α l x y i hl hy
                by_cases hi : i < l.length
                · rw [List.getElem?_append_left hi] at hy
                  exact Or.inl ⟨by omega, hy⟩
                · have hi2 := (List.getElem?_eq_some_iff.mp hy).1
                  rw [List.length_append, List.length_singleton] at hi2
                  have : i = l.length := by omega
                  subst this
                  rw [List.getElem?_append_right (Nat.le_refl _), Nat.sub_self] at hy
                  cases hy
                  exact Or.inr ⟨hl, rfl⟩
              refine ⟨rl ++ [r], cl ++ [c], by simp [g2], by simp [g4], by simp [d3], by simp [d4], ?_, ?_⟩
              · intro i x hx
                rcases hget rl r x i d3 hx with ⟨_, h1⟩ | ⟨h1, h2⟩
                · exact d5 i x h1
                · subst h2
                  rw [h1]
                  exact ⟨he1, he2⟩
              · intro i x y hx hy
                rcases hget rl r x i d3 hx with ⟨h0, h1⟩ | ⟨h1, h2⟩
                · rcases hget cl c y i d4 hy with ⟨_, h3⟩ | ⟨h3, _⟩
                  · exact d6 i x y h1 h3
                  · omega
                · rcases hget cl c y i d4 hy with ⟨h3, _⟩ | ⟨_, h3⟩
                  · omega
                  · subst h2
                    subst h3
                    exact ⟨hc1, hc2⟩

theorem found_done {P : Params} {es : List Ev} {s : Sys} (h : Inv P es s) {c : Crash} (he : Ev.crash c ∈ es) {n : Nat}
    {d : Dir} (hd : s.found c n = some d) : Complete P es n d := by
  unfold Sys.found at hd
  split at hd
  · split at hd
    · cases hd
    · split at hd
      · obtain ⟨d', h1, h2⟩ := Option.map_eq_some_iff.mp hd
        subst h2
        have h3 := h.done n d' h1
        exact ⟨h3.state, Or.inr ⟨rfl, _, he, trivial⟩, h3.packs⟩
      · exact h.done n d hd
  · exact h.done n d hd

theorem step_inv {P : Params} {es : List Ev} {s : Sys} (h : Inv P es s) {e : Ev} (he : e ∈ es) : Inv P es (s.step P e) := by
  cases e with
  | record r =>
    show Inv P es (if r.epoch = s.recs.length then { s with recs := s.recs ++ [r] } else s)
    split
    · rename_i hr
      refine { h with stored := ?_, mark := ?_ }
      · intro i x hx
        by_cases hi : i < s.recs.length
        · change (s.recs ++ [r])[i]? = some x at hx
          rw [List.getElem?_append_left hi] at hx
          exact h.stored i x hx
        · have hi2 := (List.getElem?_eq_some_iff.mp hx).1
          change i < (s.recs ++ [r]).length at hi2
          rw [List.length_append, List.length_singleton] at hi2
          have hil : i = s.recs.length := by omega
          subst hil
          change (s.recs ++ [r])[s.recs.length]? = some x at hx
          rw [List.getElem?_append_right (Nat.le_refl _), Nat.sub_self] at hx
          cases hx
          exact ⟨hr, he⟩
      · intro k hk
        have h1 := h.mark k hk
        unfold Sys.certified at h1 ⊢
        obtain ⟨⟨x, y⟩, hp⟩ := Option.isSome_iff_exists.mp h1
        obtain ⟨h2, h3⟩ := pair_some hp
        refine Option.isSome_iff_exists.mpr ⟨(x, y), pair_of ?_ h3⟩
        show (s.recs ++ [r])[k]? = some x
        rw [List.getElem?_append_left (List.getElem?_eq_some_iff.mp h2).1]
        exact h2
    · exact h
  | cert c =>
    show Inv P es (if (s.certs c.hash).isSome = true then s else { s with certs := upd s.certs c.hash (some c) })
    split
    · exact h
    · rename_i hc
      refine { h with filed := ?_, mark := ?_ }
      · intro k x hx
        rcases upd_cases hx with ⟨h1, h2⟩ | ⟨_, h2⟩
        · cases h2
          exact ⟨h1.symm, he⟩
        · exact h.filed k x h2
      · intro k hk
        have h1 := h.mark k hk
        unfold Sys.certified at h1 ⊢
        obtain ⟨⟨x, y⟩, hp⟩ := Option.isSome_iff_exists.mp h1
        obtain ⟨h2, h3⟩ := pair_some hp
        refine Option.isSome_iff_exists.mpr ⟨(x, y), pair_of h2 ?_⟩
        show upd s.certs c.hash (some c) (P.dig x) = some y
        rw [upd_other]
        · exact h3
        · intro e
          rw [e] at h3
          rw [h3] at hc
          exact hc rfl
  | tip b =>
    show Inv P es (if _ then { s with tip := some b } else s)
    split
    · refine { h with tipped := ?_ }
      intro x hx
      cases hx
      exact he
    · exact h
  | boundary n b o => exact boundary_inv h he
  | take =>
    unfold Sys.step
    dsimp only
    split
    · rename_i n q hb hq
      have hnd := h.nodup
      rw [hq, List.nodup_cons] at hnd
      refine { h with queueLen := ?_, nodup := hnd.2, busyOut := ?_, waiting := ?_ }
      · have := h.queueLen
        rw [hq, List.length_cons] at this
        show q.length ≤ requestQueue
        omega
      · intro m hm
        cases hm
        exact hnd.1
      · intro m hm
        refine h.waiting m (Or.inl ?_)
        rw [hq]
        rcases hm with hm | hm
        · exact List.mem_cons_of_mem _ hm
        · cases hm
          exact List.mem_cons_self
    · exact h
  | pin disk left =>
    show Inv P es (match s.busy with
      | some n => match s.job n with
        | some j => s.attempt P n j disk left
        | none => s
      | none => s)
    cases hb : s.busy with
    | none => exact h
    | some n =>
      dsimp only
      cases hj : s.job n with
      | none => exact h
      | some j => exact attempt_inv h hb hj disk left
  | copy n disk left =>
    refine at_inv h fun j hj hp => ?_
    have hq : j.phase ≠ .queued := by rw [hp]; exact fun e => by cases e
    have hd := h.dirs n j hj
    unfold JobDir at hd
    rw [hp] at hd
    obtain ⟨h1, h2, h3⟩ := hd
    unfold Sys.copied
    split
    · refine Inv.go (j' := { j with phase := .copied }) h hj (h.out hj hq).1 (h.out hj hq).2 rfl
        (fun m hm => upd_other _ _ hm) ?_
      rw [upd_same]
      refine ⟨?_, h2, h3⟩
      rw [h1]
      rfl
    · exact h.drop hj hq left
  | await n late left =>
    refine at_inv h fun j hj hp => ?_
    have hq : j.phase ≠ .queued := by rw [hp]; exact fun e => by cases e
    have hd := h.dirs n j hj
    unfold JobDir at hd
    rw [hp] at hd
    unfold Sys.awaited
    cases hr : s.recs[n]? with
    | none => exact h.drop hj hq left
    | some r =>
      dsimp only
      split
      · exact Inv.go (j' := { j with phase := .certified }) h hj (h.out hj hq).1 (h.out hj hq).2 rfl (fun m _ => rfl) hd
      · split
        · exact h.drop hj hq left
        · exact h
  | bundle n inc full left =>
    refine at_inv h fun j hj hp => ?_
    have hq : j.phase ≠ .queued := by rw [hp]; exact fun e => by cases e
    have hd := h.dirs n j hj
    unfold JobDir at hd
    rw [hp] at hd
    obtain ⟨h1, h2, h3⟩ := hd
    unfold Sys.bundled
    cases hw : s.writeBundle P n inc full with
    | none => exact h.drop hj hq left
    | some o =>
      obtain ⟨rs, cs⟩ := o
      dsimp only
      refine Inv.go (j' := { j with phase := .bundled }) h hj (h.out hj hq).1 (h.out hj hq).2 rfl
        (fun m hm => upd_other _ _ hm) ?_
      rw [upd_same, h1]
      obtain ⟨rl, cl, g1, g2, g3, g4, g5, g6⟩ := writeBundle_packs h hw
      obtain ⟨o, ho⟩ := h.asked n j hj
      exact ⟨_, rfl, ⟨j.block, o, rfl, ho, h2, h3⟩, Or.inl rfl, rl, cl, by rw [← g1], by rw [← g2], g3, g4, g5, g6⟩
  | rename n disk left =>
    refine at_inv h fun j hj hp => ?_
    have hq : j.phase ≠ .queued := by rw [hp]; exact fun e => by cases e
    have hd := h.dirs n j hj
    unfold JobDir at hd
    rw [hp] at hd
    obtain ⟨d, h1, h2⟩ := hd
    unfold Sys.renamed
    split
    · refine { (h.drop hj hq none) with done := ?_ }
      intro m x hx
      rcases upd_cases hx with ⟨h3, h4⟩ | ⟨_, h4⟩
      · subst h3
        rw [h1] at h4
        cases h4
        exact h2
      · exact h.done m x h4
    · exact h.drop hj hq left
  | prune n =>
    refine { h with done := ?_ }
    intro m x hx
    rcases upd_cases hx with ⟨_, h4⟩ | ⟨_, h4⟩
    · cases h4
    · exact h.done m x h4
  | crash c =>
    refine ⟨?_, ?_, ?_, h.tipped, Nat.zero_le _, List.nodup_nil, fun _ hx => by (cases hx), fun _ hx => by
      (rcases hx with hx | hx <;> cases hx), fun _ _ hx => by (cases hx), fun _ _ hx => by (cases hx),
      fun _ _ hx => by (cases hx), ?_⟩
    · intro i x hx
      refine h.stored i x ?_
      change (s.recs.take c.kept)[i]? = some x at hx
      rw [List.getElem?_take] at hx
      split at hx
      · exact hx
      · cases hx
    · intro k x hx
      change (if c.lost k then none else s.certs k) = some x at hx
      split at hx
      · cases hx
      · exact h.filed k x hx
    · intro k hk
      exact (firstMissing_spec (P := P) (s := { s.crash P c with mark := 0 }) (fun e he' => absurd he' (Nat.not_lt_zero e))
        (s.recs.take c.kept).length).1 k hk
    · intro n d hd
      exact found_done h he hd

theorem steps_inv {P : Params} {es : List Ev} : ∀ (l : List Ev) {s : Sys}, (∀ e ∈ l, e ∈ es) → Inv P es s →
    Inv P es (s.steps P l)
  | [], _, _, h => h
  | e :: l, _, hl, h => steps_inv l (fun x hx => hl x (List.mem_cons_of_mem _ hx)) (step_inv h (hl e List.mem_cons_self))

theorem run_inv (P : Params) (es : List Ev) : Inv P es (run P es) := steps_inv es (fun _ h => h) (new_inv P es)

end Pub
end Verif
