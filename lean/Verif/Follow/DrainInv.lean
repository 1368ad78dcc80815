import Verif.Follow.Drain
/- Property C77: invariants of the follower. -/
namespace Verif
namespace Follow

variable {D S : Type} [DecidableEq D]

/-- The outputs with numbers `a+1 .. b`. -/
def World.seg (w : World D S) (a b : Nat) : List (Hdr D S) := (List.range' (a + 1) (b - a)).map w.chain

structure Inv (w : World D S) (b : Nat) (s : Node D S) : Prop where
  cache : ∀ n h, s.cache n = some h → h = w.chain n
  pack : ∀ n h, s.pack n = some h → h = w.chain n
  walks : ∀ x ∈ s.walks, x.hash = w.dig (w.chain x.num) ∧ x.num ≤ x.top ∧ x.floor ≤ x.num ∧ x.run ≤ s.run
  last : s.last = w.chain s.last.num
  base : b ≤ s.base ∧ s.base ≤ s.latest
  held : ∀ k, k ≤ s.latest → s.pack k = some (w.chain k)
  next : s.latest < s.next
  rest : ∀ k, s.latest < k → k < s.next → s.pack k = some (w.chain k)
  ep : s.ended = false ∨ s.queue ≠ [] → ∀ k, s.latest < k → w.ep (w.chain k).sub ≤ s.epoch → w.ep (w.chain k).sub = s.epoch ∧ (s.opened = true ∨ k < s.next)
  qTrue : ∀ h ∈ s.queue, h = w.chain h.num ∧ s.latest < h.num ∧ h.num ≤ s.last.num ∧ w.ep h.sub ≤ s.epoch
  qOrd : s.queue.Pairwise (fun a b => a.num < b.num)
  qAll : s.lost = false → s.queue = w.seg s.latest s.last.num
  lost : s.lost = true → s.everLost = true
  failed : s.failed = true → s.lost = true
  sTrue : ∀ h ∈ s.saved, h = w.chain h.num ∧ s.base < h.num ∧ h.num ≤ s.latest
  sOrd : s.saved.Pairwise (fun a b => a.num < b.num)
  sAll : s.everLost = false → s.saved = w.seg s.base s.latest
  fill : ∀ x ∈ s.walks, x.run = s.run → ∀ k, x.num < k → k ≤ x.top → (resolve s.cache s.pack k).isSome ∨ k ≤ s.last.num

theorem seg_snoc (w : World D S) {a c : Nat} (h : a ≤ c) : w.seg a (c + 1) = w.seg a c ++ [w.chain (c + 1)] := by
  unfold World.seg
  rw [show c + 1 - a = (c - a) + 1 by omega, List.range'_concat, List.map_append]
  congr 2
  simp only [List.map_cons, List.map_nil]
  congr 2
  omega

theorem seg_cons (w : World D S) {a c : Nat} (h : a < c) : w.seg a c = w.chain (a + 1) :: w.seg (a + 1) c := by
  unfold World.seg
  rw [show c - a = (c - (a + 1)) + 1 by omega, List.range'_succ, List.map_cons]

theorem seg_nil (w : World D S) {a c : Nat} (h : c ≤ a) : w.seg a c = [] := by
  unfold World.seg
  rw [show c - a = 0 by omega]
  rfl

theorem put_same {V : Type} (f : Nat → Option V) (k : Nat) (v : Option V) : put f k v k = v := by
  unfold put; rw [if_pos rfl]

theorem put_ne {V : Type} (f : Nat → Option V) {k j : Nat} (v : Option V) (h : j ≠ k) : put f k v j = f j := by
  unfold put; rw [if_neg h]

theorem resolve_some {c p : Nat → Option (Hdr D S)} {n : Nat} : (resolve c p n).isSome ↔ (c n).isSome ∨ (p n).isSome := by
  unfold resolve
  cases c n <;> simp

theorem resolve_true {w : World D S} {b : Nat} {s : Node D S} (i : Inv w b s) {n : Nat} {h : Hdr D S}
    (e : resolve s.cache s.pack n = some h) : h = w.chain n := by
  unfold resolve at e
  cases hc : s.cache n with
  | none => rw [hc, Option.none_or] at e; exact i.pack n h e
  | some x =>
    rw [hc, Option.some_or] at e
    injection e with e
    subst e
    exact i.cache n x hc

/-! ### The walk -/

theorem after_ok {w : World D S} (ok : w.Ok) (x : Walk D) {n : Nat} (hx : x.num = n) (hn : x.num ≤ x.top) :
    ∀ y ∈ x.after n (w.chain n).parent, y.hash = w.dig (w.chain y.num) ∧ y.num ≤ y.top ∧ y.floor ≤ y.num ∧ y.run = x.run ∧
      y.top = x.top ∧ y.floor = x.floor ∧ y.num + 1 = n := by
  intro y hy
  unfold Walk.after at hy
  split at hy
  · rename_i hpos
    unfold Walk.down at hy
    split at hy
    · cases hy
    · rename_i hf
      rw [List.mem_singleton] at hy
      subst hy
      dsimp only
      obtain ⟨m, rfl⟩ : ∃ m, n = m + 1 := ⟨n - 1, by omega⟩
      rw [ok.link m]
      simp only [Nat.add_sub_cancel] at hf ⊢
      exact ⟨trivial, by omega, by omega, trivial, trivial, trivial, trivial⟩
  · cases hy

/-- One round of a walk: the cache stays true, keeps what it has, and what the walk has passed is there. -/
theorem fetchOne_ok {w : World D S} (ok : w.Ok) {cache pack : Nat → Option (Hdr D S)}
    (hc : ∀ n h, cache n = some h → h = w.chain n) (x : Walk D) (hx : x.hash = w.dig (w.chain x.num)) (hn : x.num ≤ x.top)
    (hf : x.floor ≤ x.num) (r : Option (Hdr D S)) :
    (∀ n h, (fetchOne w cache pack x r).2 n = some h → h = w.chain n) ∧
    (∀ n, (cache n).isSome → ((fetchOne w cache pack x r).2 n).isSome) ∧
    (∀ y ∈ (fetchOne w cache pack x r).1, y.hash = w.dig (w.chain y.num) ∧ y.num ≤ y.top ∧ y.floor ≤ y.num ∧ y.run = x.run ∧
      y.top = x.top ∧ y.floor = x.floor ∧ y.num ≤ x.num ∧
      ∀ k, y.num < k → k ≤ x.num → ((fetchOne w cache pack x r).2 k).isSome) ∧
    ((fetchOne w cache pack x r).1 = [] → (pack x.num).isSome ∨
      (((fetchOne w cache pack x r).2 x.num).isSome ∧ x.num ≤ x.floor)) := by
  unfold fetchOne
  split
  · rename_i hp
    refine ⟨hc, fun n h => h, fun y hy => (by cases hy), fun _ => .inl hp⟩
  · rename_i hp
    cases e : cache x.num with
    | some h =>
      dsimp only
      have hh := hc _ _ e
      have hnum : h.num = x.num := by rw [hh]; exact ok.num _
      refine ⟨hc, fun n h => h, ?_, ?_⟩
      · intro y hy
        rw [hnum, hh] at hy
        obtain ⟨h1, h2, h3, h4, h5, h6, h7⟩ := after_ok ok x rfl hn y hy
        refine ⟨h1, h2, h3, h4, h5, h6, by omega, ?_⟩
        intro k hk1 hk2
        obtain rfl : k = x.num := by omega
        rw [e]; rfl
      · intro hnil
        right
        refine ⟨by rw [e]; rfl, ?_⟩
        unfold Walk.after at hnil
        split at hnil
        · unfold Walk.down at hnil
          split at hnil
          · omega
          · cases hnil
        · omega
    | none =>
      dsimp only
      cases r with
      | none =>
        dsimp only
        refine ⟨hc, fun n h => h, ?_, fun h => (by cases h)⟩
        intro y hy
        rw [List.mem_singleton] at hy
        subst hy
        exact ⟨hx, hn, hf, rfl, rfl, rfl, Nat.le_refl _, fun k h1 h2 => by omega⟩
      | some h =>
        dsimp only
        split
        · rename_i hd
          have hh : h = w.chain x.num := ok.dig_inj (hd.trans hx)
          dsimp only
          refine ⟨?_, ?_, ?_, ?_⟩
          · intro n g hg
            by_cases hk : n = x.num
            · subst hk
              rw [put_same] at hg
              injection hg with hg
              rw [← hg, hh]
            · rw [put_ne _ _ hk] at hg; exact hc n g hg
          · intro n hs
            by_cases hk : n = x.num
            · subst hk; rw [put_same]; rfl
            · rw [put_ne _ _ hk]; exact hs
          · intro y hy
            rw [hh] at hy
            obtain ⟨h1, h2, h3, h4, h5, h6, h7⟩ := after_ok ok x rfl hn y hy
            refine ⟨h1, h2, h3, h4, h5, h6, by omega, ?_⟩
            intro k hk1 hk2
            obtain rfl : k = x.num := by omega
            rw [put_same]; rfl
          · intro hnil
            right
            refine ⟨by rw [put_same]; rfl, ?_⟩
            unfold Walk.after at hnil
            split at hnil
            · unfold Walk.down at hnil
              split at hnil
              · omega
              · cases hnil
            · omega
        · refine ⟨hc, fun n h => h, ?_, fun h => (by cases h)⟩
          intro y hy
          rw [List.mem_singleton] at hy
          subst hy
          exact ⟨hx, hn, hf, rfl, rfl, rfl, Nat.le_refl _, fun k h1 h2 => by omega⟩

/-! ### Steps -/

theorem inv_boot {w : World D S} (ok : w.Ok) (b : Nat) : Inv w b (boot w b) where
  cache := fun n h e => by cases e
  pack := fun n h e => by
    unfold boot at e; dsimp only at e
    split at e
    · injection e with e; exact e.symm
    · cases e
  walks := fun x hx => by cases hx
  last := by show w.chain b = w.chain (w.chain b).num; rw [ok.num]
  base := ⟨Nat.le_refl _, Nat.le_refl _⟩
  held := fun k hk => if_pos hk
  next := Nat.lt_succ_self _
  rest := fun k h1 h2 => by unfold boot at h1 h2; dsimp only at h1 h2; omega
  ep := fun h => by
    rcases h with h | h
    · cases h
    · exact absurd rfl h
  qTrue := fun h hh => by cases hh
  qOrd := .nil
  qAll := fun _ => by
    show [] = w.seg b (w.chain b).num
    rw [ok.num, seg_nil w (Nat.le_refl _)]
  lost := fun h => h
  failed := fun h => h
  sTrue := fun h hh => by cases hh
  sOrd := .nil
  sAll := fun _ => (seg_nil w (Nat.le_refl _)).symm
  fill := fun x hx => by cases hx

/-- A step that only changes what the walks are. -/
theorem Inv.withWalks {w : World D S} {b : Nat} {s : Node D S} (i : Inv w b s) (ws : List (Walk D))
    (h : ∀ x ∈ ws, x.hash = w.dig (w.chain x.num) ∧ x.num ≤ x.top ∧ x.floor ≤ x.num ∧ x.run ≤ s.run)
    (hf : ∀ x ∈ ws, x.run = s.run → ∀ k, x.num < k → k ≤ x.top → (resolve s.cache s.pack k).isSome ∨ k ≤ s.last.num) :
    Inv w b { s with walks := ws } :=
  { i with walks := h, fill := hf }

theorem drainOne_inv {w : World D S} (ok : w.Ok) {b : Nat} {s : Node D S} (i : Inv w b s) (he : s.ended = false) :
    Inv w b (drainOne w s) := by
  unfold drainOne
  cases e : resolve s.cache s.pack (s.last.num + 1) with
  | none => exact i
  | some h =>
    have hh : h = w.chain (s.last.num + 1) := resolve_true i e
    have hnum : h.num = s.last.num + 1 := by rw [hh]; exact ok.num _
    have hcache : ∀ n g, put s.cache (s.last.num + 1) none n = some g → g = w.chain n := by
      intro n g hg
      by_cases hk : n = s.last.num + 1
      · rw [hk, put_same] at hg; cases hg
      · rw [put_ne _ _ hk] at hg; exact i.cache n g hg
    have hfill : ∀ x ∈ s.walks, x.run = s.run → ∀ k, x.num < k → k ≤ x.top →
        (resolve (put s.cache (s.last.num + 1) none) s.pack k).isSome ∨ k ≤ h.num := by
      intro x hx hr k h1 h2
      by_cases hk : k = s.last.num + 1
      · right; omega
      · rcases i.fill x hx hr k h1 h2 with h3 | h3
        · left
          rw [resolve_some] at h3 ⊢
          rw [put_ne _ _ hk]; exact h3
        · right; omega
    dsimp only
    split
    · exact { i with ep := fun _ => i.ep (.inl he) }
    · rename_i hep
      split
      · rename_i hne
        exfalso
        apply hne
        have hl := ok.link s.last.num
        show _ = w.H h.parent h.sub h.num
        rw [hnum, hh, hl, ← i.last]
      · split
        · rename_i _ hle
          refine { i with cache := hcache, last := by dsimp only; rw [hnum]; exact hh, qTrue := ?_, qAll := ?_, fill := hfill }
          · intro g hg
            obtain ⟨h1, h2, h3, h4⟩ := i.qTrue g hg
            exact ⟨h1, h2, by dsimp only; omega, h4⟩
          · intro hl
            dsimp only
            rw [i.qAll hl, seg_nil w (show h.num ≤ s.latest from hle), seg_nil w (by omega)]
        · rename_i _ hgt
          refine { i with cache := hcache, last := by dsimp only; rw [hnum]; exact hh, qTrue := ?_, qOrd := ?_, qAll := ?_,
                          fill := hfill, ep := fun _ => i.ep (.inl he) }
          · intro g hg
            dsimp only at hg ⊢
            rcases List.mem_append.mp hg with hg | hg
            · obtain ⟨h1, h2, h3, h4⟩ := i.qTrue g hg
              exact ⟨h1, h2, by omega, h4⟩
            · rw [List.mem_singleton] at hg
              subst hg
              exact ⟨by rw [hnum]; exact hh, by omega, Nat.le_refl _, by omega⟩
          · dsimp only
            rw [List.pairwise_append]
            refine ⟨i.qOrd, List.pairwise_singleton _ _, ?_⟩
            intro x hx y hy
            rw [List.mem_singleton] at hy
            subst hy
            have := (i.qTrue x hx).2.2.1
            omega
          · intro hl
            dsimp only
            rw [i.qAll hl, hnum, seg_snoc w (by omega), ← hh]

theorem saveOne_inv {w : World D S} (ok : w.Ok) {b : Nat} {s : Node D S} (i : Inv w b s) : Inv w b (saveOne w s) := by
  unfold saveOne
  cases e : s.queue with
  | nil => exact i
  | cons h q =>
    dsimp only
    have hmem : h ∈ s.queue := by rw [e]; simp
    obtain ⟨h1, h2, h3, h4⟩ := i.qTrue h hmem
    have hord := i.qOrd
    rw [e, List.pairwise_cons] at hord
    obtain ⟨hep, hop⟩ := i.ep (.inr (by rw [e]; simp)) h.num h2 (by rw [← h1]; exact h4)
    rw [← h1] at hep
    have hnil : s.lost = false → h.num = s.latest + 1 ∧ q = w.seg h.num s.last.num := by
      intro hl
      have := i.qAll hl
      rw [e, seg_cons w (by omega)] at this
      injection this with t1 t2
      have : h.num = s.latest + 1 := by rw [t1]; exact ok.num _
      rw [this]
      exact ⟨rfl, t2⟩
    have hq : ∀ g ∈ q, g = w.chain g.num ∧ h.num < g.num ∧ g.num ≤ s.last.num ∧ w.ep g.sub ≤ s.epoch := by
      intro g hg
      obtain ⟨a1, a2, a3, a4⟩ := i.qTrue g (by rw [e]; simp [hg])
      exact ⟨a1, hord.1 g hg, a3, a4⟩
    have hsaved : ∀ g ∈ s.saved ++ [h], g = w.chain g.num ∧ s.base < g.num ∧ g.num ≤ h.num := by
      intro g hg
      rcases List.mem_append.mp hg with hg | hg
      · obtain ⟨a1, a2, a3⟩ := i.sTrue g hg
        exact ⟨a1, a2, by omega⟩
      · rw [List.mem_singleton] at hg; subst hg
        have := i.base.2
        exact ⟨h1, by omega, Nat.le_refl _⟩
    have hsord : (s.saved ++ [h]).Pairwise (fun a b => a.num < b.num) := by
      rw [List.pairwise_append]
      refine ⟨i.sOrd, List.pairwise_singleton _ _, ?_⟩
      intro x hx y hy
      rw [List.mem_singleton] at hy; subst hy
      have := (i.sTrue x hx).2.2
      omega
    have hsall : s.everLost = false → s.saved ++ [h] = w.seg s.base h.num := by
      intro hl
      have hl' : s.lost = false := by
        cases hx : s.lost with
        | false => rfl
        | true => rw [i.lost hx] at hl; cases hl
      rw [i.sAll hl, (hnil hl').1, seg_snoc w i.base.2, ← (hnil hl').1, ← h1]
    rw [if_neg (show ¬ w.ep h.sub > s.epoch by omega), if_neg (show ¬ h.num ≤ s.latest by omega),
      if_neg (show ¬ w.ep h.sub ≠ s.epoch by omega)]
    split
    · rename_i hlt
      refine { i with base := ⟨i.base.1, by have := i.base.2; dsimp only; omega⟩, held := ?_, next := hlt, rest := ?_, ep := ?_,
                      qTrue := hq, qOrd := hord.2, qAll := fun hl => (hnil hl).2, sTrue := hsaved, sOrd := hsord, sAll := hsall }
      · intro k hk
        dsimp only at hk ⊢
        by_cases hk2 : k ≤ s.latest
        · exact i.held k hk2
        · exact i.rest k (by omega) (by omega)
      · intro k hk1 hk2
        dsimp only at hk1 hk2
        exact i.rest k (by omega) hk2
      · intro hh k hk1 hk2
        dsimp only at hk1
        exact i.ep (.inr (by rw [e]; simp)) k (by omega) hk2
    · rename_i hge
      split
      · rename_i ho
        have hput : ∀ k g, put s.pack h.num (some h) k = some g → g = w.chain k := by
          intro k g hg
          by_cases hk : k = h.num
          · rw [hk, put_same] at hg; injection hg with hg; rw [← hg, hk]; exact h1
          · rw [put_ne _ _ hk] at hg; exact i.pack k g hg
        refine { i with pack := hput, base := ⟨i.base.1, by have := i.base.2; dsimp only; omega⟩, held := ?_,
                        next := by dsimp only; omega, rest := ?_, ep := ?_, qTrue := hq, qOrd := hord.2, qAll := fun hl => (hnil hl).2,
                        sTrue := hsaved, sOrd := hsord, sAll := hsall, fill := ?_ }
        · intro k hk
          dsimp only at hk ⊢
          by_cases hk3 : k = h.num
          · rw [hk3, put_same, ← h1]
          · rw [put_ne _ _ hk3]
            by_cases hk2 : k ≤ s.latest
            · exact i.held k hk2
            · exact i.rest k (by omega) (by omega)
        · intro k hk1 hk2
          dsimp only at hk1 hk2
          omega
        · intro hh k hk1 hk2
          dsimp only at hk1
          obtain ⟨t1, t2⟩ := i.ep (.inr (by rw [e]; simp)) k (by omega) hk2
          exact ⟨t1, .inl ho.1⟩
        · intro x hx hr k hk1 hk2
          rcases i.fill x hx hr k hk1 hk2 with t | t
          · left
            rw [resolve_some] at t ⊢
            rcases t with t | t
            · exact .inl t
            · right
              dsimp only
              by_cases hk3 : k = h.num
              · rw [hk3, put_same]; rfl
              · rw [put_ne _ _ hk3]; exact t
          · exact .inr t
      · rename_i hno
        have hlost : s.lost = true := by
          cases hl : s.lost with
          | true => rfl
          | false =>
            exfalso
            have h5 := (hnil hl).1
            have h6 := i.next
            rcases hop with hop | hop
            · exact hno ⟨hop, by omega⟩
            · omega
        refine { i with qTrue := ?_, qOrd := hord.2, qAll := ?_, failed := fun _ => hlost, ep := ?_ }
        · intro _
          exact i.ep (.inr (by rw [e]; simp))
        · intro g hg
          obtain ⟨a1, a2, a3, a4⟩ := hq g hg
          exact ⟨a1, by dsimp only; omega, a3, a4⟩
        · intro hl
          dsimp only at hl
          rw [hlost] at hl; cases hl

theorem inv_step {w : World D S} (ok : w.Ok) {b : Nat} {s t : Node D S} (i : Inv w b s) (h : Step w s t) : Inv w b t := by
  cases h with
  | gossip n floor hf =>
    refine i.withWalks _ ?_ ?_
    · intro x hx
      rcases List.mem_append.mp hx with hx | hx
      · exact i.walks x hx
      · rw [List.mem_singleton] at hx; subst hx
        exact ⟨rfl, Nat.le_refl _, hf, Nat.le_refl _⟩
    · intro x hx hr k h1 h2
      rcases List.mem_append.mp hx with hx | hx
      · exact i.fill x hx hr k h1 h2
      · rw [List.mem_singleton] at hx; subst hx
        dsimp only at h1 h2; omega
  | gap hf hc =>
    refine i.withWalks _ ?_ ?_
    · intro x hx
      rcases List.mem_append.mp hx with hx | hx
      · exact i.walks x hx
      · rw [List.mem_singleton] at hx; subst hx
        exact ⟨rfl, Nat.le_refl _, hf, Nat.le_refl _⟩
    · intro x hx hr k h1 h2
      rcases List.mem_append.mp hx with hx | hx
      · exact i.fill x hx hr k h1 h2
      · rw [List.mem_singleton] at hx; subst hx
        dsimp only at h1 h2; omega
  | walk a c x r hw =>
    obtain ⟨x1, x2, x3, x4⟩ := i.walks x (by rw [hw]; simp)
    obtain ⟨f1, f2, f3, f4⟩ := fetchOne_ok ok (pack := s.pack) i.cache x x1 x2 x3 r
    have mono : ∀ k, (resolve s.cache s.pack k).isSome → (resolve (fetchOne w s.cache s.pack x r).2 s.pack k).isSome := by
      intro k hk
      rw [resolve_some] at hk ⊢
      exact hk.imp (f2 k) id
    refine { i with cache := f1, walks := ?_, fill := ?_ }
    · intro y hy
      dsimp only at hy
      rcases List.mem_append.mp hy with hy | hy
      · rcases List.mem_append.mp hy with hy | hy
        · exact i.walks y (by rw [hw]; simp [hy])
        · obtain ⟨y1, y2, y3, y4, _⟩ := f3 y hy
          exact ⟨y1, y2, y3, by dsimp only; omega⟩
      · exact i.walks y (by rw [hw]; simp [hy])
    · intro y hy hr k h1 h2
      dsimp only at hy hr ⊢
      rcases List.mem_append.mp hy with hy | hy
      · rcases List.mem_append.mp hy with hy | hy
        · exact (i.fill y (by rw [hw]; simp [hy]) hr k h1 h2).imp (mono k) id
        · obtain ⟨y1, y2, y3, y4, y5, y6, y7, y8⟩ := f3 y hy
          by_cases hk : k ≤ x.num
          · left
            rw [resolve_some]
            exact .inl (y8 k h1 hk)
          · exact (i.fill x (by rw [hw]; simp) (y4 ▸ hr) k (by omega) (by omega)).imp (mono k) id
      · exact (i.fill y (by rw [hw]; simp [hy]) hr k h1 h2).imp (mono k) id
  | dies a c x hw =>
    refine i.withWalks _ ?_ ?_
    · intro y hy
      refine i.walks y ?_
      rw [hw]
      rcases List.mem_append.mp hy with hy | hy <;> simp [hy]
    · intro y hy
      refine i.fill y ?_
      rw [hw]
      rcases List.mem_append.mp hy with hy | hy <;> simp [hy]
  | imported n =>
    have keep : ∀ k, s.pack k = some (w.chain k) → put s.pack n (some (w.chain n)) k = some (w.chain k) := by
      intro k hk
      by_cases h : k = n
      · rw [h, put_same]
      · rw [put_ne _ _ h]; exact hk
    refine { i with pack := ?_, held := fun k hk => keep k (i.held k hk), rest := fun k h1 h2 => keep k (i.rest k h1 h2), fill := ?_ }
    · intro k g hg
      dsimp only at hg
      by_cases h : k = n
      · rw [h, put_same] at hg; injection hg with hg; rw [← hg, h]
      · rw [put_ne _ _ h] at hg; exact i.pack k g hg
    · intro x hx hr k h1 h2
      refine (i.fill x hx hr k h1 h2).imp ?_ id
      intro h
      rw [resolve_some] at h ⊢
      refine h.imp id ?_
      intro h
      dsimp only
      by_cases h' : k = n
      · rw [h', put_same]; rfl
      · rw [put_ne _ _ h']; exact h
  | newer n hn => exact { i with }
  | drain _ he _ => exact drainOne_inv ok i he
  | lag h q hq =>
    have hord := i.qOrd
    rw [hq, List.pairwise_cons] at hord
    exact { i with qTrue := fun g hg => i.qTrue g (by rw [hq]; simp [hg]), qOrd := hord.2, qAll := fun h => (by cases h),
                   lost := fun _ => rfl, failed := fun _ => rfl, sAll := fun h => (by cases h),
                   ep := fun _ => i.ep (.inr (by rw [hq]; simp)) }
  | save _ => exact saveOne_inv ok i
  | rerun p e nx o hf hp hn hr he =>
    exact { i with last := by show w.chain p = w.chain (w.chain p).num; rw [ok.num]
                   next := hn, rest := hr, ep := fun _ => he, qTrue := fun h hh => (by cases hh), qOrd := .nil
                   qAll := fun _ => by show [] = w.seg s.latest (w.chain p).num; rw [ok.num, seg_nil w hp]
                   lost := fun h => (by cases h), failed := fun h => by rw [show s.failed = true from h] at hf; cases hf
                   walks := fun x hx => by
                     obtain ⟨x1, x2, x3, x4⟩ := i.walks x hx
                     exact ⟨x1, x2, x3, by dsimp only; omega⟩
                   fill := fun x hx hr' => by
                     have := (i.walks x hx).2.2.2
                     dsimp only at hr'
                     omega }
  | reboot p e nx o hp hn hr he =>
    exact { i with cache := fun n h e => (by cases e), walks := fun x hx => (by cases hx)
                   last := by show w.chain p = w.chain (w.chain p).num; rw [ok.num]
                   base := ⟨Nat.le_trans i.base.1 i.base.2, Nat.le_refl _⟩
                   next := hn, rest := hr, ep := fun _ => he, qTrue := fun h hh => (by cases hh), qOrd := .nil
                   qAll := fun _ => by show [] = w.seg s.latest (w.chain p).num; rw [ok.num, seg_nil w hp]
                   lost := fun h => (by cases h), failed := fun h => (by cases h)
                   sTrue := fun h hh => (by cases hh), sOrd := .nil, sAll := fun _ => (seg_nil w (Nat.le_refl _)).symm
                   fill := fun x hx => (by cases hx) }

theorem inv_reach {w : World D S} (ok : w.Ok) {b : Nat} {s : Node D S} (h : Reach w b s) : Inv w b s := by
  induction h with
  | boot => exact inv_boot ok b
  | step _ hs ih => exact inv_step ok ih hs

end Follow
end Verif
