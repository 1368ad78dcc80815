import Verif.Fetch.CollectorProps
/-
Property C72, second part: the request of one primary answered by another.
-/
namespace Verif
namespace Fetch

open Codec (Bytes leNat)
open CertStore (Db nextRoundNumber readByIndex originsAfterRound Stored Uniq Reach Lists)

variable {U : Header → Prop} {keep keep2 : Nat} {db db2 : Db}

/-! ### What is written in the request -/

theorem mem_sinsert {r x : Round} {s : List Round} : x ∈ sinsert r s ↔ x = r ∨ x ∈ s := by
  induction s with
  | nil => simp [sinsert]
  | cons y s ih =>
    unfold sinsert
    split
    · simp
    · split
      · rename_i h; subst h; simp
      · rw [List.mem_cons, ih, List.mem_cons]
        constructor
        · rintro (h | h | h) <;> simp [h]
        · rintro (h | h | h) <;> simp [h]

theorem sinsert_asc {r : Round} {s : List Round} (h : Asc s) : Asc (sinsert r s) := by
  unfold Asc at *
  induction s with
  | nil => simp [sinsert]
  | cons y s ih =>
    rw [List.pairwise_cons] at h
    unfold sinsert
    split
    · rename_i hlt
      rw [List.pairwise_cons]
      refine ⟨?_, List.pairwise_cons.mpr h⟩
      intro z hz
      rcases List.mem_cons.mp hz with rfl | hz
      · exact hlt
      · have := h.1 z hz; omega
    · split
      · exact List.pairwise_cons.mpr h
      · rw [List.pairwise_cons]
        refine ⟨?_, ih h.2⟩
        intro z hz
        rcases mem_sinsert.mp hz with rfl | hz
        · omega
        · exact h.1 z hz

theorem foldl_written (l : List (Round × AuthorityId)) (m : List (AuthorityId × List Round)) (hs : SMap.Sorted m)
    (hasc : ∀ o s, SMap.get? o m = some s → Asc s) :
    SMap.Sorted (l.foldl addWritten m) ∧
    (∀ o, o ∈ (l.foldl addWritten m).map (·.1) ↔ o ∈ m.map (·.1) ∨ o ∈ l.map (·.2)) ∧
    ∀ o s, SMap.get? o (l.foldl addWritten m) = some s →
      Asc s ∧ ∀ r, r ∈ s ↔ r ∈ (SMap.get? o m).getD [] ∨ (r, o) ∈ l := by
  induction l generalizing m with
  | nil =>
    refine ⟨hs, fun o => by simp, ?_⟩
    intro o s h
    simp only [List.foldl_nil] at h
    refine ⟨hasc o s h, fun r => ?_⟩
    rw [h]; simp
  | cons x l ih =>
    obtain ⟨r, o⟩ := x
    have hs' : SMap.Sorted (addWritten m (r, o)) := SMap.sorted_insert hs
    have hget : ∀ p, SMap.get? p (addWritten m (r, o)) =
        if p = o then some (sinsert r ((SMap.get? o m).getD [])) else SMap.get? p m := fun p => SMap.get?_insert
    have hasc' : ∀ p s, SMap.get? p (addWritten m (r, o)) = some s → Asc s := by
      intro p s h
      rw [hget] at h
      split at h
      · cases h
        apply sinsert_asc
        cases hg : SMap.get? o m with
        | none => simp [Asc]
        | some t => exact hasc o t hg
      · exact hasc p s h
    obtain ⟨i1, i2, i3⟩ := ih _ hs' hasc'
    rw [List.foldl_cons]
    refine ⟨i1, ?_, ?_⟩
    · intro p
      rw [i2 p]
      unfold addWritten
      rw [SMap.mem_keys_insert, List.map_cons, List.mem_cons]
      constructor
      · rintro ((h | h) | h) <;> simp [h]
      · rintro (h | h | h) <;> simp [h]
    · intro p s h
      obtain ⟨j1, j2⟩ := i3 p s h
      refine ⟨j1, fun x => ?_⟩
      rw [j2 x, hget]
      by_cases hp : p = o
      · subst hp
        rw [if_pos rfl, Option.getD_some, mem_sinsert, List.mem_cons]
        constructor
        · rintro ((h | h) | h) <;> simp [h]
        · rintro (h | h | h)
          · simp [h]
          · simp only [Prod.mk.injEq, and_true] at h; simp [h]
          · simp [h]
      · rw [if_neg hp, List.mem_cons]
        constructor
        · rintro (h | h) <;> simp [h]
        · rintro (h | h | h)
          · simp [h]
          · simp only [Prod.mk.injEq] at h; exact absurd h.2 hp
          · simp [h]

theorem keys_ofList_nil (committee : List AuthorityId) (o : AuthorityId) (s : List Round)
    (h : SMap.get? o (SMap.ofList (committee.map (fun o => (o, ([] : List Round))))) = some s) : s = [] := by
  have := SMap.mem_of_mem_ofList (SMap.mem_of_get? h)
  obtain ⟨y, _, he⟩ := List.mem_map.mp this
  cases he
  rfl

/-- **The request names every member of the committee and, for each, exactly the rounds above the bound for which the
requester has a certificate.** -/
theorem writtenRounds_exact (hU : Uniq U) (h : Reach U keep db) {committee : List AuthorityId}
    (hcom : ∀ c, Stored db c → c.header.author ∈ committee) (gc : Round) :
    SMap.Sorted (writtenRounds committee db gc) ∧
    (∀ o, o ∈ (writtenRounds committee db gc).map (·.1) ↔ o ∈ committee) ∧
    ∀ o s, SMap.get? o (writtenRounds committee db gc) = some s →
      Asc s ∧ ∀ r, r ∈ s ↔ gc < r ∧ ∃ c, Stored db c ∧ c.header.author = o ∧ c.header.round = r := by
  have hmem := CertStore.originsAfterRound_exact hU h (gc + 1)
  obtain ⟨h1, h2, h3⟩ := foldl_written (originsAfterRound db (gc + 1))
    (SMap.ofList (committee.map (fun o => (o, ([] : List Round))))) (SMap.sorted_ofList _)
    (fun o s hg => by rw [keys_ofList_nil committee o s hg]; exact .nil)
  refine ⟨h1, ?_, ?_⟩
  · intro o
    show o ∈ ((originsAfterRound db (gc + 1)).foldl addWritten _).map (·.1) ↔ _
    rw [h2 o, SMap.mem_keys_ofList, List.map_map]
    constructor
    · rintro (hm | hm)
      · obtain ⟨x, hx, rfl⟩ := List.mem_map.mp hm
        exact hx
      · obtain ⟨⟨r, o'⟩, hx, rfl⟩ := List.mem_map.mp hm
        obtain ⟨_, c, hc, _, ho⟩ := (hmem r o').mp hx
        show o' ∈ committee
        rw [← ho]
        exact hcom c hc
    · intro hm
      exact .inl (List.mem_map.mpr ⟨o, hm, rfl⟩)
  · intro o s hg
    obtain ⟨j1, j2⟩ := h3 o s hg
    refine ⟨j1, fun r => ?_⟩
    rw [j2 r, hmem r o]
    have hnil : (SMap.get? o (SMap.ofList (committee.map (fun o => (o, ([] : List Round)))))).getD [] = [] := by
      cases hg : SMap.get? o (SMap.ofList (committee.map (fun o => (o, ([] : List Round))))) with
      | none => rfl
      | some t => rw [keys_ofList_nil committee o t hg]; rfl
    rw [hnil]
    constructor
    · rintro (hn | ⟨h4, c, h5, h6, h7⟩)
      · cases hn
      · exact ⟨by omega, c, h5, h7, h6⟩
    · rintro ⟨h4, c, h5, h6, h7⟩
      exact .inr ⟨by omega, c, h5, h7, h6⟩

/-! ### The request is read back as it was written -/

theorem readEntries_insert (k : Bitmap) (maxSkip lower : Nat) (l : List (AuthorityId × List Round))
    (hl : ∀ e ∈ l, readEntry k maxSkip lower (k.ser (e.2.map (· - lower))) = some e.2)
    (m : List (AuthorityId × List Round)) :
    readEntries k maxSkip lower (setBounds k lower l) m = some (l.foldl (fun m e => SMap.insert e.1 e.2 m) m) := by
  induction l generalizing m with
  | nil => rfl
  | cons e l ih =>
    have he := hl e (by simp)
    simp only [setBounds, List.map_cons, readEntries, he, List.foldl_cons]
    exact ih (fun x hx => hl x (by simp [hx])) _

theorem readEntry_ser {k : Bitmap} (hk : k.Ok) {maxSkip lower : Nat} {s : List Round} (hs : Asc s)
    (hlow : ∀ r ∈ s, lower < r ∧ r < 2 ^ 32) :
    readEntry k maxSkip lower (k.ser (s.map (· - lower))) = if s.length ≤ maxSkip then some s else none := by
  have hasc : Asc (s.map (· - lower)) := by
    unfold Asc at hs ⊢
    rw [List.pairwise_map]
    refine List.Pairwise.imp_of_mem ?_ hs
    intro a b ha hb hab
    have := hlow a ha
    have := hlow b hb
    omega
  have hlt : ∀ x ∈ s.map (· - lower), x < 2 ^ 32 := by
    intro x hx
    obtain ⟨r, hr, rfl⟩ := List.mem_map.mp hx
    have := hlow r hr
    omega
  obtain ⟨n, hn, hle⟩ := hk.count _ hasc hlt
  rw [List.length_map] at hle
  unfold readEntry
  rw [hn]
  dsimp only
  rw [hk.inverse _ hasc hlt]
  dsimp only
  rw [List.length_map]
  by_cases hl : s.length ≤ maxSkip
  · rw [if_pos hl, if_neg (by omega), if_neg (by omega), if_pos]
    · rw [List.map_map]
      congr 1
      conv_rhs => rw [← List.map_id s]
      apply List.map_congr_left
      intro r hr
      have := hlow r hr
      simp only [Function.comp_apply, id_eq]
      omega
    · rw [List.all_eq_true]
      intro x hx
      obtain ⟨r, hr, rfl⟩ := List.mem_map.mp hx
      have := hlow r hr
      rw [decide_eq_true_eq]
      omega
  · rw [if_neg hl, if_pos (show maxSkip < s.length by omega)]
    split <;> rfl

/-- What a responder with the same committee makes of the requester's request. -/
theorem request_read {k : Bitmap} (hk : k.Ok) (hU : Uniq U) (h : Reach U keep db) (h32 : ∀ x, U x → x.round < 2 ^ 32)
    {committee : List AuthorityId} (hcom : ∀ c, Stored db c → c.header.author ∈ committee) (gc maxSkip : Nat)
    (hsize : ∀ o s, SMap.get? o (writtenRounds committee db gc) = some s → s.length ≤ maxSkip) :
    getBounds k maxSkip committee.length gc (setBounds k gc (writtenRounds committee db gc)) =
      some (writtenRounds committee db gc) := by
  obtain ⟨h1, h2, h3⟩ := writtenRounds_exact hU h hcom gc
  generalize hw : writtenRounds committee db gc = w at h1 h2 h3 hsize
  unfold getBounds
  have hlen : ¬ committee.length < (setBounds k gc w).length := by
    have : (setBounds k gc w).length = (w.map (·.1)).length := by simp [setBounds]
    rw [this]
    have := (List.subperm_of_subset (SMap.nodup_keys h1) (fun o ho => (h2 o).mp ho)).length_le
    omega
  rw [if_neg hlen, readEntries_insert]
  · congr 1
    refine SMap.sorted_ext (SMap.sorted_ofList w) h1 ?_
    intro x
    show SMap.get? x (SMap.ofList w) = _
    cases hg : SMap.get? x w with
    | none =>
      rw [SMap.get?_eq_none] at hg ⊢
      rw [SMap.mem_keys_ofList]
      exact hg
    | some s =>
      cases hg2 : SMap.get? x (SMap.ofList w) with
      | none =>
        rw [SMap.get?_eq_none, SMap.mem_keys_ofList] at hg2
        exact absurd (SMap.get?_isSome.mp (by rw [hg]; rfl)) hg2
      | some t =>
        have := SMap.get?_of_mem h1 (SMap.mem_of_mem_ofList (SMap.mem_of_get? hg2))
        rw [hg] at this
        exact this.symm ▸ rfl
  · intro e he
    have hg := SMap.get?_of_mem h1 (x := e.1) (v := e.2) he
    obtain ⟨j1, j2⟩ := h3 _ _ hg
    rw [readEntry_ser hk j1, if_pos (hsize _ _ hg)]
    intro r hr
    obtain ⟨k1, c, k2, _, k4⟩ := (j2 r).mp hr
    exact ⟨k1, by rw [← k4]; exact h32 _ ((h.ok hU).key _ c k2).2⟩

/-! ### The answer -/

/-- Specification: what the requester (store `db`, bound `gc`) lacks. -/
def Lacks (db : Db) (committee : List AuthorityId) (gc : Round) (c : Certificate) : Prop :=
  gc < c.header.round ∧ c.header.author ∈ committee ∧
    ∀ x, Stored db x → x.header.author = c.header.author → x.header.round ≠ c.header.round

theorem asked_iff (hU : Uniq U) (h : Reach U keep db) {committee : List AuthorityId}
    (hcom : ∀ c, Stored db c → c.header.author ∈ committee) (gc : Round) (c : Certificate) :
    Asked gc (writtenRounds committee db gc) c.header.round c.header.author ↔ Lacks db committee gc c := by
  obtain ⟨_, h2, h3⟩ := writtenRounds_exact hU h hcom gc
  constructor
  · rintro ⟨a1, s, a2, a3⟩
    obtain ⟨_, j2⟩ := h3 _ _ a2
    refine ⟨a1, (h2 _).mp (SMap.get?_isSome.mp (by rw [a2]; rfl)), ?_⟩
    intro x hx h4 h5
    exact a3 ((j2 _).mpr ⟨a1, x, hx, h4, h5⟩)
  · rintro ⟨a1, a2, a3⟩
    refine ⟨a1, ?_⟩
    have := SMap.get?_isSome.mpr ((h2 _).mpr a2)
    cases hg : SMap.get? c.header.author (writtenRounds committee db gc) with
    | none => rw [hg] at this; cases this
    | some s =>
      refine ⟨s, rfl, ?_⟩
      intro hm
      obtain ⟨_, x, hx, h4, h5⟩ := ((h3 _ _ hg).2 _).mp hm
      exact a3 x hx h4 h5

/-- **The answer is what is missing.** The request of a primary with store `db`, garbage collected up to `gc`, is
accepted by a responder of the same committee with store `db2` (unless the requester has more than `maxSkip` rounds of
one authority above the bound), and answered with exactly the certificates of `db2` above `gc` for whose author and
round the requester has none, in the order of rounds, each once; a time limit cuts the answer after some number `n` of
them. There are no error items. -/
theorem answer_exact {k : Bitmap} (hk : k.Ok) (hU : Uniq U) (h : Reach U keep db) (h2 : Reach U keep2 db2)
    (h32 : ∀ x, U x → x.round < 2 ^ 32) {committee : List AuthorityId}
    (hcom : ∀ c, Stored db c → c.header.author ∈ committee) (gc maxSkip : Nat)
    (hsize : ∀ o s, SMap.get? o (writtenRounds committee db gc) = some s → s.length ≤ maxSkip) :
    ∃ skip q L, newCollector k maxSkip committee.length db2 gc (setBounds k gc (writtenRounds committee db gc)) =
        some (skip, q) ∧ Lists db2 (Lacks db committee gc) L ∧ ∀ n, collect db2 skip n q = (L.take n).map some := by
  have hreq := request_read hk hU h h32 hcom gc maxSkip hsize
  obtain ⟨w1, w2, w3⟩ := writtenRounds_exact hU h hcom gc
  refine ⟨writtenRounds committee db gc, initQueue db2 gc (writtenRounds committee db gc), ?_⟩
  have hnew : newCollector k maxSkip committee.length db2 gc (setBounds k gc (writtenRounds committee db gc)) =
      some (writtenRounds committee db gc, initQueue db2 gc (writtenRounds committee db gc)) := by
    unfold newCollector
    rw [hreq]
    dsimp only
    rw [if_neg]
    rw [List.any_eq_true]
    rintro ⟨e, he, hlt⟩
    rw [decide_eq_true_eq] at hlt
    have := hsize _ _ (SMap.get?_of_mem w1 (x := e.1) (v := e.2) he)
    omega
  obtain ⟨i1, i2, i3, i4⟩ := initQueue_ok hU h2 gc (writtenRounds committee db gc) (writtenRounds committee db gc) w1
    (fun e he => SMap.get?_of_mem w1 he)
  obtain ⟨L, hL⟩ := lists_exists hU h2 (Lacks db committee gc)
  refine ⟨L, hnew, hL, fun n => collect_take hU h2 n _ L i1 i2 ⟨?_, hL.2⟩⟩
  intro c
  rw [hL.1 c, ← asked_iff hU h hcom gc c]
  constructor
  · rintro ⟨a1, a2⟩
    refine ⟨a1, i4 c a1 a2 ?_⟩
    obtain ⟨_, s, hs, _⟩ := a2
    exact SMap.get?_isSome.mp (by rw [hs]; rfl)
  · rintro ⟨a1, a2, _⟩
    exact ⟨a1, a2⟩

/-- **An answer can be accepted in the order it comes**, wherever it is cut: every parent of a certificate in it is
older than the bound, or is stored by the requester already, or precedes it, or is not stored by the responder. -/
theorem answer_closed (hU : Uniq U) (h : Reach U keep db) (h2 : Reach U keep2 db2) {committee : List AuthorityId}
    {gc : Round} {L : List Certificate} (hL : Lists db2 (Lacks db committee gc) L) {got rest front back : List Certificate}
    {c p : Certificate} (hgot : L = got ++ rest) (hc : got = front ++ c :: back)
    (hp : p.header.digest ∈ c.header.parents) (hr : p.header.round < c.header.round) (hstored : Stored db2 p)
    (hcom : p.header.author ∈ committee) :
    p.header.round ≤ gc ∨ (CertStore.contains db p.header.digest = true) ∨ p ∈ front := by
  by_cases h1 : p.header.round ≤ gc
  · exact .inl h1
  by_cases h3 : ∃ x, Stored db x ∧ x.header.author = p.header.author ∧ x.header.round = p.header.round
  · right; left
    obtain ⟨x, hx, ha, hrr⟩ := h3
    have hxU := ((h.ok hU).key _ x hx).2
    have hpU := ((h2.ok hU).key _ p hstored).2
    have := hU.unique hxU hpU ha hrr
    unfold CertStore.contains
    unfold Stored CertStore.read at hx
    rw [← this, hx]
    rfl
  · right; right
    have hm : p ∈ L := (hL.1 p).mpr ⟨hstored, by omega, hcom, fun x hx ha he => h3 ⟨x, hx, ha, he⟩⟩
    have hpw := hL.2
    rw [hgot, hc, List.append_assoc, List.pairwise_append] at hpw
    rw [hgot, hc, List.append_assoc] at hm
    rcases List.mem_append.mp hm with hm | hm
    · exact hm
    · exfalso
      rw [List.cons_append] at hm hpw
      rcases List.mem_cons.mp hm with rfl | hm
      · omega
      · have := (List.pairwise_cons.mp hpw.2.1).1 p hm
        omega

/-- **A request that skips too much is refused by everyone**: if the requester has more than `maxSkip` rounds of one
authority above its bound, no responder answers, whatever it has. (`set_bounds` does not look at the limit.) -/
theorem own_request_refused {k : Bitmap} (hk : k.Ok) (hU : Uniq U) (h : Reach U keep db)
    (h32 : ∀ x, U x → x.round < 2 ^ 32) {committee : List AuthorityId}
    (hcom : ∀ c, Stored db c → c.header.author ∈ committee) {gc maxSkip maxAuth : Nat} {o : AuthorityId} {s : List Round}
    (ho : SMap.get? o (writtenRounds committee db gc) = some s) (hs : maxSkip < s.length) (db2 : Db) :
    newCollector k maxSkip maxAuth db2 gc (setBounds k gc (writtenRounds committee db gc)) = none := by
  obtain ⟨h1, h2, h3⟩ := writtenRounds_exact hU h hcom gc
  have key : ∀ (l : List (AuthorityId × List Round)) (m : List (AuthorityId × List Round)), (o, s) ∈ l →
      (∀ e ∈ l, SMap.get? e.1 (writtenRounds committee db gc) = some e.2) →
      readEntries k maxSkip gc (setBounds k gc l) m = none := by
    intro l
    induction l with
    | nil => intro m hm; cases hm
    | cons e l ih =>
      intro m hm hl
      have hg := hl e (by simp)
      obtain ⟨j1, j2⟩ := h3 _ _ hg
      have hr := readEntry_ser hk (maxSkip := maxSkip) (lower := gc) j1 (fun r hr => by
        obtain ⟨k1, c, k2, _, k4⟩ := (j2 r).mp hr
        exact ⟨k1, by rw [← k4]; exact h32 _ ((h.ok hU).key _ c k2).2⟩)
      simp only [setBounds, List.map_cons, readEntries, hr]
      rcases List.mem_cons.mp hm with rfl | hm
      · rw [if_neg (by simp only; omega)]
      · split
        · rfl
        · exact ih _ hm (fun x hx => hl x (by simp [hx]))
  unfold newCollector getBounds
  split
  · rfl
  · rename_i skip hg
    split at hg
    · cases hg
    · rw [key _ [] (SMap.mem_of_get? ho) (fun e he => SMap.get?_of_mem h1 he)] at hg
      cases hg

/-- **What any peer can make the responder hold**: an accepted request yields at most one set for each of `maxAuth`
entries, with at most `maxSkip` rounds each, all of them 32-bit and none below the bound. -/
theorem accepted_bounded {k : Bitmap} (hk : k.Ok) {maxSkip maxAuth : Nat} {db2 : Db} {lower : Round}
    {entries : List (AuthorityId × Bytes)} {skip : List (AuthorityId × List Round)} {q : Queue}
    (h : newCollector k maxSkip maxAuth db2 lower entries = some (skip, q)) :
    entries.length ≤ maxAuth ∧ SMap.Sorted skip ∧ skip.length ≤ maxAuth ∧
      ∀ e ∈ skip, e.1 ∈ entries.map (·.1) ∧ e.2.length ≤ maxSkip ∧ Asc e.2 ∧ ∀ r ∈ e.2, lower ≤ r ∧ r < 2 ^ 32 := by
  have entry : ∀ b s, readEntry k maxSkip lower b = some s →
      s.length ≤ maxSkip ∧ Asc s ∧ ∀ r ∈ s, lower ≤ r ∧ r < 2 ^ 32 := by
    intro b s hb
    unfold readEntry at hb
    split at hb
    · cases hb
    split at hb
    · cases hb
    split at hb
    · cases hb
    split at hb
    · cases hb
    split at hb
    · rename_i t ht hle hall
      cases hb
      rw [List.length_map]
      refine ⟨by omega, ?_, ?_⟩
      · have := hk.asc _ _ ht
        unfold Asc at this ⊢
        rw [List.pairwise_map]
        exact this.imp (fun hab => by omega)
      · intro r hr
        obtain ⟨x, hx, rfl⟩ := List.mem_map.mp hr
        rw [List.all_eq_true] at hall
        have := hall x hx
        rw [decide_eq_true_eq] at this
        omega
    · cases hb
  have all : ∀ (l : List (AuthorityId × Bytes)) (m out : List (AuthorityId × List Round)), SMap.Sorted m →
      readEntries k maxSkip lower l m = some out → SMap.Sorted out ∧
        ∀ e ∈ out, e ∈ m ∨ (e.1 ∈ l.map (·.1) ∧ e.2.length ≤ maxSkip ∧ Asc e.2 ∧ ∀ r ∈ e.2, lower ≤ r ∧ r < 2 ^ 32) := by
    intro l
    induction l with
    | nil => intro m out hm ho; cases ho; exact ⟨hm, fun e he => .inl he⟩
    | cons x l ih =>
      obtain ⟨o, b⟩ := x
      intro m out hm ho
      simp only [readEntries] at ho
      split at ho
      · cases ho
      · rename_i s hs
        obtain ⟨i1, i2⟩ := ih _ _ (SMap.sorted_insert hm) ho
        refine ⟨i1, fun e he => ?_⟩
        rcases i2 e he with h3 | ⟨h3, h4⟩
        · obtain ⟨a, t⟩ := e
          rcases (SMap.mem_insert hm).mp h3 with ⟨rfl, rfl⟩ | ⟨_, h3⟩
          · exact .inr ⟨by simp, entry b _ hs⟩
          · exact .inl h3
        · exact .inr ⟨by rw [List.map_cons]; exact List.mem_cons_of_mem _ h3, h4⟩
  unfold newCollector at h
  split at h
  · cases h
  · rename_i sk hg
    split at h
    · cases h
    · cases h
      unfold getBounds at hg
      split at hg
      · cases hg
      · obtain ⟨a1, a2⟩ := all entries [] _ SMap.sorted_nil hg
        have a3 : ∀ e ∈ skip, e.1 ∈ entries.map (·.1) ∧ e.2.length ≤ maxSkip ∧ Asc e.2 ∧
            ∀ r ∈ e.2, lower ≤ r ∧ r < 2 ^ 32 := fun e he => (a2 e he).resolve_left (by simp)
        refine ⟨by omega, a1, ?_, a3⟩
        have := (List.subperm_of_subset (SMap.nodup_keys a1) (l₂ := entries.map (·.1)) (fun o ho => by
          obtain ⟨e, he, rfl⟩ := List.mem_map.mp ho
          exact (a3 e he).1)).length_le
        rw [List.length_map, List.length_map] at this
        omega

/-! ### While the responder's store changes -/

/-- The iterator when the store changes between calls: `dbs` are the stores the calls see. -/
def collectOver (skip : List (AuthorityId × List Round)) : List Db → Queue → List (Option Certificate)
  | [], _ => []
  | db :: dbs, q =>
    match nextCertificate db skip q with
    | .finished => []
    | .failed => [none]
    | .cert c q' => some c :: collectOver skip dbs q'

theorem collectOver_const (skip : List (AuthorityId × List Round)) (db : Db) (n : Nat) (q : Queue) :
    collectOver skip (List.replicate n db) q = collect db skip n q := by
  induction n generalizing q with
  | zero => rfl
  | succ n ih =>
    rw [List.replicate_succ]
    simp only [collectOver, collect]
    cases nextCertificate db skip q with
    | finished => rfl
    | failed => rfl
    | cert c q' => simp only [ih]

theorem nextCertificate_sound (hU : Uniq U) (h : Reach U keep db) {lower : Round}
    {skip : List (AuthorityId × List Round)} {q : Queue} (hq : QOk lower skip q) :
    match nextCertificate db skip q with
    | .finished => True
    | .failed => False
    | .cert c q' => Stored db c ∧ Asked lower skip c.header.round c.header.author ∧ QOk lower skip q' ∧
        (∃ x ∈ q, x.2 = c.header.author ∧ x.1 = c.header.round) ∧
        ∀ y ∈ q', (y ∈ q ∧ y.2 ≠ c.header.author) ∨ (y.2 = c.header.author ∧ c.header.round < y.1) := by
  induction q with
  | nil => trivial
  | cons x q ih =>
    obtain ⟨r, o⟩ := x
    obtain ⟨ht, hne⟩ := hq.tail
    unfold nextCertificate
    cases hr : readByIndex db o r with
    | none =>
      dsimp only
      have := ih ht
      cases hn : nextCertificate db skip q with
      | finished => trivial
      | failed => rw [hn] at this; exact this
      | cert c q' =>
        rw [hn] at this
        dsimp only at this ⊢
        obtain ⟨a1, a2, a3, ⟨y, hy, hy2⟩, a5⟩ := this
        refine ⟨a1, a2, a3, ⟨y, by simp [hy], hy2⟩, fun z hz => ?_⟩
        rcases a5 z hz with ⟨b1, b2⟩ | b
        · exact .inl ⟨by simp [b1], b2⟩
        · exact .inr b
    | some c =>
      obtain ⟨hc, hco, hcr⟩ := (CertStore.readByIndex_exact hU h o r c).mp hr
      obtain ⟨hlow, s, hs, hrs⟩ := hq.asked (r, o) (by simp)
      simp only at hlow hs hrs
      dsimp only
      rw [hs]
      dsimp only
      have ha : Asked lower skip c.header.round c.header.author := by rw [hco, hcr]; exact ⟨hlow, s, hs, hrs⟩
      have hf := findNext_exact hU h o r s
      cases hn : findNext db o r s with
      | none =>
        dsimp only
        exact ⟨hc, ha, ht, ⟨(r, o), by simp, hco.symm, hcr.symm⟩,
          fun y hy => .inl ⟨by simp [hy], fun he => hne y hy (by rw [he, hco])⟩⟩
      | some m =>
        rw [hn] at hf
        dsimp only at hf ⊢
        refine ⟨hc, ha, ht.push hne ⟨by simp only; omega, s, hs, hf.2.1⟩, ⟨(r, o), by simp, hco.symm, hcr.symm⟩, ?_⟩
        intro y hy
        rcases mem_qpush.mp hy with rfl | hy
        · exact .inr ⟨hco.symm, by simp only; omega⟩
        · exact .inl ⟨by simp [hy], fun he => hne y hy (by rw [he, hco])⟩

theorem collectOver_sound (hU : Uniq U) {lower : Round} {skip : List (AuthorityId × List Round)} (dbs : List Db)
    (hdbs : ∀ d ∈ dbs, ∃ keep, Reach U keep d) (q : Queue) (hq : QOk lower skip q) :
    ∃ L : List Certificate, collectOver skip dbs q = L.map some ∧
      (∀ c ∈ L, Asked lower skip c.header.round c.header.author ∧ ∃ d ∈ dbs, Stored d c) ∧
      L.Pairwise (fun a b => a.header.author = b.header.author → a.header.round < b.header.round) ∧
      ∀ c ∈ L, ∃ x ∈ q, x.2 = c.header.author ∧ x.1 ≤ c.header.round := by
  induction dbs generalizing q with
  | nil => exact ⟨[], rfl, fun c hc => (by cases hc), .nil, fun c hc => (by cases hc)⟩
  | cons d dbs ih =>
    obtain ⟨kp, hd⟩ := hdbs d (by simp)
    have hn := nextCertificate_sound hU hd hq
    unfold collectOver
    cases he : nextCertificate d skip q with
    | finished => exact ⟨[], rfl, fun c hc => (by cases hc), .nil, fun c hc => (by cases hc)⟩
    | failed => rw [he] at hn; exact hn.elim
    | cert c q' =>
      rw [he] at hn
      dsimp only at hn ⊢
      obtain ⟨a1, a2, a3, ⟨x, hx, hx1, hx2⟩, a5⟩ := hn
      obtain ⟨L, i1, i2, i3, i4⟩ := ih (fun d hd => hdbs d (by simp [hd])) q' a3
      refine ⟨c :: L, by rw [i1]; rfl, ?_, ?_, ?_⟩
      · intro y hy
        rcases List.mem_cons.mp hy with rfl | hy
        · exact ⟨a2, d, by simp, a1⟩
        · obtain ⟨b1, e, he, b2⟩ := i2 y hy
          exact ⟨b1, e, by simp [he], b2⟩
      · rw [List.pairwise_cons]
        refine ⟨?_, i3⟩
        intro y hy hay
        obtain ⟨z, hz, hz1, hz2⟩ := i4 y hy
        rcases a5 z hz with ⟨_, b⟩ | ⟨_, b⟩
        · exact absurd (by rw [hz1, hay]) b
        · omega
      · intro y hy
        rcases List.mem_cons.mp hy with rfl | hy
        · exact ⟨x, hx, hx1, by omega⟩
        · obtain ⟨z, hz, hz1, hz2⟩ := i4 y hy
          rcases a5 z hz with ⟨b, _⟩ | ⟨b1, b2⟩
          · exact ⟨z, b, hz1, hz2⟩
          · exact ⟨x, hx, by rw [hx1, ← b1, hz1], by omega⟩

/-- **Whatever happens to the responder's store meanwhile**, the answer has no error item; every certificate in it was
stored when it was read, is above the bound and is not one to be skipped; the rounds of one author come in ascending
order, so nothing is sent twice. -/
theorem answer_sound {k : Bitmap} (hk : k.Ok) (hU : Uniq U) (h2 : Reach U keep2 db2) {maxSkip maxAuth : Nat} {lower : Round}
    {entries : List (AuthorityId × Bytes)} {skip : List (AuthorityId × List Round)} {q : Queue}
    (h : newCollector k maxSkip maxAuth db2 lower entries = some (skip, q)) (dbs : List Db)
    (hdbs : ∀ d ∈ dbs, ∃ keep, Reach U keep d) :
    ∃ L : List Certificate, collectOver skip dbs q = L.map some ∧
      (∀ c ∈ L, Asked lower skip c.header.round c.header.author ∧ ∃ d ∈ dbs, Stored d c) ∧
      L.Pairwise (fun a b => a.header.author = b.header.author → a.header.round < b.header.round) := by
  obtain ⟨_, hs, _, _⟩ := accepted_bounded hk h
  have hq : q = initQueue db2 lower skip := by
    unfold newCollector at h
    split at h
    · cases h
    · split at h
      · cases h
      · cases h; rfl
  subst hq
  obtain ⟨i1, _, _, _⟩ := initQueue_ok hU h2 lower skip skip hs (fun e he => SMap.get?_of_mem hs he)
  obtain ⟨L, h1, h2, h3, _⟩ := collectOver_sound hU dbs hdbs _ i1
  exact ⟨L, h1, h2, h3⟩

end Fetch
end Verif
