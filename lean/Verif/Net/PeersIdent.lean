import Verif.Net.PeersBanTerm

/-!
# C60: which BLS identity a libp2p id stands for
-/

namespace Verif.Net

open State

/-- **C60 (the resolution is exact).**  After any history of calls a libp2p id resolves to a BLS
identity exactly when the record of that identity names this id as its network key. -/
theorem resolves_iff {c : Cfg} {l : List (Nat × Op)} (hl : Legal c l State.init) (pid : Pid)
    (b : Bls) :
    (runOps c l State.init).identityFor pid = .conf b ↔
      ∃ p, get (.conf b) (runOps c l State.init).peers = some p ∧ p.key = some pid := by
  have h := (reach_inv hl).ix
  constructor
  · intro he
    rcases (runOps c l State.init).identityFor_cases pid with ⟨b', hb', he'⟩ | ⟨_, he'⟩
    · rw [he] at he'; injection he' with he'; subst he'
      exact h.idx pid b hb'
    · rw [he] at he'; cases he'
  · rintro ⟨p, hp, hk⟩
    exact identityFor_key h hp hk

/-- **C60 (one identity per network key).**  After any history of calls no two BLS identities
have the same network key, and an id that has an anonymous record is the network key of no
identity. -/
theorem keys_unique {c : Cfg} {l : List (Nat × Op)} (hl : Legal c l State.init) {pid : Pid}
    {b b' : Bls} {p p' : Peer} (hp : get (.conf b) (runOps c l State.init).peers = some p)
    (hp' : get (.conf b') (runOps c l State.init).peers = some p')
    (hk : p.key = some pid) (hk' : p'.key = some pid) :
    b = b' ∧ get (.anon pid) (runOps c l State.init).peers = none := by
  have h := (reach_inv hl).ix
  have h1 := identityFor_key h hp hk
  have h2 := identityFor_key h hp' hk'
  refine ⟨?_, ?_⟩
  · rw [h1] at h2; injection h2
  · cases ha : get (.anon pid) (runOps c l State.init).peers with
    | none => rfl
    | some a =>
      have := h.anon pid a ha
      obtain ⟨k, hk1, hk2⟩ := h.conf b p hp
      rw [hk] at hk1
      injection hk1 with hk1
      subst hk1
      rw [this] at hk2; cases hk2

theorem upsert_index {s : State} (c : Cfg) (b : Bls) (k : Pid) (now : Nat) (pid : Pid)
    (hne : pid ≠ k) (hb : s.identityFor pid ≠ .conf b) (h : IdxInv s.peers s.index) :
    (s.upsert c b k now).identityFor pid = s.identityFor pid := by
  have hidx : get pid (s.upsert c b k now).index = get pid s.index := by
    unfold State.upsert
    dsimp only
    rw [get_put_ne hne]
    split
    · rfl
    · unfold State.evict
      split
      · next p hp =>
        dsimp only
        obtain ⟨k', hk', hi'⟩ := h.conf b p hp
        unfold State.unindex
        rw [hk']
        dsimp only
        rw [get_del_ne]
        rintro rfl
        apply hb
        unfold State.identityFor
        rw [hi']
      · rfl
  unfold State.identityFor
  rw [hidx]

/-- **C60 (a record of a non-member).**  A record that is signed by a BLS key outside the
committees, received from `src`, changes neither the identity nor the record of any other peer:
for every id that is not `src` itself and does not already stand for the signing key, resolution
and record are as before.  Relayed records of non-members change nothing at all. -/
theorem outsider_record_is_local {c : Cfg} {l : List (Nat × Op)} (hl : Legal c l State.init)
    (src : Pid) (b : Bls) (k : Pid) (stale : Bool) (t : Nat)
    (hb : ¬ Member (runOps c l State.init) b) {pid : Pid} (hne : pid ≠ src)
    (hid : (runOps c l State.init).identityFor pid ≠ .conf b) :
    ((Op.advertised src b k stale).run c t (runOps c l State.init)).identityFor pid =
      (runOps c l State.init).identityFor pid ∧
    ((Op.advertised src b k stale).run c t (runOps c l State.init)).getPeer pid =
      (runOps c l State.init).getPeer pid ∧
    (src ≠ k → (Op.advertised src b k stale).run c t (runOps c l State.init) =
      runOps c l State.init) := by
  have h := reach_inv hl
  revert hb hid h
  generalize runOps c l State.init = s
  intro hb hid h
  have hm : s.isMember b = false := by
    rw [Bool.eq_false_iff, Ne, isMember_iff]; exact hb
  dsimp only [Op.run, State.selfAdvertised]
  rw [hm, if_neg Bool.false_ne_true]
  by_cases hs : src = k
  · rw [if_pos hs]
    subst hs
    have hi := upsert_index c b src t pid hne hid h.ix
    refine ⟨hi, ?_, fun h' => absurd rfl h'⟩
    unfold State.getPeer
    rw [hi, upsert_other c b src t (Ne.symm hid)]
    intro he
    -- two ids with the same identity are the same id
    rcases s.identityFor_cases pid with ⟨b', hb', he'⟩ | ⟨hn', he'⟩
    · rcases s.identityFor_cases src with ⟨b2, hb2, he2⟩ | ⟨_, he2⟩
      · rw [he', he2] at he
        injection he with he
        subst he
        obtain ⟨p1, hp1, hk1⟩ := h.ix.idx pid _ hb'
        obtain ⟨p2, hp2, hk2⟩ := h.ix.idx src _ hb2
        rw [hp1] at hp2
        injection hp2 with hp2
        subst hp2
        rw [hk1] at hk2
        injection hk2 with hk2
        exact hne hk2
      · rw [he', he2] at he; cases he
    · rcases s.identityFor_cases src with ⟨b2, hb2, he2⟩ | ⟨_, he2⟩
      · rw [he', he2] at he; cases he
      · rw [he', he2] at he
        injection he with he
        exact hne he.symm
  · rw [if_neg hs]
    exact ⟨rfl, rfl, fun _ => rfl⟩

/-- the same for records found by a lookup: those of non-members are dropped -/
theorem outsider_lookup_dropped {c : Cfg} (s : State) (b : Bls) (k : Pid) (stale : Bool) (t : Nat)
    (hb : ¬ Member s b) : (Op.discovered b k stale).run c t s = s := by
  have hm : s.isMember b = false := by
    rw [Bool.eq_false_iff, Ne, isMember_iff]; exact hb
  dsimp only [Op.run, State.discovered]
  rw [hm, if_neg Bool.false_ne_true]

/-- **C60 (finding: a member can take another validator's network key).**  Let `v` be any
identity with network key `kv`, for example another validator.  A record signed by the key `a`
of a committee member that names `kv` - no proof of possession of `kv` is asked for, and the
sender may be anyone - moves the record of `v` to `a`: the node then takes messages of `v`'s
connection as messages of `a`, and has no record of `v`. -/
theorem member_takes_key {c : Cfg} {l : List (Nat × Op)} (hl : Legal c l State.init)
    (src : Pid) {a v : Bls} {kv : Pid} {p : Peer} (t : Nat) (hne : v ≠ a)
    (ha : Member (runOps c l State.init) a)
    (hp : get (.conf v) (runOps c l State.init).peers = some p) (hk : p.key = some kv) :
    ((Op.advertised src a kv false).run c t (runOps c l State.init)).identityFor kv = .conf a ∧
    get (.conf v) ((Op.advertised src a kv false).run c t (runOps c l State.init)).peers =
      none := by
  have h := reach_inv hl
  revert hp ha h
  generalize runOps c l State.init = s
  intro ha hp h
  have hm : s.isMember a = true := (isMember_iff s a).mpr ha
  have hid := identityFor_key h.ix hp hk
  have hrun : (Op.advertised src a kv false).run c t s = s.cacheKnown c a kv t := by
    dsimp only [Op.run, State.selfAdvertised]
    rw [if_pos hm, if_neg Bool.false_ne_true]
  have hu := inv_upsert h c a kv t
  have hm' : (s.upsert c a kv t).isMember a = true := by rw [isMember_upsert]; exact hm
  have hck : s.cacheKnown c a kv t = (s.upsert c a kv t).applyMembers c [a] t := by
    unfold State.cacheKnown State.applyIfMember
    rw [if_pos hm']
  have hgv : get (.conf v) (s.upsert c a kv t).peers = none := by
    unfold State.upsert
    dsimp only
    rw [get_put_ne (by intro e; injection e with e; exact hne e), hid, get_del_self]
  obtain ⟨q, hq, hqk, _⟩ := upsert_score h.ix c a kv t
  have hfin := inv_cacheKnown h c a kv t fun ip hE => hE.elim
  rw [hrun]
  constructor
  · -- the record of `a` keeps the key through the priming
    have hprimed : ∃ q', get (.conf a) (s.cacheKnown c a kv t).peers = some q' ∧
        q'.key = some kv := by
      rw [hck]
      unfold State.applyMembers
      rw [List.foldl_cons, List.foldl_nil]
      unfold State.applyMember
      rw [hq]
      dsimp only
      rw [hqk]
      dsimp only
      have hidq : (s.upsert c a kv t).identityFor kv = .conf a := identityFor_key hu.ix hq hqk
      split
      · have hg : get (.conf a) ((s.upsert c a kv t).updateStatus c kv .unbanned t).1.peers =
            some (transition t .unbanned q (s.upsert c a kv t).ctr).1 := by
          rw [get_updateStatus hu.ix, if_pos hidq.symm, hidq,
            ensured_noBan c _ _ t rfl hq]
        rw [get_prime, if_pos rfl, hg]
        exact ⟨_, rfl, (transition_key t .unbanned q _).trans hqk⟩
      · rw [get_prime, if_pos rfl, hq]
        exact ⟨_, rfl, hqk⟩
    obtain ⟨q', hq', hk'⟩ := hprimed
    exact identityFor_key hfin.ix hq' hk'
  · rw [hck, applyMembers_other c [a] t _ hu, hgv]
    intro b' hb' e
    rw [List.mem_singleton.mp hb'] at e
    injection e with e
    exact hne e.symm

end Verif.Net
