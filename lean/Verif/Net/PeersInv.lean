import Verif.Net.Peers

/-!
# Bookkeeping invariants of the peer table

`IdxInv`: the resolution index and the records agree.  `CtrInv`: the counters equal the
numbers of records they are meant to count.
-/

namespace Verif.Net

/-- the record has status `Disconnected` -/
def isDisc (p : Peer) : Bool := match p.status with | .disconnected _ => true | _ => false

/-- the record has status `Banned` -/
def isBan (p : Peer) : Bool := match p.status with | .banned _ => true | _ => false

/-- the record has status `Banned` and was observed at the address -/
def banFrom (ip : Ip) (p : Peer) : Bool := isBan p && decide (ip ∈ p.ips)

/-- The counters agree with the records `l` plus one record `p`; for the addresses in `E`
the per-address counter is exact, for the others it is an upper bound. -/
structure Bal (E : Ip → Prop) (l : List (Ident × Peer)) (p : Peer) (c : Counters) : Prop where
  disc : c.disc = cnt isDisc l + b2n (isDisc p)
  total : c.total = cnt isBan l + b2n (isBan p)
  le : ∀ ip, c.byIp ip ≤ cnt (banFrom ip) l + b2n (banFrom ip p)
  ex : ∀ ip, E ip → c.byIp ip = cnt (banFrom ip) l + b2n (banFrom ip p)

/-- The counters agree with the records. -/
structure CtrInv (E : Ip → Prop) (l : List (Ident × Peer)) (c : Counters) : Prop where
  disc : c.disc = cnt isDisc l
  total : c.total = cnt isBan l
  le : ∀ ip, c.byIp ip ≤ cnt (banFrom ip) l
  ex : ∀ ip, E ip → c.byIp ip = cnt (banFrom ip) l

variable {E : Ip → Prop}

theorem CtrInv.bal {l : List (Ident × Peer)} {c : Counters} (h : CtrInv E l c)
    (hn : (keys l).Nodup) {id : Ident} {p : Peer} (hg : get id l = some p) :
    Bal E (del id l) p c := by
  constructor
  · rw [h.disc, cnt_del_some _ hn hg]
  · rw [h.total, cnt_del_some _ hn hg]
  · intro ip; rw [← cnt_del_some _ hn hg]; exact h.le ip
  · intro ip hi; rw [← cnt_del_some _ hn hg]; exact h.ex ip hi

/-- status and addresses decide the contribution of a record -/
theorem contrib_congr {p q : Peer} (hs : p.status = q.status) (hi : p.ips = q.ips) :
    isDisc p = isDisc q ∧ isBan p = isBan q ∧ ∀ ip, banFrom ip p = banFrom ip q := by
  unfold banFrom isDisc isBan
  rw [hs, hi]
  exact ⟨rfl, rfl, fun _ => rfl⟩

theorem Bal.congr {l : List (Ident × Peer)} {p q : Peer} {c : Counters} (h : Bal E l p c)
    (hs : p.status = q.status) (hi : p.ips = q.ips) : Bal E l q c := by
  obtain ⟨h1, h2, h3⟩ := contrib_congr hs hi
  constructor
  · rw [← h1]; exact h.disc
  · rw [← h2]; exact h.total
  · intro ip; rw [← h3]; exact h.le ip
  · intro ip hE; rw [← h3]; exact h.ex ip hE

theorem Bal.put {l : List (Ident × Peer)} {id : Ident} {p : Peer} {c : Counters}
    (h : Bal E (del id l) p c) : CtrInv E (put id p l) c := by
  constructor
  · rw [cnt_put]; exact h.disc
  · rw [cnt_put]; exact h.total
  · intro ip; rw [cnt_put]; exact h.le ip
  · intro ip hE; rw [cnt_put]; exact h.ex ip hE

theorem CtrInv.bal_unknown {l : List (Ident × Peer)} {p : Peer} {c : Counters}
    (h : CtrInv E l c) (hs : p.status = .unknown) : Bal E l p c := by
  have h1 : isDisc p = false := by unfold isDisc; rw [hs]
  have h2 : isBan p = false := by unfold isBan; rw [hs]
  have h3 : ∀ ip, banFrom ip p = false := by intro ip; unfold banFrom; rw [h2]; rfl
  constructor
  · rw [h1]; exact h.disc
  · rw [h2]; exact h.total
  · intro ip; rw [h3]; exact h.le ip
  · intro ip hE; rw [h3]; exact h.ex ip hE

/-- closes the goals about per-address counters -/
macro "byip" h3:ident h4:ident ips:ident : tactic => `(tactic|
  all_goals first
    | (intro ip hE; have h := $h4 ip hE; by_cases hm : ip ∈ $ips <;> simp_all)
    | (intro ip; have h := $h3 ip; by_cases hm : ip ∈ $ips <;> simp_all))

/-- dropping the record with its contribution -/
theorem Bal.release {l : List (Ident × Peer)} {p : Peer} {c : Counters} (h : Bal E l p c) :
    CtrInv E l (State.release p c) := by
  obtain ⟨h1, h2, h3, h4⟩ := h
  unfold State.release
  rcases p with ⟨k, sc, ips, st, al⟩
  cases st <;> simp only [isDisc, isBan, banFrom, b2n] at h1 h2 h3 h4 <;> dsimp only <;>
    constructor <;>
    simp_all [Counters.decDisc, Counters.removeBanned]
  byip h3 h4 ips

/-- the transitions keep the balance, except a disconnect of a banned record -/
theorem transition_bal {l : List (Ident × Peer)} {p : Peer} {c : Counters} (now : Nat)
    (n : NewStatus) (h : Bal E l p c)
    (hok : ∀ b, n = .disconnecting b → isBan p = false) :
    Bal E l (transition now n p c).1 (transition now n p c).2.1 := by
  obtain ⟨h1, h2, h3, h4⟩ := h
  rcases p with ⟨k, sc, ips, st, al⟩
  cases n with
  | connected ip0 =>
    cases st <;> constructor <;>
      simp_all [transition, handleConnected, Peer.register, isDisc, isBan, banFrom, b2n,
        Counters.decDisc, Counters.removeBanned]
    byip h3 h4 ips
  | dialing =>
    cases st <;> constructor <;>
      simp_all [transition, handleDialing, Peer.registerDialing, isDisc, isBan, banFrom, b2n,
        Counters.decDisc, Counters.removeBanned]
    byip h3 h4 ips
  | disconnected =>
    cases st with
    | disconnecting b =>
      cases b <;> constructor <;>
        simp_all [transition, handleDisconnected, isDisc, isBan, banFrom, b2n,
          Counters.incDisc, Counters.addBanned]
      byip h3 h4 ips
    | _ =>
      constructor <;>
        simp_all [transition, handleDisconnected, isDisc, isBan, banFrom, b2n,
          Counters.incDisc, Counters.addBanned]
      byip h3 h4 ips
  | disconnecting b =>
    have hb := hok b rfl
    cases st <;> constructor <;>
      simp_all [transition, handleDisconnecting, isDisc, isBan, banFrom, b2n, Counters.decDisc]
  | banned =>
    cases st <;> constructor <;>
      simp_all [transition, handleBanned, isDisc, isBan, banFrom, b2n, Counters.decDisc,
        Counters.addBanned]
    byip h3 h4 ips
  | unbanned =>
    cases st with
    | disconnecting b =>
      cases b <;> constructor <;>
        simp_all [transition, handleUnbanned, isDisc, isBan, banFrom, b2n]
    | _ =>
      constructor <;>
        simp_all [transition, handleUnbanned, isDisc, isBan, banFrom, b2n, Counters.incDisc,
          Counters.removeBanned]
      byip h3 h4 ips

theorem transition_key (now : Nat) (n : NewStatus) (p : Peer) (c : Counters) :
    (transition now n p c).1.key = p.key := by
  rcases p with ⟨k, sc, ips, st, al⟩
  cases n <;> cases st <;>
    simp [transition, handleConnected, handleDialing, handleDisconnected, handleDisconnecting,
      handleBanned, handleUnbanned, Peer.register, Peer.registerDialing]
  all_goals (split <;> simp_all)

theorem normalize_bal {l : List (Ident × Peer)} {p : Peer} {c : Counters} (now : Nat)
    (h : Bal E l p c) :
    Bal E l (State.normalize now p c).1 (State.normalize now p c).2 := by
  obtain ⟨h1, h2, h3, h4⟩ := h
  rcases p with ⟨k, sc, ips, st, al⟩
  cases st with
  | disconnecting b =>
    cases b <;> constructor <;>
      simp_all [State.normalize, isDisc, isBan, banFrom, b2n, Counters.incDisc,
        Counters.addBanned]
    byip h3 h4 ips
  | _ =>
    constructor <;>
      simp_all [State.normalize, isDisc, isBan, banFrom, b2n, Counters.incDisc]
    byip h3 h4 ips

theorem normalize_key (now : Nat) (p : Peer) (c : Counters) :
    (State.normalize now p c).1.key = p.key := by
  rcases p with ⟨k, sc, ips, st, al⟩
  cases st <;> simp [State.normalize]
  split <;> simp_all

end Verif.Net
