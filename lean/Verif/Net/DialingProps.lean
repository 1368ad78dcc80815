import Verif.Net.Dialing
import Mathlib.Data.List.Nodup
import Mathlib.Data.List.Induction
import Mathlib.Tactic.Common

/-!
# Dialing: what holds in every run
-/

namespace Verif.Dial

open Verif.Net (Pid Ip Status)

/-! ## The transitions are those of the peer table -/

theorem canDial_eq (p : Net.Peer) : p.canDial = canDial p.status := by
  unfold Net.Peer.canDial canDial
  cases p.status <;> rfl

theorem toDialing_eq (now : Nat) (p : Net.Peer) (c : Net.Counters) :
    (Net.transition now .dialing p c).1.status = toDialing now p.status := by
  show (Net.Peer.registerDialing now p).status = _
  unfold Net.Peer.registerDialing toDialing
  cases h : p.status <;> simp [h]

theorem toDisconnected_eq (now : Nat) (p : Net.Peer) (c : Net.Counters) :
    (Net.transition now .disconnected p c).1.status = toDisconnected now p.status := by
  show (Net.handleDisconnected now p c).1.status = _
  unfold Net.handleDisconnected toDisconnected
  cases h : p.status with
  | disconnecting b => cases b <;> simp [h]
  | _ => simp [h]

theorem toConnected_eq (now : Nat) (ip : Option Ip) (p : Net.Peer) (c : Net.Counters) :
    (Net.transition now (.connected ip) p c).1.status = .connected := rfl

/-! ## The invariant -/

/-- does this end the call `r`? -/
def ends (r : Nat) : Out → Bool
  | .answered r' _ _ => decide (r' = r)
  | .dropped r' _ => decide (r' = r)
  | _ => false

/-- is this the call `r`? -/
def asks (r : Nat) : Out → Bool
  | .asked r' _ => decide (r' = r)
  | _ => false

/-- everywhere the call `r` is or ended -/
def tot (r : Nat) (s : St) : Nat :=
  s.log.countP (ends r) + s.queue.countP (fun q => decide (q.reply = some r))
    + Net.cnt (fun v => decide (v = r)) s.pend

/-- one or nothing -/
def one (b : Bool) : Nat := if b then 1 else 0

/-- the invariant, while the call `fl` for peer `fp` is being handled -/
structure Inv (P : Par) (fl : Option Nat) (fp : Pid) (s : St) : Prop where
  pn : (Net.keys s.pend).Nodup
  dn : (Net.keys s.disc).Nodup
  total : ∀ r, tot r s + one (decide (fl = some r)) = one (decide (r < s.next))
  calls : ∀ r, s.log.countP (asks r) = one (decide (r < s.next))
  af : ∀ r, fl = some r → Out.asked r fp ∈ s.log
  aq : ∀ q ∈ s.queue, ∀ r, q.reply = some r → Out.asked r q.peer ∈ s.log
  ap : ∀ p r, (p, r) ∈ s.pend → Out.asked r p ∈ s.log
  al : ∀ r p a, Out.answered r p a ∈ s.log → Out.asked r p ∈ s.log
  ad : ∀ r p, Out.dropped r p ∈ s.log → Out.asked r p ∈ s.log
  qs : ∀ q ∈ s.queue, q.peer ≠ P.me
  qd : ∀ q ∈ s.queue, q.reply = none → q.addrs.length ≤ maxAddrs
  dd : ∀ e ∈ s.disc, e.1 ≠ P.me ∧ e.2.length ≤ maxAddrs
  sw : ∀ p a, Out.swarm p a ∈ s.log → p ≠ P.me
  al' : ∀ p, Out.allowed p ∈ s.log → p ≠ P.me

variable {P : Par} {fl : Option Nat} {fp : Pid} {s : St}

/-- the parts the invariant does not look at may change -/
theorem Inv.frame (h : Inv P fl fp s) {s' : St} (h1 : s'.pend = s.pend) (h2 : s'.disc = s.disc)
    (h3 : s'.queue = s.queue) (h4 : s'.log = s.log) (h5 : s'.next = s.next) : Inv P fl fp s' := by
  obtain ⟨a, b, c, d, e, f, g, i, j, k, l, m, n, o⟩ := h
  refine ⟨h1 ▸ a, h2 ▸ b, ?_, ?_, ?_, ?_, ?_, ?_, ?_, ?_, ?_, ?_, ?_, ?_⟩
  · intro r; unfold tot; rw [h1, h3, h4, h5]; exact c r
  · intro r; rw [h4, h5]; exact d r
  · rw [h4]; exact e
  · rw [h3, h4]; exact f
  · rw [h1, h4]; exact g
  · rw [h4]; exact i
  · rw [h4]; exact j
  · rw [h3]; exact k
  · rw [h3]; exact l
  · rw [h2]; exact m
  · rw [h4]; exact n
  · rw [h4]; exact o

theorem Inv.disc (h : Inv P fl fp s) {d : List Entry} (h1 : (Net.keys d).Nodup)
    (h2 : ∀ e ∈ d, e.1 ≠ P.me ∧ e.2.length ≤ maxAddrs) : Inv P fl fp { s with disc := d } :=
  { h with dn := h1, dd := h2, total := h.total }

theorem Inv.setStatus (h : Inv P fl fp s) (p : Pid) (st : Status) :
    Inv P fl fp (s.setStatus p st) := h.frame rfl rfl rfl rfl rfl

/-- outputs that end nothing -/
def Quiet (P : Par) : Out → Prop
  | .asked _ _ => False
  | .answered _ _ _ => False
  | .dropped _ _ => False
  | .swarm p _ => p ≠ P.me
  | .allowed p => p ≠ P.me
  | .denied _ => True
  | .search => True

theorem Inv.say (h : Inv P fl fp s) {o : Out} (hq : Quiet P o) : Inv P fl fp (s.say o) := by
  have he : ∀ r, ends r o = false := by intro r; cases o <;> first | rfl | exact hq.elim
  have ha : ∀ r, asks r o = false := by intro r; cases o <;> first | rfl | exact hq.elim
  have hm : ∀ x, x ∈ s.log → x ∈ (s.say o).log := fun x hx => List.mem_append_left _ hx
  refine { pn := h.pn, dn := h.dn, total := ?_, calls := ?_, af := ?_, aq := ?_, ap := ?_,
           al := ?_, ad := ?_, qs := h.qs, qd := h.qd, dd := h.dd, sw := ?_, al' := ?_ }
  · intro r
    have := h.total r
    unfold tot at this ⊢
    show (s.log ++ [o]).countP (ends r) + s.queue.countP _ + Net.cnt _ s.pend + _ = _
    rw [List.countP_append, List.countP_singleton, he r]
    exact this
  · intro r
    show (s.log ++ [o]).countP (asks r) = _
    rw [List.countP_append, List.countP_singleton, ha r]
    exact h.calls r
  · intro r hr; exact hm _ (h.af r hr)
  · intro q hq' r hr; exact hm _ (h.aq q hq' r hr)
  · intro p r hp; exact hm _ (h.ap p r hp)
  · intro r p a hx
    rcases List.mem_append.mp hx with hx | hx
    · exact hm _ (h.al r p a hx)
    · rw [← List.mem_singleton.mp hx] at hq; exact hq.elim
  · intro r p hx
    rcases List.mem_append.mp hx with hx | hx
    · exact hm _ (h.ad r p hx)
    · rw [← List.mem_singleton.mp hx] at hq; exact hq.elim
  · intro p a hx
    rcases List.mem_append.mp hx with hx | hx
    · exact h.sw p a hx
    · rw [← List.mem_singleton.mp hx] at hq; exact hq
  · intro p hx
    rcases List.mem_append.mp hx with hx | hx
    · exact h.al' p hx
    · rw [← List.mem_singleton.mp hx] at hq; exact hq

theorem one_true {b : Prop} [Decidable b] (h : b) : one (decide b) = 1 := by simp [one, h]

theorem one_false {b : Prop} [Decidable b] (h : ¬ b) : one (decide b) = 0 := by simp [one, h]

/-- the log grows by the end of a call -/
theorem Inv.ended {s' : St} {o : Out} (h : Inv P fl fp s) {fl' : Option Nat}
    (hl : s'.log = s.log ++ [o]) (hd : s'.disc = s.disc) (hn : s'.next = s.next)
    (hq : ∀ q ∈ s'.queue, q ∈ s.queue)
    (hp : ∀ p r, (p, r) ∈ s'.pend → Out.asked r p ∈ s.log) (hpn : (Net.keys s'.pend).Nodup)
    (ho : (∃ r p a, o = .answered r p a ∧ Out.asked r p ∈ s.log) ∨
      (∃ r p, o = .dropped r p ∧ Out.asked r p ∈ s.log))
    (hf : fl' = none)
    (ht : ∀ r, tot r s' + one (decide (fl' = some r)) = tot r s + one (decide (fl = some r))) :
    Inv P fl' fp s' := by
  have ha : ∀ r, asks r o = false := by
    intro r; rcases ho with ⟨_, _, _, rfl, _⟩ | ⟨_, _, rfl, _⟩ <;> rfl
  have hm : ∀ x, x ∈ s.log → x ∈ s'.log := fun x hx => hl ▸ List.mem_append_left _ hx
  refine { pn := hpn, dn := hd ▸ h.dn, total := ?_, calls := ?_, af := ?_, aq := ?_, ap := ?_,
           al := ?_, ad := ?_, qs := fun q hq' => h.qs q (hq q hq'),
           qd := fun q hq' => h.qd q (hq q hq'), dd := hd ▸ h.dd, sw := ?_, al' := ?_ }
  · intro r
    rw [ht r, hn]; exact h.total r
  · intro r
    rw [hl, List.countP_append, List.countP_singleton, ha r, hn]
    exact h.calls r
  · intro r hr; rw [hf] at hr; cases hr
  · intro q hq' r hr; exact hm _ (h.aq q (hq q hq') r hr)
  · intro p r hx; exact hm _ (hp p r hx)
  · intro r p a hx
    rw [hl] at hx
    rcases List.mem_append.mp hx with hx | hx
    · exact hm _ (h.al r p a hx)
    · rcases ho with ⟨r', p', a', rfl, h2⟩ | ⟨r', p', rfl, h2⟩
      · cases List.mem_singleton.mp hx; exact hm _ h2
      · cases List.mem_singleton.mp hx
  · intro r p hx
    rw [hl] at hx
    rcases List.mem_append.mp hx with hx | hx
    · exact hm _ (h.ad r p hx)
    · rcases ho with ⟨r', p', a', rfl, h2⟩ | ⟨r', p', rfl, h2⟩
      · cases List.mem_singleton.mp hx
      · cases List.mem_singleton.mp hx; exact hm _ h2
  · intro p a hx
    rw [hl] at hx
    rcases List.mem_append.mp hx with hx | hx
    · exact h.sw p a hx
    · rcases ho with ⟨r', p', a', rfl, h2⟩ | ⟨r', p', rfl, h2⟩ <;> cases List.mem_singleton.mp hx
  · intro p hx
    rw [hl] at hx
    rcases List.mem_append.mp hx with hx | hx
    · exact h.al' p hx
    · rcases ho with ⟨r', p', a', rfl, h2⟩ | ⟨r', p', rfl, h2⟩ <;> cases List.mem_singleton.mp hx

theorem b2n_eq_one (b : Bool) : Net.b2n b = one b := rfl

theorem Inv.notify (h : Inv P none fp s) (p : Pid) (a : Ans) : Inv P none fp (s.notify p a) := by
  unfold St.notify
  cases hg : Net.get p s.pend with
  | none => exact h
  | some r =>
    refine h.ended (o := .answered r p a) rfl rfl rfl (fun _ hq => hq) ?_
      (Net.nodup_del p h.pn) (.inl ⟨r, p, a, rfl, h.ap p r (Net.mem_of_get hg)⟩) rfl ?_
    · intro p' r' hx
      exact h.ap p' r' (List.mem_filter.mp hx).1
    · intro r'
      have := Net.cnt_del_some (fun v => decide (v = r')) h.pn hg
      unfold tot
      show (s.log ++ [Out.answered r p a]).countP (ends r') + s.queue.countP _
        + Net.cnt _ (Net.del p s.pend) + _ = _
      rw [this, List.countP_append, List.countP_singleton]
      show _ + (if decide (r = r') then 1 else 0) + _ + _ + _ = _
      unfold Net.b2n
      omega

theorem Inv.reply {r : Nat} {p : Pid} (h : Inv P (some r) p s) (a : Ans) :
    Inv P none p (s.reply p (some r) a) := by
  refine h.ended (o := .answered r p a) rfl rfl rfl (fun _ hq => hq) h.ap h.pn
    (.inl ⟨r, p, a, rfl, h.af r rfl⟩) rfl ?_
  intro r'
  unfold tot
  show (s.log ++ [Out.answered r p a]).countP (ends r') + s.queue.countP _
    + Net.cnt _ s.pend + _ = _
  rw [List.countP_append, List.countP_singleton]
  show _ + (if decide (r = r') then 1 else 0) + _ + _ + _ = _
  have : one (decide ((some r : Option Nat) = some r')) = if decide (r = r') then 1 else 0 := by
    by_cases e : r = r' <;> simp [one, e]
  rw [this, one_false (by simp)]
  omega

/-- a call that is being handled is stored -/
theorem Inv.stored {s' : St} {r : Nat} {p : Pid} (h : Inv P (some r) p s)
    (hl : s'.log = s.log) (hd : s'.disc = s.disc) (hn : s'.next = s.next)
    (hq : ∀ q ∈ s'.queue, q ∈ s.queue ∨ (q.peer = p ∧ q.reply = some r ∧ p ≠ P.me))
    (hp : ∀ p' r', (p', r') ∈ s'.pend → (p', r') ∈ s.pend ∨ (p' = p ∧ r' = r))
    (hpn : (Net.keys s'.pend).Nodup)
    (ht : ∀ r', tot r' s' = tot r' s + one (decide ((some r : Option Nat) = some r'))) :
    Inv P none p s' := by
  refine { pn := hpn, dn := hd ▸ h.dn, total := ?_, calls := ?_, af := ?_, aq := ?_, ap := ?_,
           al := hl ▸ h.al, ad := hl ▸ h.ad, qs := ?_, qd := ?_, dd := hd ▸ h.dd,
           sw := hl ▸ h.sw, al' := hl ▸ h.al' }
  · intro r'
    rw [ht r', one_false (b := (none : Option Nat) = some r') (by simp), hn]
    exact h.total r'
  · intro r'; rw [hl, hn]; exact h.calls r'
  · intro r' hr; cases hr
  · intro q hq' r' hr
    rw [hl]
    rcases hq q hq' with hx | ⟨h1, h2, _⟩
    · exact h.aq q hx r' hr
    · rw [h2] at hr; cases hr; rw [h1]; exact h.af r rfl
  · intro p' r' hx
    rw [hl]
    rcases hp p' r' hx with hx | ⟨rfl, rfl⟩
    · exact h.ap p' r' hx
    · exact h.af r' rfl
  · intro q hq'
    rcases hq q hq' with hx | ⟨h1, _, h3⟩
    · exact h.qs q hx
    · rw [h1]; exact h3
  · intro q hq' hr
    rcases hq q hq' with hx | ⟨_, h2, _⟩
    · exact h.qd q hx hr
    · rw [h2] at hr; cases hr

theorem Inv.holdFree {r : Nat} {p : Pid} (h : Inv P (some r) p s) (hg : Net.get p s.pend = none) :
    Inv P none p { s with pend := Net.put p r s.pend } := by
  refine h.stored rfl rfl rfl (fun q hq => .inl hq) ?_ (Net.nodup_put p r h.pn) ?_
  · intro p' r' hx
    rcases List.mem_cons.mp hx with hx | hx
    · cases hx; exact .inr ⟨rfl, rfl⟩
    · exact .inl (List.mem_filter.mp hx).1
  · intro r'
    unfold tot
    show s.log.countP (ends r') + s.queue.countP _ + Net.cnt _ (Net.put p r s.pend) = _
    rw [Net.cnt_put, Net.cnt_del_none _ hg]
    have : one (decide ((some r : Option Nat) = some r')) = Net.b2n (decide (r = r')) := by
      by_cases e : r = r' <;> simp [one, Net.b2n, e]
    rw [this]
    omega

/-- the earlier caller's channel goes -/
theorem Inv.drop {p : Pid} {old : Nat} (h : Inv P fl p s) (hg : Net.get p s.pend = some old) :
    Inv P fl p { s with pend := Net.del p s.pend, log := s.log ++ [.dropped old p] } := by
  have hm : ∀ x, x ∈ s.log → x ∈ s.log ++ [.dropped old p] := fun x hx => List.mem_append_left _ hx
  have hin : Out.asked old p ∈ s.log := h.ap p old (Net.mem_of_get hg)
  refine { pn := Net.nodup_del p h.pn, dn := h.dn, total := ?_, calls := ?_, af := ?_, aq := ?_,
           ap := ?_, al := ?_, ad := ?_, qs := h.qs, qd := h.qd, dd := h.dd, sw := ?_, al' := ?_ }
  · intro r'
    rw [← h.total r']
    have := Net.cnt_del_some (fun v => decide (v = r')) h.pn hg
    unfold tot
    show (s.log ++ [Out.dropped old p]).countP (ends r') + s.queue.countP _
      + Net.cnt _ (Net.del p s.pend) + _ = _
    rw [this, List.countP_append, List.countP_singleton]
    show _ + (if decide (old = r') then 1 else 0) + _ + _ + _ = _
    unfold Net.b2n
    omega
  · intro r'
    show (s.log ++ [Out.dropped old p]).countP (asks r') = _
    rw [List.countP_append, List.countP_singleton]
    exact h.calls r'
  · intro r hr; exact hm _ (h.af r hr)
  · intro q hq r hr; exact hm _ (h.aq q hq r hr)
  · intro p' r hx; exact hm _ (h.ap p' r (List.mem_filter.mp hx).1)
  · intro r p' a hx
    rcases List.mem_append.mp hx with hx | hx
    · exact hm _ (h.al r p' a hx)
    · cases List.mem_singleton.mp hx
  · intro r p' hx
    rcases List.mem_append.mp hx with hx | hx
    · exact hm _ (h.ad r p' hx)
    · cases List.mem_singleton.mp hx; exact hm _ hin
  · intro p' a hx
    rcases List.mem_append.mp hx with hx | hx
    · exact h.sw p' a hx
    · cases List.mem_singleton.mp hx
  · intro p' hx
    rcases List.mem_append.mp hx with hx | hx
    · exact h.al' p' hx
    · cases List.mem_singleton.mp hx

theorem del_del (p : Pid) (l : List (Pid × Nat)) : Net.del p (Net.del p l) = Net.del p l := by
  unfold Net.del
  rw [List.filter_filter]
  refine List.filter_congr fun x _ => ?_
  exact Bool.and_self _

theorem Inv.hold {r : Nat} {p : Pid} (h : Inv P (some r) p s) : Inv P none p (s.hold p r) := by
  unfold St.hold
  cases hg : Net.get p s.pend with
  | none => exact h.holdFree hg
  | some old =>
    have h1 := h.drop hg
    have h2 := h1.holdFree (Net.get_del_self p s.pend)
    refine h2.frame ?_ rfl rfl rfl rfl
    show Net.put p r s.pend = Net.put p r (Net.del p s.pend)
    unfold Net.put
    rw [del_del]

theorem Inv.fp' (h : Inv P none fp s) (q : Pid) : Inv P none q s :=
  { h with af := fun _ hr => (nomatch hr), total := h.total }

theorem Inv.register {r : Option Nat} {p : Pid} (h : Inv P r p s) :
    Inv P none p (register p r s) := by
  unfold Dial.register
  cases r with
  | none => exact h.setStatus _ _
  | some r => exact (h.setStatus _ _).hold

theorem Inv.enqueue {r : Option Nat} {p : Pid} {addrs : List Addr} (h : Inv P r p s)
    (hp : p ≠ P.me) (hd : r = none → addrs.length ≤ maxAddrs) :
    Inv P none p (s.enqueue ⟨p, addrs, r⟩) := by
  cases r with
  | some r =>
    refine h.stored rfl rfl rfl ?_ (fun _ _ hx => .inl hx) h.pn ?_
    · intro q hq
      rcases List.mem_append.mp hq with hq | hq
      · exact .inl hq
      · rw [List.mem_singleton.mp hq]; exact .inr ⟨rfl, rfl, hp⟩
    · intro r'
      unfold tot
      show s.log.countP (ends r') + (s.queue ++ [(⟨p, addrs, some r⟩ : Req)]).countP _
        + Net.cnt _ s.pend = _
      rw [List.countP_append, List.countP_singleton]
      show _ + (_ + (if decide ((some r : Option Nat) = some r') then 1 else 0)) + _ = _
      unfold one
      omega
  | none =>
    have hmem : ∀ q ∈ (s.enqueue ⟨p, addrs, none⟩).queue, q ∈ s.queue ∨ q = ⟨p, addrs, none⟩ := by
      intro q hq
      rcases List.mem_append.mp hq with hq | hq
      · exact .inl hq
      · exact .inr (List.mem_singleton.mp hq)
    refine { pn := h.pn, dn := h.dn, total := ?_, calls := h.calls, af := fun _ hr => (nomatch hr),
             aq := ?_, ap := h.ap, al := h.al, ad := h.ad, qs := ?_, qd := ?_, dd := h.dd,
             sw := h.sw, al' := h.al' }
    · intro r'
      have := h.total r'
      unfold tot at this ⊢
      show s.log.countP (ends r') + (s.queue ++ [(⟨p, addrs, none⟩ : Req)]).countP _
        + Net.cnt _ s.pend + _ = one (decide (r' < s.next))
      rw [List.countP_append, List.countP_singleton]
      simpa using this
    · intro q hq r' hr
      rcases hmem q hq with hq | rfl
      · exact h.aq q hq r' hr
      · cases hr
    · intro q hq
      rcases hmem q hq with hq | rfl
      · exact h.qs q hq
      · exact hp
    · intro q hq hr
      rcases hmem q hq with hq | rfl
      · exact h.qd q hq hr
      · exact hd rfl

theorem Inv.reply' {r : Option Nat} {p : Pid} (h : Inv P r p s) (a : Ans) :
    Inv P none p (s.reply p r a) := by
  cases r with
  | none => exact h
  | some r => exact h.reply a

theorem Inv.dialPeer {r : Option Nat} {p : Pid} {addrs : List Addr} (h : Inv P r p s)
    (hd : r = none → addrs.length ≤ maxAddrs) : Inv P none p (dialPeer P p addrs r s) := by
  unfold Dial.dialPeer
  by_cases hp : p = P.me
  · rw [if_pos hp]; exact h.reply' _
  · rw [if_neg hp]
    cases s.status p
    all_goals first | exact h.reply' _ | exact h.enqueue hp hd

theorem Inv.ask {p : Pid} {addrs : List Addr} (h : Inv P none fp s) :
    Inv P none p (ask P p addrs s) := by
  have hm : ∀ x, x ∈ s.log → x ∈ s.log ++ [Out.asked s.next p] :=
    fun x hx => List.mem_append_left _ hx
  have h1 : Inv P (some s.next) p
      { s with next := s.next + 1, log := s.log ++ [.asked s.next p] } := by
    refine { pn := h.pn, dn := h.dn, total := ?_, calls := ?_, af := ?_, aq := ?_, ap := ?_,
             al := ?_, ad := ?_, qs := h.qs, qd := h.qd, dd := h.dd, sw := ?_, al' := ?_ }
    · intro r
      have := h.total r
      unfold tot at this ⊢
      show (s.log ++ [Out.asked s.next p]).countP (ends r) + s.queue.countP _
        + Net.cnt _ s.pend + _ = one (decide (r < s.next + 1))
      rw [List.countP_append, List.countP_singleton]
      show s.log.countP (ends r) + 0 + _ + _ + _ = _
      by_cases e : s.next = r
      · subst e
        rw [one_false (b := (none : Option Nat) = some s.next) (by simp), one_false (by omega)] at this
        rw [one_true (b := (some s.next : Option Nat) = some s.next) rfl,
          one_true (b := s.next < s.next + 1) (by omega)]
        omega
      · rw [one_false (b := (none : Option Nat) = some r) (by simp)] at this
        rw [one_false (b := (some s.next : Option Nat) = some r) (by simpa using e)]
        have e2 : one (decide (r < s.next + 1)) = one (decide (r < s.next)) := by
          by_cases e3 : r < s.next
          · rw [one_true e3, one_true (by omega)]
          · rw [one_false e3, one_false (by omega)]
        rw [e2]; exact this
    · intro r
      show (s.log ++ [Out.asked s.next p]).countP (asks r) = one (decide (r < s.next + 1))
      rw [List.countP_append, List.countP_singleton, h.calls r]
      show _ + (if decide (s.next = r) then 1 else 0) = _
      by_cases e : s.next = r
      · subst e
        rw [one_false (by omega), one_true (by omega)]; simp
      · by_cases e3 : r < s.next
        · rw [one_true e3, one_true (by omega)]; simp [e]
        · rw [one_false e3, one_false (by omega)]; simp [e]
    · intro r hr; cases hr; exact List.mem_append_right _ (List.mem_singleton.mpr rfl)
    · intro q hq r hr; exact hm _ (h.aq q hq r hr)
    · intro p' r hx; exact hm _ (h.ap p' r hx)
    · intro r p' a hx
      rcases List.mem_append.mp hx with hx | hx
      · exact hm _ (h.al r p' a hx)
      · cases List.mem_singleton.mp hx
    · intro r p' hx
      rcases List.mem_append.mp hx with hx | hx
      · exact hm _ (h.ad r p' hx)
      · cases List.mem_singleton.mp hx
    · intro p' a hx
      rcases List.mem_append.mp hx with hx | hx
      · exact h.sw p' a hx
      · cases List.mem_singleton.mp hx
    · intro p' hx
      rcases List.mem_append.mp hx with hx | hx
      · exact h.al' p' hx
      · cases List.mem_singleton.mp hx
  exact h1.dialPeer (fun hr => (nomatch hr))

/-! ## Discovery's map -/

theorem eligible_iff {e : Entry} : eligible P s e = true ↔
    e.1 ≠ P.me ∧ e.2.length ≤ maxAddrs ∧ goodIps s.ipban e.2 = true
      ∧ canDial (s.status e.1) = true := by
  unfold eligible
  simp only [Bool.and_eq_true, Bool.not_eq_true', decide_eq_false_iff_not, decide_eq_true_eq]
  tauto

theorem without_sub {l g : List Entry} : ∀ e ∈ without l g, e ∈ l :=
  fun _ he => (List.mem_filter.mp he).1

theorem without_nodup {l g : List Entry} (h : (Net.keys l).Nodup) :
    (Net.keys (without l g)).Nodup := h.sublist (List.filter_sublist.map _)

theorem mem_addAll {l d : List Entry} {e : Entry} (h : e ∈ addAll l d) : e ∈ d ∨ e ∈ l := by
  induction l generalizing d with
  | nil => exact .inl h
  | cons x l ih =>
    rcases ih (d := Net.put x.1 x.2 d) h with h | h
    · rcases List.mem_cons.mp h with rfl | h
      · exact .inr List.mem_cons_self
      · exact .inl (List.mem_filter.mp h).1
    · exact .inr (List.mem_cons_of_mem _ h)

theorem addAll_nodup {l d : List Entry} (h : (Net.keys d).Nodup) :
    (Net.keys (addAll l d)).Nodup := by
  induction l generalizing d with
  | nil => exact h
  | cons x l ih => exact ih (Net.nodup_put x.1 x.2 h)

theorem addAll_length (l d : List Entry) : (addAll l d).length ≤ d.length + l.length := by
  induction l generalizing d with
  | nil => exact Nat.le_refl _
  | cons x l ih =>
    refine Nat.le_trans (ih (Net.put x.1 x.2 d)) ?_
    have : (Net.put x.1 x.2 d).length ≤ d.length + 1 := by
      show (Net.del x.1 d).length + 1 ≤ _
      have : (Net.del x.1 d).length ≤ d.length := List.length_filter_le _ d
      omega
    simp only [List.length_cons]
    omega

theorem mem_picks {c : Choice} {e : Entry} (h : e ∈ picks P c s) :
    e ∈ s.disc ∧ eligible P s e = true := by
  have h1 := (c.perm _).mem_iff.mp (List.mem_of_mem_take h)
  exact List.mem_filter.mp h1

theorem Inv.dials (h : Inv P none fp s) (l : List Entry) (hl : ∀ e ∈ l, e.2.length ≤ maxAddrs) :
    ∃ q, Inv P none q (l.foldl (fun s e => Dial.dialPeer P e.1 e.2 none s) s) := by
  induction l generalizing s fp with
  | nil => exact ⟨fp, h⟩
  | cons x l ih =>
    exact ih ((h.fp' x.1).dialPeer (fun _ => hl x List.mem_cons_self))
      (fun e he => hl e (List.mem_cons_of_mem _ he))

theorem Inv.discBeat (h : Inv P none fp s) (c1 c2 : Choice) :
    ∃ q, Inv P none q (discBeat P c1 c2 s) := by
  obtain ⟨q, h1⟩ := h.dials (picks P c1 s) (fun e he => (h.dd e (mem_picks he).1).2)
  have n1 : (Net.keys (without (s.disc.filter (eligible P s)) (picks P c1 s))).Nodup :=
    without_nodup (h.dn.sublist (List.filter_sublist.map _))
  have d1 : ∀ e ∈ without (s.disc.filter (eligible P s)) (picks P c1 s),
      e.1 ≠ P.me ∧ e.2.length ≤ maxAddrs :=
    fun e he => h.dd e (List.mem_filter.mp (without_sub e he)).1
  refine ⟨q, ?_⟩
  unfold Dial.discBeat
  dsimp only
  split
  · exact h1.disc (without_nodup n1) (fun e he => d1 e (without_sub e he))
  · split
    · exact ((h1.disc n1 d1).say (o := .search) trivial).frame rfl rfl rfl rfl rfl
    · exact h1.disc n1 d1

theorem Inv.expire (h : Inv P none fp s) : Inv P none fp (expire P s) := by
  unfold Dial.expire
  generalize expired P s = l
  induction l generalizing s with
  | nil => exact h
  | cons x l ih => exact ih ((h.setStatus _ _).notify _ _)

theorem Inv.poll (h : Inv P none fp s) : ∃ q, Inv P none q (poll s) := by
  unfold Dial.poll
  by_cases he : 0 < s.evs
  · rw [if_pos he]; exact ⟨fp, h.frame rfl rfl rfl rfl rfl⟩
  · rw [if_neg he]
    cases hq : s.queue with
    | nil => exact ⟨fp, h⟩
    | cons x rest =>
      have hx : x ∈ s.queue := hq ▸ List.mem_cons_self
      have hr : ∀ q ∈ rest, q ∈ s.queue := fun q hq' => hq ▸ List.mem_cons_of_mem _ hq'
      have h1 : Inv P x.reply x.peer { s with queue := rest } := by
        refine { pn := h.pn, dn := h.dn, total := ?_, calls := h.calls, af := h.aq x hx,
                 aq := fun q hq' => h.aq q (hr q hq'), ap := h.ap, al := h.al, ad := h.ad,
                 qs := fun q hq' => h.qs q (hr q hq'), qd := fun q hq' => h.qd q (hr q hq'),
                 dd := h.dd, sw := h.sw, al' := h.al' }
        intro r
        have := h.total r
        unfold tot at this ⊢
        rw [hq, List.countP_cons, one_false (b := (none : Option Nat) = some r) (by simp)] at this
        show s.log.countP (ends r) + rest.countP _ + Net.cnt _ s.pend + _ = one (decide (r < s.next))
        rw [← this]
        unfold one
        omega
      exact ⟨x.peer, h1.register.say (o := .swarm x.peer x.addrs) (h.qs x hx)⟩

theorem Inv.outbound (h : Inv P none fp s) (p : Pid) (b : Bool) :
    ∃ q, Inv P none q (outbound P p b s) := by
  unfold Dial.outbound
  by_cases hp : p = P.me
  · rw [if_pos hp]; exact ⟨fp, h.say (o := .denied p) trivial⟩
  · rw [if_neg hp]
    split
    · split
      · exact ⟨fp, h.say (o := .denied p) trivial⟩
      · exact ⟨fp, h.say (o := .allowed p) hp⟩
    · split
      · exact ⟨p, ((h.fp' p).register).say (o := .allowed p) hp⟩
      · exact ⟨fp, h.say (o := .denied p) trivial⟩

theorem Inv.established (h : Inv P none fp s) (p : Pid) (o b : Bool) :
    Inv P none fp (established p o b s) := by
  unfold Dial.established
  cases b with
  | true => exact h
  | false =>
    have h1 := h.setStatus p .connected
    have h2 : Inv P none fp (if isDialing (s.status p) = true then
        (s.setStatus p .connected).notify p .ok else s.setStatus p .connected) := by
      split
      · exact h1.notify _ _
      · exact h1
    cases o with
    | true => exact h2.notify _ _
    | false => exact h2

theorem Inv.failed (h : Inv P none fp s) (p : Pid) : Inv P none fp (failed p s) := by
  unfold Dial.failed
  dsimp only
  split
  · exact h.notify _ _
  · exact (h.setStatus _ _).notify _ _

theorem Inv.added (h : Inv P none fp s) (l : List Entry)
    (hl : ∀ e ∈ l, eligible P s e = true) : Inv P none fp { s with disc := addAll l s.disc } := by
  refine h.disc (addAll_nodup h.dn) ?_
  intro e he
  rcases mem_addAll he with he | he
  · exact h.dd e he
  · have := eligible_iff.mp (hl e he)
    exact ⟨this.1, this.2.1⟩

theorem Inv.step (h : Inv P none fp s) (e : Ev) : ∃ q, Inv P none q (step P s e) := by
  cases e with
  | dial p addrs => exact ⟨p, h.ask⟩
  | env p st =>
    cases st with
    | some x => exact ⟨fp, h.setStatus p x⟩
    | none => exact ⟨fp, h.frame rfl rfl rfl rfl rfl⟩
  | ips b => exact ⟨fp, h.frame rfl rfl rfl rfl rfl⟩
  | event => exact ⟨fp, h.frame rfl rfl rfl rfl rfl⟩
  | tick d => exact ⟨fp, h.frame rfl rfl rfl rfl rfl⟩
  | heartbeat acts n c1 c2 =>
    have h1 : Inv P none fp (beatStart P acts n s) := h.expire.frame rfl rfl rfl rfl rfl
    exact h1.discBeat c1 c2
  | poll => exact h.poll
  | outbound p b => exact h.outbound p b
  | established p o b => exact ⟨fp, h.established p o b⟩
  | failed p => exact ⟨fp, h.failed p⟩
  | closed p => exact ⟨fp, h.setStatus _ _⟩
  | kad c l =>
    refine ⟨fp, h.added _ ?_⟩
    intro e he
    exact (List.mem_filter.mp ((c.perm _).mem_iff.mp he)).2
  | exchange c l =>
    show ∃ q, Inv P none q (exchange P c l s)
    unfold exchange
    split
    · refine ⟨fp, h.added _ ?_⟩
      intro e he
      exact (List.mem_filter.mp ((c.perm _).mem_iff.mp (List.mem_of_mem_take he))).2
    · exact ⟨fp, h⟩

theorem inv_init : Inv P none 0 {} :=
  ⟨List.nodup_nil, List.nodup_nil, fun r => by simp [tot, one, Net.cnt], fun r => by simp [one],
    fun _ h => (nomatch h), fun _ h => (nomatch h), fun _ _ h => (nomatch h),
    fun _ _ _ h => (nomatch h), fun _ _ h => (nomatch h), fun _ h => (nomatch h),
    fun _ h => (nomatch h), fun _ h => (nomatch h), fun _ _ h => (nomatch h),
    fun _ h => (nomatch h)⟩

/-- the invariant holds in every run -/
theorem inv_exec (P : Par) (es : List Ev) : ∃ q, Inv P none q (exec P es) := by
  induction es using List.reverseRecOn with
  | nil => exact ⟨0, inv_init⟩
  | append_singleton es e ih =>
    obtain ⟨q, h⟩ := ih
    unfold exec at h ⊢
    rw [List.foldl_append]
    exact h.step e

end Verif.Dial
