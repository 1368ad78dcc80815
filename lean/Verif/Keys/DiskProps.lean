import Verif.Keys.Disk
import Mathlib.Data.List.Induction
import Mathlib.Data.Nat.Pairing
/-
**C114.** The keys of a node on disk: what a command writes is what the node later reads, only with the
passphrase it was written with; `node-info.yaml` names the same key and proves its possession; no command
destroys keys unless it is forced.
-/
namespace Verif
namespace Keys

/-- What is assumed of the cryptography and the encodings. `enc_dec` is a property of AES-GCM-SIV: decryption
recomputes the tag of the text it returns. -/
structure Crypto.Ok (C : Crypto) : Prop where
  from_to : ∀ k, C.fromBytes (C.toBytes k) = some k
  dec_enc : ∀ w n m, C.dec w n (C.enc w n m) = some m
  enc_dec : ∀ w n c m, C.dec w n c = some m → c = C.enc w n m
  enc_ne : ∀ w n m, C.enc w n m ≠ []
  unb58 : ∀ b, C.unb58 (C.b58 b) = some b
  b58_clean : ∀ b, ∀ c ∈ C.b58 b, ws c = false
  proof : ∀ k a, C.popOk (C.pub k) a (C.pop k a) = true
  pub_ne : ∀ k, C.pub k ≠ 0

/-- The ideal of an authenticated cipher under a key derivation without collisions: what was encrypted under one
passphrase and number of rounds does not decrypt under another. -/
def Separate (C : Crypto) : Prop :=
  ∀ p p' s n r r' m, (p ≠ p' ∨ r ≠ r') → C.dec (C.kdf p' s r') n (C.enc (C.kdf p s r) n m) = none

/-- The draws have the lengths of the code. -/
def Draw.Fits (r : Draw) : Prop := r.salt.length = 12 ∧ r.nonce.length = 12

variable {C : Crypto}

theorem strong_eq : strongRounds = 1000000 := by unfold strongRounds; rfl

theorem weak_ne : weakRounds ≠ strongRounds := by rw [strong_eq]; decide

theorem dropWhile_clean {t : Text} (h : ∀ c ∈ t, ws c = false) : t.dropWhile ws = t := by
  cases t with
  | nil => rfl
  | cons a t =>
    rw [List.dropWhile_cons_of_neg]
    rw [h a (List.mem_cons_self ..)]
    exact Bool.false_ne_true

theorem trim_clean {t : Text} (h : ∀ c ∈ t, ws c = false) : trim t = t := by
  unfold trim trimEnd
  rw [dropWhile_clean h, dropWhile_clean (fun c hc => h c (List.mem_reverse.mp hc)), List.reverse_reverse]

/-- White space around the content of a file does not matter. -/
theorem trim_padded {t a b : Text} (h : ∀ c ∈ t, ws c = false) (hne : t ≠ []) (ha : ∀ c ∈ a, ws c = true)
    (hb : ∀ c ∈ b, ws c = true) : trim (a ++ t ++ b) = t := by
  have drop : ∀ (a t : Text), (∀ c ∈ a, ws c = true) → (a ++ t).dropWhile ws = t.dropWhile ws := by
    intro a t ha
    induction a with
    | nil => rfl
    | cons x a ih =>
      rw [List.cons_append, List.dropWhile_cons_of_pos (ha x (List.mem_cons_self ..))]
      exact ih (fun c hc => ha c (List.mem_cons_of_mem _ hc))
  unfold trim trimEnd
  rw [List.append_assoc, drop a (t ++ b) ha]
  have e : (t ++ b).dropWhile ws = t ++ b := by
    cases t with
    | nil => exact absurd rfl hne
    | cons x t =>
      rw [List.cons_append, List.dropWhile_cons_of_neg]
      rw [h x (List.mem_cons_self ..)]
      exact Bool.false_ne_true
  rw [e, List.reverse_append, drop b.reverse t.reverse (fun c hc => hb c (List.mem_reverse.mp hc)),
    dropWhile_clean (fun c hc => h c (List.mem_reverse.mp hc)), List.reverse_reverse]

theorem unwrap_split (salt nonce ct : Bytes) (p : Text) (hs : salt.length = 12) (hn : nonce.length = 12)
    (hc : ct ≠ []) :
    unwrap C (salt ++ nonce ++ ct) p =
      match tryDecrypt C p salt nonce ct weakRounds with
      | some k => .ok (k, true)
      | none =>
        match tryDecrypt C p salt nonce ct strongRounds with
        | some k => .ok (k, false)
        | none => .error .decrypt := by
  have hl : ¬ (salt ++ nonce ++ ct).length ≤ saltLen + nonceLen := by
    have : 0 < ct.length := List.length_pos_iff.mpr hc
    simp only [List.length_append, hs, hn, saltLen, nonceLen]
    omega
  unfold unwrap
  rw [if_neg hl]
  have e1 : (salt ++ nonce ++ ct).take saltLen = salt := by
    rw [List.append_assoc]; exact List.take_left' hs
  have e2 : (salt ++ nonce ++ ct).drop saltLen = nonce ++ ct := by
    rw [List.append_assoc]; exact List.drop_left' hs
  have e3 : (nonce ++ ct).take nonceLen = nonce := List.take_left' hn
  have e4 : (nonce ++ ct).drop nonceLen = ct := List.drop_left' hn
  simp only [e1, e2, e3, e4]
  rfl

theorem unwrap_own (h : C.Ok) (hsep : Separate C) (k : Nat) (p : Text) {r : Draw} (hr : r.Fits) :
    unwrap C (r.salt ++ r.nonce ++ C.enc (C.kdf p r.salt strongRounds) r.nonce (C.toBytes k)) p = .ok (k, false) := by
  rw [unwrap_split _ _ _ _ hr.1 hr.2 (h.enc_ne _ _ _)]
  have e1 : tryDecrypt C p r.salt r.nonce (C.enc (C.kdf p r.salt strongRounds) r.nonce (C.toBytes k)) weakRounds =
      none := by
    unfold tryDecrypt
    rw [hsep p p r.salt r.nonce strongRounds weakRounds _ (.inr weak_ne.symm)]
    rfl
  have e2 : tryDecrypt C p r.salt r.nonce (C.enc (C.kdf p r.salt strongRounds) r.nonce (C.toBytes k)) strongRounds =
      some k := by
    unfold tryDecrypt
    rw [h.dec_enc]
    exact h.from_to k
  rw [e1, e2]

theorem unwrap_other (h : C.Ok) (hsep : Separate C) (k : Nat) (p p' : Text) (hp : p ≠ p') {r : Draw} (hr : r.Fits) :
    unwrap C (r.salt ++ r.nonce ++ C.enc (C.kdf p r.salt strongRounds) r.nonce (C.toBytes k)) p' =
      .error .decrypt := by
  rw [unwrap_split _ _ _ _ hr.1 hr.2 (h.enc_ne _ _ _)]
  have e : ∀ r', tryDecrypt C p' r.salt r.nonce (C.enc (C.kdf p r.salt strongRounds) r.nonce (C.toBytes k)) r' =
      none := by
    intro r'
    unfold tryDecrypt
    rw [hsep p p' r.salt r.nonce strongRounds r' _ (.inl hp)]
    rfl
  rw [e, e]

/-- Reading a wrapped file with a passphrase. -/
theorem read_wrapped {d : Disk} {w p : Text} (hw : d.wrapped = some w) :
    read C d (some p) =
      match C.unb58 (trim w) with
      | none => .error .notBase58
      | some b =>
        match unwrap C b p with
        | .error e => .error e
        | .ok (k, weak) => .ok (configOf C d k weak) := by
  unfold read
  rw [hw]
  rfl

/-- Reading the plain file: without a passphrase, or without a wrapped file. -/
theorem read_plain {d : Disk} {pass : Option Text} (h : d.wrapped = none ∨ pass = none) :
    read C d pass =
      match d.plain with
      | none => .error .noFile
      | some t =>
        match C.unb58 (trim t) with
        | none => .error .notBase58
        | some b =>
          match C.fromBytes b with
          | none => .error .badKey
          | some k => .ok (configOf C d k false) := by
  unfold read
  rcases h with h | h
  · rw [h]; rfl
  · rw [h]; cases d.wrapped <;> rfl

/-- The key that a run draws, as it is read back: the network keys are those of the default seeds. -/
def drawn (C : Crypto) (r : Draw) : Config := ⟨r.key, C.net r.key primarySeed, C.net r.key workerSeed, false⟩

theorem saved_some (p : Text) (r : Draw) (d : Disk) :
    saved C (some p) r d = { d with
      wrapped := some (wrap C r.key p r.salt r.nonce strongRounds), seedP := some primarySeed, seedW := some workerSeed } :=
  rfl

theorem saved_none (r : Draw) (d : Disk) :
    saved C none r d = { d with
      plain := some (C.b58 (C.toBytes r.key)), seedP := some primarySeed, seedW := some workerSeed } :=
  rfl

/-- **C114**, saved with a passphrase: whatever was there before, the key is read back with that passphrase,
with the same network keys and without the warning about weak files. -/
theorem read_back (h : C.Ok) (hsep : Separate C) (d : Disk) (p : Text) {r : Draw} (hr : r.Fits) :
    read C (saved C (some p) r d) (some p) = .ok (drawn C r) := by
  rw [saved_some, read_wrapped rfl]
  unfold wrap
  rw [trim_clean (h.b58_clean _), h.unb58]
  simp only [unwrap_own h hsep r.key p hr]
  rfl

/-- **C114**, and with no other passphrase: the read fails. -/
theorem other_fails (h : C.Ok) (hsep : Separate C) (d : Disk) (p p' : Text) (hp : p ≠ p') {r : Draw} (hr : r.Fits) :
    read C (saved C (some p) r d) (some p') = .error .decrypt := by
  rw [saved_some, read_wrapped rfl]
  unfold wrap
  rw [trim_clean (h.b58_clean _), h.unb58]
  simp only [unwrap_other h hsep r.key p p' hp hr]

/-- **C114**, nor without one, unless a plain file lies there too. -/
theorem none_fails (d : Disk) (p : Text) (r : Draw) (hd : d.plain = none) :
    read C (saved C (some p) r d) none = .error .noFile := by
  rw [saved_some, read_plain (.inr rfl)]
  simp only [hd]

/-- **C114**, saved without a passphrase: the key is read back without one, and with any if there is no wrapped
file. -/
theorem read_back_plain (h : C.Ok) (d : Disk) (r : Draw) (pass : Option Text) (hp : pass = none ∨ d.wrapped = none) :
    read C (saved C none r d) pass = .ok (drawn C r) := by
  rw [saved_none, read_plain (by rcases hp with h | h <;> simp [h])]
  simp only [trim_clean (h.b58_clean _), h.unb58, h.from_to]
  rfl

/-- **C114**, the file may be edited to have white space around its content. -/
theorem padded (d : Disk) (p : Text) (pass : Option Text) (w a b : Text) (hw : d.wrapped = some w)
    (hpass : pass = some p) (hc : ∀ c ∈ w, ws c = false) (hne : w ≠ []) (ha : ∀ c ∈ a, ws c = true)
    (hb : ∀ c ∈ b, ws c = true) : read C { d with wrapped := some (a ++ w ++ b) } pass = read C d pass := by
  subst hpass
  rw [read_wrapped (d := d) hw, read_wrapped (w := a ++ w ++ b) rfl, trim_padded hc hne ha hb, trim_clean hc]
  rfl

theorem tryDecrypt_some (h : C.Ok) {p : Text} {salt nonce ct : Bytes} {rounds k : Nat}
    (hk : tryDecrypt C p salt nonce ct rounds = some k) :
    ∃ m, C.fromBytes m = some k ∧ ct = C.enc (C.kdf p salt rounds) nonce m := by
  unfold tryDecrypt at hk
  obtain ⟨m, h1, h2⟩ := Option.bind_eq_some_iff.mp hk
  exact ⟨m, h2, h.enc_dec _ _ _ _ h1⟩

/-- **C114**, no file decrypts to a key by accident: whatever the wrapped file holds, a key is read from it with
a passphrase only if it is that key, encrypted under that passphrase with 1 or 1000000 rounds, and the first is
reported as weak. -/
theorem authentic (h : C.Ok) (d : Disk) (w p : Text) (hw : d.wrapped = some w) (c : Config)
    (hr : read C d (some p) = .ok c) :
    ∃ salt nonce m rounds, C.unb58 (trim w) = some (salt ++ nonce ++ C.enc (C.kdf p salt rounds) nonce m) ∧
      C.fromBytes m = some c.key ∧ salt.length = 12 ∧ nonce.length = 12 ∧
      ((rounds = 1 ∧ c.weak = true) ∨ (rounds = 1000000 ∧ c.weak = false)) ∧
      c.primary = C.net c.key (d.seedP.getD primarySeed) ∧ c.worker = C.net c.key (d.seedW.getD workerSeed) := by
  rw [read_wrapped hw] at hr
  cases hb : C.unb58 (trim w) with
  | none => rw [hb] at hr; cases hr
  | some b =>
    rw [hb] at hr
    simp only at hr
    cases hu : unwrap C b p with
    | error e => rw [hu] at hr; cases hr
    | ok kw =>
      obtain ⟨k, weak⟩ := kw
      rw [hu] at hr
      cases hr
      unfold unwrap at hu
      by_cases hl : b.length ≤ saltLen + nonceLen
      · rw [if_pos hl] at hu; cases hu
      · rw [if_neg hl] at hu
        have hb' : b = b.take saltLen ++ (b.drop saltLen).take nonceLen ++ (b.drop saltLen).drop nonceLen := by
          rw [List.append_assoc, List.take_append_drop, List.take_append_drop]
        have l1 : (b.take saltLen).length = 12 := by
          simp only [List.length_take, saltLen, nonceLen] at hl ⊢; omega
        have l2 : ((b.drop saltLen).take nonceLen).length = 12 := by
          simp only [List.length_take, List.length_drop, saltLen, nonceLen] at hl ⊢; omega
        dsimp only at hu
        split at hu
        · rename_i k' hk
          cases hu
          obtain ⟨m, hm, he⟩ := tryDecrypt_some h hk
          refine ⟨_, _, m, 1, ?_, hm, l1, l2, .inl ⟨rfl, rfl⟩, rfl, rfl⟩
          exact congrArg some (hb'.trans
            (congrArg (fun x => List.take saltLen b ++ List.take nonceLen (List.drop saltLen b) ++ x) he))
        · split at hu
          · rename_i k' hk
            cases hu
            obtain ⟨m, hm, he⟩ := tryDecrypt_some h hk
            rw [strong_eq] at he
            refine ⟨_, _, m, 1000000, ?_, hm, l1, l2, .inr ⟨rfl, rfl⟩, rfl, rfl⟩
            exact congrArg some (hb'.trans
              (congrArg (fun x => List.take saltLen b ++ List.take nonceLen (List.drop saltLen b) ++ x) he))
          · cases hu

/-! ## The commands -/

/-- **C114**, without `--force` a directory that holds anything is left alone, and so is everything when the
arguments are refused. -/
theorem no_force (d : Disk) (a : GenArgs) (pass : Option Text) (r : Draw)
    (h : ((d.wrapped ≠ none ∨ d.plain ≠ none ∨ d.seedP ≠ none ∨ d.seedW ≠ none ∨ d.other = true) ∧ a.force = false) ∨
      a.valid = false) : generate C d a pass r = (d, false) := by
  have h : (dirEmpty d = false ∧ a.force = false) ∨ a.valid = false := by
    refine h.imp (fun ⟨h, hf⟩ => ⟨?_, hf⟩) id
    unfold dirEmpty
    cases hw : d.wrapped <;> cases hp : d.plain <;> cases hs : d.seedP <;> cases ht : d.seedW <;> cases ho : d.other <;>
      simp_all
  unfold generate
  by_cases h1 : dirEmpty d = false ∧ a.force = false
  · rw [if_pos h1]
  · rw [if_neg h1, if_pos (h.resolve_left h1)]

/-- The node info of a fresh key. -/
def newInfo (C : Crypto) (a : GenArgs) (k : Nat) : Info :=
  ⟨C.pub k, C.pop k a.address, a.address, C.net k primarySeed, C.net k workerSeed, a.name, a.rpc⟩

theorem freshInfo_some (a : GenArgs) (k : Nat) :
    freshInfo C a k = if a.addrsFit then some (newInfo C a k) else none := by
  have e : setProof C defaultInfo k a.address =
      some ⟨C.pub k, C.pop k a.address, a.address, 0, 0, 0, none⟩ := by
    unfold setProof
    rw [if_neg (by rintro ⟨h, _⟩; exact h rfl)]
    rfl
  unfold freshInfo
  rw [e]
  rfl

/-- `node-info.yaml` fits the keys that are read with the passphrase: it names the key and both network keys, and
its proof of possession is good for its address. -/
def Fits (C : Crypto) (d : Disk) (pass : Option Text) : Prop :=
  ∃ c i, read C d pass = .ok c ∧ d.info = some i ∧ i.key = C.pub c.key ∧ C.popOk i.key i.address i.proof = true ∧
    i.primary = c.primary ∧ i.worker = c.worker

theorem read_info (d : Disk) (pass : Option Text) (i : Option Info) : read C { d with info := i } pass = read C d pass := by
  rfl

/-- **C114**, a successful `generate` on an empty directory, or a forced one over keys of the same kind: the keys
that the node then reads with the same passphrase are the ones drawn, and `node-info.yaml` fits them, with the
address given. -/
theorem generated (h : C.Ok) (hsep : Separate C) (d : Disk) (a : GenArgs) (pass : Option Text) {r : Draw}
    (hr : r.Fits) (hk : pass = none → d.wrapped = none) (hok : (generate C d a pass r).2 = true) :
    read C (generate C d a pass r).1 pass = .ok (drawn C r) ∧ Fits C (generate C d a pass r).1 pass ∧
      (∀ i, (generate C d a pass r).1.info = some i → i.address = a.address ∧ i.name = a.name ∧ i.rpc = a.rpc) := by
  unfold generate at hok ⊢
  by_cases h1 : dirEmpty d = false ∧ a.force = false
  · rw [if_pos h1] at hok; cases hok
  · rw [if_neg h1] at hok ⊢
    by_cases h2 : a.valid = false
    · rw [if_pos h2] at hok; cases hok
    · rw [if_neg h2] at hok ⊢
      rw [freshInfo_some] at hok ⊢
      cases ha : a.addrsFit with
      | false => rw [ha] at hok; simp at hok
      | true =>
        simp only [if_true]
        have hread : read C (saved C pass r d) pass = .ok (drawn C r) := by
          cases pass with
          | some p => exact read_back h hsep d p hr
          | none => exact read_back_plain h d r none (.inl rfl)
        refine ⟨by rw [read_info]; exact hread, ⟨drawn C r, _, by rw [read_info]; exact hread, rfl, rfl, ?_, rfl, rfl⟩, ?_⟩
        · exact h.proof r.key a.address
        · intro i hi
          cases hi
          exact ⟨rfl, rfl, rfl⟩

/-- **C114**, `generate pop` changes nothing but the address and the proof, and not even those if the keys read
are not those of `node-info.yaml`; when it succeeds the result fits the keys and has the address given. -/
theorem pop_spec (h : C.Ok) (d : Disk) (pass : Option Text) (addr : Nat) :
    ((pop C d pass addr).2 = false ∧ (pop C d pass addr).1 = d) ∨
      ∃ c i, read C d pass = .ok c ∧ d.info = some i ∧ (i.key = C.pub c.key ∨ i.key = 0) ∧
        pop C d pass addr = ({ d with info := some { i with key := C.pub c.key, proof := C.pop c.key addr, address := addr } }, true) ∧
        C.popOk (C.pub c.key) addr (C.pop c.key addr) = true := by
  unfold pop
  cases hr : read C d pass with
  | error e => exact .inl ⟨rfl, rfl⟩
  | ok c =>
    cases hi : d.info with
    | none => exact .inl ⟨rfl, rfl⟩
    | some i =>
      by_cases hm : i.key ≠ 0 ∧ i.key ≠ C.pub c.key
      · left
        have e : setProof C i c.key addr = none := if_pos hm
        simp only [e]
        exact ⟨trivial, trivial⟩
      · right
        have e : setProof C i c.key addr = some { i with key := C.pub c.key, proof := C.pop c.key addr, address := addr } :=
          if_neg hm
        refine ⟨c, i, rfl, rfl, ?_, ?_, h.proof c.key addr⟩
        · by_cases h0 : i.key = 0
          · exact .inr h0
          · left
            by_contra hn
            exact hm ⟨h0, hn⟩
        · simp only [e]

/-- **C114**, `set-rpc` changes nothing but the endpoint. -/
theorem setRpc_spec (d : Disk) (rpc : Option Nat) (valid : Bool) :
    (setRpc d rpc valid = (d, false)) ∨
      ∃ i, d.info = some i ∧ setRpc d rpc valid = ({ d with info := some { i with rpc := rpc } }, true) := by
  unfold setRpc
  cases hi : d.info with
  | none => exact .inl rfl
  | some i =>
    simp only
    split
    · exact .inl rfl
    · exact .inr ⟨i, rfl, rfl⟩

/-- The commands of a history. -/
inductive Op where
  | generate (a : GenArgs) (pass : Text) (r : Draw)
  | pop (pass : Option Text) (addr : Nat)
  | setRpc (rpc : Option Nat) (valid : Bool)

/-- One command; the second component is the passphrase of the last successful generation. -/
def Op.run (C : Crypto) (s : Disk × Option Text) : Op → Disk × Option Text
  | .generate a p r => ((Keys.generate C s.1 a (some p) r).1, if (Keys.generate C s.1 a (some p) r).2 then some p else s.2)
  | .pop pass addr => ((Keys.pop C s.1 pass addr).1, s.2)
  | .setRpc rpc v => ((Keys.setRpc s.1 rpc v).1, s.2)

/-- The draws of the history have the right lengths, and no generation fails after it wrote the keys. -/
def Op.Good : Op → Prop
  | .generate a _ r => r.Fits ∧ a.addrsFit = true
  | _ => True

structure Inv (C : Crypto) (s : Disk × Option Text) : Prop where
  plain : s.1.plain = none
  fits : ∀ p, s.2 = some p → Fits C s.1 (some p)
  started : s.2 = none → s.1.wrapped = none

theorem run_inv (h : C.Ok) (hsep : Separate C) {s : Disk × Option Text} (hi : Inv C s) (o : Op) (hg : o.Good) :
    Inv C (o.run C s) := by
  cases o with
  | setRpc rpc v =>
    show Inv C ((Keys.setRpc s.1 rpc v).1, s.2)
    rcases setRpc_spec s.1 rpc v with e | ⟨i, hinfo, e⟩
    · rw [e]; exact hi
    · rw [e]
      refine ⟨hi.plain, ?_, hi.started⟩
      intro p hp
      obtain ⟨c, i', h1, h2, h3, h4, h5, h6⟩ := hi.fits p hp
      rw [hinfo] at h2
      cases h2
      exact ⟨c, _, by rw [read_info]; exact h1, rfl, h3, h4, h5, h6⟩
  | pop pass addr =>
    show Inv C ((Keys.pop C s.1 pass addr).1, s.2)
    rcases pop_spec h s.1 pass addr with ⟨_, e⟩ | ⟨c, i, h1, h2, h3, e, h4⟩
    · rw [e]; exact hi
    · rw [e]
      refine ⟨hi.plain, ?_, hi.started⟩
      intro p hp
      obtain ⟨c', i', g1, g2, g3, g4, g5, g6⟩ := hi.fits p hp
      rw [h2] at g2
      cases g2
      have e3 : i.key = C.pub c.key := by
        rcases h3 with h3 | h3
        · exact h3
        · rw [g3] at h3; exact absurd h3 (h.pub_ne _)
      exact ⟨c', _, by rw [read_info]; exact g1, rfl, by show C.pub c.key = _; rw [← e3]; exact g3, h4, g5, g6⟩
  | generate a p r =>
    show Inv C ((Keys.generate C s.1 a (some p) r).1, if (Keys.generate C s.1 a (some p) r).2 then some p else s.2)
    by_cases hok : (Keys.generate C s.1 a (some p) r).2 = true
    · obtain ⟨_, h2, _⟩ := generated h hsep s.1 a (some p) hg.1 (fun x => (nomatch x)) hok
      rw [if_pos hok]
      refine ⟨?_, ?_, fun x => (nomatch x)⟩
      · show (Keys.generate C s.1 a (some p) r).1.plain = none
        unfold Keys.generate
        split
        · exact hi.plain
        · split
          · exact hi.plain
          · split
            · rw [saved_some]; exact hi.plain
            · rw [saved_some]; exact hi.plain
      · intro p' hp'
        cases hp'
        exact h2
    · rw [if_neg hok]
      have e : (Keys.generate C s.1 a (some p) r).1 = s.1 := by
        unfold Keys.generate at hok ⊢
        split
        · rfl
        · rename_i h1
          rw [if_neg h1] at hok
          split
          · rfl
          · rename_i h2
            rw [if_neg h2, freshInfo_some, hg.2] at hok
            exact absurd rfl hok
      rw [e]
      exact hi

/-- **C114.** Along every history of commands on a fresh directory, forced or not, with any passphrases: the keys
read with the passphrase of the last generation are those `node-info.yaml` names, with a good proof, and no key
lies on the disk in clear. -/
theorem history (h : C.Ok) (hsep : Separate C) (ops : List Op) (hg : ∀ o ∈ ops, o.Good) :
    Inv C (ops.foldl (Op.run C) (⟨none, none, none, none, false, none⟩, none)) := by
  have : ∀ (l : List Op) s, Inv C s → (∀ o ∈ l, o.Good) → Inv C (l.foldl (Op.run C) s) := by
    intro l
    induction l with
    | nil => intro s hs _; exact hs
    | cons o l ih =>
      intro s hs hl
      exact ih _ (run_inv h hsep hs o (hl o (List.mem_cons_self ..))) (fun o ho => hl o (List.mem_cons_of_mem _ ho))
  exact this ops _ ⟨rfl, fun p hp => (nomatch hp), fun _ => rfl⟩ hg

/-- **C114**, a crash between the files of a first generation: reading gives nothing, or the new key with the same
network keys as without the crash. -/
theorem crash_fresh (h : C.Ok) (hsep : Separate C) (n : Nat) (pass : Option Text) {r : Draw} (hr : r.Fits)
    (d : Disk) (hd : d.wrapped = none ∧ d.plain = none ∧ d.seedP = none ∧ d.seedW = none) :
    (n = 0 ∧ read C (savedUpTo C n pass r d) pass = .error .noFile) ∨
      read C (savedUpTo C n pass r d) pass = .ok (drawn C r) := by
  obtain ⟨h1, h2, h3, h4⟩ := hd
  have full : ∀ d', d'.wrapped = (saved C pass r d).wrapped → d'.plain = (saved C pass r d).plain →
      d'.seedP.getD primarySeed = primarySeed → d'.seedW.getD workerSeed = workerSeed →
      read C d' pass = .ok (drawn C r) := by
    intro d' e1 e2 e3 e4
    have hf : read C (saved C pass r d) pass = .ok (drawn C r) := by
      cases pass with
      | some p => exact read_back h hsep d p hr
      | none => exact read_back_plain h d r none (.inl rfl)
    have ec : ∀ k w, configOf C d' k w = configOf C (saved C pass r d) k w := by
      intro k w
      unfold configOf
      rw [e3, e4]
      cases pass <;> rfl
    rw [← hf]
    unfold read
    rw [e1, e2]
    simp only [ec]
  rcases n with _ | _ | _ | n
  · left
    refine ⟨rfl, ?_⟩
    show read C d pass = _
    rw [read_plain (.inl h1)]
    simp only [h2]
  · right
    cases pass with
    | some p => exact full _ rfl rfl (by show d.seedP.getD _ = _; rw [h3]; rfl) (by show d.seedW.getD _ = _; rw [h4]; rfl)
    | none => exact full _ rfl rfl (by show d.seedP.getD _ = _; rw [h3]; rfl) (by show d.seedW.getD _ = _; rw [h4]; rfl)
  · right
    cases pass with
    | some p => exact full _ rfl rfl rfl (by show d.seedW.getD _ = _; rw [h4]; rfl)
    | none => exact full _ rfl rfl rfl (by show d.seedW.getD _ = _; rw [h4]; rfl)
  · right
    have e : savedUpTo C (n + 1 + 1 + 1) pass r d = saved C pass r d := by
      unfold saved savedUpTo saves
      simp
    rw [e]
    cases pass with
    | some p => exact full _ rfl rfl rfl rfl
    | none => exact full _ rfl rfl rfl rfl

/-! ## Findings -/

/-- **Finding.** `--force` does not remove the file of the other kind. A forced generation without a passphrase
over an encrypted key leaves that key in place: with its passphrase the node still reads the old key, although
`node-info.yaml` names the new one. Nothing compares the two when the node starts. -/
theorem stale_wrapped (h : C.Ok) (hsep : Separate C) (a : GenArgs) (hf : a.force = true) (hv : a.valid = true)
    (ha : a.addrsFit = true) (p : Text) {r r' : Draw} (hr : r.Fits) (d : Disk) :
    let d1 := saved C (some p) r d
    let d2 := (generate C d1 a none r').1
    (generate C d1 a none r').2 = true ∧ (read C d2 (some p)).map (·.key) = .ok r.key ∧
      d2.info.map (·.key) = some (C.pub r'.key) := by
  have e : generate C (saved C (some p) r d) a none r' =
      ({ saved C none r' (saved C (some p) r d) with info := some (newInfo C a r'.key) }, true) := by
    unfold generate
    rw [if_neg (by rw [hf]; rintro ⟨_, x⟩; cases x), if_neg (by rw [hv]; exact fun x => (nomatch x)), freshInfo_some, ha]
    rfl
  refine ⟨by rw [e], ?_, by rw [e]; rfl⟩
  rw [e, read_info]
  have : read C (saved C none r' (saved C (some p) r d)) (some p) = read C (saved C (some p) r d) (some p) := by
    rw [saved_none, saved_some, read_wrapped rfl, read_wrapped rfl]
    rfl
  rw [this, read_back h hsep d p hr]
  rfl

/-- **Finding.** The other way round, a forced generation with a passphrase over a plain key leaves the old key in
clear on the disk, and a node started without a passphrase runs with it. -/
theorem stale_plain (h : C.Ok) (a : GenArgs) (hf : a.force = true) (hv : a.valid = true) (ha : a.addrsFit = true)
    (p : Text) (r r' : Draw) (d : Disk) :
    let d1 := saved C none r d
    let d2 := (generate C d1 a (some p) r').1
    (generate C d1 a (some p) r').2 = true ∧ (read C d2 none).map (·.key) = .ok r.key ∧
      d2.info.map (·.key) = some (C.pub r'.key) := by
  have e : generate C (saved C none r d) a (some p) r' =
      ({ saved C (some p) r' (saved C none r d) with info := some (newInfo C a r'.key) }, true) := by
    unfold generate
    rw [if_neg (by rw [hf]; rintro ⟨_, x⟩; cases x), if_neg (by rw [hv]; exact fun x => (nomatch x)), freshInfo_some, ha]
    rfl
  refine ⟨by rw [e], ?_, by rw [e]; rfl⟩
  rw [e, read_info]
  have : read C (saved C (some p) r' (saved C none r d)) none = read C (saved C none r d) none := by
    rw [saved_some, saved_none, read_plain (.inr rfl), read_plain (.inr rfl)]
    rfl
  rw [this, read_back_plain h d r none (.inl rfl)]
  rfl

/-- **Finding.** The external addresses are looked at after the keys are written: an address that names another
peer makes the command fail with the new keys on the disk and the old `node-info.yaml`; over existing keys with
`--force` those are lost by a command that failed. -/
theorem fails_after_write (a : GenArgs) (hf : a.force = true) (hv : a.valid = true) (ha : a.addrsFit = false)
    (pass : Option Text) (r : Draw) (d : Disk) :
    generate C d a pass r = (saved C pass r d, false) ∧ (saved C pass r d).info = d.info := by
  constructor
  · unfold generate
    rw [if_neg (by rw [hf]; rintro ⟨_, x⟩; cases x), if_neg (by rw [hv]; exact fun x => (nomatch x)), freshInfo_some, ha]
    rfl
  · cases pass <;> rfl

/-! ## The passphrase -/

theorem trimEnd_idem_end (t : Text) : ∀ c, (trimEnd t).getLast? = some c → ws c = false := by
  intro c hc
  unfold trimEnd at hc
  rw [List.getLast?_reverse] at hc
  have := List.head?_dropWhile_not ws t.reverse
  rw [hc] at this
  simpa using this

/-- **C114**, what a command works with: what it was given, from the place the operator named; from standard
input without the white space at its end; a command that needs a passphrase does not run without one, unless the
operator said so. -/
theorem resolved (s : Source) (cmd : Cmd) (pre line prompt : Option Text) (att : List (Text × Option Text))
    (p : Option Text) (h : resolve s cmd pre line att prompt = .ok p) :
    (s = .noPassphrase → p = none) ∧
      (s = .env → p = pre) ∧
      (s = .stdin → ∃ l, line = some l ∧ ((trimEnd l = [] ∧ p = none) ∨ (trimEnd l ≠ [] ∧ p = some (trimEnd l)))) ∧
      (s = .ask → cmd = .node → p = prompt) ∧
      (s = .ask → cmd = .keytool → p = readPassphrase att) ∧
      (s ≠ .noPassphrase → (cmd = .keytool ∨ cmd = .genesis ∨ cmd = .node) → p ≠ none) := by
  have key : ∀ q : Option Text, (if q = none ∧ s ≠ .noPassphrase ∧ (cmd = .keytool ∨ cmd = .genesis ∨ cmd = .node)
      then (.error () : Except Unit (Option Text)) else .ok q) = .ok p →
      p = q ∧ (s ≠ .noPassphrase → (cmd = .keytool ∨ cmd = .genesis ∨ cmd = .node) → p ≠ none) := by
    intro q hq
    by_cases hc : q = none ∧ s ≠ .noPassphrase ∧ (cmd = .keytool ∨ cmd = .genesis ∨ cmd = .node)
    · rw [if_pos hc] at hq; cases hq
    · rw [if_neg hc] at hq
      cases hq
      exact ⟨rfl, fun h1 h2 h3 => hc ⟨h3, h1, h2⟩⟩
  cases s with
  | env =>
    obtain ⟨h1, h2⟩ := key pre h
    exact ⟨fun x => (nomatch x), fun _ => h1, fun x => (nomatch x), fun x => (nomatch x), fun x => (nomatch x), h2⟩
  | noPassphrase =>
    obtain ⟨h1, h2⟩ := key none h
    exact ⟨fun _ => h1, fun x => (nomatch x), fun x => (nomatch x), fun x => (nomatch x), fun x => (nomatch x), h2⟩
  | stdin =>
    cases hl : line with
    | none => rw [hl] at h; cases h
    | some l =>
      rw [hl] at h
      obtain ⟨h1, h2⟩ := key _ h
      refine ⟨fun x => (nomatch x), fun x => (nomatch x), fun _ => ⟨l, rfl, ?_⟩, fun x => (nomatch x), fun x => (nomatch x), h2⟩
      cases ht : trimEnd l with
      | nil => left; rw [ht] at h1; exact ⟨rfl, h1⟩
      | cons a t => right; rw [ht] at h1; exact ⟨fun x => (nomatch x), h1⟩
  | ask =>
    cases cmd with
    | keytool =>
      obtain ⟨h1, h2⟩ := key (readPassphrase att) h
      exact ⟨fun x => (nomatch x), fun x => (nomatch x), fun x => (nomatch x), fun _ x => (nomatch x), fun _ _ => h1, h2⟩
    | node =>
      obtain ⟨h1, h2⟩ := key prompt h
      exact ⟨fun x => (nomatch x), fun x => (nomatch x), fun x => (nomatch x), fun _ _ => h1, fun _ x => (nomatch x), h2⟩
    | setRpc =>
      obtain ⟨h1, h2⟩ := key pre h
      exact ⟨fun x => (nomatch x), fun x => (nomatch x), fun x => (nomatch x), fun _ x => (nomatch x), fun _ x => (nomatch x), h2⟩
    | db =>
      obtain ⟨h1, h2⟩ := key pre h
      exact ⟨fun x => (nomatch x), fun x => (nomatch x), fun x => (nomatch x), fun _ x => (nomatch x), fun _ x => (nomatch x), h2⟩
    | genesis =>
      obtain ⟨h1, h2⟩ := key pre h
      exact ⟨fun x => (nomatch x), fun x => (nomatch x), fun x => (nomatch x), fun _ x => (nomatch x), fun _ x => (nomatch x), h2⟩

/-- **C114**, an empty variable is no passphrase. -/
theorem env_spec (v : Option Text) (p : Text) : fromEnv v = some p ↔ v = some p ∧ p ≠ [] := by
  unfold fromEnv
  rw [Option.filter_eq_some_iff]
  refine and_congr_right fun _ => ?_
  cases p <;> simp

/-- **C114**, at the prompt a new passphrase is taken only if it was entered twice alike, and it is not empty. -/
theorem confirmed (att : List (Text × Option Text)) (p : Text) (h : readPassphrase att = some p) :
    p ≠ [] ∧ (p, some p) ∈ att := by
  induction att with
  | nil => cases h
  | cons x l ih =>
    obtain ⟨a, b⟩ := x
    cases b with
    | none => obtain ⟨h1, h2⟩ := ih h; exact ⟨h1, List.mem_cons_of_mem _ h2⟩
    | some b =>
      have e : readPassphrase ((a, some b) :: l) =
        if a = b then (if a = [] then none else some a) else readPassphrase l := rfl
      rw [e] at h
      by_cases hab : a = b
      · rw [if_pos hab] at h
        by_cases h0 : a = []
        · rw [if_pos h0] at h; cases h
        · rw [if_neg h0] at h
          cases h
          subst hab
          exact ⟨h0, List.mem_cons_self ..⟩
      · rw [if_neg hab] at h
        obtain ⟨h1, h2⟩ := ih h
        exact ⟨h1, List.mem_cons_of_mem _ h2⟩

/-- **C114**, the commands that touch no key run without a passphrase, wherever it should come from (standard
input must be readable if that is named). -/
theorem no_need (s : Source) (cmd : Cmd) (pre prompt : Option Text) (line : Text) (att : List (Text × Option Text))
    (h : cmd = .setRpc ∨ cmd = .db) : ∃ p, resolve s cmd pre (some line) att prompt = .ok p := by
  have key : ∀ q : Option Text, ∃ p, (if q = none ∧ s ≠ .noPassphrase ∧ (cmd = .keytool ∨ cmd = .genesis ∨ cmd = .node)
      then (.error () : Except Unit (Option Text)) else .ok q) = .ok p := by
    intro q
    refine ⟨q, if_neg ?_⟩
    rintro ⟨_, _, hc⟩
    rcases h with rfl | rfl <;> rcases hc with hc | hc | hc <;> cases hc
  cases s with
  | env => exact key _
  | stdin => exact key _
  | noPassphrase => exact key none
  | ask => rcases h with rfl | rfl <;> exact key _

/-- **Finding.** Standard input is trimmed and the environment is not: a key generated with a passphrase from the
environment that ends in a blank cannot be read by a node that gets the same passphrase on standard input. -/
theorem blank_lost (h : C.Ok) (hsep : Separate C) (d : Disk) {r : Draw} (hr : r.Fits) (q : Text)
    (hq : ∃ c, q.getLast? = some c ∧ ws c = true) (p : Text)
    (h1 : resolve .stdin .node none (some q) [] none = .ok (some p)) :
    resolve .env .keytool (fromEnv (some q)) none [] none = .ok (some q) ∧
      read C (saved C (some q) r d) (some p) = .error .decrypt := by
  obtain ⟨c, hc, hw⟩ := hq
  have hne : q ≠ [] := by rintro rfl; cases hc
  constructor
  · have e : fromEnv (some q) = some q := by
      unfold fromEnv
      cases q with
      | nil => exact absurd rfl hne
      | cons a t => rfl
    rw [e]; rfl
  · refine other_fails h hsep d q p ?_ hr
    rintro rfl
    obtain ⟨_, _, h3, _⟩ := resolved _ _ _ _ _ _ _ h1
    obtain ⟨l, hl, hx⟩ := h3 rfl
    cases hl
    rcases hx with ⟨_, hx⟩ | ⟨_, hx⟩
    · cases hx
    · have : q = trimEnd q := Option.some.inj hx
      have := trimEnd_idem_end q c (by rw [← this]; exact hc)
      rw [hw] at this; cases this

/-- **Finding.** An empty passphrase at the prompt is announced as "no passphrase set", and the command then fails
for want of one. -/
theorem empty_prompt_fails : resolve .ask .keytool none none [([], some [])] none = .error () := by rfl

/-! ## A concrete case -/

namespace Ex

/-- A toy cipher: the key in front of the text. Characters of the "base 58" are the bytes plus 100. -/
def toy : Crypto where
  toBytes k := [k]
  fromBytes b := match b with | [k] => some k | _ => none
  kdf p _ r := Nat.pair r (p.foldl (fun a c => Nat.pair a c + 1) 0)
  enc w _ m := w :: m
  dec w _ c := match c with | [] => none | x :: m => if x = w then some m else none
  b58 b := b.map (· + 100)
  unb58 t := some (t.map (· - 100))
  net k s := Nat.pair k (s.sum)
  pub k := k + 1
  pop k a := Nat.pair k a
  popOk k a x := decide (x = Nat.pair (k - 1) a)

theorem enc_inj : ∀ p p' : Text, p.foldl (fun a c => Nat.pair a c + 1) 0 = p'.foldl (fun a c => Nat.pair a c + 1) 0 →
    p = p' := by
  intro p
  induction p using List.reverseRecOn with
  | nil =>
    intro p' h
    rcases List.eq_nil_or_concat p' with rfl | ⟨l, c, rfl⟩
    · rfl
    · rw [List.concat_eq_append, List.foldl_append] at h; cases h
  | append_singleton l c ih =>
    intro p' h
    rcases List.eq_nil_or_concat p' with rfl | ⟨l', c', rfl⟩
    · rw [List.foldl_append] at h; cases h
    · rw [List.concat_eq_append, List.foldl_append, List.foldl_append] at h
      simp only [List.foldl_cons, List.foldl_nil, Nat.add_right_cancel_iff, Nat.pair_eq_pair] at h
      rw [List.concat_eq_append, ih l' h.1, h.2]

theorem toy_ok : toy.Ok where
  from_to _ := rfl
  dec_enc w n m := if_pos rfl
  enc_dec w n c m h := by
    cases c with
    | nil => cases h
    | cons x c =>
      have h : (if x = w then some c else none) = some m := h
      by_cases hx : x = w
      · rw [if_pos hx] at h; cases h; rw [hx]; rfl
      · rw [if_neg hx] at h; cases h
  enc_ne _ _ _ h := nomatch h
  unb58 b := by
    show some ((b.map (· + 100)).map (· - 100)) = some b
    rw [List.map_map]
    refine congrArg some ?_
    have : ((fun x => x - 100) ∘ fun x => x + 100) = (id : Nat → Nat) := by
      funext x; exact Nat.add_sub_cancel x 100
    rw [this, List.map_id]
  b58_clean b c hc := by
    obtain ⟨x, _, rfl⟩ := List.mem_map.mp hc
    show (decide (x + 100 = 32) || (decide (9 ≤ x + 100) && decide (x + 100 ≤ 13))) = false
    have h1 : ¬ x + 100 = 32 := by omega
    have h2 : ¬ x + 100 ≤ 13 := by omega
    simp [h1, h2]
  proof k a := by
    show decide (Nat.pair k a = Nat.pair (k + 1 - 1) a) = true
    simp
  pub_ne k h := nomatch h

theorem toy_separate : Separate toy := by
  intro p p' s n r r' m h
  refine if_neg ?_
  intro he
  have he : Nat.pair r (p.foldl (fun a c => Nat.pair a c + 1) 0) = Nat.pair r' (p'.foldl (fun a c => Nat.pair a c + 1) 0) := he
  rw [Nat.pair_eq_pair] at he
  rcases h with h | h
  · exact h (enc_inj p p' he.2)
  · exact h he.1

def draw (k : Nat) : Draw := ⟨k, [1, 2, 3, 4, 5, 6, 7, 8, 9, 10, 11, 12], [1, 2, 3, 4, 5, 6, 7, 8, 9, 10, 11, 12]⟩

theorem draw_fits (k : Nat) : (draw k).Fits := ⟨rfl, rfl⟩

/-- Generate, refuse to generate again, force, change the address, set the endpoint. -/
def ops : List Op :=
  [ .generate ⟨false, 5, 1, none, true, true⟩ [80] (draw 7),
    .generate ⟨false, 5, 1, none, true, true⟩ [81] (draw 8),
    .generate ⟨true, 5, 1, none, true, true⟩ [82] (draw 9),
    .pop (some [82]) 6,
    .setRpc (some 3) true ]

/-- The history of `history`: in the end the third key is read with the third passphrase, and `node-info.yaml` has
it, the new address and the endpoint. -/
theorem example_history :
    (ops.foldl (Op.run toy) (⟨none, none, none, none, false, none⟩, none)).2 = some [82] ∧
      (∀ o ∈ ops, o.Good) ∧ Inv toy (ops.foldl (Op.run toy) (⟨none, none, none, none, false, none⟩, none)) := by
  have hg : ∀ o ∈ ops, o.Good := by
    intro o ho
    simp only [ops, List.mem_cons, List.not_mem_nil, or_false] at ho
    rcases ho with rfl | rfl | rfl | rfl | rfl
    · exact ⟨draw_fits 7, rfl⟩
    · exact ⟨draw_fits 8, rfl⟩
    · exact ⟨draw_fits 9, rfl⟩
    · trivial
    · trivial
  exact ⟨rfl, hg, history toy_ok toy_separate ops hg⟩

end Ex

end Keys
end Verif
