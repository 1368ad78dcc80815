import Mathlib.Tactic.Common
/-
Model of a node's keys on disk: `crates/config/src/keys.rs` (`KeyConfig`), the commands that write them,
`crates/telcoin-network-cli/src/keytool/` (`mod.rs`, `generate.rs`, `pop.rs`, `set_rpc.rs`), and where the
passphrase comes from, `crates/telcoin-network-cli/src/passphrase.rs`.

The cryptography is a parameter with stated laws. A BLS key pair is a number, as are network keys and proofs.
Texts are lists of characters; white space is the ASCII one. A file is read and written whole; what a crash in
the middle of one write leaves is not modelled. `node-info.yaml` lies outside the directory of the keys.
-/
namespace Verif
namespace Keys

abbrev Bytes := List Nat
abbrev Text := List Nat

/-- `PBKDF2_HMAC_ROUNDS`, keys.rs:35. -/
@[irreducible] def strongRounds : Nat := 1000000

/-- `TEST_ONLY_INSECURE_ROUNDS`, keys.rs:40. -/
def weakRounds : Nat := 1

/-- `SALT_LEN`, `NONCE_LEN`, keys.rs:43-45. -/
def saltLen : Nat := 12
def nonceLen : Nat := 12

structure Crypto where
  /-- `BlsKeypair::to_bytes`, `from_bytes` -/
  toBytes : Nat → Bytes
  fromBytes : Bytes → Option Nat
  /-- `derive_wrapping_key`, 84-88: passphrase, salt, rounds -/
  kdf : Text → Bytes → Nat → Nat
  /-- AES-256-GCM-SIV: key, nonce, text -/
  enc : Nat → Bytes → Bytes → Bytes
  dec : Nat → Bytes → Bytes → Option Bytes
  /-- base 58 -/
  b58 : Bytes → Text
  unb58 : Text → Option Bytes
  /-- `generate_network_keypair`, 344-351, of a key and a seed -/
  net : Nat → Text → Nat
  /-- the public key -/
  pub : Nat → Nat
  /-- `generate_proof_of_possession_bls`, 334-340, of a key and an address, and its check -/
  pop : Nat → Nat → Nat
  popOk : Nat → Nat → Nat → Bool

def ws (c : Nat) : Bool := decide (c = 32) || (decide (9 ≤ c) && decide (c ≤ 13))

/-- `trim_end`. -/
def trimEnd (t : Text) : Text := (t.reverse.dropWhile ws).reverse

/-- `trim`. -/
def trim (t : Text) : Text := trimEnd (t.dropWhile ws)

/-- `"primary network keypair"` and `"worker network keypair"`, keys.rs:263-264, up to the text. -/
def primarySeed : Text := [112]
def workerSeed : Text := [119]

/-- `NodeInfo`, as far as these commands write it. -/
structure Info where
  /-- `bls_public_key` -/
  key : Nat
  proof : Nat
  address : Nat
  /-- the primary's and the worker's `network_key` -/
  primary : Nat
  worker : Nat
  name : Nat
  rpc : Option Nat
deriving DecidableEq, Repr

structure Disk where
  /-- `bls.kw` -/
  wrapped : Option Text
  /-- `bls.key` -/
  plain : Option Text
  seedP : Option Text
  seedW : Option Text
  /-- something else lies in the directory of the keys -/
  other : Bool
  /-- `node-info.yaml` -/
  info : Option Info
deriving DecidableEq, Repr

/-- `KeyConfigInner`, keys.rs:57-65, with the warning of `unwrap_bls_key`. -/
structure Config where
  key : Nat
  primary : Nat
  worker : Nat
  weak : Bool
deriving DecidableEq, Repr

inductive Err where
  | noFile
  | notBase58
  | truncated
  | badKey
  | decrypt
deriving DecidableEq, Repr

variable (C : Crypto)

/-- `wrap_bls_key`, 92-111. -/
def wrap (k : Nat) (p : Text) (salt nonce : Bytes) (rounds : Nat) : Text :=
  C.b58 (salt ++ nonce ++ C.enc (C.kdf p salt rounds) nonce (C.toBytes k))

/-- `try_decrypt`, 117-129. -/
def tryDecrypt (p : Text) (salt nonce ct : Bytes) (rounds : Nat) : Option Nat :=
  (C.dec (C.kdf p salt rounds) nonce ct).bind C.fromBytes

/-- `unwrap_bls_key`, 136-162. -/
def unwrap (b : Bytes) (p : Text) : Except Err (Nat × Bool) :=
  if b.length ≤ saltLen + nonceLen then .error .truncated
  else
    let salt := b.take saltLen
    let nonce := (b.drop saltLen).take nonceLen
    let ct := (b.drop saltLen).drop nonceLen
    match tryDecrypt C p salt nonce ct weakRounds with
    | some k => .ok (k, true)
    | none =>
      match tryDecrypt C p salt nonce ct strongRounds with
      | some k => .ok (k, false)
      | none => .error .decrypt

/-- The network keys and the seeds of `read_config`, 184-201: a seed whose file cannot be read is the default. -/
def configOf (d : Disk) (k : Nat) (weak : Bool) : Config :=
  ⟨k, C.net k (d.seedP.getD primarySeed), C.net k (d.seedW.getD workerSeed), weak⟩

/-- `read_config` with a passphrase and a wrapped file, and without: the passphrase is dropped when there is no
wrapped file. keys.rs:165-209. -/
def read (d : Disk) (pass : Option Text) : Except Err Config :=
  match (match d.wrapped with | some w => pass.map (fun p => (p, w)) | none => none) with
  | some (p, w) =>
    match C.unb58 (trim w) with
    | none => .error .notBase58
    | some b =>
      match unwrap C b p with
      | .error e => .error e
      | .ok (k, weak) => .ok (configOf C d k weak)
  | none =>
    match d.plain with
    | none => .error .noFile
    | some t =>
      match C.unb58 (trim t) with
      | none => .error .notBase58
      | some b =>
        match C.fromBytes b with
        | none => .error .badKey
        | some k => .ok (configOf C d k false)

/-- The draws of one run: the new key, salt and nonce. -/
structure Draw where
  key : Nat
  salt : Bytes
  nonce : Bytes

/-- The files `generate_and_save_with_rounds` writes, 256-284, in order. -/
def saves (pass : Option Text) (r : Draw) : List (Disk → Disk) :=
  [ fun d =>
      match pass with
      | some p => { d with wrapped := some (wrap C r.key p r.salt r.nonce strongRounds) }
      | none => { d with plain := some (C.b58 (C.toBytes r.key)) },
    fun d => { d with seedP := some primarySeed },
    fun d => { d with seedW := some workerSeed } ]

/-- The disk after the first `n` of them. -/
def savedUpTo (n : Nat) (pass : Option Text) (r : Draw) (d : Disk) : Disk :=
  ((saves C pass r).take n).foldl (fun d f => f d) d

/-- `generate_and_save`. -/
def saved (pass : Option Text) (r : Draw) (d : Disk) : Disk := savedUpTo C 3 pass r d

/-- `is_key_dir_empty`, keytool/mod.rs:125-136. -/
def dirEmpty (d : Disk) : Bool :=
  d.wrapped.isNone && d.plain.isNone && d.seedP.isNone && d.seedW.isNone && !d.other

/-- `KeygenArgs`, generate.rs:76-157: the address; whether the workers' number and the RPC endpoint are
accepted; whether the external addresses accept the new keys' peer ids. -/
structure GenArgs where
  force : Bool
  address : Nat
  name : Nat
  rpc : Option Nat
  valid : Bool
  addrsFit : Bool

/-- `set_proof_of_possession`, generate.rs:24-54, on a node info; 0 is the default key. -/
def setProof (i : Info) (k : Nat) (address : Nat) : Option Info :=
  if i.key ≠ 0 ∧ i.key ≠ C.pub k then none
  else some { i with key := C.pub k, proof := C.pop k address, address := address }

/-- `NodeInfo::default()`. -/
def defaultInfo : Info := ⟨0, 0, 0, 0, 0, 0, none⟩

/-- The node info of `finish_execute`, generate.rs:239-262, with `update_keys`, 160-224. -/
def freshInfo (a : GenArgs) (k : Nat) : Option Info :=
  match setProof C defaultInfo k a.address with
  | none => none
  | some i =>
    if a.addrsFit then
      some { i with name := a.name, primary := C.net k primarySeed, worker := C.net k workerSeed, rpc := a.rpc }
    else none

/-- `keytool generate validator|observer`: keytool/mod.rs:49-58, 105-121 and generate.rs:265-281. The result says
whether the command succeeded. -/
def generate (d : Disk) (a : GenArgs) (pass : Option Text) (r : Draw) : Disk × Bool :=
  if dirEmpty d = false ∧ a.force = false then (d, false)
  else if a.valid = false then (d, false)
  else
    match freshInfo C a r.key with
    | none => (saved C pass r d, false)
    | some i => ({ saved C pass r d with info := some i }, true)

/-- `keytool generate pop`, pop.rs:45-100. -/
def pop (d : Disk) (pass : Option Text) (address : Nat) : Disk × Bool :=
  match read C d pass with
  | .error _ => (d, false)
  | .ok c =>
    match d.info with
    | none => (d, false)
    | some i =>
      match setProof C i c.key address with
      | none => (d, false)
      | some i' => ({ d with info := some i' }, true)

/-- `keytool set-rpc`, set_rpc.rs:76-119: `none` is `--clear`; `valid` is `RpcInfo::validate`. -/
def setRpc (d : Disk) (rpc : Option Nat) (valid : Bool) : Disk × Bool :=
  match d.info with
  | none => (d, false)
  | some i => if rpc.isSome && !valid then (d, false) else ({ d with info := some { i with rpc := rpc } }, true)

/-! ## The passphrase -/

/-- `PassSource`, cli.rs:18-28. -/
inductive Source where
  | env | stdin | ask | noPassphrase
deriving DecidableEq, Repr

/-- The commands as the passphrase depends on them. -/
inductive Cmd where
  /-- `keytool generate …` and `keytool export-staking-args` -/
  | keytool
  | setRpc
  | db
  | genesis
  | node
deriving DecidableEq, Repr

/-- `get_bls_passphrase_from_env`, passphrase.rs:19-40. -/
def fromEnv (v : Option Text) : Option Text := v.filter (fun t => !t.isEmpty)

/-- `read_passphrase`, 43-59: the attempts made at the prompt; the second entry of an attempt may fail. -/
def readPassphrase : List (Text × Option Text) → Option Text
  | [] => none
  | (a, some b) :: l => if a = b then (if a = [] then none else some a) else readPassphrase l
  | (_, none) :: l => readPassphrase l

/-- `resolve_bls_passphrase_with_reader`, 77-127; `line` is the first line of the standard input, `none` if it
cannot be read; `prompt` is what is entered at the node's prompt. -/
def resolve (s : Source) (cmd : Cmd) (pre : Option Text) (line : Option Text) (attempts : List (Text × Option Text))
    (prompt : Option Text) : Except Unit (Option Text) :=
  let got : Except Unit (Option Text) :=
    match s with
    | .env => .ok pre
    | .stdin =>
      match line with
      | none => .error ()
      | some l => .ok ((some (trimEnd l)).filter (fun t => !t.isEmpty))
    | .ask =>
      match cmd with
      | .keytool => .ok (readPassphrase attempts)
      | .node => .ok prompt
      | _ => .ok pre
    | .noPassphrase => .ok none
  match got with
  | .error e => .error e
  | .ok p =>
    if p = none ∧ s ≠ .noPassphrase ∧ (cmd = .keytool ∨ cmd = .genesis ∨ cmd = .node) then .error () else .ok p

end Keys
end Verif
