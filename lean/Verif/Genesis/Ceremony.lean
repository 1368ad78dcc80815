import Verif.Util.SMap
import Verif.Util.Sort

/-!
# The genesis ceremony (C111)

`crates/config/src/genesis.rs` 77-160 (reading the validators' files, checking them, the committee);
`crates/telcoin-network-cli/src/genesis/mod.rs` 165-336 (`parse_worker_fee_configs`, `execute`);
`crates/tn-reth/src/env/genesis.rs` 175-390 (`create_consensus_registry_genesis_accounts`);
`crates/types/src/committee.rs` 232-245, 649-682.

Keys, addresses, network nodes, code and storage are numbers (keys ordered as their bytes). The contracts'
constructors are parameters. The time stamp, which is that of the run, and the parameters file are left
out.
-/

namespace Verif.Gen
open Verif

/-- A validator's file (`NodeInfo`, 184-206). -/
structure Info where
  key : Nat
  addr : Nat
  proof : Nat
  primary : Nat
  worker : Nat
  deriving DecidableEq, Repr

structure Account where
  balance : Nat
  code : Nat
  storage : Nat
  deriving DecidableEq, Repr

/-- What the ceremony builds on: the check of a proof (C110), the constructors (none: reverted, or wrote
nothing), the code and the fixed addresses. -/
structure World where
  pop : Nat → Nat → Nat → Bool
  registryCtor : List (Nat × Nat × Nat) → Nat → Nat → Option Nat
  feesCtor : List (Nat × Nat) → Nat → Option Nat
  blsAddr : Nat
  registryAddr : Nat
  issuanceAddr : Nat
  feesAddr : Nat
  blsCode : Nat
  registryCode : Nat
  issuanceCode : Nat
  feesCode : Nat
  base : List (Nat × Account)
  precompiles : List (Nat × Account)

/-- The arguments of the command. A fee string is none when it does not parse. -/
structure Args where
  stake : Nat
  owner : Nat
  fees : List (Option (Nat × Nat × Nat))
  dev : Option Nat
  accounts : List (Nat × Account)

/-- `parse_worker_fee_configs`, 169-226: the parsed list. -/
def parseAll : List (Option (Nat × Nat × Nat)) → Option (List (Nat × Nat × Nat))
  | [] => some []
  | none :: _ => none
  | some (w, s, v) :: l => if 1 < s then none else (parseAll l).map ((w, s, v) :: ·)

/-- Worker ids are 0, 1, 2, … (216-223). -/
def contiguous : Nat → List (Nat × Nat × Nat) → Bool
  | _, [] => true
  | i, (w, _) :: l => decide (w = i) && contiguous (i + 1) l

def parseFees (fees : List (Option (Nat × Nat × Nat))) : Option (List (Nat × Nat)) :=
  if fees = [] then none
  else
    (parseAll fees).bind fun l =>
      let l := stableSort (fun a b => decide (a.1 ≤ b.1)) l
      if contiguous 0 l then some (l.map (·.2)) else none

/-- `new_from_path_and_genesis` (115-126): the files in the directory's order, none for one that cannot be
read; a later file replaces one of the same key. -/
def readAll : List (Option Info) → Option (List Info)
  | [] => some []
  | none :: _ => none
  | some x :: l => (readAll l).map (x :: ·)

def validators (files : List Info) : List (Nat × Info) := SMap.ofList (files.map fun x => (x.key, x))

/-- What the registry's constructor is given, 197-216. -/
def registryList (m : List (Nat × Info)) : List (Nat × Nat × Nat) :=
  m.map fun x => (x.2.addr, x.2.key, x.2.proof)

/-- `create_committee`, 143-160: key, address, network nodes. -/
def committeeList (m : List (Nat × Info)) : List (Nat × Nat × Nat × Nat) :=
  m.map fun x => (x.1, x.2.addr, x.2.primary, x.2.worker)

/-- Later accounts replace earlier ones (`extend_accounts`, `alloc.extend`). -/
def extend (alloc : List (Nat × Account)) (l : List (Nat × Account)) : List (Nat × Account) :=
  l.foldl (fun m kv => SMap.insert kv.1 kv.2 m) alloc

/-- One billion TEL (293). -/
def devAccount : Account := ⟨10 ^ 27, 0, 0⟩

inductive Outcome where
  /-- an error, nothing written -/
  | failed
  /-- the genesis file is written, then the program panics -/
  | torn (alloc : List (Nat × Account))
  | done (alloc : List (Nat × Account)) (committee : List (Nat × Nat × Nat × Nat))
  deriving DecidableEq, Repr

/-- The four accounts of the ceremony (361-388). -/
def World.four (w : World) (balance storage feeStorage : Nat) : List (Nat × Account) :=
  [(w.blsAddr, ⟨0, w.blsCode, 0⟩), (w.registryAddr, ⟨balance, w.registryCode, storage⟩),
   (w.issuanceAddr, ⟨0, w.issuanceCode, 0⟩), (w.feesAddr, ⟨0, w.feesCode, feeStorage⟩)]

/-- The accounts of the genesis block (251-300). -/
def World.alloc (w : World) (a : Args) (balance storage feeStorage : Nat) : List (Nat × Account) :=
  let g := extend (extend w.base (w.four balance storage feeStorage)) w.precompiles
  let g := match a.dev with
    | some d => SMap.insert d devAccount g
    | none => g
  extend g a.accounts

/-- `execute`, 229-336. -/
def World.ceremony (w : World) (a : Args) (files : List (Option Info)) : Outcome :=
  match readAll files with
  | none => .failed
  | some infos =>
      let m := validators infos
      if m.all fun x => w.pop x.2.proof x.1 x.2.addr then
        match parseFees a.fees with
        | none => .failed
        | some fees =>
            if a.stake * m.length < 2 ^ 256 then
              match w.registryCtor (registryList m) a.stake a.owner, w.feesCtor fees a.owner with
              | some st, some fs =>
                  let alloc := w.alloc a (a.stake * m.length) st fs
                  -- `Committee::load` asserts more than one member
                  if 1 < m.length then .done alloc (committeeList m) else .torn alloc
              | _, _ => .failed
            else .failed
      else .failed

end Verif.Gen
