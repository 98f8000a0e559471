import Mathlib.Data.List.Basic

/-!
# What all transactions share: sender, checks and accounts in memory

Models `CBaseTx::CheckBaseTx` (src/tx/tx.cpp 90-180), `GetAccount`, `NewAccount`, `SaveAllAccounts`, `RegisterAccountPubKey` and
`RegisterAccount` (280-351), `ExecuteFullTx` (182-221), the tables `kTxTypePermMap` (src/tx/tx.h 45-79) and `kTxTypeInfoTable`
(src/config/txbase.h 109-157), `CAccount::IsSelfUid` (src/entities/account.cpp 559-569), `CAccountDBCache` (src/persistence/accountdb.cpp
16-130), the creation of contract accounts (src/tx/contracttx.cpp 78-89, 265-275), `CAccountPermsClearTx` and the co-signers of
`CUniversalTx` (src/tx/universaltx.cpp 77-143).

* Ids, public keys and registration ids are numbers; `keyOf` is `CPubKey::GetKeyId`, `contractKey` is `Hash160` of the raw
  registration id.
* `coins` is the balance in one arbitrary symbol.
* `signed p` says that the transaction carries a valid signature of key `p` (the signature cache is the subject of C66).
* Objects on the heap are positions in a list, so that two handles of one account are visible as such.
* Fees in themselves are not modelled: `feeOk` is the verdict of `CheckFee`.
-/
namespace Verif.TxBase

/-- `CUserID`. -/
inductive Uid
  | null
  | reg (r : Nat)
  | key (k : Nat)
  | pub (p : Nat)
deriving DecidableEq, Repr

/-- `CAccount`. -/
structure Acc where
  key : Nat
  reg : Option Nat
  owner : Option Nat
  perms : Nat
  coins : Nat
deriving DecidableEq, Repr

/-- `CAccountDBCache`. -/
structure Db where
  accs : Nat → Option Acc
  regs : Nat → Option Nat

/-- Hash functions and the address of the new registration id `CRegID(height, index)` of the transaction. -/
structure Env where
  keyOf : Nat → Nat
  contractKey : Nat → Nat
  newReg : Nat

/-- `kAccountAllPerms`. -/
def allPerms : Nat := 2 ^ 64 - 1

/-- `CAccount(keyid)`. -/
def fresh (k : Nat) : Acc := { key := k, reg := none, owner := none, perms := allPerms, coins := 0 }

def setAcc (m : Nat → Option Acc) (k : Nat) (a : Acc) : Nat → Option Acc := fun x => if x = k then some a else m x
def setReg (m : Nat → Option Nat) (r k : Nat) : Nat → Option Nat := fun x => if x = r then some k else m x

/-- `CAccountDBCache::SaveAccount`. -/
def save (db : Db) (a : Acc) : Db :=
  { accs := setAcc db.accs a.key a
    regs := match a.reg with
      | some r => setReg db.regs r a.key
      | none => db.regs }

/-- `CAccountDBCache::GetKeyId`. -/
def keyId (e : Env) (db : Db) : Uid → Option Nat
  | .null => none
  | .reg r => db.regs r
  | .key k => some k
  | .pub p => some (e.keyOf p)

/-- `CAccount::IsSelfUid`. -/
def isSelf (a : Acc) : Uid → Bool
  | .null => false
  | .reg r => a.reg == some r
  | .key k => a.key == k
  | .pub p => a.owner == some p

/-! ## Accounts in memory -/

/-- `account_map` (key and position on the heap) and `sp_tx_account`. -/
structure Mem where
  heap : List Acc
  amap : List (Nat × Nat)
  sp : Option Nat
deriving DecidableEq, Repr

def Mem.empty : Mem := { heap := [], amap := [], sp := none }

/-- `account_map.find`. -/
def lookup (m : Mem) (k : Nat) : Option Nat := (m.amap.find? fun p => p.1 == k).map (·.2)

/-- The second half of `GetAccount` (292-310): the map, or else the database. -/
def load (e : Env) (db : Db) (m : Mem) (uid : Uid) : Option (Nat × Mem) :=
  match keyId e db uid with
  | none => none
  | some k =>
    match lookup m k with
    | some h => some (h, m)
    | none =>
      match db.accs k with
      | none => none
      | some a => some (m.heap.length, { m with heap := m.heap ++ [a], amap := (k, m.heap.length) :: m.amap })

/-- `GetAccount`. -/
def getAccount (e : Env) (db : Db) (m : Mem) (uid : Uid) : Option (Nat × Mem) :=
  match m.sp with
  | some h =>
    match m.heap[h]? with
    | some a => if isSelf a uid then some (h, m) else load e db m uid
    | none => load e db m uid
  | none => load e db m uid

/-- `NewAccount`: `emplace` does nothing when the key is there. -/
def newAccount (m : Mem) (k : Nat) : Nat × Mem :=
  (m.heap.length,
    { m with
      heap := m.heap ++ [fresh k]
      amap := match lookup m k with
        | some _ => m.amap
        | none => (k, m.heap.length) :: m.amap })

/-- Save the object of one entry of the map. -/
def saveEntry (heap : List Acc) (d : Db) (p : Nat × Nat) : Db :=
  match heap[p.2]? with
  | some a => save d a
  | none => d

/-- `SaveAllAccounts`. -/
def saveAll (db : Db) (m : Mem) : Db := m.amap.foldl (saveEntry m.heap) db

/-- Change an account through its handle. -/
def modify (m : Mem) (h : Nat) (f : Acc → Acc) : Mem := { m with heap := m.heap.modify h f }

/-! ## Transactions as sequences of operations on accounts -/

/-- Steps of `ExecuteFullTx`. A change `f` of balances, votes or permissions may refuse. -/
inductive Op
  /-- `GetAccount(uid)`, then a change. -/
  | touch (uid : Uid) (f : Acc → Option Acc)
  /-- `GetAccount(uid)`, otherwise `NewAccount` for a key id or public key (src/tx/cointransfertx.cpp 176-188), then a change. -/
  | touchOrNew (uid : Uid) (f : Acc → Option Acc)
  /-- A change of `sp_tx_account`. -/
  | sender (f : Acc → Option Acc)
  /-- `RegisterAccount` of the account of a public key, if it is not registered. -/
  | register (p : Nat)
  /-- The account of a new contract. -/
  | deploy

/-- Apply a change to an object on the heap. -/
def change (m : Mem) (h : Nat) (f : Acc → Option Acc) : Option Mem :=
  match m.heap[h]? with
  | none => none
  | some a => (f a).map fun a' => modify m h fun _ => a'

/-- The key a new account is made for. -/
def newKey (e : Env) : Uid → Option Nat
  | .key k => some k
  | .pub p => some (e.keyOf p)
  | _ => none

/-- A public key replaces the recorded one; without one (`pPubkey == nullptr`) it stays. -/
def pick : Option Nat → Option Nat → Option Nat
  | some p, _ => some p
  | none, q => q

/-- `RegisterAccount` for an object. -/
def registerAt (e : Env) (db : Db) (m : Mem) (h : Nat) (owner : Option Nat) : Option (Db × Mem) :=
  match m.heap[h]? with
  | none => none
  | some a =>
    some ({ db with regs := setReg db.regs e.newReg a.key },
      modify m h fun a => { a with reg := some e.newReg, owner := pick owner a.owner })

/-- One step. -/
def step (e : Env) (s : Db × Mem) : Op → Option (Db × Mem)
  | .touch uid f =>
    match getAccount e s.1 s.2 uid with
    | none => none
    | some (h, m) => (change m h f).map fun m => (s.1, m)
  | .touchOrNew uid f =>
    match getAccount e s.1 s.2 uid with
    | some (h, m) => (change m h f).map fun m => (s.1, m)
    | none =>
      match newKey e uid with
      | none => none
      | some k => (change (newAccount s.2 k).2 (newAccount s.2 k).1 f).map fun m => (s.1, m)
  | .sender f =>
    match s.2.sp with
    | none => none
    | some h => (change s.2 h f).map fun m => (s.1, m)
  | .register p =>
    match getAccount e s.1 s.2 (.pub p) with
    | none => none
    | some (h, m) =>
      match m.heap[h]? with
      | none => none
      | some a => if a.reg.isSome then some (s.1, m) else registerAt e s.1 m h (some p)
  | .deploy => registerAt e s.1 (newAccount s.2 (e.contractKey e.newReg)).2 (newAccount s.2 (e.contractKey e.newReg)).1 none

def steps (e : Env) : List Op → Db × Mem → Option (Db × Mem)
  | [], s => some s
  | o :: os, s => (step e s o).bind (steps e os)

/-- `ExecuteFullTx` of a transaction from `uid`: load the sender, run, save. -/
def execute (e : Env) (db : Db) (uid : Uid) (ops : List Op) : Option Db :=
  match getAccount e db Mem.empty uid with
  | none => none
  | some (h, m) => (steps e ops (db, { m with sp := some h })).map fun s => saveAll s.1 s.2

/-! ## Checks -/

/-- `TxType`. -/
inductive Ty
  | blockReward | accountRegister | bcoinTransfer | lcontractInvoke | lcontractDeploy | delegateVote
  | ucoinStake | assetIssue | uiaUpdate | ucoinTransfer | ucoinMint | ucoinBlockReward | ucontractDeploy | ucontractInvoke
  | priceFeed | priceMedian | utxoTransfer | utxoPasswordProof | cdpStake | cdpRedeem | cdpLiquidate | cdpForceSettle
  | permsClear | proposalRequest | proposalApproval | dexLimitBuy | dexLimitSell | dexMarketBuy | dexMarketSell
  | dexCancel | dexSettle | dexOrder | dexOperatorOrder | dexOperatorRegister | dexOperatorUpdate | universal
deriving DecidableEq, Repr

def sendCoin : Nat := 2 ^ 0
def stakeCoin : Nat := 2 ^ 1
def sendVote : Nat := 2 ^ 2
def sendUtxo : Nat := 2 ^ 3
def contractPerm : Nat := 2 ^ 4
def propose : Nat := 2 ^ 5
def feedPrice : Nat := 2 ^ 7
def dexPerm : Nat := 2 ^ 8
def cdpPerm : Nat := 2 ^ 9

/-- `kTxTypePermMap`. -/
def permOf : Ty → Option Nat
  | .bcoinTransfer | .ucoinTransfer => some sendCoin
  | .delegateVote => some sendVote
  | .ucoinStake => some stakeCoin
  | .utxoTransfer | .utxoPasswordProof => some sendUtxo
  | .lcontractDeploy | .lcontractInvoke | .ucontractDeploy | .ucontractInvoke | .universal => some contractPerm
  | .priceFeed => some feedPrice
  | .cdpStake | .cdpRedeem | .cdpLiquidate => some cdpPerm
  | .dexLimitBuy | .dexLimitSell | .dexMarketBuy | .dexMarketSell | .dexCancel | .dexOrder | .dexOperatorOrder | .dexOperatorUpdate
  | .dexOperatorRegister | .dexSettle => some dexPerm
  | .proposalRequest => some propose
  | _ => none

/-- `MIN_SUPPORT_VER` of `kTxTypeInfoTable`. -/
def minVer : Ty → Nat
  | .blockReward | .accountRegister | .bcoinTransfer | .lcontractDeploy | .lcontractInvoke | .delegateVote => 1
  | .dexOperatorRegister | .dexOperatorUpdate | .dexOrder | .dexOperatorOrder | .proposalRequest | .proposalApproval | .permsClear
  | .universal | .cdpForceSettle | .utxoTransfer | .utxoPasswordProof => 3
  | _ => 2

/-- Types without sender checks (94-99). -/
def exempt : Ty → Bool
  | .blockReward | .priceMedian | .ucoinMint | .ucoinBlockReward | .cdpForceSettle => true
  | _ => false

/-- Which ids may send (138-149). -/
def senderOk (ver : Nat) (ty : Ty) (uid : Uid) : Bool :=
  match ty with
  | .accountRegister => true
  | .lcontractDeploy | .assetIssue | .ucontractDeploy | .priceFeed | .dexSettle | .proposalApproval =>
    match uid with
    | .reg _ => true
    | _ => false
  | _ =>
    match uid with
    | .reg _ => true
    | .pub _ => ver != 1
    | _ => false

/-- A transaction as far as the checks look at it. -/
structure Tx where
  ty : Ty
  uid : Uid
  signed : Nat → Bool
  feeOk : Bool
  cosigners : List Nat

/-- The account of an id in the database. -/
def account (e : Env) (db : Db) (uid : Uid) : Option Acc := (keyId e db uid).bind db.accs

/-- The signature part of `CheckBaseTx` (104-129). -/
def signatureOk (ver : Nat) (tx : Tx) (a : Acc) : Bool :=
  if ver < 2 then true
  else
    match tx.uid with
    | .pub p => tx.signed p
    | _ => if a.perms = 0 then false else if a.reg.isNone then false else
      match a.owner with
      | some p => tx.signed p
      | none => false

/-- `CheckBaseTx`. -/
def checkBase (e : Env) (ver : Nat) (db : Db) (tx : Tx) : Bool :=
  if exempt tx.ty then true
  else
    match account e db tx.uid with
    | none => false
    | some a =>
      signatureOk ver tx a && (tx.ty == .lcontractDeploy || tx.ty == .lcontractInvoke || tx.feeOk) && senderOk ver tx.ty tx.uid &&
        decide (minVer tx.ty ≤ ver) &&
        match permOf tx.ty with
        | none => true
        | some p => a.perms != 0 && (a.perms &&& p) != 0

/-- The places in `CheckTx` and `ExecuteTx` that read the sender as a registration id (src/tx/assettx.cpp 139, 332,
pricefeedtx.cpp 66, dextx.cpp 1077, proposaltx.cpp 129, 160); `get` throws for another kind (src/entities/id.h 160-180). -/
def readsReg : Ty → Bool
  | .assetIssue | .uiaUpdate | .priceFeed | .dexSettle | .proposalApproval => true
  | _ => false

/-- An exception is thrown while the transaction is checked. -/
def throws (tx : Tx) : Bool :=
  readsReg tx.ty &&
    match tx.uid with
    | .reg _ => false
    | _ => true

/-- `get_accounts_from_signatures` (universaltx.cpp 101-143) of a transaction whose sender has registration id `payer`: the
accounts whose authority the transaction has. -/
def authorities (e : Env) (db : Db) (tx : Tx) (payer : Nat) : Option (List Nat) :=
  if tx.cosigners.Nodup ∧ payer ∉ tx.cosigners ∧
      tx.cosigners.all (fun r =>
        match account e db (.reg r) with
        | none => false
        | some a =>
          match a.owner with
          | none => false
          | some p => tx.signed p) then
    some (tx.cosigners ++ [payer])
  else none

/-- `CAccountPermsClearTx::ExecuteTx`. -/
def clearPerms (a : Acc) : Acc := { a with perms := 0 }

end Verif.TxBase
