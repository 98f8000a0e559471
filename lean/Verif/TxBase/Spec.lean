import Verif.TxBase.Model

/-!
# What is expected of the parts all transactions share

The direct reading of a transaction: every operation reads and writes the row of the database at once; nothing is held in memory.
-/
namespace Verif.TxBase.Spec
open Verif.TxBase

/-- The database is in order: rows are stored under their key, numbers lead back, public keys belong. -/
def Ok (e : Env) (d : Db) : Prop :=
  ∀ k a, d.accs k = some a →
    a.key = k ∧ (∀ r, a.reg = some r → d.regs r = some k) ∧ (∀ p, a.owner = some p → e.keyOf p = k)

/-- Which row an id names. -/
def row (e : Env) (d : Db) : Uid → Option Nat
  | .null => none
  | .reg r => d.regs r
  | .key k => some k
  | .pub p => some (e.keyOf p)

/-- An account nobody has used yet: no number, no public key, all permissions, nothing in it. -/
def blank (k : Nat) : Acc := { key := k, reg := none, owner := none, perms := 18446744073709551615, coins := 0 }

/-- Write a row. -/
def put (d : Db) (k : Nat) (a : Acc) : Db := { d with accs := fun x => if x = k then some a else d.accs x }

/-- Change a row. -/
def update (d : Db) (k : Nat) (f : Acc → Option Acc) : Option Db :=
  match d.accs k with
  | none => none
  | some a => (f a).map (put d k)

/-- Assign a number. -/
def number (d : Db) (r k : Nat) : Db := { d with regs := fun x => if x = r then some k else d.regs x }

/-- An operation of a transaction whose sender is row `s`. -/
def step (e : Env) (s : Nat) (d : Db) : Op → Option Db
  | .touch uid f => (row e d uid).bind fun k => update d k f
  | .touchOrNew uid f =>
    match (row e d uid).bind d.accs with
    | some a => (f a).map (put d a.key)
    | none =>
      match uid with
      | .key k => (f (blank k)).map (put d k)
      | .pub p => (f (blank (e.keyOf p))).map (put d (e.keyOf p))
      | _ => none
  | .sender f => update d s f
  | .register p =>
    match d.accs (e.keyOf p) with
    | none => none
    | some a =>
      if a.reg.isSome then some d
      else some (number (put d (e.keyOf p) { a with reg := some e.newReg, owner := some p }) e.newReg (e.keyOf p))
  | .deploy =>
    let k := e.contractKey e.newReg
    some (number (put d k { (d.accs k).getD (blank k) with reg := some e.newReg }) e.newReg k)

def steps (e : Env) (s : Nat) : List Op → Db → Option Db
  | [], d => some d
  | o :: os, d => (step e s d o).bind (steps e s os)

/-- A transaction from `uid`. -/
def execute (e : Env) (d : Db) (uid : Uid) (ops : List Op) : Option Db :=
  match row e d uid with
  | none => none
  | some s => if (d.accs s).isSome then steps e s ops d else none

/-- Changes of balances, votes and permissions leave the identity of an account alone. -/
def Keeps (f : Acc → Option Acc) : Prop :=
  ∀ a a', f a = some a' → a'.key = a.key ∧ a'.reg = a.reg ∧ a'.owner = a.owner

/-- The operation is an ordinary one: changes keep identities, the number of the transaction is given out once, and contracts are
put at unused addresses. -/
def Plain (e : Env) (d : Db) : Op → Prop
  | .touch _ f => Keeps f
  | .touchOrNew _ f => Keeps f
  | .sender f => Keeps f
  | .register p => ∀ a, d.accs (e.keyOf p) = some a → a.reg = none → d.regs e.newReg = none
  | .deploy => d.accs (e.contractKey e.newReg) = none ∧ d.regs e.newReg = none

/-- All operations are ordinary when their turn comes. -/
def AllPlain (e : Env) (s : Nat) : List Op → Db → Prop
  | [], _ => True
  | o :: os, d => Plain e d o ∧ ∀ d', step e s d o = some d' → AllPlain e s os d'

/-- What an account must be allowed to do for each kind of transaction it sends (src/entities/account.h 33-42). -/
inductive Needs : Ty → Nat → Prop
  | coins (t) : t ∈ [Ty.bcoinTransfer, .ucoinTransfer] → Needs t 0
  | stake : Needs .ucoinStake 1
  | vote : Needs .delegateVote 2
  | utxo (t) : t ∈ [Ty.utxoTransfer, .utxoPasswordProof] → Needs t 3
  | contract (t) : t ∈ [Ty.lcontractDeploy, .lcontractInvoke, .ucontractDeploy, .ucontractInvoke, .universal] → Needs t 4
  | propose : Needs .proposalRequest 5
  | price : Needs .priceFeed 7
  | dex (t) : t ∈ [Ty.dexLimitBuy, .dexLimitSell, .dexMarketBuy, .dexMarketSell, .dexCancel, .dexSettle, .dexOrder, .dexOperatorOrder,
      .dexOperatorRegister, .dexOperatorUpdate] → Needs t 8
  | cdp (t) : t ∈ [Ty.cdpStake, .cdpRedeem, .cdpLiquidate] → Needs t 9

/-- Transactions made by the chain itself, not by an account. -/
def ByChain (t : Ty) : Prop := t ∈ [Ty.blockReward, .priceMedian, .ucoinMint, .ucoinBlockReward, .cdpForceSettle]

end Verif.TxBase.Spec
