import Verif.Ledger.Basic

/-!
# Coin transfers

Models `CBaseTx::ExecuteFullTx` (src/tx/tx.cpp:182-221, fee part), `CBaseTx::GetAccount`
(290-311), `CBaseTx::NewAccount` (313-317), `CCoinTransferTx::ExecuteTx`
(src/tx/cointransfertx.cpp:122-206), `CBaseCoinTransferTx::ExecuteTx` (29-50) and
`CalcAmountByRatio` (src/commons/util/util.h:462-470).

Account objects are identified by key id: `GetAccount` keeps one object per key id in
`account_map` and returns the sender's object for any of the sender's ids.

Left out: account registration (sets `regid`/`owner_pubkey` only), receipts, the
contents of the system order other than its amount, saving (`SaveAllAccounts` writes
every object of `account_map`).
-/
namespace Verif.Transfer

open Verif.Account Verif.Ledger

abbrev RATIO_BOOST : Nat := 10000  -- src/config/const.h

/-- `CalcAmountByRatio` (util.h:462-470): 128-bit product, `none` if the result exceeds 64 bits. -/
def calcAmountByRatio (amount ratio boost : Nat) : Option Nat :=
  let c := amount * ratio / boost
  if c < U64 then some c else none

/-- A recipient: the key id it resolves to (`none`: unknown regid/nickname), and
whether an account may be created for it (`CKeyID`, and `CPubKey` for universal
transfers). -/
structure Dest where
  ref : Option Ref
  creatable : Bool
  deriving DecidableEq

structure Item where
  dest : Dest
  sym : Sym
  amount : Nat
  deriving DecidableEq

/-- Ledger plus: which accounts exist, and the amounts of the created system orders
(WUSD to be sold for WGRT). -/
structure St where
  mem : Mem
  live : Ref → Bool
  orders : List Nat

/-- A new account object (`make_shared<CAccount>(keyid)`). -/
def emptyAccount (r : Ref) : Account :=
  { keyid := r, tokens := fun _ => none, receivedVotes := 0, perms := 0 }

/-- `GetAccount`, and `NewAccount` if there is none and the id kind allows it
(cointransfertx.cpp:32-41, 178-190). -/
def getOrNew (st : St) (d : Dest) : Option (St × Ref) :=
  match d.ref with
  | none => none
  | some r =>
    if st.live r then some (st, r)
    else if d.creatable then
      some ({ st with mem := fun x => if x = r then emptyAccount r else st.mem x
                      live := fun x => x = r || st.live x }, r)
    else none

/-- Friction fee part (cointransfertx.cpp:130-174): returns the state and the amount
actually sent. -/
def frictionStep (reserve : Ref) (ratio : Nat) (st : St) (sender : Ref) (t : Item) : Option (St × Nat) :=
  if t.sym = "WUSD" then
    match calcAmountByRatio t.amount ratio RATIO_BOOST with
    | none => none
    | some fee =>
      if fee > 0 then
        if !st.live reserve then none else
        match opBal st.mem ⟨sender, "WUSD", .subFree, fee, some reserve⟩ with
        | none => none
        | some m1 =>
          match opBal m1 ⟨reserve, "WUSD", .freeze, fee, none⟩ with
          | none => none
          | some m2 => some ({ st with mem := m2, orders := st.orders ++ [fee] }, wsub t.amount fee)
      else some (st, t.amount)
  else some (st, t.amount)

/-- One round of the loop (cointransfertx.cpp:127-201). -/
def execItem (reserve : Ref) (ratio : Nat) (st : St) (sender : Ref) (t : Item) : Option St :=
  match frictionStep reserve ratio st sender t with
  | none => none
  | some (st1, actual) =>
    match getOrNew st1 t.dest with
    | none => none
    | some (st2, r) =>
      match opBal st2.mem ⟨sender, t.sym, .subFree, actual, some r⟩ with
      | none => none
      | some m => some { st2 with mem := m }

def execItems (reserve : Ref) (ratio : Nat) : St → Ref → List Item → Option St
  | st, _, [] => some st
  | st, sender, t :: ts => match execItem reserve ratio st sender t with
    | none => none
    | some st' => execItems reserve ratio st' sender ts

/-- The fee (tx.cpp:200-204): debited from the sender before `ExecuteTx`; the miner is
credited later through the block reward. -/
def payFee (st : St) (sender : Ref) (feeSym : Sym) (fee : Nat) : Option St :=
  if fee > 0 then
    match opBal st.mem ⟨sender, feeSym, .subFree, fee, none⟩ with
    | none => none
    | some m => some { st with mem := m }
  else some st

/-- `ExecuteFullTx` of a `CCoinTransferTx`. -/
def transferTx (reserve : Ref) (ratio : Nat) (st : St) (sender : Ref) (feeSym : Sym) (fee : Nat)
    (ts : List Item) : Option St :=
  if !st.live sender then none else
  match payFee st sender feeSym fee with
  | none => none
  | some st1 => execItems reserve ratio st1 sender ts

/-- `ExecuteFullTx` of a `CBaseCoinTransferTx` (cointransfertx.cpp:29-50): WICC only, one
recipient, no friction fee. -/
def baseTransferTx (st : St) (sender : Ref) (feeSym : Sym) (fee : Nat) (dest : Dest) (amount : Nat) : Option St :=
  if !st.live sender then none else
  match payFee st sender feeSym fee with
  | none => none
  | some st1 =>
    match getOrNew st1 dest with
    | none => none
    | some (st2, r) =>
      match opBal st2.mem ⟨sender, "WICC", .subFree, amount, some r⟩ with
      | none => none
      | some m => some { st2 with mem := m }

end Verif.Transfer
