import Verif.Asset.Model
import Mathlib.Data.List.Dedup

/-!
# The register of exchange operators

Code modelled (all under /repo/src):

* `CDEXOperatorRegisterTx` (tx/dexoperatortx.cpp 107-212), `CDEXOperatorUpdateData::Check` (214-303), `UpdateToDexOperator`
  (305-360), `CDEXOperatorUpdateTx` (380-430); the fee (22-85) is `Asset.operFee`;
* `CDexDBCache`: `IncDexID`, `Dex0`, `GetDexOperator`, `GetDexOperatorByOwner`, `HaveDexOperator`, `HasDexOperatorByOwner`,
  `CreateDexOperator`, `UpdateDexOperator` (persistence/dexdb.cpp 95-201);
* `CGovDexOpProposal` (entities/proposal.cpp 434-479), check and execution by the deciding approval;
* `DexOperatorDetail` (entities/dexorder.h 181-214), `DexID` = `uint32_t` (17), `CDEXOperatorUpdateData` (tx/dexoperatortx.h 85-130).

Conventions

* An account is a reference; a regid is the reference of its account. `Env.acct` and `Env.mature` say which references have an
  account and a mature regid. An id of another kind than a regid is `Uid.other`, with the account it resolves to.
* `o`: the account `GetDex0OwnerRegId` of the configuration, which owns operator 0 as long as nothing is stored for it.
* The portal's address has no check. `IsSelfUid` is equality of references.
* A failing transaction changes nothing: `none`.
-/
namespace Verif.DexOp

open Verif.Account Verif.Ledger

/-- `DexID`s are `uint32_t`. -/
def U32 : Nat := 4294967296

/-- `MAX_NAME_LEN` -/
def NAME_MAX : Nat := 32
/-- `MAX_COMMON_TX_MEMO_SIZE` -/
def MEMO_MAX : Nat := 100
/-- `MAX_MATCH_FEE_RATIO_VALUE` -/
def RATIO_MAX : Nat := 50000000
/-- `ORDER_OPEN_DEXOP_LIST_SIZE_MAX` -/
def LIST_MAX : Nat := 500

/-- `DexOperatorDetail`. The open mode is a byte: 1 public, 2 private. -/
structure Oper where
  owner : Ref
  fee : Ref
  name : String
  url : String
  mode : Nat
  maker : Nat
  taker : Nat
  openSet : List Nat
  memo : String
  activated : Bool
  deriving DecidableEq

structure State where
  mem : Mem
  /-- `operator_detail_cache` -/
  dets : Nat → Option Oper
  /-- `operator_owner_map_cache` -/
  owners : Ref → Option Nat
  /-- `operator_last_id_cache` -/
  last : Nat

/-- What the rest of the chain state says: accounts, fee accounts and governed fees. -/
structure Env where
  base : Asset.Env
  regFee : Nat
  updFee : Nat

/-- `Dex0` -/
def dex0 (o : Ref) : Oper := ⟨o, o, "wayki-dex", "https://dex.waykichain.com", 1, 40000, 40000, [], "", true⟩

/-- `GetDexOperator` -/
def getOper (o : Ref) (st : State) (id : Nat) : Option Oper :=
  match st.dets id with
  | some d => some d
  | none => if id = 0 then some (dex0 o) else none

/-- `GetDexOperatorByOwner`, the id. -/
def byOwner (o : Ref) (st : State) (r : Ref) : Option Nat :=
  match st.owners r with
  | some id => if (getOper o st id).isSome then some id else none
  | none =>
    if r = o then match getOper o st 0 with
      | some d => if d.owner = r then some 0 else none
      | none => none
    else none

/-- `HaveDexOperator`; the argument is cut down to a `DexID`. -/
def haveOper (st : State) (item : Nat) : Bool :=
  if item % U32 = 0 then true else (st.dets (item % U32)).isSome

/-- `HasDexOperatorByOwner` -/
def hasByOwner (o : Ref) (st : State) (r : Ref) : Bool :=
  if (st.owners r).isSome then true
  else if r = o then match getOper o st 0 with
    | some d => d.owner == r
    | none => false
  else false

def setDet (st : State) (id : Nat) (d : Oper) : State := { st with dets := fun i => if i = id then some d else st.dets i }

def setOwner (st : State) (r : Ref) (v : Option Nat) : State := { st with owners := fun q => if q = r then v else st.owners q }

/-- `CreateDexOperator` -/
def create (o : Ref) (st : State) (id : Nat) (d : Oper) : Option State :=
  if (st.dets id).isSome then none
  else if hasByOwner o st d.owner then none
  else some (setOwner (setDet st id d) d.owner (some id))

/-- `UpdateDexOperator` -/
def update (st : State) (id : Nat) (old d : Oper) : State :=
  setDet (if old.owner ≠ d.owner then setOwner (setOwner st old.owner none) d.owner (some id) else st) id d

/-- `IncDexID`. The counter is a `uint32_t` compared with `ULONG_MAX`, so the comparison never holds. -/
def incId (st : State) : State × Nat :=
  let n := (st.last + 1) % U32
  ({ st with last := n }, n)

/-- The ids of users in a transaction. -/
inductive Uid
  | reg (r : Ref)
  | other (r : Ref)
  deriving DecidableEq

def Uid.ref : Uid → Ref
  | .reg r => r
  | .other r => r

/-- `CDEXOperatorRegisterTx::Data` -/
structure Data where
  owner : Uid
  fee : Uid
  name : String
  url : String
  mode : Nat
  maker : Nat
  taker : Nat
  openList : List Nat
  memo : String
  deriving DecidableEq

/-- The list of operators to open the orders to, as a set, if all exist and none occurs twice. -/
def openSet (st : State) : List Nat → List Nat → Option (List Nat)
  | acc, [] => some acc
  | acc, i :: is =>
    if !haveOper st i then none
    else if acc.contains i then none
    else openSet st (acc ++ [i]) is

def regCheck (d : Data) : Bool :=
  match d.owner, d.fee with
  | .reg _, .reg _ =>
    decide (d.name.utf8ByteSize ≤ NAME_MAX) && decide (d.memo.utf8ByteSize ≤ MEMO_MAX) && decide (d.maker ≤ RATIO_MAX)
      && decide (d.taker ≤ RATIO_MAX) && decide (d.openList.length ≤ LIST_MAX)
  | _, _ => false

/-- The record made at registration; `activated` keeps its default. -/
def newOper (d : Data) (set : List Nat) : Oper :=
  ⟨d.owner.ref, d.fee.ref, d.name, d.url, d.mode, d.maker, d.taker, set, d.memo, false⟩

/-- `CDEXOperatorRegisterTx`: check and execution. -/
def register (o : Ref) (env : Env) (st : State) (who : Ref) (d : Data) : Option State :=
  if !regCheck d then none
  else match openSet st [] d.openList with
    | none => none
    | some set =>
      if !(d.owner.ref == who || env.base.acct d.owner.ref) then none
      else if !(d.fee.ref == who || env.base.acct d.fee.ref) then none
      else if hasByOwner o st d.owner.ref then none
      else match Asset.operFee env.base st.mem who env.regFee with
        | none => none
        | some m =>
          let r := incId { st with mem := m }
          create o r.1 r.2 (newOper d set)

/-- `CDEXOperatorUpdateData` by field. -/
inductive Upd
  | owner (u : Uid)
  | fee (u : Uid)
  | name (s : String)
  | url (s : String)
  | mode (b : Nat)
  | maker (v : Nat)
  | taker (v : Nat)
  | openList (is : List Nat)
  | memo (s : String)
  deriving DecidableEq

/-- `CDEXOperatorUpdateData::Check` and the owner test of `CheckTx`. -/
def updCheck (o : Ref) (env : Env) (st : State) (id : Nat) (d : Oper) : Upd → Bool
  | .owner u => env.base.acct u.ref && env.base.mature u.ref && match u with
    | .reg r => !hasByOwner o st r
    | .other _ => true
  | .fee u => env.base.acct u.ref && env.base.mature u.ref
  | .name s => decide (s.utf8ByteSize ≤ NAME_MAX)
  | .url _ => true
  | .mode b => (b == 1 || b == 2) && b != d.mode
  | .maker v => decide (v ≤ RATIO_MAX)
  | .taker v => decide (v ≤ RATIO_MAX)
  | .openList is => decide (is.length ≤ LIST_MAX) && is.all (fun i => i != id && haveOper st i)
  | .memo s => decide (s.utf8ByteSize ≤ MEMO_MAX)

/-- `UpdateToDexOperator` -/
def updTo (d : Oper) : Upd → Option Oper
  | .owner (.reg r) => some { d with owner := r }
  | .owner (.other _) => none
  | .fee (.reg r) => some { d with fee := r }
  | .fee (.other _) => none
  | .name s => some { d with name := s }
  | .url s => some { d with url := s }
  | .mode b => some { d with mode := b }
  | .maker v => some { d with maker := v }
  | .taker v => some { d with taker := v }
  | .openList is => some { d with openSet := is.dedup }
  | .memo s => some { d with memo := s }

/-- `CDEXOperatorUpdateTx`: check and execution. -/
def change (o : Ref) (env : Env) (st : State) (who : Ref) (id : Nat) (u : Upd) : Option State :=
  match getOper o st id with
  | none => none
  | some d =>
    if !updCheck o env st id d u then none
    else if who ≠ d.owner then none
    else match Asset.operFee env.base st.mem who env.updFee with
      | none => none
      | some m => match updTo d u with
        | none => none
        | some d' => some (update { st with mem := m } id d d')

/-- `CGovDexOpProposal`: `on` is `ENABLE`. -/
def govern (o : Ref) (st : State) (id : Nat) (on : Bool) : Option State :=
  if id = 0 then none
  else match getOper o st id with
    | none => none
    | some d =>
      if d.activated = on then none
      else some (update st id d { d with activated := on })

inductive Ev
  | register (env : Env) (who : Ref) (d : Data)
  | change (env : Env) (who : Ref) (id : Nat) (u : Upd)
  | govern (id : Nat) (on : Bool)

def apply (o : Ref) (st : State) : Ev → Option State
  | .register env who d => register o env st who d
  | .change env who id u => change o env st who id u
  | .govern id on => govern o st id on

def step (o : Ref) (st : State) (e : Ev) : State := (apply o st e).getD st

def run (o : Ref) (st : State) (es : List Ev) : State := es.foldl (step o) st

/-- Nothing stored yet. -/
def genesis (m : Mem) : State := ⟨m, fun _ => none, fun _ => none, 0⟩

/-! ## What an operator's record means to orders -/

/-- `GetOrderOperator` (tx/dextx.cpp 364-375): the operator of a new order. -/
def orderOper (o : Ref) (st : State) (id : Nat) : Option Oper :=
  match getOper o st id with
  | none => none
  | some d => if d.activated then some d else none

end Verif.DexOp
