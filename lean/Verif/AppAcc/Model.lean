import Verif.Util.SMap
import Verif.Util.U64

/-!
# Funds of contract users

Model of `src/vm/luavm/appaccount.cpp` (21-220), `appaccount.h` (23-165), and of what the Lua environment does with them:
`src/vm/luavm/luavmrunenv.cpp` (30-82 the order of the steps, 163-247 `CheckAppAcctOperate`, 420-430 `InsertOutAPPOperte`,
455-521 `GetAppUserAccount`, `OperateAppAccount`) and `src/vm/luavm/lmylib.cpp` (1775-1840 reading an operation from a Lua table,
1936-1975 `ExWriteOutAppOperateFunc`, 2014-2113 `ExTransferContractAsset`, 2115-2190 `ExTransferSomeAsset`).

* Users (byte strings of an address or registration id) and tags are numbers and lists of numbers; one contract is modelled.
* `SafeAdd` fails instead of wrapping. A failed `assert` aborts the node (`main.cpp` 43-45 forbids disabling asserts): outcome
  `crash`. A tag longer than the 40 byte buffer is `none`: reading it is an `assert` (`GetFundTagV`) after an out of bounds read.
* The script itself is any list of calls; calls returning `RetFalse` have no effect. The transfers between ordinary accounts
  that precede (`CheckOperate`, `OperateAccount`) only matter by the amounts taken from the contract account; when they fail the
  whole transaction fails and nothing is kept.
-/
namespace Verif.AppAcc

/-- `CAppCFund`; the height is an `int32_t`. -/
structure Fund where
  tag : List Nat
  value : Nat
  height : Int
  deriving DecidableEq

/-- `CAppUserAccount`. -/
structure Acct where
  free : Nat
  funds : List Fund
  deriving DecidableEq

def empty : Acct := ⟨0, []⟩

inductive Res (α : Type)
  | ok (a : α)
  | fail
  | crash
  deriving DecidableEq

def Res.map {α β : Type} (f : α → β) : Res α → Res β
  | .ok a => .ok (f a)
  | .fail => .fail
  | .crash => .crash

/-- `(uint64_t) int64` and `(int64_t) uint64`, `(int32_t) uint32`, `(uint32_t) int32`. -/
def u64 (x : Int) : Nat := (x % 18446744073709551616).toNat
def i64 (x : Nat) : Int := if x < 9223372036854775808 then x else (x : Int) - 18446744073709551616
def i32 (x : Nat) : Int := if x < 2147483648 then x else (x : Int) - 4294967296
def u32 (x : Int) : Nat := (x % 4294967296).toNat

/-- `CAppFundOperate` without the user. `kind`: 1 add free, 2 subtract free, 3 add tag, 4 subtract tag. -/
structure Op where
  kind : Nat
  timeout : Nat
  money : Int
  tag : Option (List Nat)
  deriving DecidableEq

/-- `AddAppCFund`, `MergeCFund`. -/
def addFund : List Fund → Fund → Res (List Fund)
  | [], f => .ok [f]
  | g :: gs, f =>
    if g.tag = f.tag ∧ g.height = f.height then
      if f.value = 0 then .crash
      else if g.value + f.value < U64 then .ok ({ g with value := g.value + f.value } :: gs)
      else .fail
    else (addFund gs f).map (g :: ·)

/-- `MinusAppCFund` after its assert. -/
def subFund : List Fund → Fund → Res (List Fund)
  | [], _ => .fail
  | g :: gs, f =>
    if g.tag = f.tag ∧ g.height = f.height then
      if g.value ≥ f.value then
        if g.value = f.value then .ok gs else .ok ({ g with value := g.value - f.value } :: gs)
      else .fail
    else (subFund gs f).map (g :: ·)

/-- `CAppUserAccount::Operate` for one operation. -/
def operate (a : Acct) (o : Op) : Res Acct :=
  if o.kind = 1 then
    if a.free + u64 o.money < U64 then .ok { a with free := a.free + u64 o.money } else .fail
  else if o.kind = 2 then
    if a.free ≥ u64 o.money then .ok { a with free := a.free - u64 o.money } else .fail
  else if o.kind = 3 then
    match o.tag with
    | none => .crash
    | some tg =>
      if o.timeout = 0 then .crash
      else (addFund a.funds ⟨tg, u64 o.money, i32 o.timeout⟩).map (fun fs => { a with funds := fs })
  else if o.kind = 4 then
    match o.tag with
    | none => .crash
    | some tg =>
      if o.timeout = 0 then .crash
      else if i32 o.timeout ≤ 0 then .crash
      else (subFund a.funds ⟨tg, u64 o.money, i32 o.timeout⟩).map (fun fs => { a with funds := fs })
  else .fail

/-- `Operate` for a list. -/
def operateAll : Acct → List Op → Res Acct
  | a, [] => .ok a
  | a, o :: os =>
    match operate a o with
    | .ok a' => operateAll a' os
    | .fail => .fail
    | .crash => .crash

/-- The loop of `AutoMergeFreezeToFree`: success, and the free funds reached. -/
def mergeLoop (h : Int) : Nat → List Fund → Bool × Nat
  | free, [] => (true, free)
  | free, f :: fs =>
    if f.height ≤ h then
      if free + f.value < U64 then mergeLoop h (free + f.value) fs else (false, free)
    else mergeLoop h free fs

/-- `AutoMergeFreezeToFree`: success, and the account, also changed by a failing call. -/
def autoMerge (a : Acct) (h : Int) : Bool × Acct :=
  match mergeLoop h a.free a.funds with
  | (true, free) => (true, ⟨free, a.funds.filter (fun f => ¬ f.height ≤ h)⟩)
  | (false, free) => (false, ⟨free, a.funds⟩)

/-- The accounts of one contract. -/
abbrev Store := Nat → Option Acct

/-- `GetAppUserAccount`: the account with the funds that are due released. -/
def getAcct (s : Store) (h : Int) (u : Nat) : Option Acct :=
  match s u with
  | none => some empty
  | some a =>
    match autoMerge a h with
    | (true, a') => some a'
    | (false, _) => none

def setAcct (s : Store) (u : Nat) (a : Acct) : Store := fun x => if x = u then some a else s x

/-- `mapAppFundOperate`. -/
abbrev OpMap := List (Nat × List Op)

def ltU (a b : Nat) : Bool := decide (a < b)

/-- `InsertOutAPPOperte`. -/
def insertOp (m : OpMap) (u : Nat) (o : Op) : OpMap :=
  match find m u with
  | some os => put ltU m u (os ++ [o])
  | none => put ltU m u [o]

/-- `OperateAppAccount`. -/
def operateMap (h : Int) : Store → OpMap → Res Store
  | s, [] => .ok s
  | s, (u, os) :: rest =>
    match getAcct s h u with
    | none => .fail
    | some a =>
      match autoMerge a h with
      | (false, _) => .fail
      | (true, a1) =>
        match operateAll a1 os with
        | .ok a2 => operateMap h (setAcct s u a2) rest
        | .fail => .fail
        | .crash => .crash

/-- What a script may call. -/
inductive Call
  /-- `WriteOutAppOperate`. -/
  | write (u : Nat) (o : Op)
  /-- `TransferSomeAsset` of the sender of the transaction. -/
  | some (send recv : Nat) (amount timeout : Nat) (tag : Option (List Nat))
  /-- `TransferContractAsset`: everything. -/
  | all (send recv : Nat)

/-- The pair of operations inserted by both transfer functions. -/
def insertPair (m : OpMap) (send recv : Nat) (sub add : Nat) (timeout : Nat) (money : Int) (tag : Option (List Nat)) : OpMap :=
  insertOp (insertOp m send ⟨sub, timeout, money, tag⟩) recv ⟨add, timeout, money, tag⟩

/-- The loop over the locked funds in `ExTransferContractAsset`. -/
def insertFunds (send recv : Nat) : OpMap → List Fund → OpMap
  | m, [] => m
  | m, f :: fs => insertFunds send recv (insertPair m send recv 4 3 (u32 f.height) (i64 f.value) (Option.some f.tag)) fs

/-- One call. `r2`: from the second fork on; `tip`: `chainActive.Height()`. -/
def call (s : Store) (r2 : Bool) (tip : Int) (m : OpMap) : Call → Res OpMap
  | .write u o => if r2 ∧ o.money < 0 then .ok m else .ok (insertOp m u o)
  | .some send recv amount timeout tag =>
    if send = recv then .ok m
    else if amount = 0 then .ok m
    else if i32 timeout < 0 then .ok m
    else
      match tag with
      | none => .crash
      | Option.some tg =>
        if i32 timeout > 0 then .ok (insertPair m send recv 4 3 timeout (i64 amount) (Option.some tg))
        else .ok (insertPair m send recv 2 1 timeout (i64 amount) (Option.some tg))
  | .all send recv =>
    if send = recv then .ok m
    else
      match s send with
      | none => .ok m
      | Option.some a =>
        let a1 := (autoMerge a tip).2
        let m1 := if a1.free > 0 then insertPair m send recv 2 1 0 (i64 a1.free) (Option.some []) else m
        .ok (insertFunds send recv m1 a1.funds)

def calls (s : Store) (r2 : Bool) (tip : Int) : OpMap → List Call → Res OpMap
  | m, [] => .ok m
  | m, c :: cs =>
    match call s r2 tip m c with
    | .ok m' => calls s r2 tip m' cs
    | .fail => .fail
    | .crash => .crash

/-- `SafeAdd`, `SafeSubtract` on `int64_t`. -/
def in64 (x : Int) : Bool := decide (-9223372036854775808 ≤ x) && decide (x < 9223372036854775808)

/-- The sums of `CheckAppAcctOperate` over one list. -/
def sumOps : Int × Int → List Op → Option (Int × Int)
  | p, [] => some p
  | (ad, mi), o :: os =>
    if o.kind = 1 ∨ o.kind = 3 then
      if in64 (o.money + ad) then sumOps (o.money + ad, mi) os else none
    else if o.kind = 2 ∨ o.kind = 4 then
      if in64 (o.money + mi) then sumOps (ad, o.money + mi) os else none
    else sumOps (ad, mi) os

def sumMap : Int × Int → OpMap → Option (Int × Int)
  | p, [] => some p
  | p, (_, os) :: rest =>
    match sumOps p os with
    | none => none
    | some q => sumMap q rest

/-- The amounts taken from the contract account. -/
def sumPaid : Nat → List Nat → Option Nat
  | acc, [] => some acc
  | acc, v :: vs => if i64 v < 0 then none else if v + acc < U64 then sumPaid (v + acc) vs else none

/-- `CheckAppAcctOperate`; `paid`: the amounts taken from the contract account, `transfer`: sent with the transaction. -/
def checkSum (m : OpMap) (paid : List Nat) (transfer : Nat) : Bool :=
  match sumMap (0, 0) m with
  | none => false
  | some (ad, mi) =>
    if in64 (ad - mi) then
      match sumPaid 0 paid with
      | none => false
      | some p => if in64 (i64 transfer - i64 p) then decide (ad - mi = i64 transfer - i64 p) else false
    else false

/-- One contract transaction at height `h`, on the chain with tip `tip`. -/
structure Tx where
  r2 : Bool
  tip : Int
  h : Int
  calls : List Call
  check : Bool
  paid : List Nat
  transfer : Nat

/-- `ExecuteContract` as far as it concerns the contract users. -/
def exec (s : Store) (x : Tx) : Res Store :=
  match calls s x.r2 x.tip [] x.calls with
  | .crash => .crash
  | .fail => .fail
  | .ok m => if x.check && !checkSum m x.paid x.transfer then .fail else operateMap x.h s m

/-- What stays after the transaction; nothing when it fails. -/
def after (s : Store) (x : Tx) : Store :=
  match exec s x with
  | .ok s' => s'
  | _ => s

end Verif.AppAcc
