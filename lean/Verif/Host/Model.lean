/-!
# What contracts call in the node

Model of

* checked arithmetic: `src/commons/SafeInt3.hpp` 1035-1043 (`Abs`), 1116-1124 (`SignedNegation`), 1977-2038 and 2408-2460
  (`RegMultiply` on 64 bit numbers), 3522-3544 (`Divide`), 3726-3742 and 4023-4046 (`Addition`), 4325-4338 and 4813-4838
  (`Subtract`), 5541-5563;
* `src/vm/luavm/lmylib.cpp` 72-93 (`RetRstToLua`), 183-246 (`GetArray`, `GetDataInt`, `GetDataString`), 271-346 (fields of a
  table), 626-731 (`Int64Add` and so on), 1030-1096 (`ByteToInteger`, `IntegerToByte4`, `IntegerToByte8`), 1181-1254
  (`GetTxConfirmHeight`, `GetBlockHash`), 1290-1540 (`WriteData`, `DeleteData`, `ReadData`, `ModifyData`), 1601-1668
  (`GetContractData`);
* `src/vm/wasm/wasm_interface.cpp` 24-33, 134-138 (`AddPrefix`), 275-357 (`db_store`, `db_remove`, `db_get`, `db_update`);
* `src/persistence/contractdb.cpp` 56-78, `contractdb.h` 32-37, `dbconf.h` 229-285 (`CDBTailKey`), `config/const.h` 195,
  `entities/id.cpp` 65-77 (`CRegID`);
* `src/main.cpp` 307-324 (`GetTxConfirmHeight`), 875-881 and 1164-1172 (`SaveTxIndex`).

Simplifications: bytes are numbers below 256.  A Lua number is given by its integral part, as all conversions here drop the
fraction; the conversion of a number that does not fit the target type is undefined in C++ and is the outcome `undef`.  A field of a
Lua table that is missing or has another type is `none`.  Fuel and the depth of the Lua stack are left out.  The table of contract
data behaves as a map that drops empty values (`Verif.KV.stack_behaves_as_map`); a failed `assert` aborts the node (`main.cpp`
43-45): outcome `crash`.
-/
namespace Verif.Host

abbrev Bytes := List Nat

/-! ## Checked arithmetic -/

/-- The conversions between `int64_t` and `uint64_t`. -/
def U (x : Int) : Nat := (x % 18446744073709551616).toNat
def S (n : Nat) : Int :=
  if n % 18446744073709551616 < 9223372036854775808 then (n % 18446744073709551616 : Nat)
  else ((n % 18446744073709551616 : Nat) : Int) - 18446744073709551616

/-- `AdditionState_CastInt64CheckOverflow`. -/
def safeAdd (lhs rhs : Int) : Option Int :=
  let tmp := S (U lhs + U rhs)
  if lhs ≥ 0 then
    if rhs ≥ 0 ∧ tmp < lhs then none else some tmp
  else if rhs < 0 ∧ tmp > lhs then none else some tmp

/-- `SubtractionState_Int64Int`. -/
def safeSub (lhs rhs : Int) : Option Int :=
  let tmp := S (U lhs + (18446744073709551616 - U rhs))
  if (lhs ≥ 0 ∧ rhs < 0 ∧ tmp < lhs) ∨ (rhs ≥ 0 ∧ tmp > lhs) then none else some tmp

/-- `DivisionState_SignedSigned`; C++ divides towards zero. -/
def safeDiv (t u : Int) : Option Int :=
  if u = 0 then none
  else if t = 0 then some 0
  else if t = -9223372036854775808 ∧ u = -1 then none
  else some (Int.tdiv t u)

/-- `LargeIntRegMultiply<uint64, uint64>::RegMultiply`. -/
def regMul (a b : Nat) : Option Nat :=
  let aHigh := a / 4294967296
  let aLow := a % 4294967296
  let bHigh := b / 4294967296
  let bLow := b % 4294967296
  let cross : Option Nat :=
    if aHigh = 0 then (if bHigh ≠ 0 then some (aLow * bHigh) else some 0)
    else if bHigh = 0 then some (aHigh * bLow)
    else none
  match cross with
  | none => none
  | some r =>
    if r ≠ 0 then
      if r / 4294967296 ≠ 0 then none
      else
        let tmp := aLow * bLow
        let r' := (r * 4294967296 + tmp) % 18446744073709551616
        if r' < tmp then none else some r'
    else some (aLow * bLow)

/-- `LargeIntRegMultiply<int64, int64>::RegMultiply`. The absolute value is `~(uint64_t)t + 1`. -/
def safeMul (a b : Int) : Option Int :=
  let a1 := if a < 0 then (18446744073709551616 - U a) % 18446744073709551616 else U a
  let b1 := if b < 0 then (18446744073709551616 - U b) % 18446744073709551616 else U b
  match regMul a1 b1 with
  | none => none
  | some tmp =>
    if (decide (a < 0)) != (decide (b < 0)) then
      if tmp ≤ 9223372036854775808 then some (S (18446744073709551616 - tmp)) else none
    else if tmp ≤ 9223372036854775807 then some (S tmp) else none

/-- `AdditionState_CastUint64CheckOverflow`, `SubtractionState_BothUnsigned`: unsigned numbers. -/
def safeAddU (lhs rhs : Nat) : Option Nat :=
  let tmp := (lhs + rhs) % 18446744073709551616
  if tmp ≥ lhs then some tmp else none

def safeSubU (lhs rhs : Nat) : Option Nat := if rhs ≤ lhs then some (lhs - rhs) else none

/-! ## Numbers and bytes -/

inductive Res (α : Type)
  | ok (a : α)
  /-- The function gives no result (Lua), or the transaction fails (wasm). -/
  | fail
  | undef
  | crash
  deriving DecidableEq

def Res.map {α β : Type} (f : α → β) : Res α → Res β
  | .ok a => .ok (f a)
  | .fail => .fail
  | .undef => .undef
  | .crash => .crash

/-- A number in `n` bytes, the low ones first. -/
def le : Nat → Nat → Bytes
  | 0, _ => []
  | n + 1, x => (x % 256) :: le n (x / 256)

def ofLe : Bytes → Nat
  | [] => 0
  | b :: bs => b + 256 * ofLe bs

/-- `getArrayInTable` and `GetArray`: `n` elements of a table, each a number that becomes a byte. -/
def readArr : Nat → List (Option Int) → Res Bytes
  | 0, _ => .ok []
  | _ + 1, [] => .fail
  | _ + 1, none :: _ => .fail
  | n + 1, some x :: l => if 0 ≤ x ∧ x < 256 then (readArr n l).map (x.toNat :: ·) else .undef

/-- `IntegerToByte4`, `IntegerToByte8` of a Lua integer; `GetDataInt` casts to `int32_t`. -/
def intToByte4 (n : Int) : Bytes := le 4 (n % 4294967296).toNat
def intToByte8 (n : Int) : Bytes := le 8 (U n)

/-- `ByteToInteger`: the arguments on the stack. -/
def byteToInt (args : List (Option Int)) : Res Int :=
  if args.length = 0 ∨ args.length > 500 then .fail
  else
    match readArr args.length args with
    | .ok bs =>
      if bs.length = 4 then .ok (ofLe bs)
      else if bs.length = 8 then .ok (S (ofLe bs))
      else .fail
    | .fail => .fail
    | .undef => .undef
    | .crash => .crash

/-! ## Contract data -/

/-- A `CRegID`: height and index. -/
abbrev Reg := Nat × Nat

/-- The table of contract data. -/
abbrev Store := Reg → Bytes → Option Bytes

/-- `CDBTailKey`: the assert of its constructor. -/
def tailKey (k : Bytes) : Bool := decide (k.length ≤ 512)

def dbGet (s : Store) (c : Reg) (k : Bytes) : Res (Option Bytes) :=
  if tailKey k then .ok (s c k) else .crash

def put (s : Store) (c : Reg) (k : Bytes) (v : Option Bytes) : Store :=
  fun d q => if d = c ∧ q = k then v else s d q

/-- `SetContractData`; an empty value is an absent one. -/
def dbSet (s : Store) (c : Reg) (k v : Bytes) : Res Store :=
  if tailKey k then .ok (put s c k (if v = [] then none else some v)) else .crash

/-- `EraseContractData`: succeeds also when there is nothing. -/
def dbErase (s : Store) (c : Reg) (k : Bytes) : Res Store :=
  if tailKey k then .ok (put s c k none) else .crash

/-- `strlen` and what it sees of a string. -/
def cstr (s : Bytes) : Bytes := s.takeWhile (fun b => b != 0)

/-- `getStringInTable`, `GetDataString`. -/
def getKey : Option Bytes → Option Bytes
  | none => none
  | some s => if (cstr s).length ≤ 500 then some (cstr s) else none

/-- `GetDataTableWriteDataDB`. -/
def getTable (key : Option Bytes) (length : Option Int) (value : Option (List (Option Int))) : Res (Bytes × Bytes) :=
  match getKey key with
  | none => .fail
  | some k =>
    match length with
    | none => .fail
    | some d =>
      if 0 ≤ d ∧ d < 65536 then
        if 0 < d ∧ d ≤ 500 then
          match value with
          | none => .fail
          | some l => (readArr d.toNat l).map (fun v => (k, v))
        else .fail
      else .undef

/-- The calls. -/
inductive Call
  | luaWrite (key : Option Bytes) (length : Option Int) (value : Option (List (Option Int)))
  | luaModify (key : Option Bytes) (length : Option Int) (value : Option (List (Option Int)))
  | luaDelete (key : Option Bytes)
  | luaRead (key : Option Bytes)
  | luaReadOf (id : Option (List (Option Int))) (key : Option Bytes)
  | wStore (key val : Bytes)
  | wUpdate (key val : Bytes)
  | wRemove (key : Bytes)
  | wGet (key : Bytes) (len : Nat)

/-- What the caller gets: nothing, a flag, bytes, a number. -/
inductive Out
  | none
  | flag (b : Bool)
  | bytes (b : Bytes)
  | num (n : Nat)
  deriving DecidableEq

/-- `RetRstToLua`. -/
def retBytes (v : Bytes) : Out := if (v.take 500).length > 0 then .bytes (v.take 500) else .none

/-- `GetIntValue`, and the eight bytes put before the keys of wasm contracts. -/
def regNum (c : Reg) : Nat := c.1 * 1048576 + c.2
def wKey (c : Reg) (k : Bytes) : Bytes := le 8 (regNum c) ++ k

/-- `CHECK_WASM_DATA_SIZE`. -/
def sizeOk (b : Bytes) : Bool := decide (b.length ≤ 1048576)

/-- `WriteData`: the old value is read first, for the fuel. -/
def luaWrite (s : Store) (c : Reg) (k v : Bytes) : Res (Out × Store) :=
  match dbGet s c k with
  | .ok _ =>
    match dbSet s c k v with
    | .ok s' => .ok (.flag true, s')
    | .fail => .ok (.flag false, s)
    | .undef => .undef
    | .crash => .crash
  | .fail => .fail
  | .undef => .undef
  | .crash => .crash

def luaModify (s : Store) (c : Reg) (k v : Bytes) : Res (Out × Store) :=
  match dbGet s c k with
  | .ok (some _) =>
    match dbSet s c k v with
    | .ok s' => .ok (.flag true, s')
    | .fail => .ok (.flag false, s)
    | .undef => .undef
    | .crash => .crash
  | .ok none => .ok (.flag false, s)
  | .fail => .fail
  | .undef => .undef
  | .crash => .crash

def luaRead (s : Store) (c : Reg) (k : Bytes) : Res (Out × Store) :=
  match dbGet s c k with
  | .ok (some v) => .ok (retBytes v, s)
  | .ok none => .ok (.none, s)
  | .fail => .fail
  | .undef => .undef
  | .crash => .crash

def wSet (s : Store) (c : Reg) (k v : Bytes) : Res (Out × Store) :=
  if sizeOk k ∧ sizeOk v then
    match dbSet s c (wKey c k) v with
    | .ok s' => .ok (.num 1, s')
    | .fail => .fail
    | .undef => .undef
    | .crash => .crash
  else .fail

/-- One call of the contract `c`. -/
def step (s : Store) (c : Reg) : Call → Res (Out × Store)
  | .luaWrite key length value =>
    match getTable key length value with
    | .ok (k, v) => luaWrite s c k v
    | .fail => .ok (.none, s)
    | .undef => .undef
    | .crash => .crash
  | .luaModify key length value =>
    match getTable key length value with
    | .ok (k, v) => luaModify s c k v
    | .fail => .ok (.none, s)
    | .undef => .undef
    | .crash => .crash
  | .luaDelete key =>
    match getKey key with
    | none => .ok (.none, s)
    | some k =>
      match dbGet s c k with
      | .ok _ =>
        match dbErase s c k with
        | .ok s' => .ok (.flag true, s')
        | .fail => .ok (.flag false, s)
        | .undef => .undef
        | .crash => .crash
      | .fail => .fail
      | .undef => .undef
      | .crash => .crash
  | .luaRead key =>
    match getKey key with
    | none => .ok (.none, s)
    | some k => luaRead s c k
  | .luaReadOf id key =>
    match id with
    | none => .ok (.none, s)
    | some l =>
      match readArr 6 l with
      | .ok raw =>
        match getKey key with
        | none => .ok (.none, s)
        | some k =>
          let d : Reg := (ofLe (raw.take 4), ofLe (raw.drop 4))
          if d = (0, 0) then .ok (.none, s) else luaRead s d k
      | .fail => .ok (.none, s)
      | .undef => .undef
      | .crash => .crash
  | .wStore key val => wSet s c key val
  | .wUpdate key val => wSet s c key val
  | .wRemove key =>
    if sizeOk key then
      match dbErase s c (wKey c key) with
      | .ok s' => .ok (.num 1, s')
      | .fail => .fail
      | .undef => .undef
      | .crash => .crash
    else .fail
  | .wGet key len =>
    if sizeOk key then
      match dbGet s c (wKey c key) with
      | .ok none => .ok (.num 0, s)
      | .ok (some v) =>
        if len = 0 then .ok (.num v.length, s)
        else if len ≤ 1048576 then .ok (.bytes (v.take len), s)
        else .fail
      | .fail => .fail
      | .undef => .undef
      | .crash => .crash
    else .fail

/-- Calls of many contracts, one after the other. -/
def run (s : Store) : List (Reg × Call) → Res (List Out × Store)
  | [] => .ok ([], s)
  | (c, x) :: rest =>
    match step s c x with
    | .ok (o, s') =>
      match run s' rest with
      | .ok (os, s'') => .ok (o :: os, s'')
      | .fail => .fail
      | .undef => .undef
      | .crash => .crash
    | .fail => .fail
    | .undef => .undef
    | .crash => .crash

/-! ## What contracts are told about the chain -/

structure Block where
  hash : Nat
  txids : List Nat
  deriving DecidableEq

/-- What a node uses to answer: its option, its active chain, and the index in the cache the block is executed on. -/
structure Node where
  txIndex : Bool
  active : List Block
  index : List (Nat × Nat)

/-- `SaveTxIndex` for the transactions of one block: the newest entry is first. -/
def saveIndex (txIndex : Bool) (idx : List (Nat × Nat)) (height : Nat) (b : Block) : List (Nat × Nat) :=
  if txIndex then b.txids.foldl (fun i t => (t, height) :: i) idx else idx

/-- The index after connecting a list of blocks from `height` on. -/
def connectAll (txIndex : Bool) : List (Nat × Nat) → Nat → List Block → List (Nat × Nat)
  | idx, _, [] => idx
  | idx, h, b :: bs => connectAll txIndex (saveIndex txIndex idx h b) (h + 1) bs

/-- The node connects a block whose ancestors are `anc`, from the first block on, having the active chain `active`. -/
def nodeFor (txIndex : Bool) (active anc : List Block) : Node := ⟨txIndex, active, connectAll txIndex [] 0 anc⟩

/-- `GetTxConfirmHeight`: no result when not found. -/
def confirmHeight (n : Node) (txid : Nat) : Option Nat :=
  if n.txIndex then (n.index.find? (fun p => p.1 == txid)).map (·.2) else none

/-- `(int32_t)` of a Lua integer. -/
def i32 (q : Int) : Int :=
  if q % 4294967296 < 2147483648 then q % 4294967296 else q % 4294967296 - 4294967296

/-- `GetBlockHash` for a block at height `h`. -/
def blockHash (n : Node) (h : Nat) (q : Int) : Option Nat :=
  if i32 q ≤ 0 ∨ i32 q ≥ h then none
  else if (n.active.length : Int) - 1 < i32 q then none
  else (n.active[(i32 q).toNat]?).map (·.hash)

end Verif.Host
