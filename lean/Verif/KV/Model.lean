import Verif.Util.SMap
/-!
# State caches over the database (src/persistence/dbaccess.h)

`CCompositeKVCache` is a map of keys to values layered over another cache or over a LevelDB
table.  An *empty* value is a tombstone.  Reading copies the value found below into the layer.

Simplifications common to this file: values are stored by value (the C++ keeps `shared_ptr`s
that are never shared between layers: `AddDataToMap` 540-543 makes a copy); the byte-size
accounting (553-578) is left out; reading a database value back gives the value written
(serialization round trip); `std::map` lookups use equality of keys.
-/
namespace Verif.KV

/-- What the cache needs to know about its key and value types. -/
structure Cfg (K V : Type) where
  /-- `db_util::IsEmpty(key)` (dbaccess.h 24-248). -/
  kEmpty : K → Bool
  /-- `db_util::IsEmpty(value)`. -/
  vEmpty : V → Bool
  /-- `db_util::MakeEmpty` / `SetEmpty`. -/
  empty : V
  /-- `SetEmpty` produces an empty value. -/
  empty_ok : vEmpty empty = true
  /-- `operator<` of the key type, used by `std::map`. -/
  lt : K → K → Bool
  /-- byte order of `dbk::GenDbKey(prefix, key)`, used by LevelDB. -/
  dbLt : K → K → Bool

/-- `CCompositeKVCache` (dbaccess.h 333-607): either directly over the database
(`pDbAccess` set) or over another cache (`pBase` set).  `map` is `mapData`. -/
inductive Cache (K V : Type) where
  | root (map disk : List (K × V))
  | over (map : List (K × V)) (base : Cache K V)
  deriving DecidableEq

variable {K V : Type} [DecidableEq K] (c : Cfg K V)

/-- `GetDataIt` 507-527: find in the own map, else below, copying what is found below into the
own map.  Returns the value found (possibly an empty one). -/
def getIt : Cache K V → K → Option V × Cache K V
  | .root m d, k =>
    match find m k with
    | some v => (some v, .root m d)
    | none =>
      match find d k with
      | some v => (some v, .root (put c.lt m k v) d)
      | none => (none, .root m d)
  | .over m b, k =>
    match find m k with
    | some v => (some v, .over m b)
    | none =>
      match getIt b k with
      | (some v, b') => (some v, .over (put c.lt m k v) b')
      | (none, b') => (none, .over m b')

/-- `SetDataToSelf` 530-538, and the in-place update `*it->second = value`: write in the own map. -/
def setSelf : Cache K V → K → V → Cache K V
  | .root m d, k, v => .root (put c.lt m k v) d
  | .over m b, k, v => .over (put c.lt m k v) b

/-- `GetData` 396-406. -/
def getData (s : Cache K V) (k : K) : Option V × Cache K V :=
  if c.kEmpty k then (none, s)
  else
    match getIt c s k with
    | (some v, s') => (if c.vEmpty v then none else some v, s')
    | (none, s') => (none, s')

/-- `HasData` 425-431. -/
def hasData (s : Cache K V) (k : K) : Bool × Cache K V :=
  if c.kEmpty k then (false, s)
  else
    match getIt c s k with
    | (some v, s') => (!c.vEmpty v, s')
    | (none, s') => (false, s')

/-- One entry of the operation log: key and old value (`CDbOpLog`, leveldbwrapper.h 21-83, as
filled in by `AddOpLog` 585-599 without DB_OP_LOG_NEW_VALUE). -/
abbrev OpLog (K V : Type) := List (K × V)

/-- `SetData` 408-423.  Returns success, the cache and the log entries appended. -/
def setData (s : Cache K V) (k : K) (v : V) : Bool × Cache K V × OpLog K V :=
  if c.kEmpty k then (false, s, [])
  else
    match getIt c s k with
    | (none, s') => (true, setSelf c s' k v, [(k, c.empty)])
    | (some old, s') => (true, setSelf c s' k v, [(k, old)])

/-- `EraseData` 433-445. -/
def eraseData (s : Cache K V) (k : K) : Bool × Cache K V × OpLog K V :=
  if c.kEmpty k then (false, s, [])
  else
    match getIt c s k with
    | (none, s') => (true, s', [])
    | (some old, s') =>
      if c.vEmpty old then (true, s', [])
      else (true, setSelf c s' k c.empty, [(k, old)])

/-- Body of the loop in `Flush` 461-470 that fills the LevelDB batch, and the batch write: an
empty value erases the key, any other value is written. -/
def flushDisk (disk : List (K × V)) : List (K × V) → List (K × V)
  | [] => disk
  | (k, v) :: r =>
    flushDisk (if c.vEmpty v then del disk k else put c.dbLt disk k v) r

/-- Loop of `Flush` 456-458: `pBase->SetDataToSelf` for every entry. -/
def flushInto (b : Cache K V) : List (K × V) → Cache K V
  | [] => b
  | (k, v) :: r => flushInto (setSelf c b k v) r

/-- `Flush` 452-474 (then `Clear`). -/
def flush : Cache K V → Cache K V
  | .root m d => .root [] (flushDisk c d m)
  | .over m b => .over [] (flushInto c b m)

/-- `UndoDataList` 483-487 / `UndoData` 476-481: the logged old values are written back, last
logged first. -/
def undoList (s : Cache K V) : OpLog K V → Cache K V
  | [] => s
  | (k, v) :: r => setSelf c (undoList s r) k v

/-- The cache below (`GetBasePtr` 503); `none` at the database. -/
def base : Cache K V → Option (Cache K V)
  | .root _ _ => none
  | .over _ b => some b

/-! ## A user of a stack of caches -/

/-- Operations on a stack of caches.  `push` creates a new cache over the current one
(constructor 350-353 / `SetBase` 380-384), `drop` discards the top cache (the destructor),
`flush` is `Flush` on the top cache. -/
inductive Op (K V : Type) where
  | get (k : K)
  | has (k : K)
  | set (k : K) (v : V)
  | erase (k : K)
  | push
  | flush
  | drop

/-- What an operation returns to its caller. -/
inductive Out (V : Type) where
  | value (v : Option V)
  | bool (b : Bool)
  | unit
  deriving DecidableEq

/-- One operation on the stack.  `drop` on the database cache does nothing. -/
def step (s : Cache K V) : Op K V → Out V × Cache K V
  | .get k => let r := getData c s k; (.value r.1, r.2)
  | .has k => let r := hasData c s k; (.bool r.1, r.2)
  | .set k v => let r := setData c s k v; (.bool r.1, r.2.1)
  | .erase k => let r := eraseData c s k; (.bool r.1, r.2.1)
  | .push => (.unit, .over [] s)
  | .flush => (.unit, flush c s)
  | .drop => match s with
    | .root m d => (.unit, .root m d)
    | .over _ b => (.unit, b)

/-- A sequence of operations and everything it returned. -/
def run (s : Cache K V) : List (Op K V) → List (Out V) × Cache K V
  | [] => ([], s)
  | o :: os =>
    let r := step c s o
    let r' := run r.2 os
    (r.1 :: r'.1, r'.2)

/-! ## Logged execution of a transaction on several tables

`CTxUndoOpLogger` (blockundo.h 61-77) attaches one log map to all tables while a transaction
executes; `CDBOpLogMap` (leveldbwrapper.h 87-116) keeps one list per table prefix. -/

/-- Reads, writes and erases performed by a transaction on table `t`. -/
inductive TOp (K V : Type) where
  | get (k : K)
  | has (k : K)
  | set (k : K) (v : V)
  | erase (k : K)

/-- A logged operation on one table: new cache, log entries. -/
def tstep (s : Cache K V) : TOp K V → Cache K V × OpLog K V
  | .get k => ((getData c s k).2, [])
  | .has k => ((hasData c s k).2, [])
  | .set k v => let r := setData c s k v; (r.2.1, r.2.2)
  | .erase k => let r := eraseData c s k; (r.2.1, r.2.2)

/-- State tables indexed by prefix (`CCacheWrapper`, cachewrapper.h): every table has its own
key and value type in C++; here they share one pair of types `K`, `V` (think of the disjoint
union), which does not matter since tables never exchange values. -/
abbrev Tables (T K V : Type) := T → Cache K V

/-- `CDBOpLogMap`: table prefix to the list of its log entries (an absent prefix is `[]`). -/
abbrev LogMap (T K V : Type) := T → OpLog K V

variable {T : Type} [DecidableEq T] (cf : T → Cfg K V)

/-- Point update of a table-indexed function. -/
def upd {A : Type} (f : T → A) (t : T) (a : A) : T → A := fun u => if u = t then a else f u

/-- Executing one transaction's operations with the logger attached: `AddOpLog`
(leveldbwrapper.h 101-105) pushes each entry at the back of its table's list. -/
def execTx (w : Tables T K V) (l : LogMap T K V) : List (T × TOp K V) → Tables T K V × LogMap T K V
  | [] => (w, l)
  | (t, o) :: os =>
    let r := tstep (cf t) (w t) o
    execTx (upd w t r.1) (upd l t (l t ++ r.2)) os

/-- Executing a block: each transaction with a fresh log, the logs collected in order
(`CBlockUndo::vtxundo`, blockundo.h 46-77). -/
def execBlock (w : Tables T K V) : List (List (T × TOp K V)) → Tables T K V × List (LogMap T K V)
  | [] => (w, [])
  | tx :: txs =>
    let r := execTx cf w (fun _ => []) tx
    let r' := execBlock r.1 txs
    (r'.1, r.2 :: r'.2)

/-- `CBlockUndoExecutor::Execute` (blockundo.cpp 112-132): transactions in reverse order, per
table `UndoDataList`.  `registered t` says that table `t` has an undo function
(`GetUndoDataFuncMap`, cachewrapper.cpp 145-162); a log for an unregistered table is an error
(`none`).  Only tables with a non-empty list occur in the C++ map. -/
def undoTx (registered : T → Bool) (ts : List T) (w : Tables T K V) (l : LogMap T K V) :
    Option (Tables T K V) :=
  if ts.all (fun t => (l t).isEmpty || registered t) then
    some (fun t => if ts.contains t then undoList (cf t) (w t) (l t) else w t)
  else none

/-- The loop over `vtxundo` in reverse. -/
def undoBlock (registered : T → Bool) (ts : List T) (w : Tables T K V) :
    List (LogMap T K V) → Option (Tables T K V)
  | [] => some w
  | l :: ls => (undoBlock registered ts w ls).bind (fun w' => undoTx cf registered ts w' l)

/-! ## CSimpleKVCache (dbaccess.h 610-779): a single value under a prefix -/

/-- `CSimpleKVCache`: `p` is `ptrData`. -/
inductive SCache (V : Type) where
  | root (p disk : Option V)
  | over (p : Option V) (base : SCache V)

/-- `GetDataPtr` 736-756. -/
def sgetPtr : SCache V → Option V × SCache V
  | .root (some v) d => (some v, .root (some v) d)
  | .root none d => (d, .root d d)
  | .over (some v) b => (some v, .over (some v) b)
  | .over none b => let r := sgetPtr b; (r.1, .over r.1 r.2)

/-- Overwrite the own value. -/
def ssetSelf : SCache V → V → SCache V
  | .root _ d, v => .root (some v) d
  | .over _ b, v => .over (some v) b

/-- `GetData` 666-673. -/
def sget (s : SCache V) : Option V × SCache V :=
  match sgetPtr s with
  | (some v, s') => (if c.vEmpty v then none else some v, s')
  | (none, s') => (none, s')

/-- `SetData` 675-683 with its log entry. -/
def sset (s : SCache V) (v : V) : SCache V × List V :=
  match sgetPtr s with
  | (some old, s') => (ssetSelf s' v, [old])
  | (none, s') => (ssetSelf s' v, [c.empty])

/-- `EraseData` 690-697 with its log entry. -/
def serase (s : SCache V) : SCache V × List V :=
  match sgetPtr s with
  | (some old, s') => if c.vEmpty old then (s', []) else (ssetSelf s' c.empty, [old])
  | (none, s') => (s', [])

/-- `Flush` 703-715; to the database via `WriteBatch` 310-321 (empty values erase). -/
def sflush : SCache V → SCache V
  | .root (some v) _ => .root none (if c.vEmpty v then none else some v)
  | .root none d => .root none d
  | .over (some v) b => .over none (ssetSelf b v)
  | .over none b => .over none b

/-- `UndoDataList` 724-728. -/
def sundo (s : SCache V) : List V → SCache V
  | [] => s
  | v :: r => ssetSelf (sundo s r) v

/-- Operations on a stack of single-value caches (see `Op`). -/
inductive SOp (V : Type) where
  | get
  | set (v : V)
  | erase
  | push
  | flush
  | drop

/-- One operation on the stack. -/
def sstep (s : SCache V) : SOp V → Out V × SCache V
  | .get => let r := sget c s; (.value r.1, r.2)
  | .set v => (.bool true, (sset c s v).1)
  | .erase => (.bool true, (serase c s).1)
  | .push => (.unit, .over none s)
  | .flush => (.unit, sflush c s)
  | .drop => match s with
    | .root p d => (.unit, .root p d)
    | .over _ b => (.unit, b)

/-- A sequence of operations and what it returned. -/
def srun (s : SCache V) : List (SOp V) → List (Out V) × SCache V
  | [] => ([], s)
  | o :: os =>
    let r := sstep c s o
    let r' := srun r.2 os
    (r.1 :: r'.1, r'.2)

/-- A logged write (`some v`) or erase (`none`) on a single-value table. -/
def swrite (s : SCache V) : Option V → SCache V × List V
  | some v => sset c s v
  | none => serase c s

/-- A sequence of logged writes and erases, and the whole log in order. -/
def swrites (s : SCache V) : List (Option V) → SCache V × List V
  | [] => (s, [])
  | o :: os =>
    let r := swrite c s o
    let r' := swrites r.1 os
    (r'.1, r.2 ++ r'.2)

end Verif.KV
