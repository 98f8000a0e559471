import Verif.KV.Model
/-!
# Iterating a table through a stack of caches (src/persistence/dbiterator.h)

An iterator is modelled as a state machine with the current entry (`IsValid`/`GetKey`/`GetValue`),
`Next`, and the three ways to position it.
-/
namespace Verif.KV

/-- Interface of `CDBBaseIterator` (dbiterator.h 12-51). -/
structure Iter (K V : Type) where
  /-- iterator state -/
  σ : Type
  /-- current entry, `none` when `IsValid()` is false -/
  cur : σ → Option (K × V)
  /-- `Next()` -/
  next : σ → σ
  /-- `First()` -/
  first : σ
  /-- `Seek(&key)` -/
  seek : K → σ
  /-- `SeekUpper(&key)` -/
  seekUpper : K → σ
  /-- number of stored entries not yet passed; bounds the skipping loop -/
  size : σ → Nat

variable {K V : Type} [DecidableEq K] (c : Cfg K V)

/-- `CDBAccessIterator` 54-119 over the entries of one table in byte order.  Prefix separation of
tables inside one LevelDB (`starts_with`, 102) is the subject of C10 and not repeated here. -/
def diskIter (d : List (K × V)) : Iter K V where
  σ := List (K × V)
  cur r := r.head?
  next r := r.tail
  first := d
  seek k := if c.kEmpty k then d else d.dropWhile (fun p => c.dbLt p.1 k)
  seekUpper k := if c.kEmpty k then d else d.dropWhile (fun p => c.dbLt p.1 k || decide (p.1 = k))
  size r := r.length

/-- State of `CDBCacheIteratorImpl` 169-295: remaining map entries (`CCacheMapIterator` 122-167),
base iterator state, current entry, and the flags `is_map_data`, `is_same_key`. -/
structure MState (B : Iter K V) where
  m : List (K × V)
  b : B.σ
  cur : Option (K × V)
  isMap : Bool
  same : Bool

variable {B : Iter K V}

/-- `ProcessGetData` 269-294. -/
def processGet (s : MState B) : MState B :=
  match s.m.head?, B.cur s.b with
  | some x, some y =>
    if c.lt y.1 x.1 then { s with cur := some y, isMap := false, same := false }
    else if c.lt x.1 y.1 then { s with cur := some x, isMap := true, same := false }
    else { s with cur := some x, isMap := true, same := true }
  | some x, none => { s with cur := some x, isMap := true, same := false }
  | none, some y => { s with cur := some y, isMap := false, same := false }
  | none, none => { s with cur := none, isMap := false, same := false }

/-- `InternalNext` 238-249. -/
def internalNext (s : MState B) : MState B :=
  if s.isMap then
    { s with m := s.m.tail, b := if s.same then B.next s.b else s.b }
  else { s with b := B.next s.b }

/-- `ProcessData` 251-267: skip entries with empty value.  The loop runs at most once per stored
entry; the bound `fuel` is always passed the number of entries left (plus one), and running out
would make the iterator invalid. -/
def processData : Nat → MState B → MState B
  | 0, s => { s with cur := none }
  | fuel + 1, s =>
    let s' := processGet c s
    match s'.cur with
    | none => s'
    | some e => if c.vEmpty e.2 then processData fuel (internalNext s') else s'

/-- Entries left in a merge state. -/
def msize (s : MState B) : Nat := s.m.length + B.size s.b

/-- `CDBCacheIteratorImpl` over map `m` and base iterator `B`. -/
def mergeIter (m : List (K × V)) (B : Iter K V) : Iter K V where
  σ := MState B
  cur s := s.cur
  next s := let s' := internalNext s; processData c (msize s' + 1) s'
  first := let s := ⟨m, B.first, none, false, false⟩; processData c (msize s + 1) s
  seek k :=
    let s := if c.kEmpty k then ⟨m, B.first, none, false, false⟩
      else ⟨m.dropWhile (fun p => c.lt p.1 k), B.seek k, none, false, false⟩
    processData c (msize s + 1) s
  seekUpper k :=
    let s := if c.kEmpty k then ⟨m, B.first, none, false, false⟩
      else ⟨m.dropWhile (fun p => !c.lt k p.1), B.seekUpper k, none, false, false⟩
    processData c (msize s + 1) s
  size s := msize s

/-- `CDBCacheIteratorImpl::Create` 179-188. -/
def iterOf : Cache K V → Iter K V
  | .root m d => mergeIter c m (diskIter c d)
  | .over m b => mergeIter c m (iterOf b)

/-- The loop `for (it.First(); it.IsValid(); it.Next())` collecting the entries, at most `fuel`
of them. -/
def collect (I : Iter K V) : Nat → I.σ → List (K × V)
  | 0, _ => []
  | fuel + 1, s => match I.cur s with
    | none => []
    | some e => e :: collect I fuel (I.next s)

/-- Number of entries stored in a stack: enough iterations for any loop over it. -/
def entries : Cache K V → Nat
  | .root m d => m.length + d.length
  | .over m b => m.length + entries b

/-- All entries from `First()`. -/
def listAll (s : Cache K V) : List (K × V) :=
  collect (iterOf c s) (entries s + 1) (iterOf c s).first

/-- All entries from `Seek(&k)`. -/
def listFrom (s : Cache K V) (k : K) : List (K × V) :=
  collect (iterOf c s) (entries s + 1) ((iterOf c s).seek k)

/-- All entries from `SeekUpper(&k)`. -/
def listAfter (s : Cache K V) (k : K) : List (K × V) :=
  collect (iterOf c s) (entries s + 1) ((iterOf c s).seekUpper k)

/-- `CDBPrefixIterator` 435-471: seek to `seekKey` (made by `MakeKeyByPrefix`) and iterate while the
key matches. -/
def listPrefix (s : Cache K V) (seekKey : K) (matches? : K → Bool) : List (K × V) :=
  (listFrom c s seekKey).takeWhile (fun p => matches? p.1)

end Verif.KV
