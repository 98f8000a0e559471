import Verif.Abi.Model
/-!
# Contract interfaces (`abi_serializer`)

The interface description of a contract (`abi_def`), its checks (`set_abi`, `validate`) and the two
conversions between JSON and action data. Sources: `src/vm/wasm/abi_serializer.{hpp,cpp}`,
`src/vm/wasm/abi_def.hpp`.

Simplifications: the clock checks (`check_deadline`) are left out of the checks, and stand for the
depth budget of the conversions (`deep`: the call is still recursing when the budget is used up).
The conversions of the built-in types are a parameter (`Codec`), stated for all of them. The 1 MiB
output buffer is not modelled. `std::map`s are lists searched by name; the iteration order of the
checks only decides which error is reported.
-/
namespace Verif.Abi
open Verif

/-- A type, field or action name. -/
abbrev Name := List Char

/-- `field_def` (abi_def.hpp). -/
structure Field where
  name : Name
  type : Name
deriving DecidableEq, Repr

/-- `struct_def` (abi_def.hpp). -/
structure Struct where
  name : Name
  base : Name
  fields : List Field
deriving DecidableEq, Repr

/-- `abi_def` (abi_def.hpp): type definitions (new name, type), structs, actions and tables (name, type). -/
structure Abi where
  version : Name
  types : List (Name × Name)
  structs : List Struct
  actions : List (Name × Name)
  tables : List (Name × Name)
deriving DecidableEq, Repr

/-- The serializer's tables (abi_serializer.hpp 185-188) needed by the conversions. -/
structure Ser where
  typedefs : List (Name × Name)
  structs : List Struct
deriving DecidableEq, Repr

/-- `configure_built_in_types` (abi_serializer.cpp 79-116). -/
def builtins : List Name :=
  ["bool", "int8", "uint8", "int16", "uint16", "int32", "uint32", "int64", "uint64", "int128", "uint128",
   "varint32", "varuint32", "float32", "float64", "time_point", "table_name", "action_name", "name", "regid",
   "bytes", "string", "checksum160", "checksum256", "checksum512", "hash256", "symbol", "symbol_code",
   "asset"].map String.toList

/-- `built_in_types.find(type) != end`. -/
def isBuiltin (n : Name) : Bool := builtins.contains n

/-- `is_array` (abi_serializer.cpp 190-192). -/
def isArray (n : Name) : Bool := ['[', ']'].isSuffixOf n

/-- `is_optional` (abi_serializer.cpp 194-196). -/
def isOpt (n : Name) : Bool := ['?'].isSuffixOf n

/-- `fundamental_type` (abi_serializer.cpp 203-211). -/
def fundamental (n : Name) : Name :=
  if isArray n then n.take (n.length - 2) else if isOpt n then n.take (n.length - 1) else n

/-- `_remove_bin_extension` (abi_serializer.cpp 213-218). -/
def removeExt (n : Name) : Name := if ['$'].isSuffixOf n then n.take (n.length - 1) else n

/-- `typedefs.find`. -/
def Ser.findT (s : Ser) (n : Name) : Option Name := (s.typedefs.find? (fun p => p.1 == n)).map (·.2)

/-- `structs.find`. -/
def Ser.findS (s : Ser) (n : Name) : Option Struct := s.structs.find? (fun p => p.name == n)

/-- The loop of `resolve_type` (abi_serializer.cpp 246-250). -/
def Ser.resolveLoop (s : Ser) (orig : Name) : Nat → Name → Name
  | 0, _ => orig
  | k + 1, t =>
    match s.findT t with
    | none => t
    | some t' => s.resolveLoop orig k t'

/-- `resolve_type` (abi_serializer.cpp 243-253). -/
def Ser.resolve (s : Ser) (t : Name) : Name :=
  match s.findT t with
  | none => t
  | some t' => s.resolveLoop t s.typedefs.length t'

/-- `_is_type` (abi_serializer.cpp 220-230); the number bounds the chain of type definitions, which
`set_abi` keeps shorter than the table. -/
def Ser.isType (s : Ser) : Nat → Name → Bool
  | 0, _ => false
  | k + 1, r =>
    let t := fundamental r
    if isBuiltin t then true
    else
      match s.findT t with
      | some u => s.isType k u
      | none => (s.findS t).isSome

/-- `_is_type` with enough depth for the table. -/
def Ser.known (s : Ser) (r : Name) : Bool := s.isType (s.typedefs.length + 1) r

/-! ## The checks of `validate` -/

/-- The chain of bases (abi_serializer.cpp 541-552): `seen` names, `true` if it ends without
meeting a name again. -/
def Ser.baseLoop (s : Ser) : Nat → List Name → Struct → Bool
  | 0, _, _ => false
  | k + 1, seen, cur =>
    if cur.base = [] then true
    else
      match s.findS (s.resolve cur.base) with
      | none => false
      | some b => if b.name ∈ seen then false else s.baseLoop k (b.name :: seen) b

/-- The check of one struct (abi_serializer.cpp 538-566). -/
def Ser.structOk (s : Ser) (st : Struct) : Bool :=
  s.baseLoop (s.structs.length + 1) [st.name] st && st.fields.all fun f => s.known (removeExt f.type)

/-- A node of the graph of `dag_manager`: `none` is the root. -/
abbrev Node := Option Name

/-- `dag_manager` (abi_serializer.hpp 268-303): the named nodes with their parents, and the
children as (parent, child) pairs. -/
structure Dag where
  nodes : List (Name × List Node)
  children : List (Node × Name)
deriving DecidableEq, Repr

/-- The name of a node; the root is called `root` (abi_serializer.hpp 273). -/
def nodeName : Node → Name
  | none => ['r', 'o', 'o', 't']
  | some n => n

/-- The parents of a node; the root has none. -/
def Dag.parents (d : Dag) : Node → List Node
  | none => []
  | some n => ((d.nodes.find? (fun p => p.1 == n)).map (·.2)).getD []

/-- `has_circle` (abi_serializer.hpp 241-248), following parents at most the given number of steps. -/
def Dag.hasCircle (d : Dag) : Nat → Node → Name → Bool
  | 0, p, n => nodeName p == n
  | k + 1, p, n => nodeName p == n || (d.parents p).any fun q => d.hasCircle k q n

/-- Add a parent to a node. -/
def addParent (p : Node) (n : Name) : List (Name × List Node) → List (Name × List Node)
  | [] => []
  | x :: xs => if x.1 = n then (x.1, x.2 ++ [p]) :: xs else x :: addParent p n xs

/-- `dag_manager::add` (abi_serializer.hpp 276-302): `none` is the circular reference exception; the
flag is `is_new`, which starts as `true` and becomes `false` when the node is made. -/
def Dag.add (d : Dag) (p : Node) (n : Name) : Option (Bool × Dag) :=
  if d.hasCircle (d.nodes.length + 1) p n then none
  else if (p, n) ∈ d.children then some (false, d)
  else if d.nodes.any fun x => x.1 == n then
    some (true, { nodes := addParent p n d.nodes, children := d.children ++ [(p, n)] })
  else
    some (false, { nodes := addParent p n (d.nodes ++ [(n, [])]), children := d.children ++ [(p, n)] })

/-- The loop over the fields (abi_serializer.cpp 619-637). -/
def Ser.fieldLoop (s : Ser) (visit : Dag → Struct → Option Dag) : Dag → List Name → List Field → Option Dag
  | d, _, [] => some d
  | d, seen, f :: fs =>
    let t := s.resolve (fundamental f.type)
    if t ∈ seen then s.fieldLoop visit d seen fs
    else
      match s.findS t with
      | none => s.fieldLoop visit d (t :: seen) fs
      | some st =>
        match visit d st with
        | none => none
        | some d' => s.fieldLoop visit d' (t :: seen) fs

/-- `check_struct_in_recursion` (abi_serializer.cpp 607-639). -/
def Ser.checkRec (s : Ser) : Nat → Node → Dag → Struct → Option Dag
  | 0, _, _, _ => none
  | k + 1, p, d, st =>
    match d.add p st.name with
    | none => none
    | some (isNew, d') =>
      if isNew = false then some d'
      else s.fieldLoop (fun d x => s.checkRec k (some st.name) d x) d' [] st.fields

/-- The loop over the structs (abi_serializer.cpp 570-576). -/
def Ser.dagLoop (s : Ser) : Dag → List Struct → Bool
  | _, [] => true
  | d, st :: sts =>
    match s.checkRec (s.structs.length + 1) none d st with
    | none => false
    | some d' => s.dagLoop d' sts

/-- `validate` (abi_serializer.cpp 511-598) without the clock. The chains of type definitions
(513-536) are covered by `known`. -/
def Ser.validate (s : Ser) (actions tables : List (Name × Name)) : Bool :=
  (s.typedefs.all fun t => s.known t.2) && (s.structs.all fun st => s.structOk st) &&
    s.dagLoop ⟨[], []⟩ s.structs && (actions.all fun a => s.known a.2) && (tables.all fun t => s.known t.2)

/-- The loop over the type definitions in `set_abi` (abi_serializer.cpp 132-140). -/
def addTypes : Ser → List (Name × Name) → Option Ser
  | s, [] => some s
  | s, (new, ty) :: ts =>
    if s.known ty && !s.known new then addTypes { s with typedefs := s.typedefs ++ [(new, ty)] } ts else none

/-- The version prefix (abi_serializer.cpp 121). -/
def versionOk (v : Name) : Bool := "wasm::abi/1.".toList.isPrefixOf v

/-- `set_abi` (abi_serializer.cpp 118-161): `none` when the interface is refused. -/
def setAbi (a : Abi) : Option Ser :=
  if !versionOk a.version then none
  else if ¬ (a.structs.map (·.name)).Nodup then none
  else
    match addTypes ⟨[], a.structs⟩ a.types with
    | none => none
    | some s =>
      if ¬ (a.types.map (·.1)).Nodup ∨ ¬ (a.actions.map (·.1)).Nodup ∨ ¬ (a.tables.map (·.1)).Nodup then none
      else if s.validate a.actions a.tables then some s else none

/-! ## Conversions -/

/-- JSON values; `β` are the scalar values. -/
inductive J (β : Type) where
  | null
  | prim (v : β)
  | arr (l : List (J β))
  | obj (l : List (Name × J β))

/-- `is_null`. -/
def J.isNull : J β → Bool
  | .null => true
  | _ => false

/-- The conversions of the built-in types (`pack_unpack`, abi_serializer.cpp 37-67) by type name,
array flag and optional flag. -/
structure Codec (β : Type) where
  put : Name → Bool → Bool → J β → Option (List Nat)
  get : Name → Bool → Bool → List Nat → Option (J β × List Nat)

/-- Result of reading: a value with the remaining bytes, an exception, an undefined operation, or
still recursing. -/
inductive Rd (α : Type) where
  | ok (v : α) (rest : List Nat)
  | fail
  | undef
  | deep

/-- Continue after a successful read. -/
def Rd.bind (r : Rd α) (f : α → List Nat → Rd β) : Rd β :=
  match r with
  | .ok v rest => f v rest
  | .fail => .fail
  | .undef => .undef
  | .deep => .deep

/-- The loop over array elements (abi_serializer.cpp 311-316): a null element is refused. -/
def readElems (rd : List Nat → Rd (J β)) : Nat → List Nat → Rd (List (J β))
  | 0, bs => .ok [] bs
  | n + 1, bs => (rd bs).bind fun v r =>
      if v.isNull then .fail else (readElems rd n r).bind fun vs r' => .ok (v :: vs) r'

/-- The loop over struct fields (abi_serializer.cpp 338-344): null values are left out. -/
def readFields (rd : Name → List Nat → Rd (J β)) : List Field → List Nat → Rd (List (Name × J β))
  | [], bs => .ok [] bs
  | f :: fs, bs => (rd (removeExt f.type) bs).bind fun v r =>
      (readFields rd fs r).bind fun vs r' => .ok (if v.isNull then vs else (f.name, v) :: vs) r'

/-- The presence flag of an optional value (abi_serializer.cpp 318-324). -/
def readOpt (rd : List Nat → Rd (J β)) : List Nat → Rd (J β)
  | [] => .fail
  | b :: rest => if b = 0 then .ok .null rest else rd rest

/-- The fields of the base (abi_serializer.cpp 328-336). -/
def baseObj (base : Name) : J β → List (Name × J β)
  | .obj o => o
  | j => [(base, j)]

/-- `_binary_to_variant` (abi_serializer.cpp 284-351), recursing at most the given number of levels. -/
def binToVar (C : Codec β) (s : Ser) : Nat → Name → List Nat → Rd (J β)
  | 0, _, _ => .deep
  | k + 1, ty, bs =>
    let r := s.resolve ty
    let f := fundamental r
    if isBuiltin f then
      match C.get f (isArray r) (isOpt r) bs with
      | none => .fail
      | some (j, rest) => .ok j rest
    else if isArray r then
      match getVar bs with
      | .ok n rest _ =>
        if n < 8192 then (readElems (binToVar C s k f) n rest).bind fun vs r' => .ok (.arr vs) r' else .fail
      | .stop _ => .fail
      | .undef => .undef
    else if isOpt r then
      readOpt (binToVar C s k f) bs
    else
      match s.findS r with
      | none => .fail
      | some st =>
        (if st.base = [] then .ok [] bs
         else (binToVar C s k (s.resolve st.base) bs).bind fun j r' => .ok (baseObj st.base j) r').bind fun o r' =>
          (readFields (binToVar C s k) st.fields r').bind fun vs r'' => .ok (.obj (o ++ vs)) r''

/-- Result of packing. -/
inductive Pk where
  | ok (bytes : List Nat)
  | fail
  | deep
deriving DecidableEq, Repr

/-- One after the other. -/
def Pk.append (a b : Pk) : Pk :=
  match a with
  | .ok x =>
    match b with
    | .ok y => .ok (x ++ y)
    | .fail => .fail
    | .deep => .deep
  | .fail => .fail
  | .deep => .deep

/-- `get_field_variant` by name (abi_serializer.cpp 360-380): a missing optional field is null. -/
def getField (o : List (Name × J β)) (f : Field) : Option (J β) :=
  match o.find? (fun p => p.1 == f.name) with
  | some p => some p.2
  | none => if isOpt f.type then some .null else none

/-- Pack the elements of an array (abi_serializer.cpp 416-420). -/
def packElems (pk : J β → Pk) : List (J β) → Pk
  | [] => .ok []
  | j :: js => (pk j).append (packElems pk js)

/-- Pack the fields of an object (abi_serializer.cpp 428-434). -/
def packFields (pk : Name → J β → Pk) (o : List (Name × J β)) : List Field → Pk
  | [] => .ok []
  | f :: fs =>
    match getField o f with
    | none => .fail
    | some j => (pk (removeExt f.type) j).append (packFields pk o fs)

/-- Pack the fields of a struct given as an array (abi_serializer.cpp 445-449). -/
def packArr (pk : Name → J β → Pk) : List Field → List (J β) → Pk
  | f :: fs, j :: js => (pk (removeExt f.type) j).append (packArr pk fs js)
  | _, _ => .ok []

/-- `_variant_to_binary` (abi_serializer.cpp 401-463). -/
def varToBin (C : Codec β) (s : Ser) : Nat → Name → J β → Pk
  | 0, _, _ => .deep
  | k + 1, ty, j =>
    let r := s.resolve ty
    let f := fundamental r
    if isBuiltin f then
      match C.put f (isArray r) (isOpt r) j with
      | none => .fail
      | some bs => .ok bs
    else if isArray r then
      match j with
      | .arr l => (Pk.ok (putVar l.length)).append (packElems (varToBin C s k f) l)
      | _ => .fail
    else
      match s.findS r with
      | none => .fail
      | some st =>
        match j with
        | .obj o =>
          (if st.base = [] then Pk.ok [] else varToBin C s k (s.resolve st.base) (.obj o)).append
            (packFields (varToBin C s k) o st.fields)
        | .arr l =>
          if st.base = [] ∧ l.length = st.fields.length then packArr (varToBin C s k) st.fields l else .fail
        | _ => .fail

end Verif.Abi
