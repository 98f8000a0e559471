import Verif.Vm.Spec

/-!
The multi-way branch `br_table` in compiled contract code.  Model of `br_table_generator`,
/repo/src/vm/wasm/eos-vm/include/eosio/vm/x86_64.hpp:226-292, as driven by the parser
(parser.hpp:598-620: one `emit_case` for each entry of the table, then `emit_default`).

The code is a list of the three instructions emitted, positions are indices into it.  A branch target
is unset until `fix_branch` writes it: either a position, or the label of a case, which the parser
writes through the pointer returned by `emit_case`.  `depth_change` is a number handed through to
`emit_multipop` (x86_64.hpp:2164-2183).
-/

namespace Verif.Vm

inductive Tgt
  | unset
  | pos (p : Nat)
  | case (k : Nat)
deriving DecidableEq, Repr

inductive BI
  /-- `cmp $mid, %eax; jae target` -/
  | jae (mid : Nat) (t : Tgt)
  /-- the code of `emit_multipop` -/
  | pop (d : Nat)
  | jmp (t : Tgt)
deriving DecidableEq, Repr

def BI.setTgt (t : Tgt) : BI → BI
  | .jae mid _ => .jae mid t
  | x => x

/-- `fix_branch` on the branch at a position -/
def patch (code : List BI) (p : Nat) (t : Tgt) : List BI := code.modify p (BI.setTgt t)

/-- the pending branch, if any, is made to lead to the end of the code (x86_64.hpp:234-236) -/
def fixLabel (code : List BI) : Option Nat → List BI
  | some p => patch code p (.pos code.length)
  | none => code

/-- nothing to pop (x86_64.hpp:248) -/
def noPop (d : Nat) : Bool := d = 0 || d = 0x80000001

/-- a range still to be handled: bounds and the branch that leads to it -/
structure Range where
  min : Nat
  max : Nat
  label : Option Nat
deriving DecidableEq, Repr

/-- the loop of `emit_case` (x86_64.hpp:229-264) for case `k` once a range has been taken from the stack -/
def emitFrom (k d : Nat) (code : List BI) (min max : Nat) (label : Option Nat) (st : List Range) :
    List BI × List Range :=
  if max - min > 1 then
    emitFrom k d (fixLabel code label ++ [.jae (min + (max - min) / 2) .unset]) min (min + (max - min) / 2) none
      (⟨min + (max - min) / 2, max, some (fixLabel code label).length⟩ :: st)
  else if noPop d then
    match label with
    | some p => (patch (fixLabel code label) p (.case k), st)
    | none => (fixLabel code label ++ [.jmp (.case k)], st)
  else (fixLabel code label ++ [.pop d, .jmp (.case k)], st)
termination_by max - min

/-- `emit_case` (x86_64.hpp:228-268); with no range left the assertion fails, or without assertions the
last element of an empty vector is read: `none` -/
def emitCase (k d : Nat) (code : List BI) : List Range → Option (List BI × List Range)
  | [] => none
  | r :: st => some (emitFrom k d code r.min r.max r.label st)

/-- the calls of the parser for the cases `k, k + 1, …` with their depth changes -/
def emitAll : Nat → List Nat → List BI → List Range → Option (List BI × List Range)
  | _, [], code, st => some (code, st)
  | k, d :: ds, code, st =>
      match emitCase k d code st with
      | some (code', st') => emitAll (k + 1) ds code' st'
      | none => none

inductive TableOut
  /-- the node ends -/
  | crash
  /-- the contract is refused -/
  | reject
  | ok (code : List BI)
deriving DecidableEq, Repr

/-- A `br_table` with declared size `size` followed by labels with depth changes `ds`, after which the
code ends: one case for each label read, a missing label is refused (parser.hpp:600-622).  The first
range is computed with 32 bits (x86_64.hpp:286-294). -/
def compileTable (size : Nat) (ds : List Nat) : TableOut :=
  match emitAll 0 (ds.take (size + 1)) [] [⟨0, (size + 1) % 2 ^ 32, none⟩] with
  | none => .crash
  | some (code, _) => if ds.length < size + 1 then .reject else .ok code

/-- the code of `emit_multipop` (x86_64.hpp:2164-2183) on the operand stack, top first: save the top if
it is a result, add `8 * count` with 32 bits to the stack pointer, push the top back.  `none` is the trap. -/
def multipop {α : Type} (count : Nat) (st : List α) : Option (List α) :=
  if count = 0 ∨ count = 0x80000001 then some st
  else if (BitVec.ofNat 32 count &&& 0x70000000#32) ≠ 0#32 then none
  else
    let moved := (BitVec.ofNat 32 count * 8#32).toNat / 8
    if count.testBit 31 then
      match st with
      | v :: _ => some (v :: st.drop moved)
      | [] => none
    else some (st.drop moved)

/-- the pops on the way, in order -/
def popAll {α : Type} : List Nat → List α → Option (List α)
  | [], st => some st
  | d :: ds, st => (multipop d st).bind (popAll ds)

/-- `jump` of the interpreter (execution_context.hpp:529-538), stack top first; `none` if it would take more
than there is -/
def jump {α : Type} (info : Nat) (st : List α) : Option (List α) :=
  if info.testBit 31 then
    match st with
    | v :: rest => if info % 2 ^ 31 = 0 ∨ rest.length < info % 2 ^ 31 - 1 then none else some (v :: rest.drop (info % 2 ^ 31 - 1))
    | [] => none
  else if st.length < info then none else some (st.drop info)

/-- `br_table` of the interpreter (interpret_visitor.hpp:78-82) -/
def brTable {α : Type} (size : Nat) (table : List Nat) (i : Nat) (st : List α) : Option (Nat × List α) :=
  match table[min i size]? with
  | some info => (jump info st).map fun s => (min i size, s)
  | none => none

/-- `compute_depth_change`, parser.hpp:486-500: the result is marked by the high bit -/
def Br.code (b : Br) : Nat := b.depth + if b.result then 2 ^ 31 else 0

/-- where the code goes from a position with index `i`: the case reached, after which pops -/
inductive Lands (code : List BI) (i : Nat) : Nat → Nat → List Nat → Prop
  | jmp {pc k} : code[pc]? = some (.jmp (.case k)) → Lands code i pc k []
  | direct {pc mid k} : code[pc]? = some (.jae mid (.case k)) → mid ≤ i → Lands code i pc k []
  | goto {pc mid p k ps} : code[pc]? = some (.jae mid (.pos p)) → mid ≤ i → Lands code i p k ps → Lands code i pc k ps
  | skip {pc mid t k ps} : code[pc]? = some (.jae mid t) → i < mid → Lands code i (pc + 1) k ps → Lands code i pc k ps
  | pop {pc d k ps} : code[pc]? = some (.pop d) → Lands code i (pc + 1) k ps → Lands code i pc k (d :: ps)

end Verif.Vm
