import Mathlib.Tactic.Ring

/-!
Model of the linear memory of contracts:

* `wasm_allocator`, /repo/src/vm/wasm/eos-vm/include/eosio/vm/allocator.hpp:373-446;
* `grow_linear_memory` and `reset`, execution_context.hpp:34-47, 62-86;
* `initialize`, backend.hpp:63-71; the clamp of the declared maximum, wasm_runtime.cpp:37-46.

One allocator belongs to the context of a transaction action (wasm_context.hpp:142) and serves every
contract that runs in it, one after the other.  Memory is a function from addresses to bytes together
with the access right of each 64 KiB page; a read or write of a page without access right is a signal.
While a contract runs the signal becomes a contract failure (signals.hpp); `reset` is called outside
that guard (backend.hpp:68, execution_context.hpp:207, 517), so there it ends the process: `crash`.
The guard pages around the region and failures of `mprotect` are left out.
-/

namespace Verif.Vm

abbrev pageSize : Nat := 65536

/-- `max_pages` (constants.hpp:17-19): 33 MiB -/
abbrev maxPages : Nat := 528

/-- `wasm_allocator`; `page = -1` means "no memory" -/
structure Alloc where
  page : Int
  prot : Nat → Bool
  mem : Nat → Nat

/-- the constructor (allocator.hpp:403-411) -/
def Alloc.fresh : Alloc := ⟨0, fun _ => false, fun _ => 0⟩

inductive Res (α : Type)
  | ok (a : α)
  /-- an exception of the machine: the contract fails -/
  | fail (a : α)
  /-- a signal outside the guarded section: the node goes down -/
  | crash

/-- `memset(raw + lo, 0, n)` -/
def zero (mem : Nat → Nat) (lo n : Nat) : Nat → Nat :=
  fun x => if lo ≤ x ∧ x < lo + n then 0 else mem x

/-- `mprotect` on whole pages -/
def protect (prot : Nat → Bool) (lo n : Nat) (v : Bool) : Nat → Bool :=
  fun i => if lo ≤ i ∧ i < lo + n then v else prot i

/-- `alloc` (allocator.hpp:380-389) -/
def Alloc.alloc (a : Alloc) (size : Nat) : Res Alloc :=
  if size = 0 then .ok a
  else if a.page = -1 then .fail a
  else if (maxPages : Int) - a.page < size then .fail a
  else .ok ⟨a.page + size, protect a.prot a.page.toNat size true,
    zero a.mem (pageSize * a.page.toNat) (pageSize * size)⟩

/-- `free(size)` (allocator.hpp:391-398) -/
def Alloc.free (a : Alloc) (size : Nat) : Res Alloc :=
  if size = 0 then .ok a
  else if a.page = -1 then .fail a
  else if a.page < size then .fail a
  else .ok ⟨a.page - size, protect a.prot (a.page - size).toNat size false, a.mem⟩

/-- are the first `n` pages accessible? -/
def accessible (prot : Nat → Bool) (n : Nat) : Bool := (List.range n).all prot

/-- `reset(new_pages)` (allocator.hpp:412-426) -/
def Alloc.resetTo (a : Alloc) (newPages : Nat) : Res Alloc :=
  if a.page = -1 then
    .ok ⟨0, a.prot, a.mem⟩
  else if accessible a.prot a.page.toNat then
    .ok ⟨0, if (newPages : Int) ≠ a.page ∧ a.page > 0 then protect a.prot 0 a.page.toNat false else a.prot,
      zero a.mem 0 (pageSize * a.page.toNat)⟩
  else .crash

/-- `reset()` (allocator.hpp:428-436): a contract without memory -/
def Alloc.resetNone (a : Alloc) : Res Alloc :=
  if a.page = -1 then .ok a
  else if accessible a.prot a.page.toNat then
    .ok ⟨-1, protect a.prot 0 a.page.toNat false, zero a.mem 0 (pageSize * a.page.toNat)⟩
  else .crash

/-- a data segment: offset and bytes -/
structure Seg where
  off : Nat
  data : List Nat
deriving DecidableEq, Repr

/-- the declared memory of a contract (parser.hpp:220-229); `max` is `limits.maximum` when the flag is
set -/
structure Mod where
  initial : Nat
  max : Option Nat
  segs : List Seg
deriving DecidableEq, Repr

/-- what the parser lets through (parser.hpp:223-227) -/
def Mod.Parsed (m : Mod) : Prop :=
  m.initial ≤ 65536 ∧ ∀ x, m.max = some x → m.initial ≤ x ∧ x ≤ 65536

/-- the declared maximum would be passed (execution_context.hpp:42) -/
def overMax (max : Option Nat) (sz pages : Int) : Bool :=
  match max with
  | some m => decide ((m : Int) - sz < pages)
  | none => false

/-- `grow_linear_memory` (execution_context.hpp:34-47) for a contract with memory: the result value and
the allocator -/
def Alloc.grow (a : Alloc) (max : Option Nat) (pages : Int) : Res (Int × Alloc) :=
  let sz := a.page
  if pages < 0 then
    if sz + pages < 0 then .ok (-1, a)
    else match a.free (-pages).toNat with
      | .ok a' => .ok (sz, a')
      | .fail a' => .fail (sz, a')
      | .crash => .crash
  else if (maxPages : Int) - sz < pages then .ok (-1, a)
  else if overMax max sz pages then .ok (-1, a)
  else match a.alloc pages.toNat with
    | .ok a' => .ok (sz, a')
    | .fail a' => .fail (sz, a')
    | .crash => .crash

/-- `memcpy(raw + off, data)` -/
def copy (mem : Nat → Nat) (off : Nat) (data : List Nat) : Nat → Nat :=
  fun x => if off ≤ x then (match data[x - off]? with | some b => b | none => mem x) else mem x

/-- are the pages of `n` bytes from `lo` accessible? -/
def touched (prot : Nat → Bool) (lo n : Nat) : Bool :=
  (List.range n).all fun k => prot ((lo + k) / pageSize)

/-- the data segments (execution_context.hpp:71-79), outside the guarded section -/
def Alloc.load (a : Alloc) (initial : Nat) : List Seg → Res Alloc
  | [] => .ok a
  | s :: ss =>
      if s.off + s.data.length ≤ initial * pageSize then
        if touched a.prot s.off s.data.length then
          Alloc.load { a with mem := copy a.mem s.off s.data } initial ss
        else .crash
      else .fail a

/-- `initialize` for a contract with memory (backend.hpp:64-68, execution_context.hpp:62-79): the
result of `grow_linear_memory` is not looked at -/
def Alloc.start (a : Alloc) (m : Mod) : Res Alloc :=
  match a.resetTo m.initial with
  | .ok a1 =>
      match a1.grow m.max ((m.initial : Int) - a1.page) with
      | .ok (_, a2) => a2.load m.initial m.segs
      | .fail (_, a2) => .fail a2
      | .crash => .crash
  | .fail a1 => .fail a1
  | .crash => .crash

/-- the 64-bit address of an access (interpret_visitor.hpp:110-150 `pop_memop_addr`,
x86_64.hpp:2186-2229): base and offset are added without wrapping -/
def effAddr (base off : BitVec 32) : Nat := base.toNat + off.toNat

/-- a load or store of `w` bytes by a running contract: `none` is the signal that fails the contract -/
def Alloc.access (a : Alloc) (base off : BitVec 32) (w : Nat) : Option Nat :=
  if touched a.prot (effAddr base off) w then some (effAddr base off) else none

/-- what can happen to an allocator -/
inductive MemOp
  /-- a contract with memory is started -/
  | start (m : Mod)
  /-- a contract without memory is started -/
  | none
  /-- the running contract executes `memory.grow`, with its maximum -/
  | grow (max : Option Nat) (pages : BitVec 32)
  /-- the running contract stores bytes -/
  | store (base off : BitVec 32) (data : List Nat)

def Alloc.op (a : Alloc) : MemOp → Res Alloc
  | .start m => a.start m
  | .none => a.resetNone
  | .grow max n =>
      match a.grow max n.toInt with
      | .ok (_, a') => .ok a'
      | .fail (_, a') => .fail a'
      | .crash => .crash
  | .store base off data =>
      match a.access base off data.length with
      | some x => .ok { a with mem := copy a.mem x data }
      | none => .fail a

/-- a history; a failed contract leaves the allocator as it is -/
def Alloc.run (a : Alloc) : List MemOp → Res Alloc
  | [] => .ok a
  | o :: os =>
      match a.op o with
      | .ok a' => a'.run os
      | .fail a' => a'.run os
      | .crash => .crash

end Verif.Vm
