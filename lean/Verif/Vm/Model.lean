import Verif.Vm.Spec

/-!
Model of the two engines of the contract machine for integer instructions:

* the interpreter, /repo/src/vm/wasm/eos-vm/include/eosio/vm/interpret_visitor.hpp:95-105, 284-420,
  540-775, 890-895, 945-955;
* the compiler, /repo/src/vm/wasm/eos-vm/include/eosio/vm/x86_64.hpp:340-360, 666-850, 1037-1345,
  1720-1727, 1786-1794, 2231-2262, 2478-2499: the bytes it emits are written down literally, and a
  small model of the x86-64 processor (part of the trusted base) runs them.

Floating point, calls, branches and local variables are left out.  Both engines exist in the node
(wasm_interface.cpp:109-122); the contract host uses the compiled one.
-/

namespace Verif.Vm

/-! ### The interpreter -/

/-- `__builtin_clz`, `__builtin_clzll`: the position of the highest set bit counted from the top;
undefined for 0 and never called for it -/
def builtinClz (N : Nat) (x : BitVec N) : Nat := N - 1 - x.toNat.log2

/-- interpret_visitor.hpp:565-717 (32 bits), 640-775 (64 bits).  `-c & mask` is computed in 32 bits
by both rotations. -/
def interpBin (N : Nat) : Bin → BitVec N → BitVec N → Option (BitVec N)
  | .add, lhs, rhs => some (lhs + rhs)
  | .sub, lhs, rhs => some (lhs - rhs)
  | .mul, lhs, rhs => some (lhs * rhs)
  | .divS, lhs, rhs =>
      if rhs = 0#N then none
      else if lhs = BitVec.intMin N ∧ rhs = -1#N then none
      else some (lhs.sdiv rhs)
  | .divU, lhs, rhs => if rhs = 0#N then none else some (lhs / rhs)
  | .remS, lhs, rhs =>
      if rhs = 0#N then none
      else if lhs = BitVec.intMin N ∧ rhs = -1#N then some 0#N
      else some (lhs.srem rhs)
  | .remU, lhs, rhs => if rhs = 0#N then none else some (lhs % rhs)
  | .and, lhs, rhs => some (lhs &&& rhs)
  | .or, lhs, rhs => some (lhs ||| rhs)
  | .xor, lhs, rhs => some (lhs ^^^ rhs)
  | .shl, lhs, rhs => some (lhs <<< (rhs &&& BitVec.ofNat N (N - 1)).toNat)
  | .shrS, lhs, rhs => some (lhs.sshiftRight (rhs &&& BitVec.ofNat N (N - 1)).toNat)
  | .shrU, lhs, rhs => some (lhs >>> (rhs &&& BitVec.ofNat N (N - 1)).toNat)
  | .rotl, lhs, rhs =>
      let c := rhs.setWidth 32 &&& BitVec.ofNat 32 (N - 1)
      some ((lhs <<< c.toNat) ||| (lhs >>> ((-c) &&& BitVec.ofNat 32 (N - 1)).toNat))
  | .rotr, lhs, rhs =>
      let c := rhs.setWidth 32 &&& BitVec.ofNat 32 (N - 1)
      some ((lhs >>> c.toNat) ||| (lhs <<< ((-c) &&& BitVec.ofNat 32 (N - 1)).toNat))

/-- interpret_visitor.hpp:289-420: signed and unsigned comparisons -/
def interpRel (N : Nat) : Rel → BitVec N → BitVec N → Bool
  | .eq, lhs, rhs => lhs == rhs
  | .ne, lhs, rhs => lhs != rhs
  | .ltS, lhs, rhs => lhs.slt rhs
  | .ltU, lhs, rhs => lhs.ult rhs
  | .gtS, lhs, rhs => rhs.slt lhs
  | .gtU, lhs, rhs => rhs.ult lhs
  | .leS, lhs, rhs => lhs.sle rhs
  | .leU, lhs, rhs => lhs.ule rhs
  | .geS, lhs, rhs => rhs.sle lhs
  | .geU, lhs, rhs => rhs.ule lhs

/-- interpret_visitor.hpp:538-557, 633-650.  `__builtin_ctz` and `__builtin_popcount` are by their
documentation the counts of the standard. -/
def interpUn (N : Nat) : Un → BitVec N → BitVec N
  | .clz, x => if x = 0#N then BitVec.ofNat N N else BitVec.ofNat N (builtinClz N x)
  | .ctz, x => if x = 0#N then BitVec.ofNat N N else BitVec.ofNat N (ctzSpec N x.toNat)
  | .popcnt, x => BitVec.ofNat N (popSpec N x.toNat)

def interpStep : Ins → List Val → Out (List Val)
  | .const v, s => .ok (v :: s)
  | .bin .w32 op, .i32 b :: .i32 a :: s =>
      match interpBin 32 op a b with
      | some r => .ok (.i32 r :: s)
      | none => .trap
  | .bin .w64 op, .i64 b :: .i64 a :: s =>
      match interpBin 64 op a b with
      | some r => .ok (.i64 r :: s)
      | none => .trap
  | .rel .w32 op, .i32 b :: .i32 a :: s => .ok (boolVal (interpRel 32 op a b) :: s)
  | .rel .w64 op, .i64 b :: .i64 a :: s => .ok (boolVal (interpRel 64 op a b) :: s)
  | .eqz .w32, .i32 a :: s => .ok (boolVal (a == 0#32) :: s)
  | .eqz .w64, .i64 a :: s => .ok (boolVal (a == 0#64) :: s)
  | .un .w32 op, .i32 a :: s => .ok (.i32 (interpUn 32 op a) :: s)
  | .un .w64 op, .i64 a :: s => .ok (.i64 (interpUn 64 op a) :: s)
  | .wrap, .i64 a :: s => .ok (.i32 (a.setWidth 32) :: s)
  | .extS, .i32 a :: s => .ok (.i64 (a.signExtend 64) :: s)
  | .extU, .i32 a :: s => .ok (.i64 (a.setWidth 64) :: s)
  | .drop, _ :: s => .ok s
  | .select, .i32 c :: v2 :: v1 :: s => .ok ((if c == 0#32 then v2 else v1) :: s)
  | _, _ => .stuck

/-! ### The bytes of the compiler -/

/-- `emit_operand32` (x86_64.hpp:2176-2184): four bytes, low byte first -/
def imm32 (v : BitVec 32) : List Nat :=
  [v.toNat % 256, v.toNat / 256 % 256, v.toNat / 65536 % 256, v.toNat / 16777216 % 256]

/-- `emit_operand64` -/
def imm64 (v : BitVec 64) : List Nat :=
  [v.toNat % 256, v.toNat / 2 ^ 8 % 256, v.toNat / 2 ^ 16 % 256, v.toNat / 2 ^ 24 % 256,
   v.toNat / 2 ^ 32 % 256, v.toNat / 2 ^ 40 % 256, v.toNat / 2 ^ 48 % 256, v.toNat / 2 ^ 56 % 256]

/-- x86_64.hpp:716-775: the condition byte handed to `emit_i32_relop`, `emit_i64_relop` -/
def relOp : Rel → Nat
  | .eq => 0x94
  | .ne => 0x95
  | .ltS => 0x9c
  | .ltU => 0x92
  | .gtS => 0x9f
  | .gtU => 0x97
  | .leS => 0x9e
  | .leU => 0x96
  | .geS => 0x9d
  | .geU => 0x93

/-- x86_64.hpp:1112-1195 through `emit_i32_binop` (2478-2487).  The two branch targets of the signed
remainder are the ones `fix_branch` writes. -/
def jitBin32 : Bin → List Nat
  | .add => [0x59, 0x58, 0x01, 0xc8, 0x50]
  | .sub => [0x59, 0x58, 0x29, 0xc8, 0x50]
  | .mul => [0x59, 0x58, 0x0f, 0xaf, 0xc1, 0x50]
  | .divS => [0x59, 0x58, 0x99, 0xf7, 0xf9, 0x50]
  | .divU => [0x59, 0x58, 0x31, 0xd2, 0xf7, 0xf1, 0x50]
  | .remS => [0x59, 0x58, 0x83, 0xf9, 0xff, 0x0f, 0x84, 0x08, 0, 0, 0, 0x99, 0xf7, 0xf9,
              0xe9, 0x02, 0, 0, 0, 0x31, 0xd2, 0x52]
  | .remU => [0x59, 0x58, 0x31, 0xd2, 0xf7, 0xf1, 0x52]
  | .and => [0x59, 0x58, 0x21, 0xc8, 0x50]
  | .or => [0x59, 0x58, 0x09, 0xc8, 0x50]
  | .xor => [0x59, 0x58, 0x31, 0xc8, 0x50]
  | .shl => [0x59, 0x58, 0xd3, 0xe0, 0x50]
  | .shrS => [0x59, 0x58, 0xd3, 0xf8, 0x50]
  | .shrU => [0x59, 0x58, 0xd3, 0xe8, 0x50]
  | .rotl => [0x59, 0x58, 0xd3, 0xc0, 0x50]
  | .rotr => [0x59, 0x58, 0xd3, 0xc8, 0x50]

/-- x86_64.hpp:1261-1344 through `emit_i64_binop` (2490-2499) -/
def jitBin64 : Bin → List Nat
  | .add => [0x59, 0x58, 0x48, 0x01, 0xc8, 0x50]
  | .sub => [0x59, 0x58, 0x48, 0x29, 0xc8, 0x50]
  | .mul => [0x59, 0x58, 0x48, 0x0f, 0xaf, 0xc1, 0x50]
  | .divS => [0x59, 0x58, 0x48, 0x99, 0x48, 0xf7, 0xf9, 0x50]
  | .divU => [0x59, 0x58, 0x48, 0x31, 0xd2, 0x48, 0xf7, 0xf1, 0x50]
  | .remS => [0x59, 0x58, 0x48, 0x83, 0xf9, 0xff, 0x0f, 0x84, 0x0a, 0, 0, 0, 0x48, 0x99,
              0x48, 0xf7, 0xf9, 0xe9, 0x02, 0, 0, 0, 0x31, 0xd2, 0x52]
  | .remU => [0x59, 0x58, 0x48, 0x31, 0xd2, 0x48, 0xf7, 0xf1, 0x52]
  | .and => [0x59, 0x58, 0x48, 0x21, 0xc8, 0x50]
  | .or => [0x59, 0x58, 0x48, 0x09, 0xc8, 0x50]
  | .xor => [0x59, 0x58, 0x48, 0x31, 0xc8, 0x50]
  | .shl => [0x59, 0x58, 0x48, 0xd3, 0xe0, 0x50]
  | .shrS => [0x59, 0x58, 0x48, 0xd3, 0xf8, 0x50]
  | .shrU => [0x59, 0x58, 0x48, 0xd3, 0xe8, 0x50]
  | .rotl => [0x59, 0x58, 0x48, 0xd3, 0xc0, 0x50]
  | .rotr => [0x59, 0x58, 0x48, 0xd3, 0xc8, 0x50]

/-- x86_64.hpp:1050-1110, 1199-1257: `tz` is `has_tzcnt()`, a feature of the processor -/
def jitUn (tz : Bool) : W → Un → List Nat
  | .w32, .clz =>
      if tz then [0x58, 0xf3, 0x0f, 0xbd, 0xc0, 0x50]
      else [0x58, 0xb9, 0xff, 0xff, 0xff, 0xff, 0x0f, 0xbd, 0xc0, 0x0f, 0x44, 0xc1, 0x83, 0xe8, 0x1f,
            0xf7, 0xd8, 0x50]
  | .w32, .ctz =>
      if tz then [0x58, 0xf3, 0x0f, 0xbc, 0xc0, 0x50]
      else [0x58, 0xb9, 0x20, 0x00, 0x00, 0x00, 0x0f, 0xbc, 0xc0, 0x0f, 0x44, 0xc1, 0x50]
  | .w32, .popcnt => [0x58, 0xf3, 0x0f, 0xb8, 0xc0, 0x50]
  | .w64, .clz =>
      if tz then [0x58, 0xf3, 0x48, 0x0f, 0xbd, 0xc0, 0x50]
      else [0x58, 0x48, 0xc7, 0xc1, 0xff, 0xff, 0xff, 0xff, 0x48, 0x0f, 0xbd, 0xc0, 0x48, 0x0f, 0x44, 0xc1,
            0x48, 0x83, 0xe8, 0x3f, 0x48, 0xf7, 0xd8, 0x50]
  | .w64, .ctz =>
      if tz then [0x58, 0xf3, 0x48, 0x0f, 0xbc, 0xc0, 0x50]
      else [0x58, 0x48, 0xc7, 0xc1, 0x40, 0x00, 0x00, 0x00, 0x48, 0x0f, 0xbc, 0xc0, 0x48, 0x0f, 0x44, 0xc1,
            0x50]
  | .w64, .popcnt => [0x58, 0xf3, 0x48, 0x0f, 0xb8, 0xc0, 0x50]

/-- the bytes emitted for one instruction -/
def jit (tz : Bool) : Ins → List Nat
  | .const (.i32 x) => 0xb8 :: (imm32 x ++ [0x50])
  | .const (.i64 x) => 0x48 :: 0xb8 :: (imm64 x ++ [0x50])
  | .bin .w32 op => jitBin32 op
  | .bin .w64 op => jitBin64 op
  | .rel .w32 op => [0x58, 0x59, 0x48, 0x31, 0xd2, 0x39, 0xc1, 0x0f, relOp op, 0xc2, 0x52]
  | .rel .w64 op => [0x58, 0x59, 0x48, 0x31, 0xd2, 0x48, 0x39, 0xc1, 0x0f, relOp op, 0xc2, 0x52]
  | .eqz .w32 => [0x58, 0x48, 0x31, 0xc9, 0x85, 0xc0, 0x0f, 0x94, 0xc1, 0x51]
  | .eqz .w64 => [0x58, 0x48, 0x31, 0xc9, 0x48, 0x85, 0xc0, 0x0f, 0x94, 0xc1, 0x51]
  | .un w op => jitUn tz w op
  | .wrap => [0x31, 0xc0, 0x89, 0x44, 0x24, 0x04]
  | .extS => [0x48, 0x63, 0x04, 0x24, 0x48, 0x89, 0x04, 0x24]
  | .extU => []
  | .drop => [0x58]
  | .select => [0x58, 0x59, 0x85, 0xc0, 0x48, 0x0f, 0x45, 0x0c, 0x24, 0x48, 0x89, 0x0c, 0x24]

/-- the code of a sequence of instructions -/
def jitAll (tz : Bool) : List Ins → List Nat
  | [] => []
  | i :: is => jit tz i ++ jitAll tz is

/-! ### The processor (trusted) -/

/-- The part of the processor's state that matters.  `junk` stands for whatever an instruction leaves
where the manual says "undefined". -/
structure Cpu where
  rax : BitVec 64
  rcx : BitVec 64
  rdx : BitVec 64
  rsi : BitVec 64
  zf : Bool
  cf : Bool
  sf : Bool
  ovf : Bool
  /-- the slots above the stack pointer, top first -/
  stack : List (BitVec 64)
  junk : BitVec 64

/-- registers by number -/
def Cpu.get (c : Cpu) : Nat → Option (BitVec 64)
  | 0 => some c.rax
  | 1 => some c.rcx
  | 2 => some c.rdx
  | 6 => some c.rsi
  | _ => none

def Cpu.set (c : Cpu) : Nat → BitVec 64 → Option Cpu
  | 0, v => some { c with rax := v }
  | 1, v => some { c with rcx := v }
  | 2, v => some { c with rdx := v }
  | _, _ => none

/-- result of one step: the rest of the code and the new state, a processor exception, or an
instruction outside the model -/
inductive Step
  | next (code : List Nat) (c : Cpu)
  | trap
  | bad

/-- a two-operand operation on registers `d` (destination) and `s`: in 64 bits with REX.W, else on the
low halves, the result being extended with zeros -/
def Cpu.alu (c : Cpu) (w : Bool) (f : (N : Nat) → BitVec N → BitVec N → BitVec N) (d s : Nat)
    (rest : List Nat) : Step :=
  match c.get d, c.get s with
  | some x, some y =>
      match c.set d (if w then f 64 x y else (f 32 (x.setWidth 32) (y.setWidth 32)).setWidth 64) with
      | some c' => .next rest c'
      | none => .bad
  | _, _ => .bad

/-- a one-operand operation on register `d` -/
def Cpu.alu1 (c : Cpu) (w : Bool) (f : (N : Nat) → BitVec N → BitVec N) (d : Nat) (rest : List Nat) :
    Step := c.alu w (fun N x _ => f N x) d d rest

/-- flags of the comparison `x - y` -/
def Cpu.cmp {N : Nat} (c : Cpu) (x y : BitVec N) : Cpu :=
  { c with zf := x == y, cf := x.ult y, sf := (x - y).msb, ovf := BitVec.ssubOverflow x y }

/-- the condition of `SETcc`, `CMOVcc` by the low four bits of the opcode -/
def Cpu.cond (c : Cpu) : Nat → Option Bool
  | 2 => some c.cf
  | 3 => some !c.cf
  | 4 => some c.zf
  | 5 => some !c.zf
  | 6 => some (c.cf || c.zf)
  | 7 => some !(c.cf || c.zf)
  | 12 => some (c.sf != c.ovf)
  | 13 => some !(c.sf != c.ovf)
  | 14 => some (c.zf || (c.sf != c.ovf))
  | 15 => some !(c.zf || (c.sf != c.ovf))
  | _ => none

/-- low byte of a slot replaced -/
def setLow (x : BitVec 64) (b : Bool) : BitVec 64 :=
  (x &&& ~~~(255#64)) ||| (if b then 1#64 else 0#64)

/-- unsigned division of `hi:lo`; `#DE` for zero divisors and quotients that do not fit -/
def divU (N : Nat) (hi lo d : BitVec N) : Option (BitVec N × BitVec N) :=
  let n := hi.toNat * 2 ^ N + lo.toNat
  if d.toNat = 0 then none
  else if n / d.toNat < 2 ^ N then some (BitVec.ofNat N (n / d.toNat), BitVec.ofNat N (n % d.toNat))
  else none

/-- signed division of `hi:lo` -/
def divS (N : Nat) (hi lo d : BitVec N) : Option (BitVec N × BitVec N) :=
  let n := hi.toInt * 2 ^ N + lo.toNat
  if d.toInt = 0 then none
  else if -2 ^ (N - 1) ≤ n.tdiv d.toInt ∧ n.tdiv d.toInt < 2 ^ (N - 1) then
    some (BitVec.ofInt N (n.tdiv d.toInt), BitVec.ofInt N (n.tmod d.toInt))
  else none

/-- division instructions of `rdx:rax` by register `d` -/
def Cpu.div (c : Cpu) (w : Bool) (f : (N : Nat) → BitVec N → BitVec N → BitVec N → Option (BitVec N × BitVec N))
    (d : Nat) (rest : List Nat) : Step :=
  match c.get d with
  | none => .bad
  | some y =>
      if w then
        match f 64 c.rdx c.rax y with
        | some (q, r) => .next rest { c with rax := q, rdx := r }
        | none => .trap
      else
        match f 32 (c.rdx.setWidth 32) (c.rax.setWidth 32) (y.setWidth 32) with
        | some (q, r) => .next rest { c with rax := q.setWidth 64, rdx := r.setWidth 64 }
        | none => .trap

/-- sign extension of `rax` into `rdx` (`cdq`, `cqo`) -/
def Cpu.cdq (c : Cpu) (w : Bool) : Cpu :=
  if w then { c with rdx := if c.rax.msb then BitVec.allOnes 64 else 0#64 }
  else { c with rdx := (if (c.rax.setWidth 32).msb then BitVec.allOnes 32 else 0#32).setWidth 64 }

/-- bit scans; the destination is undefined for 0 -/
def scan (c : Cpu) (w : Bool) (f : Nat → Nat → Nat) (d s : Nat) (rest : List Nat) : Step :=
  match c.get s with
  | none => .bad
  | some x =>
      if w then
        match c.set d (if x == 0#64 then c.junk else BitVec.ofNat 64 (f 64 x.toNat)) with
        | some c' => .next rest { c' with zf := x == 0#64 }
        | none => .bad
      else
        let y := x.setWidth 32
        match c.set d (if y == 0#32 then c.junk else (BitVec.ofNat 32 (f 32 y.toNat)).setWidth 64) with
        | some c' => .next rest { c' with zf := y == 0#32 }
        | none => .bad

/-- sign extension of an 8-bit immediate -/
def imm8 (b : Nat) (N : Nat) : BitVec N := (BitVec.ofNat 8 b).signExtend N

/-- a little-endian 32-bit immediate -/
def rd32 (a b c d : Nat) : BitVec 32 := BitVec.ofNat 32 (a + 256 * b + 65536 * c + 16777216 * d)

/-- the instruction with opcode `op` after the prefixes; `w` is REX.W.  ModRM bytes are decoded as
`mod = m / 64`, `reg = m / 8 % 8`, `rm = m % 8`; only the addressing modes used are known. -/
def exec (c : Cpu) (w : Bool) : List Nat → Step
  | 0x58 :: r => match c.stack with
      | v :: s => .next r { c with rax := v, stack := s }
      | [] => .bad
  | 0x59 :: r => match c.stack with
      | v :: s => .next r { c with rcx := v, stack := s }
      | [] => .bad
  | 0x50 :: r => .next r { c with stack := c.rax :: c.stack }
  | 0x51 :: r => .next r { c with stack := c.rcx :: c.stack }
  | 0x52 :: r => .next r { c with stack := c.rdx :: c.stack }
  | 0x01 :: m :: r => if m / 64 = 3 then c.alu w (fun _ x y => x + y) (m % 8) (m / 8 % 8) r else .bad
  | 0x29 :: m :: r => if m / 64 = 3 then c.alu w (fun _ x y => x - y) (m % 8) (m / 8 % 8) r else .bad
  | 0x21 :: m :: r => if m / 64 = 3 then c.alu w (fun _ x y => x &&& y) (m % 8) (m / 8 % 8) r else .bad
  | 0x09 :: m :: r => if m / 64 = 3 then c.alu w (fun _ x y => x ||| y) (m % 8) (m / 8 % 8) r else .bad
  | 0x31 :: m :: r => if m / 64 = 3 then c.alu w (fun _ x y => x ^^^ y) (m % 8) (m / 8 % 8) r else .bad
  | 0x39 :: m :: r =>
      if m / 64 = 3 then
        match c.get (m % 8), c.get (m / 8 % 8) with
        | some x, some y =>
            .next r (if w then c.cmp x y else c.cmp (x.setWidth 32) (y.setWidth 32))
        | _, _ => .bad
      else .bad
  | 0x85 :: m :: r =>
      if m / 64 = 3 then
        match c.get (m % 8), c.get (m / 8 % 8) with
        | some x, some y =>
            .next r { c with zf := if w then x &&& y == 0#64 else (x &&& y).setWidth 32 == 0#32 }
        | _, _ => .bad
      else .bad
  | 0x99 :: r => .next r (c.cdq w)
  | 0xf7 :: m :: r =>
      if m / 64 = 3 then
        if m / 8 % 8 = 7 then c.div w divS (m % 8) r
        else if m / 8 % 8 = 6 then c.div w divU (m % 8) r
        else if m / 8 % 8 = 3 then c.alu1 w (fun _ x => -x) (m % 8) r
        else .bad
      else .bad
  | 0xd3 :: m :: r =>
      let k : Nat → Nat := fun N => (c.rcx.toNat % 256) % N
      if m / 64 = 3 then
        if m / 8 % 8 = 4 then c.alu1 w (fun N x => x <<< k N) (m % 8) r
        else if m / 8 % 8 = 5 then c.alu1 w (fun N x => x >>> k N) (m % 8) r
        else if m / 8 % 8 = 7 then c.alu1 w (fun N x => x.sshiftRight (k N)) (m % 8) r
        else if m / 8 % 8 = 0 then c.alu1 w (fun N x => x.rotateLeft (k N)) (m % 8) r
        else if m / 8 % 8 = 1 then c.alu1 w (fun N x => x.rotateRight (k N)) (m % 8) r
        else .bad
      else .bad
  | 0x83 :: m :: i :: r =>
      if m / 64 = 3 then
        if m / 8 % 8 = 7 then
          match c.get (m % 8) with
          | some x => .next r (if w then c.cmp x (imm8 i 64) else c.cmp (x.setWidth 32) (imm8 i 32))
          | none => .bad
        else if m / 8 % 8 = 5 then c.alu1 w (fun N x => x - imm8 i N) (m % 8) r
        else .bad
      else .bad
  | 0xb8 :: i0 :: i1 :: i2 :: i3 :: r =>
      if w then
        match r with
        | i4 :: i5 :: i6 :: i7 :: r =>
            .next r { c with rax := (rd32 i4 i5 i6 i7) ++ (rd32 i0 i1 i2 i3) }
        | _ => .bad
      else .next r { c with rax := (rd32 i0 i1 i2 i3).setWidth 64 }
  | 0xb9 :: i0 :: i1 :: i2 :: i3 :: r =>
      if w then .bad else .next r { c with rcx := (rd32 i0 i1 i2 i3).setWidth 64 }
  | 0xc7 :: 0xc1 :: i0 :: i1 :: i2 :: i3 :: r =>
      if w then .next r { c with rcx := (rd32 i0 i1 i2 i3).signExtend 64 }
      else .next r { c with rcx := (rd32 i0 i1 i2 i3).setWidth 64 }
  | 0xe9 :: i0 :: i1 :: i2 :: i3 :: r =>
      if (rd32 i0 i1 i2 i3).msb then .bad else .next (r.drop (rd32 i0 i1 i2 i3).toNat) c
  | 0x63 :: 0x04 :: 0x24 :: r => match c.stack with
      | v :: _ => if w then .next r { c with rax := (v.setWidth 32).signExtend 64 } else .bad
      | [] => .bad
  | 0x89 :: 0x04 :: 0x24 :: r => match c.stack with
      | _ :: s => if w then .next r { c with stack := c.rax :: s } else .bad
      | [] => .bad
  | 0x89 :: 0x0c :: 0x24 :: r => match c.stack with
      | _ :: s => if w then .next r { c with stack := c.rcx :: s } else .bad
      | [] => .bad
  | 0x89 :: 0x44 :: 0x24 :: 0x04 :: r => match c.stack with
      | v :: s => if w then .bad
          else .next r { c with stack := (c.rax.setWidth 32 ++ v.setWidth 32) :: s }
      | [] => .bad
  | 0x0f :: 0xaf :: m :: r =>
      if m / 64 = 3 then c.alu w (fun _ x y => x * y) (m / 8 % 8) (m % 8) r else .bad
  | 0x0f :: 0x84 :: i0 :: i1 :: i2 :: i3 :: r =>
      if (rd32 i0 i1 i2 i3).msb then .bad
      else if c.zf then .next (r.drop (rd32 i0 i1 i2 i3).toNat) c else .next r c
  | 0x0f :: 0x44 :: m :: r =>
      if m / 64 = 3 then
        let z := c.zf
        c.alu w (fun _ x y => if z then y else x) (m / 8 % 8) (m % 8) r
      else .bad
  | 0x0f :: 0x45 :: 0x0c :: 0x24 :: r => match c.stack with
      | v :: _ => if w then .next r { c with rcx := if c.zf then c.rcx else v } else .bad
      | [] => .bad
  | 0x0f :: 0xbc :: m :: r => if m / 64 = 3 then scan c w ctzSpec (m / 8 % 8) (m % 8) r else .bad
  | 0x0f :: 0xbd :: m :: r =>
      if m / 64 = 3 then scan c w (fun _ => Nat.log2) (m / 8 % 8) (m % 8) r else .bad
  | 0x0f :: op :: m :: r =>
      if op / 16 = 9 ∧ m / 8 = 24 then
        match c.cond (op % 16), c.get (m % 8) with
        | some b, some x =>
            match c.set (m % 8) (setLow x b) with
            | some c' => .next r c'
            | none => .bad
        | _, _ => .bad
      else .bad
  | _ => .bad

/-- the instructions with the prefix F3: counts of leading zeros, trailing zeros and set bits -/
def execF3 (c : Cpu) (w : Bool) : List Nat → Step
  | 0x0f :: 0xbd :: m :: r =>
      if m / 64 = 3 ∧ m / 8 % 8 = m % 8 then
        c.alu1 w (fun N x => BitVec.ofNat N (clzSpec N x.toNat)) (m % 8) r else .bad
  | 0x0f :: 0xbc :: m :: r =>
      if m / 64 = 3 ∧ m / 8 % 8 = m % 8 then
        c.alu1 w (fun N x => BitVec.ofNat N (ctzSpec N x.toNat)) (m % 8) r else .bad
  | 0x0f :: 0xb8 :: m :: r =>
      if m / 64 = 3 ∧ m / 8 % 8 = m % 8 then
        c.alu1 w (fun N x => BitVec.ofNat N (popSpec N x.toNat)) (m % 8) r else .bad
  | _ => .bad

/-- one instruction: prefixes F3 and REX.W, then the opcode -/
def cpuStep (c : Cpu) : List Nat → Step
  | 0xf3 :: 0x48 :: r => execF3 c true r
  | 0xf3 :: r => execF3 c false r
  | 0x48 :: r => exec c true r
  | code => exec c false code

/-- how a piece of code ends: at its last byte, or with a processor exception (turned into a contract
failure by signals.hpp:20-50, 84-92) -/
inductive Runs : List Nat → Cpu → Out Cpu → Prop
  | done (c : Cpu) : Runs [] c (.ok c)
  | step {code c code' c' o} : cpuStep c code = .next code' c' → Runs code' c' o → Runs code c o
  | trap {code c} : cpuStep c code = .trap → Runs code c .trap

/-- how a value lies in a slot: 32-bit values with the upper half zero -/
def enc : Val → BitVec 64
  | .i32 x => x.setWidth 64
  | .i64 x => x

end Verif.Vm
