/-!
The integer instructions of WebAssembly as the standard describes them (core specification 1.0,
section 4.3.2), over plain numbers.  Nothing here is taken from the code: values of an `N`-bit type
are the numbers below `2 ^ N`, `none` is a trap.
-/

namespace Verif.Vm

/-- the two integer types -/
inductive W | w32 | w64
deriving DecidableEq, Repr

def W.bits : W → Nat
  | .w32 => 32
  | .w64 => 64

inductive Bin
  | add | sub | mul | divS | divU | remS | remU | and | or | xor | shl | shrS | shrU | rotl | rotr
deriving DecidableEq, Repr

inductive Rel
  | eq | ne | ltS | ltU | gtS | gtU | leS | leU | geS | geU
deriving DecidableEq, Repr

inductive Un | clz | ctz | popcnt
deriving DecidableEq, Repr

/-- the signed reading of an `N`-bit value -/
def sgn (N a : Nat) : Int := if a < 2 ^ (N - 1) then (a : Int) else (a : Int) - 2 ^ N

/-- the `N`-bit value of a signed number -/
def unsgn (N : Nat) (z : Int) : Nat := (z % 2 ^ N).toNat

def binSpec (N : Nat) : Bin → Nat → Nat → Option Nat
  | .add, a, b => some ((a + b) % 2 ^ N)
  | .sub, a, b => some ((a + 2 ^ N - b) % 2 ^ N)
  | .mul, a, b => some (a * b % 2 ^ N)
  | .divU, a, b => if b = 0 then none else some (a / b)
  | .divS, a, b =>
      if b = 0 then none
      else if (sgn N a).tdiv (sgn N b) = 2 ^ (N - 1) then none
      else some (unsgn N ((sgn N a).tdiv (sgn N b)))
  | .remU, a, b => if b = 0 then none else some (a % b)
  | .remS, a, b => if b = 0 then none else some (unsgn N ((sgn N a).tmod (sgn N b)))
  | .and, a, b => some (a &&& b)
  | .or, a, b => some (a ||| b)
  | .xor, a, b => some (a ^^^ b)
  | .shl, a, b => some (a * 2 ^ (b % N) % 2 ^ N)
  | .shrU, a, b => some (a / 2 ^ (b % N))
  | .shrS, a, b => some (unsgn N (sgn N a / 2 ^ (b % N)))
  | .rotl, a, b => some (a * 2 ^ (b % N) % 2 ^ N + a / 2 ^ (N - b % N))
  | .rotr, a, b => some (a / 2 ^ (b % N) + a * 2 ^ (N - b % N) % 2 ^ N)

def relSpec (N : Nat) : Rel → Nat → Nat → Bool
  | .eq, a, b => decide (a = b)
  | .ne, a, b => decide (a ≠ b)
  | .ltU, a, b => decide (a < b)
  | .gtU, a, b => decide (a > b)
  | .leU, a, b => decide (a ≤ b)
  | .geU, a, b => decide (a ≥ b)
  | .ltS, a, b => decide (sgn N a < sgn N b)
  | .gtS, a, b => decide (sgn N a > sgn N b)
  | .leS, a, b => decide (sgn N a ≤ sgn N b)
  | .geS, a, b => decide (sgn N a ≥ sgn N b)

/-- the number of zero bits above the highest set bit of an `n`-bit value -/
def clzSpec : Nat → Nat → Nat
  | 0, _ => 0
  | n + 1, a => if a.testBit n then 0 else 1 + clzSpec n a

/-- the number of zero bits below the lowest set bit -/
def ctzSpec : Nat → Nat → Nat
  | 0, _ => 0
  | n + 1, a => if a % 2 = 1 then 0 else 1 + ctzSpec n (a / 2)

/-- the number of set bits -/
def popSpec : Nat → Nat → Nat
  | 0, _ => 0
  | n + 1, a => a % 2 + popSpec n (a / 2)

def unSpec (N : Nat) : Un → Nat → Nat
  | .clz, a => clzSpec N a
  | .ctz, a => ctzSpec N a
  | .popcnt, a => popSpec N a

/-- a value on the operand stack -/
inductive Val
  | i32 (x : BitVec 32)
  | i64 (x : BitVec 64)
deriving DecidableEq, Repr

/-- straight-line integer instructions -/
inductive Ins
  | const (v : Val)
  | bin (w : W) (op : Bin)
  | rel (w : W) (op : Rel)
  | eqz (w : W)
  | un (w : W) (op : Un)
  | wrap
  | extS
  | extU
  | drop
  | select
deriving DecidableEq, Repr

/-- `stuck`: the operands have the wrong types; a validated contract never gets there -/
inductive Out (α : Type)
  | ok (a : α)
  | trap
  | stuck
deriving DecidableEq, Repr

def boolVal (b : Bool) : Val := .i32 (if b then 1#32 else 0#32)

def specStep : Ins → List Val → Out (List Val)
  | .const v, s => .ok (v :: s)
  | .bin .w32 op, .i32 b :: .i32 a :: s =>
      match binSpec 32 op a.toNat b.toNat with
      | some r => .ok (.i32 (BitVec.ofNat 32 r) :: s)
      | none => .trap
  | .bin .w64 op, .i64 b :: .i64 a :: s =>
      match binSpec 64 op a.toNat b.toNat with
      | some r => .ok (.i64 (BitVec.ofNat 64 r) :: s)
      | none => .trap
  | .rel .w32 op, .i32 b :: .i32 a :: s => .ok (boolVal (relSpec 32 op a.toNat b.toNat) :: s)
  | .rel .w64 op, .i64 b :: .i64 a :: s => .ok (boolVal (relSpec 64 op a.toNat b.toNat) :: s)
  | .eqz .w32, .i32 a :: s => .ok (boolVal (decide (a.toNat = 0)) :: s)
  | .eqz .w64, .i64 a :: s => .ok (boolVal (decide (a.toNat = 0)) :: s)
  | .un .w32 op, .i32 a :: s => .ok (.i32 (BitVec.ofNat 32 (unSpec 32 op a.toNat)) :: s)
  | .un .w64 op, .i64 a :: s => .ok (.i64 (BitVec.ofNat 64 (unSpec 64 op a.toNat)) :: s)
  | .wrap, .i64 a :: s => .ok (.i32 (BitVec.ofNat 32 (a.toNat % 2 ^ 32)) :: s)
  | .extS, .i32 a :: s => .ok (.i64 (BitVec.ofNat 64 (unsgn 64 (sgn 32 a.toNat))) :: s)
  | .extU, .i32 a :: s => .ok (.i64 (BitVec.ofNat 64 a.toNat) :: s)
  | .drop, _ :: s => .ok s
  | .select, .i32 c :: v2 :: v1 :: s => .ok ((if c.toNat ≠ 0 then v1 else v2) :: s)
  | _, _ => .stuck

/-- run a sequence of instructions -/
def runWith (step : Ins → List Val → Out (List Val)) : List Ins → List Val → Out (List Val)
  | [], s => .ok s
  | i :: is, s =>
      match step i s with
      | .ok s' => runWith step is s'
      | .trap => .trap
      | .stuck => .stuck

/-- A branch: whether its target takes a value, and how many values (that one included) lie above the
height the stack has at the target. -/
structure Br where
  result : Bool
  depth : Nat
deriving DecidableEq, Repr

/-- the stack, top first, after the branch -/
def Br.unwind {α : Type} (b : Br) (st : List α) : List α := (if b.result then st.take 1 else []) ++ st.drop b.depth

/-- what validation guarantees, with depths far below the limit of the operand stack -/
def Br.Valid {α : Type} (b : Br) (st : List α) : Prop :=
  b.depth < 2 ^ 28 ∧ b.depth ≤ st.length ∧ (b.result = true → 0 < b.depth)

/-- `br_table`: the case with the number of the index if there is one, otherwise the default, which is
counted after the cases; with the stack there -/
def tableSpec {α : Type} (cases : List Br) (dflt : Br) (i : Nat) (st : List α) : Nat × List α :=
  match cases[i]? with
  | some b => (i, b.unwind st)
  | none => (cases.length, dflt.unwind st)

end Verif.Vm
