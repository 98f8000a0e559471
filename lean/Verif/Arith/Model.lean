/-!
# Arithmetic with 256 bits

Models `base_uint<256>` and `arith_uint256` (src/commons/arith_uint256.h 24-290, src/commons/arith_uint256.cpp).

A number is the list of its 32-bit words, lowest first (`pn`). A `uint64_t` wraps at 2^64, written out. Loops over the words are
recursions over the lists. `none` is the exception of the division by zero or a failed assert. Left out: `getdouble` and the
hexadecimal forms, which go through `uint256`.
-/
namespace Verif.Arith

abbrev W : Nat := 2 ^ 32

/-- `base_uint(uint64_t)` (arith_uint256.h 51-57). -/
def ofU64 (b : Nat) : List Nat := [b % W, b / W % W, 0, 0, 0, 0, 0, 0]

/-- The loop of `operator+=` (arith_uint256.h 135-145). -/
def addLoop : Nat → List Nat → List Nat → List Nat
  | c, x :: a, y :: b =>
    let n := (c + x + y) % 2 ^ 64
    (n % W) :: addLoop (n / W) a b
  | _, _, _ => []

def add (a b : List Nat) : List Nat := addLoop 0 a b

/-- `operator~` (arith_uint256.h 69-75). -/
def not (a : List Nat) : List Nat := a.map (fun x => W - 1 - x)

/-- `operator++` (arith_uint256.h 173-180). -/
def inc : List Nat → List Nat
  | [] => []
  | x :: a => if (x + 1) % W = 0 then 0 :: inc a else (x + 1) % W :: a

/-- `operator--` (arith_uint256.h 190-197). -/
def dec : List Nat → List Nat
  | [] => []
  | x :: a => if (x + (W - 1)) % W = W - 1 then (W - 1) :: dec a else (x + (W - 1)) % W :: a

/-- `operator-()` (arith_uint256.h 77-84). -/
def neg (a : List Nat) : List Nat := inc (not a)

/-- `operator-=` (arith_uint256.h 147-151). -/
def sub (a b : List Nat) : List Nat := add a (neg b)

/-- `operator*=(uint32_t)` (arith_uint256.cpp 56-65). -/
def mul32Loop (b : Nat) : Nat → List Nat → List Nat
  | _, [] => []
  | c, x :: a =>
    let n := (c + b * x) % 2 ^ 64
    (n % W) :: mul32Loop b (n / W) a

def mul32 (a : List Nat) (b : Nat) : List Nat := mul32Loop b 0 a

/-- The inner loop of `operator*=` (arith_uint256.cpp 73-78) on the words of the result from `j` on. -/
def mulRow (x : Nat) : Nat → List Nat → List Nat → List Nat
  | c, p :: ps, y :: b =>
    let n := (c + p + x * y) % 2 ^ 64
    (n % W) :: mulRow x (n / W) ps b
  | _, _, _ => []

/-- The outer loop of `operator*=` (arith_uint256.cpp 72-79): word `j` of the result is not changed after round `j`. -/
def mulLoop (b : List Nat) : List Nat → List Nat → List Nat
  | x :: a, ps =>
    match mulRow x 0 ps b with
    | [] => []
    | p :: ps => p :: mulLoop b a ps
  | [], ps => ps

def mul (a b : List Nat) : List Nat := mulLoop b a (List.replicate 8 0)

/-- `operator<<=` (arith_uint256.cpp 22-37), by the words of the result: each is the disjunction of what the two assignments put
into it. -/
def shl (a : List Nat) (shift : Nat) : List Nat :=
  let k := shift / 32
  let s := shift % 32
  (List.range 8).map (fun m =>
    (if k + 1 ≤ m ∧ s ≠ 0 then a.getD (m - k - 1) 0 >>> (32 - s) else 0) ||| (if k ≤ m then (a.getD (m - k) 0 <<< s) % W else 0))

/-- `operator>>=` (arith_uint256.cpp 39-54), likewise. -/
def shr (a : List Nat) (shift : Nat) : List Nat :=
  let k := shift / 32
  let s := shift % 32
  (List.range 8).map (fun m =>
    (if m + k + 1 < 8 ∧ s ≠ 0 then (a.getD (m + k + 1) 0 <<< (32 - s)) % W else 0) ||| (if m + k < 8 then a.getD (m + k) 0 >>> s else 0))

/-- `operator&=`, `operator|=`, `operator^=` (arith_uint256.h 97-116). -/
def and (a b : List Nat) : List Nat := List.zipWith (· &&& ·) a b
def or (a b : List Nat) : List Nat := List.zipWith (· ||| ·) a b
def xor (a b : List Nat) : List Nat := List.zipWith (· ^^^ ·) a b

/-- `CompareTo` (arith_uint256.cpp 110-119); the lists start with the highest word. -/
def compareRev : List Nat → List Nat → Int
  | x :: a, y :: b => if x < y then -1 else if x > y then 1 else compareRev a b
  | _, _ => 0

def compareTo (a b : List Nat) : Int := compareRev a.reverse b.reverse

/-- `EqualTo` (arith_uint256.cpp 122-133). -/
def equalTo (a : List Nat) (b : Nat) : Bool :=
  if (a.drop 2).any (· ≠ 0) then false
  else if a.getD 1 0 ≠ b / W then false
  else if a.getD 0 0 ≠ b % W then false
  else true

/-- The inner loop of `bits` (arith_uint256.cpp 176-179). -/
def wordBits (x : Nat) : Nat → Nat
  | 0 => 1
  | n + 1 => if x.testBit (n + 1) then n + 2 else wordBits x n

/-- `bits` (arith_uint256.cpp 172-184); the list starts with the highest word. -/
def bitsRev : List Nat → Nat
  | [] => 0
  | x :: a => if x ≠ 0 then 32 * a.length + wordBits x 31 else bitsRev a

def bits (a : List Nat) : Nat := bitsRev a.reverse

/-- The loop of `operator/=` (arith_uint256.cpp 97-104): `n` is `shift + 1`. -/
def divLoop : Nat → List Nat → List Nat → List Nat → List Nat
  | 0, _, _, q => q
  | n + 1, num, div, q =>
    if compareTo num div ≥ 0 then
      divLoop n (sub num div) (shr div 1) (q.set (n / 32) (q.getD (n / 32) 0 ||| 1 <<< (n % 32)))
    else divLoop n num (shr div 1) q

/-- `operator/=` (arith_uint256.cpp 84-107). -/
def div (a b : List Nat) : Option (List Nat) :=
  if bits b = 0 then none
  else if bits b > bits a then some (List.replicate 8 0)
  else some (divLoop (bits a - bits b + 1) a (shl b (bits a - bits b)) (List.replicate 8 0))

/-- `GetLow64` (arith_uint256.h 245-249). -/
def low64 (a : List Nat) : Nat := a.getD 0 0 ||| a.getD 1 0 <<< 32

/-- `SetCompact` (arith_uint256.cpp 204-222): the number, whether it is negative, and whether it overflows. -/
def setCompact (c : Nat) : List Nat × Bool × Bool :=
  let size := c >>> 24
  let word := if size ≤ 3 then (c &&& 0x7fffff) >>> (8 * (3 - size)) else c &&& 0x7fffff
  let a := if size ≤ 3 then ofU64 word else shl (ofU64 word) (8 * (size - 3))
  (a, decide (word ≠ 0 ∧ c &&& 0x800000 ≠ 0),
    decide (word ≠ 0 ∧ (size > 34 ∨ (word > 0xff ∧ size > 33) ∨ (word > 0xffff ∧ size > 32))))

/-- `GetCompact` (arith_uint256.cpp 224-245). -/
def getCompact (a : List Nat) (negative : Bool) : Option Nat :=
  let size := (bits a + 7) / 8
  let c := if size ≤ 3 then (low64 a <<< (8 * (3 - size))) % W else low64 (shr a (8 * (size - 3))) % W
  let r := if c &&& 0x800000 ≠ 0 then (c >>> 8, size + 1) else (c, size)
  if r.1 &&& (W - 1 - 0x7fffff) = 0 ∧ r.2 < 256 then
    let c := r.1 ||| (r.2 <<< 24) % W
    some (c ||| (if negative ∧ c &&& 0x7fffff ≠ 0 then 0x800000 else 0))
  else none

/-- `ArithToUint256` (arith_uint256.cpp 247-253): the bytes. -/
def toBytes (a : List Nat) : List Nat := a.flatMap (fun x => [x % 256, x / 256 % 256, x / 65536 % 256, x / 16777216 % 256])

/-- `UintToArith256` (arith_uint256.cpp 254-260). -/
def ofBytes : List Nat → List Nat
  | b0 :: b1 :: b2 :: b3 :: l => (b0 + b1 * 256 + b2 * 65536 + b3 * 16777216) :: ofBytes l
  | _ => []

end Verif.Arith
