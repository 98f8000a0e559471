import Verif.Util.U64
/-!
# Small types of the wasm interface

Names, account numbers, symbols and amounts as text and as integers, and the byte stream that
carries action data. Sources: `src/vm/wasm/types/{name,regid,symbol,asset}.hpp` and
`src/vm/wasm/datastream.hpp`.

Simplifications: text is a list of characters, a byte is a `Nat` (readers take it modulo nothing:
every theorem asks for bytes below 256 where it matters); `check(false, ..)` and `CHAIN_ASSERT` are
`none` (an exception leaves the function); signed 64-bit wrap-around is made explicit (`i64`).
-/
namespace Verif.Abi
open Verif

/-! ## Names (`name.hpp`) -/

/-- `char_to_value` (name.hpp 136-153); `none` is the failing `check`. -/
def charToValue (c : Char) : Option Nat :=
  if c = '_' then some 0
  else if '1' ≤ c ∧ c ≤ '5' then some (c.toNat - '1'.toNat + 1)
  else if 'a' ≤ c ∧ c ≤ 'z' then some (c.toNat - 'a'.toNat + 6)
  else none

/-- The loop over the first twelve characters (name.hpp 105-112): shift by five, or the value in. -/
def nameFold : Nat → List Char → Option Nat
  | v, [] => some v
  | v, c :: cs =>
    match charToValue c with
    | none => none
    | some d => nameFold ((v <<< 5) % U64 ||| d) cs

/-- The thirteenth character (name.hpp 114-125): refused above `0x0F`. -/
def nameLast (v : Nat) : List Char → Option Nat
  | [] => some v
  | c :: _ =>
    match charToValue c with
    | none => none
    | some d => if d > 15 then none else some (v ||| d)

/-- `name(std::string_view)` (name.hpp 92-128). -/
def nameOf (s : List Char) : Option Nat :=
  if s.length > 13 then none
  else if s = [] then some 0
  else
    match nameFold 0 (s.take 12) with
    | none => none
    | some v => nameLast ((v <<< (4 + 5 * (12 - min s.length 12))) % U64) (s.drop 12)

/-- `charmap` (name.hpp 235). -/
def charmap : List Char := "_12345abcdefghijklmnopqrstuvwxyz".toList

/-- The loop of `write_as_string` (name.hpp 240-247) with `k` rounds left: stops at zero, otherwise
writes the character of the top five bits (top four in the last round). -/
def textLoop : Nat → Nat → List Char
  | 0, _ => []
  | k + 1, v =>
    if v = 0 then []
    else charmap.getD (v >>> (if k = 0 then 60 else 59)) '_' :: textLoop k ((v <<< 5) % U64)

/-- `name::to_string` (name.hpp 257-261). -/
def nameText (v : Nat) : List Char := textLoop 13 v

/-- The loop of `name::length` (name.hpp 164-170): `i` is the round, `l` the last round with a
non-zero top character. -/
def lengthLoop : Nat → Nat → Nat → Nat → Nat
  | 0, _, l, _ => l
  | k + 1, i, l, v => lengthLoop k (i + 1) (if v >>> 59 > 0 then i else l) ((v <<< 5) % U64)

/-- `name::length` (name.hpp 158-173). -/
def nameLength (v : Nat) : Nat := if v = 0 then 0 else lengthLoop 13 0 0 v + 1

/-- `char_to_symbol` (name.hpp 12-18), used by the `N`/`NAME` macro: anything else counts as zero. -/
def charToSymbol (c : Char) : Nat :=
  if 'a' ≤ c ∧ c ≤ 'z' then c.toNat - 'a'.toNat + 6
  else if '1' ≤ c ∧ c ≤ '5' then c.toNat - '1'.toNat + 1
  else 0

/-- The loop of `string_to_name` (name.hpp 27-32), `i` characters done. -/
def macroFold : Nat → Nat → List Char → Nat
  | _, v, [] => v
  | i, v, c :: cs => macroFold (i + 1) (v ||| ((charToSymbol c &&& 31) <<< (64 - 5 * (i + 1)))) cs

/-- `string_to_name` (name.hpp 24-40), the `NAME` macro. -/
def macroName (s : List Char) : Nat :=
  match s.drop 12 with
  | [] => macroFold 0 0 (s.take 12)
  | c :: _ => macroFold 0 0 (s.take 12) ||| (charToSymbol c &&& 15)

/-! ## Variable length integers (`datastream.hpp`) -/

/-- Result of reading from the stream: a value with the remaining bytes, a failed bounds `check`, or
an operation C++ leaves undefined. Every result carries the largest element count handed to
`resize` on the way. -/
inductive Res (α : Type) where
  | ok (v : α) (rest : List Nat) (alloc : Nat)
  | stop (alloc : Nat)
  | undef
deriving DecidableEq, Repr

/-- `operator<<(unsigned_int)` (datastream.hpp 1069-1079). -/
def putVar (v : Nat) : List Nat :=
  if h : v < 128 then [v] else (v % 128 + 128) :: putVar (v / 128)
termination_by v
decreasing_by omega

/-- The loop of `operator>>(unsigned_int)` (datastream.hpp 1094-1098): `v` so far, `by` bits done.
`uint32_t << by` is undefined once `by` reaches 32. -/
def getVarLoop : Nat → Nat → List Nat → Res Nat
  | _, _, [] => .stop 0
  | v, sh, b :: bs =>
    if 32 ≤ sh then .undef
    else
      let v' := v ||| ((b % 128) <<< sh) % 2 ^ 32
      if 128 ≤ b then getVarLoop v' (sh + 7) bs else .ok v' bs 0

/-- `operator>>(unsigned_int)` (datastream.hpp 1089-1101). -/
def getVar (bs : List Nat) : Res Nat := getVarLoop 0 0 bs

/-- `uint32_t` of an `int32_t`. -/
def asU32 (v : Int) : Nat := (v % 2 ^ 32).toNat

/-- `int32_t` of a `uint32_t`. -/
def asI32 (v : Nat) : Int := if v % 2 ^ 32 < 2 ^ 31 then (v % 2 ^ 32 : Nat) else ((v % 2 ^ 32 : Nat) : Int) - 2 ^ 32

/-- `operator<<(signed_int)` (datastream.hpp 1112-1122): zig-zag, then seven bits at a time. -/
def putSVar (v : Int) : List Nat :=
  putVar (asU32 (2 * v) ^^^ asU32 (if v < 0 then -1 else 0))

/-- `(v >> 1) ^ (~(v & 1) + 1ull)` stored in an `int32_t` (datastream.hpp 1142). -/
def unzig (v : Nat) : Int := asI32 ((v / 2) ^^^ ((2 ^ 32 - 1 - v % 2) + 1))

/-- `operator>>(signed_int)` (datastream.hpp 1132-1144). -/
def getSVar (bs : List Nat) : Res Int :=
  match getVar bs with
  | .ok v r a => .ok (unzig v) r a
  | .stop a => .stop a
  | .undef => .undef

/-! ## Types on the stream -/

/-- The types of action data handled here: fixed width integers (and enums, hashes, names: `n`
bytes, least significant first), `bool`, `unsigned_int`, `signed_int`, `string`/`vector<char>`,
`vector<T>`, `optional<T>`, `pair`/tuple and the empty tuple. -/
inductive Ty where
  | fixed (n : Nat)
  | bool
  | varu
  | vari
  | str
  | vec (t : Ty)
  | opt (t : Ty)
  | pair (a b : Ty)
  | unit
deriving DecidableEq, Repr

/-- The C++ values of a type. -/
def Ty.Val : Ty → Type
  | .fixed _ => Nat
  | .bool => Bool
  | .varu => Nat
  | .vari => Int
  | .str => List Nat
  | .vec t => List t.Val
  | .opt t => Option t.Val
  | .pair a b => a.Val × b.Val
  | .unit => Unit

/-- `n` bytes of a little-endian integer. -/
def putFixed : Nat → Nat → List Nat
  | 0, _ => []
  | n + 1, v => v % 256 :: putFixed n (v / 256)

/-- `ds << v` (datastream.hpp 445-452, 484-487, 651-657, 793-816, 979-999, 1036-1079, 1112-1122). -/
def pack : (t : Ty) → t.Val → List Nat
  | .fixed n, v => putFixed n v
  | .bool, v => [if (show Bool from v) then 1 else 0]
  | .varu, v => putVar v
  | .vari, v => putSVar v
  | .str, v => putVar (List.length v) ++ (show List Nat from v)
  | .vec t, v => putVar (List.length v) ++ (List.map (pack t) v).flatten
  | .opt t, v => match v with
    | none => [0]
    | some x => 1 :: pack t x
  | .pair a b, v => pack a v.1 ++ pack b v.2
  | .unit, _ => []

/-- Little-endian value of the first `n` bytes. -/
def fromBytes : List Nat → Nat
  | [] => 0
  | b :: bs => b + 256 * fromBytes bs

/-- `datastream::read` (datastream.hpp 62-67): all `n` bytes or a failed check. -/
def take (n : Nat) (bs : List Nat) : Res (List Nat) :=
  if bs.length < n then .stop 0 else .ok (bs.take n) (bs.drop n) 0

/-- Continue with `f` after a read, keeping the larger allocation. -/
def Res.bind (r : Res α) (f : α → List Nat → Res β) : Res β :=
  match r with
  | .ok v rest a =>
    match f v rest with
    | .ok w rest' b => .ok w rest' (max a b)
    | .stop b => .stop (max a b)
    | .undef => .undef
  | .stop a => .stop a
  | .undef => .undef

/-- `resize(n)` before the elements are read: `n` elements are asked for. -/
def Res.asked (n : Nat) (r : Res α) : Res α :=
  match r with
  | .ok v rest a => .ok v rest (max n a)
  | .stop a => .stop (max n a)
  | .undef => .undef

/-- `n` times the element reader. -/
def readN (f : List Nat → Res α) : Nat → List Nat → Res (List α)
  | 0, bs => .ok [] bs 0
  | n + 1, bs => (f bs).bind fun v r => (readN f n r).bind fun vs r' => .ok (v :: vs) r' 0

/-- `ds >> v` (datastream.hpp 463-473, 498-504, 668-675, 827-876, 1001-1023, 1053-1058, 1089-1101,
1132-1144): the containers are resized to the announced count before the first element is read. -/
def unpack : (t : Ty) → List Nat → Res t.Val
  | .fixed n, bs => (take n bs).bind fun b r => .ok (fromBytes b) r 0
  | .bool, bs => (take 1 bs).bind fun b r => .ok (decide (fromBytes b ≠ 0)) r 0
  | .varu, bs => getVar bs
  | .vari, bs => getSVar bs
  | .str, bs => (getVar bs).bind fun n r => (take n r).asked n
  | .vec t, bs => (getVar bs).bind fun n r => (readN (unpack t) n r).asked n
  | .opt t, bs => (take 1 bs).bind fun b r =>
      if fromBytes b ≠ 0 then (unpack t r).bind fun v r' => .ok (some v) r' 0 else .ok none r 0
  | .pair a b, bs => (unpack a bs).bind fun x r => (unpack b r).bind fun y r' => .ok (x, y) r' 0
  | .unit, bs => .ok () bs 0

end Verif.Abi
