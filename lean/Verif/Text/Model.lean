import Mathlib.Data.List.Basic

/-!
# Text forms of keys, hashes, data and amounts

Code modelled (all under /repo/src):

* `DecodeBase58`, `EncodeBase58`, `EncodeBase58Check`, `DecodeBase58Check`, `CBase58Data::SetString`, `CCoinAddress`
  (commons/base58.cpp 20-190);
* `HexStr` (commons/util/util.h 222-235), `IsHex`, `ParseHex` (commons/util/util.cpp 209-233), `HexDigit` (uint256.h 20, util.cpp 188-207),
  `base_blob::GetHex`, `SetHex` (commons/uint256.cpp 18-54), `ParseHashV` (rpc/core/rpcserver.cpp 123-135),
  `RPC_PARAM::ParseHex` (rpc/core/rpccommons.cpp 727-760);
* `EncodeBase64`, `DecodeBase64` (commons/util/util.cpp 235-362);
* `ParseRpcInputMoney` and its helpers (rpc/core/rpccommons.cpp 26-184, rpccommons.h 144-147), the units (config/const.h 97-124),
  `GetComboMoney` (rpccommons.cpp 413-431), `AmountToRawValue` (rpc/core/rpcserver.cpp 104-111), `roundint64` (commons/util/util.h 218).

Conventions

* Texts and data are lists of bytes (numbers below 256). A `string` may contain zero bytes; `c_str()` ends at the first (`cstr`).
* `isspace` and `isdigit` are those of the standard locale.
* A failing assertion is the outcome `abort`.
* The four checksum bytes are a function of the data.
* Whole numbers in a `double` are numbers rounded to 53 binary digits, ties to even.
-/
namespace Verif.Text

def cstr (s : List Nat) : List Nat := s.takeWhile (· ≠ 0)

def space (c : Nat) : Bool := c == 32 || (decide (9 ≤ c) && decide (c ≤ 13))

/-! ## Base 58 -/

/-- `pszBase58` -/
def alphabet : List Nat :=
  [49, 50, 51, 52, 53, 54, 55, 56, 57, 65, 66, 67, 68, 69, 70, 71, 72, 74, 75, 76, 77, 78, 80, 81, 82, 83, 84, 85, 86, 87, 88, 89, 90,
   97, 98, 99, 100, 101, 102, 103, 104, 105, 106, 107, 109, 110, 111, 112, 113, 114, 115, 116, 117, 118, 119, 120, 121, 122]

/-- `strchr(pszBase58, c) - pszBase58` -/
def digit58 (c : Nat) : Option Nat := if c ∈ alphabet then some (alphabet.idxOf c) else none

def char58 (d : Nat) : Nat := alphabet.getD d 0

inductive Res (α : Type)
  | ok (a : α)
  | bad
  | abort
  deriving DecidableEq

/-- One pass over a buffer, last place first: multiply by `m`, add `c`; the buffer and the carry. -/
def addMul (base m : Nat) : List Nat → Nat → List Nat × Nat
  | [], c => ([], c)
  | d :: ds, c =>
    let t := c + m * d
    let r := addMul base m ds (t / base)
    (t % base :: r.1, r.2)

/-- The main loop of both conversions; the buffer is kept last place first. -/
def convert (base m : Nat) : List Nat → List Nat → Res (List Nat)
  | buf, [] => .ok buf
  | buf, x :: xs =>
    let r := addMul base m buf x
    if r.2 = 0 then convert base m r.1 xs else .abort

/-- The buffer first place first, without leading zeros. -/
def strip (buf : List Nat) : List Nat := buf.reverse.dropWhile (· == 0)

/-- `EncodeBase58` -/
def encode58 (bs : List Nat) : Res (List Nat) :=
  let zeroes := (bs.takeWhile (· == 0)).length
  let rest := bs.dropWhile (· == 0)
  match convert 58 256 (List.replicate (rest.length * 138 / 100 + 1) 0) rest with
  | .ok buf => .ok (List.replicate zeroes 49 ++ (strip buf).map char58)
  | .bad => .bad
  | .abort => .abort

/-- The decode loop: it fails at the first character outside the alphabet, before any later assertion. -/
def decodeLoop : List Nat → List Nat → Res (List Nat)
  | buf, [] => .ok buf
  | buf, c :: cs => match digit58 c with
    | none => .bad
    | some d =>
      let r := addMul 256 58 buf d
      if r.2 = 0 then decodeLoop r.1 cs else .abort

/-- `DecodeBase58` of a text without zero bytes -/
def decode58 (s : List Nat) : Res (List Nat) :=
  let s1 := s.dropWhile space
  let zeroes := (s1.takeWhile (· == 49)).length
  let rest := s1.dropWhile (· == 49)
  match decodeLoop (List.replicate (rest.length * 733 / 1000 + 1) 0) (rest.takeWhile (fun c => !space c)) with
  | .ok buf =>
    if (rest.dropWhile (fun c => !space c)).all space then .ok (List.replicate zeroes 0 ++ strip buf) else .bad
  | .bad => .bad
  | .abort => .abort

/-- `EncodeBase58Check` -/
def encodeCheck (ck : List Nat → List Nat) (d : List Nat) : Res (List Nat) := encode58 (d ++ ck d)

/-- `DecodeBase58Check` of a string -/
def decodeCheck (ck : List Nat → List Nat) (s : List Nat) : Res (List Nat) :=
  match decode58 (cstr s) with
  | .ok v =>
    if v.length < 4 then .bad
    else if ck (v.take (v.length - 4)) = v.drop (v.length - 4) then .ok (v.take (v.length - 4))
    else .bad
  | .bad => .bad
  | .abort => .abort

/-- `CKeyID::ToAddress`: version byte and 20 bytes of key hash -/
def toAddress (ck : List Nat → List Nat) (ver : Nat) (id : List Nat) : Res (List Nat) := encodeCheck ck (ver :: id)

/-- `CCoinAddress(text)` and `GetKeyId`; a failed decoding leaves no bytes. -/
def keyOfAddress (ck : List Nat → List Nat) (ver : Nat) (s : List Nat) : Res (List Nat) :=
  match decodeCheck ck s with
  | .ok [] => .bad
  | .ok (v :: id) => if id.length = 20 ∧ v = ver then .ok id else .bad
  | .bad => .bad
  | .abort => .abort

/-! ## Hexadecimal -/

/-- `HexDigit`; -1 is `none` -/
def hexDigit (c : Nat) : Option Nat :=
  if 48 ≤ c ∧ c ≤ 57 then some (c - 48)
  else if 97 ≤ c ∧ c ≤ 102 then some (c - 87)
  else if 65 ≤ c ∧ c ≤ 70 then some (c - 55)
  else none

/-- `hexmap` -/
def hexChar (d : Nat) : Nat := if d < 10 then d + 48 else d + 87

/-- `HexStr` without spaces -/
def hexStr (bs : List Nat) : List Nat := bs.flatMap fun b => [hexChar (b / 16), hexChar (b % 16)]

/-- `IsHex` -/
def isHex (s : List Nat) : Bool := s.all (fun c => (hexDigit c).isSome) && decide (s.length > 0) && decide (s.length % 2 = 0)

/-- `ParseHex` of a text without zero bytes: spaces between pairs are passed over; anything else ends it. -/
def parseHex : List Nat → List Nat
  | [] => []
  | [_] => []
  | c :: d :: s =>
    if space c then parseHex (d :: s)
    else match hexDigit c with
      | none => []
      | some a => match hexDigit d with
        | none => []
        | some b => (16 * a + b) :: parseHex s

/-- The second loop of `SetHex`: digits last first into `w` bytes. -/
def fillHex : Nat → List Nat → List Nat
  | 0, _ => []
  | w + 1, [] => 0 :: fillHex w []
  | w + 1, [a] => a :: fillHex w []
  | w + 1, a :: b :: ds => (a + 16 * b) :: fillHex w ds

/-- Passing over `0x` -/
def skip0x : List Nat → List Nat
  | 48 :: 120 :: s => s
  | 48 :: 88 :: s => s
  | s => s

/-- `SetHex` of a text without zero bytes, for `w` bytes -/
def setHex (w : Nat) (s : List Nat) : List Nat :=
  let s2 := skip0x (s.dropWhile space)
  fillHex w (((s2.takeWhile fun c => (hexDigit c).isSome).filterMap hexDigit).reverse)

/-- `GetHex` -/
def getHex (bs : List Nat) : List Nat := hexStr bs.reverse

/-- `ParseHashV` of a text -/
def parseHashV (s : List Nat) : Option (List Nat) := if isHex s then some (setHex 32 (cstr s)) else none

/-- The pair loop of `RPC_PARAM::ParseHex` -/
def hexPairs : List Nat → Option (List Nat)
  | [] => some []
  | [_] => none
  | c :: d :: s => match hexDigit c, hexDigit d, hexPairs s with
    | some a, some b, some r => some ((16 * a + b) :: r)
    | _, _, _ => none

/-- Spaces at both ends removed -/
def trim (s : List Nat) : List Nat := ((s.dropWhile space).reverse.dropWhile space).reverse

/-- `RPC_PARAM::ParseHex` -/
def rpcParseHex (s : List Nat) : Option (List Nat) :=
  let t := skip0x (trim s)
  if t.length % 2 ≠ 0 then none else hexPairs t

/-! ## Base 64 -/

/-- `pbase64` -/
def char64 (d : Nat) : Nat :=
  if d < 26 then d + 65 else if d < 52 then d + 71 else if d < 62 then d - 4 else if d = 62 then 43 else 47

/-- `decode64_table` -/
def digit64 (c : Nat) : Option Nat :=
  if 65 ≤ c ∧ c ≤ 90 then some (c - 65)
  else if 97 ≤ c ∧ c ≤ 122 then some (c - 71)
  else if 48 ≤ c ∧ c ≤ 57 then some (c + 4)
  else if c = 43 then some 62
  else if c = 47 then some 63
  else none

/-- `EncodeBase64`: mode, bits left over, data. The bits joined by `|` are disjoint. -/
def enc64 : Nat → Nat → List Nat → List Nat
  | mode, left, [] => if mode = 0 then [] else if mode = 1 then [char64 left, 61, 61] else [char64 left, 61]
  | mode, left, x :: xs =>
    if mode = 0 then char64 (x / 4) :: enc64 1 (x % 4 * 16) xs
    else if mode = 1 then char64 (left + x / 16) :: enc64 2 (x % 16 * 4) xs
    else char64 (left + x / 64) :: char64 (x % 64) :: enc64 0 left xs

def encode64 (bs : List Nat) : List Nat := enc64 0 0 bs

/-- The loop of `DecodeBase64`: the bytes, and mode, left over bits and text where it stops. -/
def dec64 : Nat → Nat → List Nat → List Nat × Nat × Nat × List Nat
  | mode, left, [] => ([], mode, left, [])
  | mode, left, c :: cs => match digit64 c with
    | none => ([], mode, left, c :: cs)
    | some d =>
      if mode = 0 then dec64 1 d cs
      else if mode = 1 then
        let r := dec64 2 (d % 16) cs
        ((left * 4 + d / 16) :: r.1, r.2)
      else if mode = 2 then
        let r := dec64 3 (d % 4) cs
        ((left * 16 + d / 4) :: r.1, r.2)
      else
        let r := dec64 0 left cs
        ((left * 64 + d) :: r.1, r.2)

/-- No character of the base 64 alphabet comes next. -/
def stop64 (s : List Nat) : Bool := match s with
  | [] => true
  | c :: _ => (digit64 c).isNone

/-- `DecodeBase64` of a text without zero bytes: the bytes, and whether the text is valid -/
def decode64 (s : List Nat) : List Nat × Bool :=
  let r := dec64 0 0 s
  let mode := r.2.1
  let left := r.2.2.1
  let rest := r.2.2.2
  (r.1,
    if mode = 0 then true
    else if mode = 1 then false
    else if mode = 2 then left == 0 && rest.take 2 == [61, 61] && stop64 (rest.drop 2)
    else left == 0 && rest.take 1 == [61] && stop64 (rest.drop 1))

/-! ## Amounts -/

/-- `std::getline` up to the delimiter, again and again: no empty last item. -/
def splitAt (d : Nat) : List Nat → List (List Nat)
  | [] => []
  | c :: s =>
    if c = d then [] :: splitAt d s
    else match s with
      | [] => [[c]]
      | x :: s' =>
        if x = d then [c] :: splitAt d s'
        else match splitAt d (x :: s') with
          | [] => [[c]]
          | w :: ws => (c :: w) :: ws

def isDigit (c : Nat) : Bool := decide (48 ≤ c) && decide (c ≤ 57)

def isNumber (s : List Nat) : Bool := !s.isEmpty && s.all isDigit

/-- The regular expression `([1-9][0-9]*|0)\.[0-9]+` -/
def isDecimal (s : List Nat) : Bool :=
  let a := s.takeWhile isDigit
  match s.dropWhile isDigit with
  | 46 :: b => isNumber b && (a == [48] || (!a.isEmpty && a.head? != some 48))
  | _ => false

/-- `CoinUnitPrecisionTable` -/
def units : List (List Nat × Nat) :=
  [([115, 97, 119, 105], 0), ([113, 117, 119, 105], 1), ([109, 117, 119, 105], 2), ([104, 117, 119, 105], 3), ([115, 105, 119, 105], 4),
   ([109, 105, 119, 105], 5), ([108, 101, 119, 105], 6), ([102, 101, 119, 105], 7), ([119, 105], 8), ([107, 119, 105], 11),
   ([109, 119, 105], 14)]

def lower (c : Nat) : Nat := if 65 ≤ c ∧ c ≤ 90 then c + 32 else c

def I64MAX : Nat := 9223372036854775807

/-- Digits, first place first -/
def numVal (s : List Nat) : Nat := s.foldl (fun n c => 10 * n + (c - 48)) 0

/-- `atoll` of digits: the library stops at the largest number. -/
def atoll (s : List Nat) : Nat := min (numVal s) I64MAX

/-- `pow10` for a number or decimal number -/
def pow10 (s : List Nat) (precision : Nat) : Option Nat :=
  let ip := s.takeWhile (· ≠ 46)
  let dp := (s.dropWhile (· ≠ 46)).drop 1
  if dp.length > precision then none
  else some (atoll (ip ++ dp ++ List.replicate (precision - dp.length) 48))

structure Money where
  symbol : List Nat
  amount : Nat
  deriving DecidableEq

def WICC : List Nat := [87, 73, 67, 67]
def WUSD : List Nat := [87, 85, 83, 68]

/-- `parseAmountAndUnit` -/
def amountAndUnit (amt unit sym : List Nat) : Option Money :=
  match units.lookup (unit.map lower) with
  | none => none
  | some p => match pow10 amt p with
    | none => none
    | some n => some ⟨sym, n⟩

/-- `parseSymbolAndAmount` -/
def symbolAndAmount (sym amt : List Nat) : Option Money :=
  if sym.length > 7 then none else some ⟨sym, atoll amt⟩

/-- `ParseRpcInputMoney` -/
def parseMoney (s dflt : List Nat) : Option Money :=
  match splitAt 58 s with
  | [a] => if isNumber a then some ⟨dflt, atoll a⟩ else none
  | [a, b] =>
    if isNumber a || isDecimal a then amountAndUnit a b WICC
    else if isNumber b then symbolAndAmount a b
    else none
  | [a, b, c] =>
    if a.length > 7 then none
    else if !isNumber b && !isDecimal b then none
    else amountAndUnit b c a
  | _ => none

/-- Rounding to 53 binary digits -/
def rne53 (x : Nat) : Nat :=
  let e := Nat.log2 x + 1 - 53
  let q := x / 2 ^ e
  let r := x % 2 ^ e
  if 2 * r < 2 ^ e ∨ (2 * r = 2 ^ e ∧ q % 2 = 0) then q * 2 ^ e else (q + 1) * 2 ^ e

/-- `roundint64` of a whole number in a double: half is added, in doubles, and the fraction dropped. -/
def roundInt (d : Nat) : Nat := if d = 0 then 0 else rne53 (2 * d + 1) / 2

/-- `BCOIN_MAX_MONEY` -/
def BCOIN_MAX : Nat := 210000000 * 100000000

/-- `GetComboMoney` of a JSON number that is a whole number -/
def moneyOfInt (n : Nat) (dflt : List Nat) : Option Money :=
  let a := roundInt (rne53 n)
  if a ≤ BCOIN_MAX then some ⟨dflt, a⟩ else none

end Verif.Text
