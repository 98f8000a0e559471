import Verif.Util.U64
/-!
# Symbols, amounts and account numbers as text

Sources: `src/vm/wasm/types/{symbol,asset,regid}.hpp`. `none` is a failing `check`/`CHAIN_ASSERT`.
Text is a list of characters; C strings end at the first zero character. `strtoll` and `atoi` skip
blanks, take an optional sign and the digits that follow; `strtoll` reports a value out of range,
for `atoi` the behaviour is undefined (`none` here, so a theorem that needs it defined asks for it).
-/
namespace Verif.Abi
open Verif

/-! ## Digits -/

/-- The decimal digit character of `d`. -/
def digit (d : Nat) : Char := Char.ofNat (48 + d)

/-- `%ld` of a non-negative number. -/
def dec (n : Nat) : List Char :=
  if h : n < 10 then [digit n] else dec (n / 10) ++ [digit (n % 10)]
termination_by n
decreasing_by omega

/-- `%ld` of a signed number. -/
def decInt (v : Int) : List Char := if v < 0 then '-' :: dec v.natAbs else dec v.natAbs

/-- Is the character a decimal digit? -/
def isDig (c : Char) : Bool := decide (48 ≤ c.toNat ∧ c.toNat ≤ 57)

/-- The value of the leading digits, after `acc`. -/
def digits : Nat → List Char → Nat
  | acc, [] => acc
  | acc, c :: cs => if isDig c then digits (acc * 10 + (c.toNat - 48)) cs else acc

/-- Blanks skipped by `atoi`/`strtoll`. -/
def isBlank (c : Char) : Bool := decide (c = ' ' ∨ (9 ≤ c.toNat ∧ c.toNat ≤ 13))

/-- The number at the start of a text: blanks, sign, digits. -/
def number (s : List Char) : Int :=
  match s.dropWhile isBlank with
  | '-' :: cs => -(digits 0 cs : Int)
  | '+' :: cs => digits 0 cs
  | cs => digits 0 cs

/-- `strtoll`: `none` is `ERANGE`. -/
def strtoll (s : List Char) : Option Int :=
  let v := number s
  if -2 ^ 63 ≤ v ∧ v < 2 ^ 63 then some v else none

/-- `atoi`: `none` where C leaves the result undefined. -/
def atoi (s : List Char) : Option Int :=
  let v := number s
  if -2 ^ 31 ≤ v ∧ v < 2 ^ 31 then some v else none

/-! ## Symbols (`symbol.hpp`) -/

/-- `valid_character_in_symbol_name` (symbol.hpp 33-44). -/
def symChar (c : Char) : Bool :=
  decide (('0' ≤ c ∧ c ≤ '9') ∨ ('A' ≤ c ∧ c ≤ 'Z') ∨ ('a' ≤ c ∧ c ≤ 'z') ∨ c = '_' ∨ c = '@' ∨ c = '.' ∨ c = '#')

/-- A `symbol`: the 56-bit code and the precision byte. -/
structure Sym where
  code : Nat
  prec : Nat
deriving DecidableEq, Repr

/-- The characters of a code, first one lowest (symbol.hpp 56-61, 114-122). -/
def codeVal : List Char → Nat
  | [] => 0
  | c :: cs => c.toNat + 256 * codeVal cs

/-- `string_to_symbol` (symbol.hpp 46-67) on a C string. -/
def stringToSymbol (p : Nat) (str : List Char) : Option Sym :=
  let s := str.takeWhile (· ≠ '\x00')
  if s.length > 7 then none
  else if s.all symChar then some ⟨codeVal s, p⟩ else none

/-- The loop of `symbol_code::write_as_string` (symbol.hpp 193-199). -/
def codeTextLoop : Nat → Nat → List Char
  | 0, _ => []
  | k + 1, v => if v = 0 then [] else Char.ofNat (v % 256) :: codeTextLoop k (v / 256)

/-- `symbol_code::to_string` (symbol.hpp 209-213). -/
def codeText (v : Nat) : List Char := codeTextLoop 7 v

/-- All remaining bytes are zero: the inner loop of `is_valid` (symbol.hpp 136-142). -/
def restZero : Nat → Nat → Bool
  | 0, _ => true
  | k + 1, v => decide (v % 256 = 0) && restZero k (v / 256)

/-- The loop of `symbol_code::is_valid` (symbol.hpp 131-143) with `k` rounds left. -/
def codeValidLoop : Nat → Nat → Bool
  | 0, _ => true
  | k + 1, v =>
    if symChar (Char.ofNat (v % 256)) then
      if v / 256 % 256 = 0 then restZero (k + 1) (v / 256 / 256) else codeValidLoop k (v / 256)
    else false

/-- `symbol_code::is_valid` (symbol.hpp 129-145). -/
def codeValid (v : Nat) : Bool := codeValidLoop 7 v

/-- `symbol::is_valid` (symbol.hpp 338). -/
def Sym.valid (s : Sym) : Bool := codeValid s.code && decide (s.prec ≤ 18)

/-- `symbol::to_string` (symbol.hpp 374-391): `snprintf` into nine characters keeps eight. -/
def Sym.text (s : Sym) : List Char :=
  (dec s.prec ++ ',' :: (codeText s.code).takeWhile (· ≠ '\x00')).take 8

/-- `uint8_t` of an `int`. -/
def asU8 (v : Int) : Nat := (v % 256).toNat

/-- `symbol::from_string` (symbol.hpp 393-407); `trim` (symbol.hpp 27-31) drops its result. -/
def symOf (s : List Char) : Option Sym :=
  if s = [] then none
  else if ',' ∉ s then none
  else
    match atoi (s.takeWhile (· ≠ ',')) with
    | none => none
    | some p =>
      if asU8 p > 18 then none
      else stringToSymbol (asU8 p) ((s.dropWhile (· ≠ ',')).drop 1)

/-! ## Amounts (`asset.hpp`) -/

/-- `asset::max_amount` (asset.hpp 39). -/
def MAXA : Int := 9000000000000000000

/-- The `int64_t` with the same low 64 bits. -/
def i64 (v : Int) : Int := (v + 2 ^ 63) % 2 ^ 64 - 2 ^ 63

/-- An `asset` (asset.hpp 25-34). -/
structure Asset where
  amount : Int
  sym : Sym
deriving DecidableEq, Repr

/-- `is_amount_within_range` (asset.hpp 61). -/
def inRange (v : Int) : Bool := decide (-MAXA ≤ v ∧ v ≤ MAXA)

/-- `asset::is_valid` (asset.hpp 69). -/
def Asset.valid (a : Asset) : Bool := inRange a.amount && a.sym.valid

/-- `asset(int64_t, symbol)` (asset.hpp 49-53). -/
def mkAsset (v : Int) (s : Sym) : Option Asset :=
  if inRange v && s.valid then some ⟨v, s⟩ else none

/-- `operator+=` (asset.hpp 130-136): adds first, checks the range afterwards. -/
def Asset.add (a b : Asset) : Option Asset :=
  if a.sym ≠ b.sym then none
  else if inRange (i64 (a.amount + b.amount)) then some { a with amount := i64 (a.amount + b.amount) } else none

/-- `operator-=` (asset.hpp 99-105). -/
def Asset.sub (a b : Asset) : Option Asset :=
  if a.sym ≠ b.sym then none
  else if inRange (i64 (a.amount - b.amount)) then some { a with amount := i64 (a.amount - b.amount) } else none

/-- `operator*=` (asset.hpp 172-179): in 128 bits, then checked. -/
def Asset.mul (a : Asset) (k : Int) : Option Asset :=
  if inRange (a.amount * k) then some { a with amount := a.amount * k } else none

/-- `operator/=` (asset.hpp 217-222): towards zero. -/
def Asset.div (a : Asset) (k : Int) : Option Asset :=
  if k = 0 then none
  else if a.amount = -2 ^ 63 ∧ k = -1 then none
  else some { a with amount := a.amount.tdiv k }

/-- The loop that writes the fraction (asset.hpp 376-379): `p` digits, last one first. -/
def fracDigits : Nat → Nat → List Char
  | 0, _ => []
  | p + 1, v => fracDigits p (v / 10) ++ [digit (v % 10)]

/-- `asset::to_string` (asset.hpp 356-387). -/
def Asset.text (a : Asset) : List Char :=
  decInt (a.amount.tdiv (10 ^ a.sym.prec)) ++ (if a.sym.prec = 0 then [] else ['.']) ++
    fracDigits a.sym.prec (a.amount.tmod (10 ^ a.sym.prec)).natAbs ++ ' ' :: codeText a.sym.code

/-- The sign test on the integer part (asset.hpp 423, 432, 446): the text starts with a minus
exactly when the number is negative. -/
def signOk (s : List Char) (v : Int) : Bool := decide ((s.head? = some '-') ↔ v < 0)

/-- The last steps of `from_string` (asset.hpp 451-460): scale, two overflow checks, construct. -/
def finishAsset (int frac : Int) (sym : Sym) : Option Asset :=
  let p10 : Int := 10 ^ sym.prec
  let amount := i64 (int * p10)
  if int ≠ amount.tdiv p10 then none
  else
    let total := i64 (amount + frac)
    if total < frac then none else mkAsset total sym

/-- `asset::from_string` (asset.hpp 390-464). -/
def assetOf (s : List Char) : Option Asset :=
  if ' ' ∉ s then none
  else
    let amountStr := s.takeWhile (· ≠ ' ')
    let symStr := (s.dropWhile (· ≠ ' ')).drop 1
    if '.' ∈ amountStr then
      let intStr := amountStr.takeWhile (· ≠ '.')
      let fracStr := (amountStr.dropWhile (· ≠ '.')).drop 1
      if fracStr = [] then none
      else
        match symOf (dec fracStr.length ++ ',' :: symStr) with
        | none => none
        | some sym =>
          match strtoll intStr with
          | none => none
          | some int =>
            if signOk amountStr int then
              match strtoll fracStr with
              | none => none
              | some frac =>
                if frac < 0 then none
                else finishAsset int (if amountStr.head? = some '-' then -frac else frac) sym
            else none
    else
      match symOf ('0' :: ',' :: symStr) with
      | none => none
      | some sym =>
        match strtoll amountStr with
        | none => none
        | some int => if signOk amountStr int then finishAsset int 0 sym else none

/-! ## Account numbers (`regid.hpp`) -/

/-- `uint64_t` of an `int`. -/
def asU64 (v : Int) : Nat := (v % 2 ^ 64).toNat

/-- `regid(std::string_view)` (regid.hpp 69-79): `find` gives `npos` without a dash, which passes
`check(pos > 0)`; then both numbers are read from the start of the text. -/
def regidOf (s : List Char) : Option Nat :=
  if s.head? = some '-' then none
  else
    let idx := if '-' ∈ s then (s.dropWhile (· ≠ '-')).drop 1 else s
    match atoi s, atoi idx with
    | some h, some i => some (((asU64 h <<< 20) % U64 + asU64 i) % U64)
    | _, _ => none

/-- `regid::to_string` (regid.hpp 101-108). -/
def regidText (v : Nat) : List Char := dec (v >>> 20) ++ '-' :: dec (v &&& 0xFFFFF)

end Verif.Abi
