/-!
Numbers in contract code (LEB128).  Model of `varuint<N>` and `varint<N>`,
/repo/src/vm/wasm/eos-vm/include/eosio/vm/leb128.hpp:13-22 (`bytes_needed`), 51-70, 74-88 (unsigned),
123-143, 148-162, 188-202 (signed), as used by parser.hpp:29-39.

The code pointer is the list of bytes left; every failed assertion makes the contract invalid, which
one it was is left out (`none`).  The encoders (leb128.hpp:35-49, 111-121) are not called by the node.
-/

namespace Verif.Vm

/-! ### The standard (core specification 1.0, section 5.2.2) -/

/-- an unsigned `N`-bit number and the bytes behind it -/
def uSpec (N : Nat) : List Nat → Option (Nat × List Nat)
  | [] => none
  | n :: r =>
      if n < 2 ^ 7 then
        if n < 2 ^ N then some (n, r) else none
      else if N > 7 then
        match uSpec (N - 7) r with
        | some (m, r') => some (2 ^ 7 * m + (n - 2 ^ 7), r')
        | none => none
      else none

/-- a signed `N`-bit number and the bytes behind it -/
def sSpec (N : Nat) : List Nat → Option (Int × List Nat)
  | [] => none
  | n :: r =>
      if n < 2 ^ 6 then
        if n < 2 ^ (N - 1) then some (n, r) else none
      else if n < 2 ^ 7 then
        if (2 : Int) ^ 7 - 2 ^ (N - 1) ≤ n then some ((n : Int) - 2 ^ 7, r) else none
      else if N > 7 then
        match sSpec (N - 7) r with
        | some (m, r') => some (2 ^ 7 * m + ((n : Int) - 2 ^ 7), r')
        | none => none
      else none

/-! ### The code -/

/-- leb128.hpp:13-22 -/
def bytesNeeded (N : Nat) : Nat :=
  if N = 1 ∨ N = 7 then 1 else if N = 32 then 5 else 10

/-- `static_cast<uint8_t>(~(uint32_t)0 << offset) & 0x7F` -/
def unusedMask (N : Nat) : Nat :=
  ((2 ^ 32 - 1) * 2 ^ (N - 7 * (bytesNeeded N - 1))) % 2 ^ 32 % 256 &&& 0x7f

/-- leb128.hpp:51-70: the stored bytes and the bytes left.  `cnt` is the loop counter. -/
def scanU (N cnt : Nat) : List Nat → Option (List Nat × List Nat)
  | [] => none
  | b :: r =>
      if cnt < bytesNeeded N then
        if b &&& 0x80 = 0 then
          if cnt + 1 = bytesNeeded N ∧ unusedMask N &&& b ≠ 0 then none else some ([b], r)
        else (scanU N (cnt + 1) r).map fun p => (b :: p.1, p.2)
      else none

/-- leb128.hpp:123-143 -/
def scanS (N cnt : Nat) : List Nat → Option (List Nat × List Nat)
  | [] => none
  | b :: r =>
      if cnt < bytesNeeded N then
        if b &&& 0x80 = 0 then
          let expected := if b &&& 2 ^ (N - 7 * (bytesNeeded N - 1) - 1) ≠ 0 then unusedMask N else 0
          if cnt + 1 = bytesNeeded N ∧ unusedMask N &&& b ≠ expected then none else some ([b], r)
        else (scanS N (cnt + 1) r).map fun p => (b :: p.1, p.2)
      else none

/-- the loop of `to()`, from the last byte to the first (leb128.hpp:80-88, 189-194), in a type of `B`
bits -/
def gather (B : Nat) (st : List Nat) : BitVec B :=
  st.foldr (fun b ret => (ret <<< 7) ||| BitVec.ofNat B (b &&& 0x7f)) 0#B

/-- `to()` of the unsigned numbers (leb128.hpp:74-88) -/
def toU (N : Nat) (st : List Nat) : Nat :=
  if N = 1 then (if st.headD 0 ≠ 0 then 1 else 0)
  else if N = 7 then st.headD 0 &&& 0x7f
  else (gather 32 st).toNat

/-- `to()` of the signed numbers (leb128.hpp:151-162, 188-202) -/
def toS (N : Nat) (st : List Nat) : Int :=
  if N = 7 then
    (if st.headD 0 &&& 0x40 ≠ 0 then
      BitVec.ofNat 8 (st.headD 0 ||| (2 ^ 32 - 1) * 2 ^ 7 % 2 ^ 32) else BitVec.ofNat 8 (st.headD 0)).toInt
  else
    let ret := gather N st
    (if st.length < bytesNeeded N ∧ st.getLastD 0 &&& 0x40 ≠ 0 then
      ret ||| ((-1#64) <<< (st.length * 7)).setWidth N else ret).toInt

/-- `varuint<N>(code).to()` -/
def readU (N : Nat) (code : List Nat) : Option (Nat × List Nat) :=
  (scanU N 0 code).map fun p => (toU N p.1, p.2)

/-- `varint<N>(code).to()` -/
def readS (N : Nat) (code : List Nat) : Option (Int × List Nat) :=
  (scanS N 0 code).map fun p => (toS N p.1, p.2)

end Verif.Vm
