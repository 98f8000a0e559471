import Verif.Ip.Model
import Verif.Text.Model

/-!
# Base 32 and names of Tor services

Models `EncodeBase32`, `DecodeBase32` (src/commons/util/util.cpp 364-536) and their use for names of Tor services: `CNetAddr::SetSpecial`
(src/netbase.cpp 570-581) and the first case of `CNetAddr::ToStringIP` (716-718). Texts have no zero bytes. Bits joined by `|` are disjoint.
-/
namespace Verif.Text

/-- `pbase32` -/
def char32 (d : Nat) : Nat := if d < 26 then d + 97 else d + 24

/-- `decode32_table` -/
def digit32 (c : Nat) : Option Nat :=
  if 97 ≤ c ∧ c ≤ 122 then some (c - 97)
  else if 65 ≤ c ∧ c ≤ 90 then some (c - 65)
  else if 50 ≤ c ∧ c ≤ 55 then some (c - 24)
  else none

/-- `nPadding` -/
def padding32 (mode : Nat) : Nat := [0, 6, 4, 3, 1].getD mode 0

/-- `EncodeBase32`: mode, bits left over, data -/
def enc32 : Nat → Nat → List Nat → List Nat
  | mode, left, [] => if mode = 0 then [] else char32 left :: List.replicate (padding32 mode) 61
  | mode, left, x :: xs =>
    if mode = 0 then char32 (x / 8) :: enc32 1 (x % 8 * 4) xs
    else if mode = 1 then char32 (left + x / 64) :: char32 (x / 2 % 32) :: enc32 2 (x % 2 * 16) xs
    else if mode = 2 then char32 (left + x / 16) :: enc32 3 (x % 16 * 2) xs
    else if mode = 3 then char32 (left + x / 128) :: char32 (x / 4 % 32) :: enc32 4 (x % 4 * 8) xs
    else char32 (left + x / 32) :: char32 (x % 32) :: enc32 0 left xs

def encode32 (bs : List Nat) : List Nat := enc32 0 0 bs

/-- One step of `DecodeBase32`: the byte written if any, the next mode and the bits left over -/
def step32 (mode left d : Nat) : Option Nat × Nat × Nat :=
  if mode = 0 then (none, 1, d)
  else if mode = 1 then (some (left * 8 + d / 4), 2, d % 4)
  else if mode = 2 then (none, 3, left * 32 + d)
  else if mode = 3 then (some (left * 2 + d / 16), 4, d % 16)
  else if mode = 4 then (some (left * 16 + d / 2), 5, d % 2)
  else if mode = 5 then (none, 6, left * 32 + d)
  else if mode = 6 then (some (left * 4 + d / 8), 7, d % 8)
  else (some (left * 32 + d), 0, left)

/-- The loop of `DecodeBase32`: the bytes, and mode, left over bits and text where it stops -/
def dec32 : Nat → Nat → List Nat → List Nat × Nat × Nat × List Nat
  | mode, left, [] => ([], mode, left, [])
  | mode, left, c :: cs =>
    match digit32 c with
    | none => ([], mode, left, c :: cs)
    | some d =>
      let s := step32 mode left d
      let r := dec32 s.2.1 s.2.2 cs
      (s.1.toList ++ r.1, r.2)

/-- No character of the alphabet comes next. -/
def stop32 (s : List Nat) : Bool := match s with
  | [] => true
  | c :: _ => (digit32 c).isNone

/-- The end of a text after `n` characters of padding -/
def pad32 (left : Nat) (rest : List Nat) (n : Nat) : Bool := left == 0 && rest.take n == List.replicate n 61 && stop32 (rest.drop n)

/-- The check at the end of `DecodeBase32` -/
def valid32 (mode left : Nat) (rest : List Nat) : Bool :=
  if mode = 0 then true
  else if mode = 2 then pad32 left rest 6
  else if mode = 4 then pad32 left rest 4
  else if mode = 5 then pad32 left rest 3
  else if mode = 7 then pad32 left rest 1
  else false

/-- `DecodeBase32`: the bytes, and whether the text is valid -/
def decode32 (s : List Nat) : List Nat × Bool :=
  let r := dec32 0 0 s
  (r.1, valid32 r.2.1 r.2.2.1 r.2.2.2)

/-- ".onion" -/
def onion : List Nat := [46, 111, 110, 105, 111, 110]

/-- `CNetAddr::SetSpecial`; the validity of the text is not asked for. -/
def setSpecial (name : List Nat) : Option (List Nat) :=
  if 6 < name.length ∧ name.drop (name.length - 6) = onion then
    let v := (decode32 (name.take (name.length - 6))).1
    if v.length ≠ 10 then none else some (Ip.pchOnionCat ++ v)
  else none

/-- `CNetAddr::ToStringIP` of a Tor address -/
def torName (ip : List Nat) : List Nat := encode32 (ip.drop 6) ++ onion

end Verif.Text
