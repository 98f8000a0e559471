/-!
# Addresses and subnets

Models `CNetAddr`, `CService` and `CSubNet` (src/netbase.cpp 564-1150, src/netbase.h 25-155).

An address is the list of its 16 bytes; a port is a number below 65536. `memcmp(p, q, n) == 0` is equality of the first `n` bytes.
Left out: sockets, name resolution, and the text of addresses.
-/
namespace Verif.Ip

/-- `GetByte` (netbase.cpp 606). -/
def getByte (ip : List Nat) (n : Nat) : Nat := ip.getD (15 - n) 0

/-- `pchIPv4`, `pchOnionCat` (netbase.cpp 35, 568). -/
def pchIPv4 : List Nat := [0, 0, 0, 0, 0, 0, 0, 0, 0, 0, 0xff, 0xff]
def pchOnionCat : List Nat := [0xFD, 0x87, 0xD8, 0x7E, 0xEB, 0x43]

/-- `IsIPv4` (netbase.cpp 608). -/
def isIPv4 (ip : List Nat) : Bool := ip.take 12 == pchIPv4

/-- `IsTor` (netbase.cpp 650). -/
def isTor (ip : List Nat) : Bool := ip.take 6 == pchOnionCat

/-- `IsIPv6` (netbase.cpp 610). -/
def isIPv6 (ip : List Nat) : Bool := !isIPv4 ip && !isTor ip

/-- `IsRFC1918` (netbase.cpp 612-615). -/
def isRFC1918 (ip : List Nat) : Bool :=
  isIPv4 ip && (getByte ip 3 == 10 || (getByte ip 3 == 192 && getByte ip 2 == 168) ||
    (getByte ip 3 == 172 && (decide (getByte ip 2 ≥ 16) && decide (getByte ip 2 ≤ 31))))

/-- `IsRFC3927` (netbase.cpp 617). -/
def isRFC3927 (ip : List Nat) : Bool := isIPv4 ip && (getByte ip 3 == 169 && getByte ip 2 == 254)

/-- `IsRFC3849` (netbase.cpp 619-621). -/
def isRFC3849 (ip : List Nat) : Bool := getByte ip 15 == 0x20 && getByte ip 14 == 0x01 && getByte ip 13 == 0x0D && getByte ip 12 == 0xB8

/-- `IsRFC3964` (netbase.cpp 623). -/
def isRFC3964 (ip : List Nat) : Bool := getByte ip 15 == 0x20 && getByte ip 14 == 0x02

/-- `IsRFC6052` (netbase.cpp 625-628). -/
def isRFC6052 (ip : List Nat) : Bool := ip.take 12 == [0, 0x64, 0xFF, 0x9B, 0, 0, 0, 0, 0, 0, 0, 0]

/-- `IsRFC4380` (netbase.cpp 630-632). -/
def isRFC4380 (ip : List Nat) : Bool := getByte ip 15 == 0x20 && getByte ip 14 == 0x01 && getByte ip 13 == 0 && getByte ip 12 == 0

/-- `IsRFC4862` (netbase.cpp 634-637). -/
def isRFC4862 (ip : List Nat) : Bool := ip.take 8 == [0xFE, 0x80, 0, 0, 0, 0, 0, 0]

/-- `IsRFC4193` (netbase.cpp 639). -/
def isRFC4193 (ip : List Nat) : Bool := (getByte ip 15 &&& 0xFE) == 0xFC

/-- `IsRFC6145` (netbase.cpp 641-644). -/
def isRFC6145 (ip : List Nat) : Bool := ip.take 12 == [0, 0, 0, 0, 0, 0, 0, 0, 0xFF, 0xFF, 0, 0]

/-- `IsRFC4843` (netbase.cpp 646-648). -/
def isRFC4843 (ip : List Nat) : Bool :=
  getByte ip 15 == 0x20 && getByte ip 14 == 0x01 && getByte ip 13 == 0x00 && (getByte ip 12 &&& 0xF0) == 0x10

/-- `IsLocal` (netbase.cpp 652-663). -/
def isLocal (ip : List Nat) : Bool :=
  if isIPv4 ip && (getByte ip 3 == 127 || getByte ip 3 == 0) then true
  else if ip.take 16 == [0, 0, 0, 0, 0, 0, 0, 0, 0, 0, 0, 0, 0, 0, 0, 1] then true
  else false

/-- `IsMulticast` (netbase.cpp 665). -/
def isMulticast (ip : List Nat) : Bool := (isIPv4 ip && (getByte ip 3 &&& 0xF0) == 0xE0) || getByte ip 15 == 0xFF

/-- `IsValid` (netbase.cpp 667-699). -/
def isValid (ip : List Nat) : Bool :=
  if ip.take 9 == pchIPv4.drop 3 then false
  else if ip.take 16 == List.replicate 16 0 then false
  else if isRFC3849 ip then false
  else if isIPv4 ip && (ip.drop 12).take 4 == [255, 255, 255, 255] then false
  else if isIPv4 ip && (ip.drop 12).take 4 == [0, 0, 0, 0] then false
  else true

/-- `IsRoutable` (netbase.cpp 701-704). -/
def isRoutable (ip : List Nat) : Bool :=
  isValid ip && !(isRFC1918 ip || isRFC3927 ip || isRFC4862 ip || (isRFC4193 ip && !isTor ip) || isRFC4843 ip || isLocal ip)

/-- `enum Network` (netbase.h 25-32): 0 unroutable, 1 IPv4, 2 IPv6, 3 Tor. `GetNetwork` (netbase.cpp 706-714). -/
def getNetwork (ip : List Nat) : Nat := if !isRoutable ip then 0 else if isIPv4 ip then 1 else if isTor ip then 3 else 2

/-- The end of `GetGroup` (netbase.cpp 807-815): the class, the full bytes, and the last bits. -/
def groupBytes (ip : List Nat) (cls start nBits : Nat) : List Nat :=
  cls :: ((List.range (nBits / 8)).map (fun i => getByte ip (15 - (start + i))) ++
    if nBits % 8 > 0 then [getByte ip (15 - (start + nBits / 8)) ||| (1 <<< (nBits % 8) - 1)] else [])

/-- `GetGroup` (netbase.cpp 757-818). The class of local addresses is overwritten in each branch but the last ones. -/
def getGroup (ip : List Nat) : List Nat :=
  let cls := if isLocal ip then 255 else 2
  if !isRoutable ip then groupBytes ip 0 0 0
  else if isIPv4 ip || isRFC6145 ip || isRFC6052 ip then groupBytes ip 1 12 (if isLocal ip then 0 else 16)
  else if isRFC3964 ip then groupBytes ip 1 2 (if isLocal ip then 0 else 16)
  else if isRFC4380 ip then [1, getByte ip 3 ^^^ 0xFF, getByte ip 2 ^^^ 0xFF]
  else if isTor ip then groupBytes ip 3 6 4
  else if getByte ip 15 == 0x20 && getByte ip 14 == 0x01 && getByte ip 13 == 0x04 && getByte ip 12 == 0x70 then groupBytes ip cls 0 36
  else groupBytes ip cls 0 32

/-- `memcmp(a, b, n) < 0` on lists of the same length. -/
def bytesLt : List Nat → List Nat → Bool
  | x :: a, y :: b => if x < y then true else if y < x then false else bytesLt a b
  | _, _ => false

/-- `operator==`, `operator<` and `GetKey` of `CService` (netbase.cpp 973-979, 1008-1015); an address with its port. -/
def svcEq (a b : List Nat × Nat) : Bool := a.1 == b.1 && a.2 == b.2
def svcLt (a b : List Nat × Nat) : Bool := bytesLt a.1 b.1 || (a.1 == b.1 && decide (a.2 < b.2))
def getKey (a : List Nat × Nat) : List Nat := a.1 ++ [a.2 / 0x100 % 256, a.2 &&& 0xFF]

/-- `CSubNet` (netbase.h 116-122). -/
structure SubNet where
  network : List Nat
  netmask : List Nat
  valid : Bool
deriving DecidableEq

def andBytes (a b : List Nat) : List Nat := List.zipWith (· &&& ·) a b

/-- The loop that clears the bits from `n` on (netbase.cpp 1051-1052); the first argument is the number of rounds. -/
def clearBits : Nat → Nat → List Nat → List Nat
  | 0, _, m => m
  | k + 1, n, m => clearBits k (n + 1) (m.set (n / 8) (m.getD (n / 8) 0 &&& (255 - 1 <<< (7 - n % 8))))

def startOfs (ip : List Nat) : Nat := if isIPv4 ip then 12 else 0

/-- `CSubNet(addr, int mask)` (netbase.cpp 1037-1058). -/
def subBits (addr : List Nat) (mask : Int) : SubNet :=
  let ofs := startOfs addr
  if mask ≥ 0 ∧ mask ≤ 128 - ofs * 8 then
    let n := mask.toNat + ofs * 8
    let m := clearBits (128 - n) n (List.replicate 16 255)
    { network := andBytes addr m, netmask := m, valid := true }
  else
    { network := andBytes addr (List.replicate 16 255), netmask := List.replicate 16 255, valid := false }

/-- `CSubNet(addr, CNetAddr mask)` (netbase.cpp 1060-1075). -/
def subMask (addr mask : List Nat) : SubNet :=
  let m := List.replicate (startOfs addr) 255 ++ mask.drop (startOfs addr)
  { network := andBytes addr m, netmask := m, valid := true }

/-- `CSubNet(addr)` (netbase.cpp 1077-1080). -/
def subOne (addr : List Nat) : SubNet := { network := addr, netmask := List.replicate 16 255, valid := isValid addr }

/-- `Match` (netbase.cpp 1082-1089). -/
def subMatch (s : SubNet) (addr : List Nat) : Bool :=
  if !s.valid || !isValid addr then false else andBytes addr s.netmask == s.network

/-- `NetmaskBits` (netbase.cpp 1091-1104). -/
def netmaskBits (x : Nat) : Option Nat :=
  if x = 0 then some 0 else if x = 0x80 then some 1 else if x = 0xc0 then some 2 else if x = 0xe0 then some 3
  else if x = 0xf0 then some 4 else if x = 0xf8 then some 5 else if x = 0xfc then some 6 else if x = 0xfe then some 7
  else if x = 0xff then some 8 else none

/-- The loops of `ToString` (netbase.cpp 1108-1121) over the mask from its offset: the number of bits, or none if the mask is written out. -/
def cidr : List Nat → Option Nat
  | [] => some 0
  | x :: m => if x = 0xff then (cidr m).map (8 + ·) else
    match netmaskBits x with
    | none => none
    | some b => if m.all (· == 0) then some b else none

/-- What `ToString` prints after the slash: a number of bits or the bytes of the mask. -/
def maskText (s : SubNet) : Nat ⊕ List Nat :=
  match cidr (s.netmask.drop (startOfs s.network)) with
  | some n => .inl n
  | none => .inr (s.netmask.drop (startOfs s.network))

/-- `operator==` and `operator<` of `CSubNet` (netbase.cpp 1143-1149). -/
def subEq (a b : SubNet) : Bool := a.valid == b.valid && a.network == b.network && a.netmask == b.netmask
def subLt (a b : SubNet) : Bool := bytesLt a.network b.network || (a.network == b.network && bytesLt a.netmask b.netmask)

end Verif.Ip
