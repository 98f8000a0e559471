import Verif.Ip.Model

/-!
# Own addresses

Models `AddLocal`, `SeenLocal`, `IsLimited` (src/net.cpp 168-226), `GetLocal` (src/p2p/node.cpp 106-125), `GetExtNetwork` and
`CNetAddr::GetReachabilityFrom` (src/netbase.cpp 824-910). Simplifications: `mapLocalHost` is a list without order, so which of several equally good
addresses is told is not modelled; scores are integers without limit; the limits (`-onlynet`) and `-discover` are fixed before the first address is added.
-/
namespace Verif.Peer

/-- An own address: address, score, port -/
structure Own where
  ip : List Nat
  score : Int
  port : Nat
  deriving DecidableEq, Repr

structure Config where
  discover : Bool
  limited : Nat → Bool
  listen : Bool

/-- `AddLocal`; `LOCAL_MANUAL` is 5. -/
def addLocal (cfg : Config) (m : List Own) (ip : List Nat) (port : Nat) (score : Int) : List Own :=
  if !Ip.isRoutable ip then m
  else if !cfg.discover && decide (score < 5) then m
  else if cfg.limited (Ip.getNetwork ip) then m
  else if m.any (fun o => o.ip == ip) then
    m.map (fun o => if o.ip == ip && decide (o.score ≤ score) then { o with score := score + 1, port := port } else o)
  else m ++ [⟨ip, score, port⟩]

/-- `SeenLocal` -/
def seenLocal (m : List Own) (ip : List Nat) : List Own := m.map (fun o => if o.ip == ip then { o with score := o.score + 1 } else o)

/-- `GetExtNetwork`: 4 unknown, 5 Teredo (`NET_MAX` is 4) -/
def extNetwork (ip : Option (List Nat)) : Nat := match ip with
  | none => 4
  | some ip => if Ip.isRFC4380 ip then 5 else Ip.getNetwork ip

/-- `GetReachabilityFrom`: 0 unreachable, 1 default, 2 Teredo, 3 weak IPv6, 4 IPv4, 5 strong IPv6, 6 private -/
def reach (ip : List Nat) (peer : Option (List Nat)) : Int :=
  if !Ip.isRoutable ip then 0
  else
    let our := extNetwork (some ip)
    let their := extNetwork peer
    let tunnel := Ip.isRFC3964 ip || Ip.isRFC6052 ip || Ip.isRFC6145 ip
    if their = 1 then (if our = 1 then 4 else 1)
    else if their = 2 then (if our = 5 then 2 else if our = 1 then 4 else if our = 2 then (if tunnel then 3 else 5) else 1)
    else if their = 3 then (if our = 1 then 4 else if our = 3 then 6 else 1)
    else if their = 5 then (if our = 5 then 2 else if our = 2 then 3 else if our = 1 then 4 else 1)
    else (if our = 5 then 2 else if our = 2 then 3 else if our = 1 then 4 else if our = 3 then 6 else 1)

/-- The best address so far: reachability, score, address -/
structure Best where
  reach : Int := -1
  score : Int := -1
  own : Option Own := none

def better (peer : Option (List Nat)) (b : Best) (o : Own) : Best :=
  if b.reach < reach o.ip peer ∨ (reach o.ip peer = b.reach ∧ b.score < o.score) then ⟨reach o.ip peer, o.score, some o⟩ else b

/-- `GetLocal` -/
def getLocal (cfg : Config) (m : List Own) (peer : Option (List Nat)) : Option Own :=
  if !cfg.listen then none
  else
    let b := m.foldl (better peer) {}
    if 0 ≤ b.score then b.own else none

inductive LocalOp where
  | add (ip : List Nat) (port : Nat) (score : Int)
  | seen (ip : List Nat)

def stepLocal (cfg : Config) (m : List Own) : LocalOp → List Own
  | .add ip port score => addLocal cfg m ip port score
  | .seen ip => seenLocal m ip

def runLocal (cfg : Config) (ops : List LocalOp) : List Own := ops.foldl (stepLocal cfg) []

end Verif.Peer
