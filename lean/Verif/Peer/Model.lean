import Mathlib.Order.Defs.LinearOrder
import Mathlib.Data.Int.Order.Basic

/-!
# What a node remembers about its peers' clocks and about relayed transactions

Models
* `CMedianFilter` (src/commons/util/util.h 286-328) and `AddTimeData`, `GetTimeOffset`, `GetAdjustedTime` (src/commons/util/util.cpp 850-905), called
  for every version message (src/p2p/chainmessage.cpp 338) with the time the peer sends;
* the relay memory: `RelayTransaction` (src/net.cpp 1482-1495) and the answer to `getdata` from it (src/p2p/chainmessage.cpp 138-148).

Simplifications: addresses and inventory items are numbers; both readings of the clock in one call give the same time. Arithmetic outside int64_t is
undefined behaviour and ends a run (`none`). Logging is left out.
-/
namespace Verif.Peer

/-! ## Median filter -/

/-- `CMedianFilter::input`, `vValues` -/
def input {α : Type} (size : Nat) (values : List α) (v : α) : List α := (if values.length = size then values.drop 1 else values) ++ [v]

def place (x : Int) : List Int → List Int
  | [] => [x]
  | y :: ys => if x ≤ y then x :: y :: ys else y :: place x ys

/-- `vSorted` -/
def sorted (values : List Int) : List Int := values.foldr place []

/-- `CMedianFilter::median`; the assertion is `none`. -/
def median (values : List Int) : Option Int :=
  let s := sorted values
  if s.length = 0 then none
  else if s.length % 2 = 1 then some (s.getD (s.length / 2) 0)
  else some ((s.getD (s.length / 2 - 1) 0 + s.getD (s.length / 2) 0).tdiv 2)

/-! ## Clock -/

structure Clock where
  known : List Nat := []          -- setKnown
  values : List Int := [0]        -- vTimeOffsets(200, 0)
  offset : Int := 0               -- nTimeOffset
  warned : Bool := false          -- fDone, strMiscWarning
  deriving DecidableEq, Repr

def min64 : Int := -(2 ^ 63)
def max64 : Int := 2 ^ 63 - 1

/-- The samples can be evaluated by `abs64`. -/
def absFits (m : Int) (s : List Int) (warned : Bool) : Bool := m != min64 && (decide (m.natAbs ≤ 1) || warned || s.all (· != min64))

/-- The clock is off by more than a second from the middle of the peers, and nobody agrees with it. -/
def wrong (m : Int) (s : List Int) : Bool := decide (1 < m.natAbs) && !s.any (fun x => decide (x.natAbs ≤ 1))

/-- `AddTimeData` at time `now` -/
def addTimeData (c : Clock) (now : Int) (ip : Nat) (t : Int) : Option Clock :=
  let sample := t - now
  if sample < min64 ∨ max64 < sample then none
  else if ip ∈ c.known then some c
  else
    let values := input 200 c.values sample
    let c' := { c with known := ip :: c.known, values := values }
    if 5 ≤ values.length ∧ values.length % 2 = 1 then
      match median values with
      | none => none
      | some m =>
        if !absFits m (sorted values) c.warned then none
        else some { c' with warned := c.warned || wrong m (sorted values) }
    else some c'

/-- `GetAdjustedTime` -/
def adjustedTime (c : Clock) (now : Int) : Int := now + c.offset

/-! ## Relay memory -/

structure Relay where
  map : List (Nat × List Nat) := []      -- mapRelay
  queue : List (Int × Nat) := []         -- vRelayExpiration
  deriving DecidableEq, Repr

def find (m : List (Nat × List Nat)) (inv : Nat) : Option (List Nat) := (m.find? (fun p => p.1 == inv)).map (·.2)

/-- `mapRelay.erase` -/
def erase (m : List (Nat × List Nat)) (inv : Nat) : List (Nat × List Nat) := m.filter (fun p => p.1 != inv)

/-- The loop at the beginning of `RelayTransaction` -/
def expire (now : Int) : List (Int × Nat) → List (Nat × List Nat) → Relay
  | [], m => ⟨m, []⟩
  | (t, i) :: q, m => if t < now then expire now q (erase m i) else ⟨m, (t, i) :: q⟩

/-- `mapRelay.insert`: an item that is there stays as it is. -/
def insert (m : List (Nat × List Nat)) (inv : Nat) (data : List Nat) : List (Nat × List Nat) :=
  if (find m inv).isSome then m else (inv, data) :: m

/-- `RelayTransaction` at time `now` -/
def relay (r : Relay) (now : Int) (inv : Nat) (data : List Nat) : Relay :=
  let e := expire now r.queue r.map
  ⟨insert e.map inv data, e.queue ++ [(now + 15 * 60, inv)]⟩

/-- The answer to `getdata` from the relay memory -/
def serve (r : Relay) (inv : Nat) : Option (List Nat) := find r.map inv

end Verif.Peer
