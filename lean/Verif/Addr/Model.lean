/-!
# The address manager

Models `CAddrMan` (src/p2p/addrman.h 167-247, 414-500, src/p2p/addrman.cpp): buckets (12-38), `IsTerrible` (40-58), `Find` (83-94),
`Create` (96-106), `SwapRandom` (108-126), `SelectTried` (128-150), `ShrinkNew` (152-204), `MakeTried` (206-262), `Good_` (264-311),
`Add_` (313-368), `Attempt_` (370-387), `GetAddr_` (493-507), `Connected_` (509-527), with the constants of addrman.h 125-164.

Simplifications. A network address is a number, the port another one; `nServices` is left out. The hash functions with the secret key
are parameters, of which only the rests used by the code matter. Every random number of an operation is a value of a function
`rnd`, taken modulo its range as `GetRandInt` does. Maps and buckets are functions, a `set<int>` is an ordered list. A failed assert
is `none`. Numbers do not overflow. `Select_` (floating point, loops until it finds something) is represented by the buckets it
chooses from.
-/
namespace Verif.Addr

abbrev Ip := Nat

/-- `CAddrInfo` (src/p2p/addrman.h 22-46). -/
structure Info where
  ip : Ip
  port : Nat
  src : Ip
  time : Int
  lastTry : Int
  lastSuccess : Int
  attempts : Int
  ref : Int
  tried : Bool
  pos : Nat
  deriving DecidableEq

/-- `GetGroup` and the keyed hashes of `GetTriedBucket` and `GetNewBucket`. -/
structure Hashes where
  group : Ip → Nat
  h1 : Ip → Nat → Nat
  h2 : Nat → Nat → Nat
  k1 : Nat → Nat → Nat
  k2 : Nat → Nat → Nat

/-- `GetTriedBucket` (src/p2p/addrman.cpp 12-24). -/
def triedBucket (H : Hashes) (ip : Ip) (port : Nat) : Nat := H.h2 (H.group ip) (H.h1 ip port % 4) % 64

/-- `GetNewBucket` (src/p2p/addrman.cpp 26-38). -/
def newBucket (H : Hashes) (ip src : Ip) : Nat := H.k2 (H.group src) (H.k1 (H.group ip) (H.group src) % 32) % 256

/-- `IsTerrible` (src/p2p/addrman.cpp 40-58). -/
def Info.terrible (i : Info) (now : Int) : Bool :=
  if i.lastTry ≠ 0 ∧ i.lastTry ≥ now - 60 then false
  else if i.time > now + 600 then true
  else if i.time = 0 ∨ now - i.time > 30 * 86400 then true
  else if i.lastSuccess = 0 ∧ i.attempts ≥ 3 then true
  else if now - i.lastSuccess > 7 * 86400 ∧ i.attempts ≥ 10 then true
  else false

structure St where
  next : Nat
  info : Nat → Option Info
  addr : Ip → Option Nat
  random : List Nat
  nTried : Int
  tried : Nat → List Nat
  nNew : Int
  new : Nat → List Nat

def St.init : St := ⟨0, fun _ => none, fun _ => none, [], 0, fun _ => [], 0, fun _ => []⟩

def upd {α : Type} (f : Nat → α) (k : Nat) (v : α) : Nat → α := fun x => if x = k then v else f x

/-- `set::insert`. -/
def setInsert (x : Nat) : List Nat → List Nat
  | [] => [x]
  | y :: l => if x < y then x :: y :: l else if x = y then y :: l else y :: setInsert x l

/-- `SwapRandom` (src/p2p/addrman.cpp 108-126). -/
def swapRandom (s : St) (p q : Nat) : Option St :=
  if p = q then some s
  else
    match s.random[p]?, s.random[q]? with
    | some a, some b =>
      match s.info a, s.info b with
      | some ia, some ib =>
        some { s with info := upd (upd s.info a (some { ia with pos := q })) b (some { ib with pos := p }),
                      random := (s.random.set p b).set q a }
      | _, _ => none
    | _, _ => none

/-- Takes one from the counter of an entry, and deletes the entry when none is left (the block that is twice in `ShrinkNew`). -/
def deref (s : St) (id : Nat) : Option St :=
  match s.info id with
  | none => none
  | some i =>
    if i.ref - 1 = 0 then
      match swapRandom { s with info := upd s.info id (some { i with ref := i.ref - 1 }) } i.pos (s.random.length - 1) with
      | none => none
      | some s => some { s with random := s.random.dropLast, addr := upd s.addr i.ip none, info := upd s.info id none, nNew := s.nNew - 1 }
    else some { s with info := upd s.info id (some { i with ref := i.ref - 1 }) }

/-- The first entry that is terrible; `none` for a missing entry. -/
def findTerrible (s : St) (now : Int) : List Nat → Option (Option Nat)
  | [] => some none
  | id :: l =>
    match s.info id with
    | none => none
    | some i => if i.terrible now then some (some id) else findTerrible s now l

def timeOf (s : St) (id : Nat) : Int := ((s.info id).map (·.time)).getD 0

/-- The oldest of the entries at the positions chosen. -/
def pickOldest (s : St) (chosen : Nat → Bool) : Nat → Option Nat → List Nat → Option Nat
  | _, o, [] => o
  | n, o, id :: l =>
    if chosen n then
      match o with
      | none => pickOldest s chosen (n + 1) (some id) l
      | some old => pickOldest s chosen (n + 1) (if timeOf s id < timeOf s old then some id else some old) l
    else pickOldest s chosen (n + 1) o l

/-- `ShrinkNew` (src/p2p/addrman.cpp 152-204). -/
def shrinkNew (s : St) (b : Nat) (now : Int) (rnd : Nat → Nat) : Option St :=
  match findTerrible s now (s.new b) with
  | none => none
  | some (some id) => (deref s id).map (fun s => { s with new := upd s.new b ((s.new b).erase id) })
  | some none =>
    let n := (s.new b).length
    match pickOldest s (fun k => k = rnd 0 % n ∨ k = rnd 1 % n ∨ k = rnd 2 % n ∨ k = rnd 3 % n) 0 none (s.new b) with
    | none => none
    | some id => (deref s id).map (fun s => { s with new := upd s.new b ((s.new b).erase id) })

def successOf (s : St) (id : Nat) : Int := ((s.info id).map (·.lastSuccess)).getD 0

/-- The loop of `SelectTried`: `n` rounds are left, `i` is the round; the bucket and the entry and position chosen so far. -/
def selectLoop (s : St) (rnd : Nat → Nat) : Nat → Nat → List Nat → Option (Nat × Nat) → Option (List Nat × Option (Nat × Nat))
  | 0, _, l, best => some (l, best)
  | n + 1, i, l, best =>
    if i < l.length then
      let pos := rnd i % (l.length - i) + i
      match l[pos]?, l[i]? with
      | some temp, some y =>
        let l := (l.set pos y).set i temp
        match best with
        | none => selectLoop s rnd n (i + 1) l (some (temp, pos))
        | some (old, p) =>
          if (s.info temp).isSome then
            selectLoop s rnd n (i + 1) l (if successOf s temp < successOf s old then some (temp, pos) else some (old, p))
          else none
      | _, _ => none
    else some (l, best)

/-- `SelectTried` (src/p2p/addrman.cpp 128-150): the bucket as it is afterwards, and the position. -/
def selectTried (s : St) (k : Nat) (rnd : Nat → Nat) : Option (List Nat × Nat) :=
  match selectLoop s rnd 4 0 (s.tried k) none with
  | some (l, some (_, p)) => some (l, p)
  | _ => none

/-- The number of new buckets that contain an entry. -/
def refs (new : Nat → List Nat) (id : Nat) : Nat := (List.range 256).countP (fun b => decide (id ∈ new b))

/-- The loop at the start of `MakeTried` that takes the entry out of all 256 new buckets
(src/p2p/addrman.cpp 210-215). -/
def dropAll (new : Nat → List Nat) (id : Nat) : Nat → List Nat :=
  fun b => if b < 256 then (new b).erase id else new b

/-- `MakeTried` (src/p2p/addrman.cpp 206-262). -/
def makeTried (H : Hashes) (s : St) (id : Nat) (origin : Nat) (rnd : Nat → Nat) : Option St :=
  if id ∈ s.new origin then
    match s.info id with
    | none => none
    | some i =>
      let new := dropAll s.new id
      if i.ref - refs s.new id = 0 then
        let s := { s with new := new, nNew := s.nNew - 1 }
        let i := { i with ref := 0, tried := true }
        let k := triedBucket H i.ip i.port
        if (s.tried k).length < 64 then
          some { s with tried := upd s.tried k (s.tried k ++ [id]), nTried := s.nTried + 1, info := upd s.info id (some i) }
        else
          match selectTried s k rnd with
          | none => none
          | some (l, p) =>
            match l[p]? with
            | none => none
            | some old =>
              match s.info old with
              | none => none
              | some io =>
                let u := newBucket H io.ip io.src
                let dest := if (s.new u).length < 64 then u else origin
                some { s with new := upd s.new dest (setInsert old (s.new dest)), nNew := s.nNew + 1, tried := upd s.tried k (l.set p id),
                              info := upd (upd s.info old (some { io with tried := false, ref := 1 })) id (some i) }
      else none
  else none

/-- The first bucket that contains an entry, in the order of `Good_`. -/
def findBucket (s : St) (id : Nat) (start : Nat) : Nat → Nat → Option Nat
  | 0, _ => none
  | n + 1, i => if id ∈ s.new ((i + start) % 256) then some ((i + start) % 256) else findBucket s id start n (i + 1)

/-- `Good_` (src/p2p/addrman.cpp 264-311). -/
def good (H : Hashes) (s : St) (ip : Ip) (port : Nat) (now : Int) (rnd : Nat → Nat) : Option St :=
  match s.addr ip with
  | none => some s
  | some id =>
    match s.info id with
    | none => some s
    | some i =>
      if i.port ≠ port then some s
      else
        let i := { i with lastSuccess := now, lastTry := now, time := now, attempts := 0 }
        let s := { s with info := upd s.info id (some i) }
        if i.tried then some s
        else
          match findBucket s id (rnd 100 % 256) 256 0 with
          | none => some s
          | some b => makeTried H s id b rnd

/-- The end of `Add_`: the entry goes into the bucket for the source. -/
def place (H : Hashes) (s : St) (id : Nat) (i : Info) (source : Ip) (now : Int) (rnd : Nat → Nat) : Option St :=
  let b := newBucket H i.ip source
  if id ∈ s.new b then some s
  else
    let s := { s with info := upd s.info id (some { i with ref := i.ref + 1 }) }
    match (if (s.new b).length = 64 then shrinkNew s b now rnd else some s) with
    | none => none
    | some s => some { s with new := upd s.new b (setInsert id (s.new b)) }

/-- `Add_` for an address that is known already: the entry after the update of its time. -/
def refresh (i : Info) (time now penalty : Int) : Info :=
  let interval : Int := if now - time < 86400 then 3600 else 86400
  if time ≠ 0 ∧ (i.time = 0 ∨ i.time < time - interval - penalty) then { i with time := max 0 (time - penalty) } else i

/-- `Add_` (src/p2p/addrman.cpp 313-368): whether the address is new, and the state. -/
def add (H : Hashes) (s : St) (ip : Ip) (port : Nat) (time : Int) (routable : Bool) (source : Ip) (penalty now : Int) (rnd : Nat → Nat) :
    Option (Bool × St) :=
  if !routable then some (false, s)
  else
    match (s.addr ip).bind (fun id => (s.info id).map (fun i => (id, i))) with
    | some (id, i) =>
      let i := refresh i time now penalty
      let s := { s with info := upd s.info id (some i) }
      if time = 0 ∨ (i.time ≠ 0 ∧ time ≤ i.time) then some (false, s)
      else if i.tried then some (false, s)
      else if i.ref = 4 then some (false, s)
      else if 2 ^ i.ref.toNat > 1 ∧ rnd 100 % 2 ^ i.ref.toNat ≠ 0 then some (false, s)
      else (place H s id i source now rnd).map (fun s => (false, s))
    | none =>
      let id := s.next
      let i : Info := ⟨ip, port, source, max 0 (time - penalty), 0, 0, 0, 0, false, s.random.length⟩
      let s := { s with next := s.next + 1, info := upd s.info id (some i), addr := upd s.addr ip (some id), random := s.random ++ [id],
                        nNew := s.nNew + 1 }
      (place H s id i source now rnd).map (fun s => (true, s))

/-- `Attempt_` (src/p2p/addrman.cpp 370-387). -/
def attempt (s : St) (ip : Ip) (port : Nat) (now : Int) : St :=
  match (s.addr ip).bind (fun id => (s.info id).map (fun i => (id, i))) with
  | none => s
  | some (id, i) =>
    if i.port ≠ port then s else { s with info := upd s.info id (some { i with lastTry := now, attempts := i.attempts + 1 }) }

/-- `Connected_` (src/p2p/addrman.cpp 509-527). -/
def connected (s : St) (ip : Ip) (port : Nat) (now : Int) : St :=
  match (s.addr ip).bind (fun id => (s.info id).map (fun i => (id, i))) with
  | none => s
  | some (id, i) =>
    if i.port ≠ port then s
    else if now - i.time > 1200 then { s with info := upd s.info id (some { i with time := now }) } else s

/-- The loop of `GetAddr_`. -/
def getAddrLoop (rnd : Nat → Nat) : Nat → Nat → St → Option (List Info × St)
  | 0, _, s => some ([], s)
  | k + 1, n, s =>
    match swapRandom s n (rnd n % (s.random.length - n) + n) with
    | none => none
    | some s =>
      match s.random[n]? with
      | none => none
      | some id =>
        match s.info id with
        | none => none
        | some i => (getAddrLoop rnd k (n + 1) s).map (fun r => (i :: r.1, r.2))

/-- `GetAddr_` (src/p2p/addrman.cpp 493-507). -/
def getAddr (s : St) (rnd : Nat → Nat) : Option (List Info × St) :=
  getAddrLoop rnd (min (23 * s.random.length / 100) 2500) 0 s

/-- The operations. -/
inductive Op
  | add (ip : Ip) (port : Nat) (time : Int) (routable : Bool) (source : Ip) (penalty now : Int) (rnd : Nat → Nat)
  | good (ip : Ip) (port : Nat) (now : Int) (rnd : Nat → Nat)
  | attempt (ip : Ip) (port : Nat) (now : Int)
  | connected (ip : Ip) (port : Nat) (now : Int)
  | getAddr (rnd : Nat → Nat)

def step (H : Hashes) (s : St) : Op → Option St
  | .add ip port time routable source penalty now rnd => (add H s ip port time routable source penalty now rnd).map Prod.snd
  | .good ip port now rnd => good H s ip port now rnd
  | .attempt ip port now => some (attempt s ip port now)
  | .connected ip port now => some (connected s ip port now)
  | .getAddr rnd => (getAddr s rnd).map Prod.snd

end Verif.Addr
