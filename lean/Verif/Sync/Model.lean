/-!
# Fetching and announcing: block download, getblocks, getdata, inventory, bans, filters

Models
* the books of block download: `MarkBlockAsReceived`, `MarkBlockAsInFlight` (src/p2p/chainmessage.cpp 33-71), `AddBlockToQueue`
  (191-238), `InitializeNode`, `FinalizeNode`, `State` (src/p2p/node.cpp 31-59), the getdata loop of `SendMessages`
  (src/p2p/sendmessage.hpp 213-227), constants of src/p2p/chainmessage.h 24-27 and src/config/const.h 163;
* `ProcessGetBlocksMessage` (src/p2p/chainmessage.cpp 552-600) and `ProcessGetHeadersMessage` (510-550);
* `ProcessGetData` (73-177);
* `PushInventory`, `AddInventoryKnown` (src/p2p/node.h 340-353) and the inventory part of `SendMessages`
  (src/p2p/sendmessage.hpp 151-200);
* `AskFor` (src/p2p/node.h 371-401);
* `Misbehaving` (src/main.cpp 479-498), the ban part of `SendMessages` (sendmessage.hpp 133-145), `CNode::IsBanned`, `CNode::Ban`
  (src/p2p/node.cpp 183-206);
* `CBloomFilter` (src/commons/bloom.cpp 28-155), the messages filterload, filteradd, filterclear (chainmessage.cpp 780-816,
  processmessage.hpp 111-116), `RelayTransaction` (src/net.cpp 1482-1512).

Simplifications. Locks are not modelled: every function runs alone (`AddBlockToQueue` reads the two maps without the lock of the
node states, so this is an assumption). List iterators are tokens, never used twice; an iterator that is not in its list, the
dereference of a missing node state and a failed assert are `none`. Numbers do not overflow. The set of known inventory is the
list of its elements, oldest first (`Verif.Containers`: `mruset`); the map of times of requests has no limit. The hash function
of filters is a parameter; peers have asked for transactions to be relayed (`fRelayTxes`). A block on disk is read without error.
-/
namespace Verif.Sync

abbrev Hash := Nat
abbrev Peer := Nat

/-! ## The books of block download -/

/-- An element of `vBlocksToDownload` or `vBlocksInFlight`. -/
structure Entry where
  tok : Nat
  hash : Hash
  time : Int
  deriving DecidableEq

/-- One of the two books: the list and counter of every node state, and the map by hash with node, iterator and time. -/
structure Tab where
  list : Peer → List Entry
  cnt : Peer → Int
  map : Hash → Option (Peer × Nat × Int)

def upd {α : Type} (f : Nat → α) (k : Nat) (v : α) : Nat → α := fun x => if x = k then v else f x

/-- `list::erase(iterator)`. -/
def eraseTok (t : Nat) : List Entry → Option (List Entry)
  | [] => none
  | e :: l => if e.tok = t then some l else (eraseTok t l).map (e :: ·)

/-- One half of `MarkBlockAsReceived`; `conn` tells which node states exist. -/
def Tab.remove (b : Tab) (conn : Peer → Bool) (h : Hash) : Option Tab :=
  match b.map h with
  | none => some b
  | some (p, t, _) =>
    if conn p then
      (eraseTok t (b.list p)).map (fun l => ⟨upd b.list p l, upd b.cnt p (b.cnt p - 1), upd b.map h none⟩)
    else none

/-- Appending to the list of a node and entering into the map. -/
def Tab.push (b : Tab) (p : Peer) (h : Hash) (t : Nat) (time : Int) : Tab :=
  ⟨upd b.list p (b.list p ++ [⟨t, h, time⟩]), upd b.cnt p (b.cnt p + 1), upd b.map h (some (p, t, time))⟩

/-- One half of `FinalizeNode`: the loop over the list; the node state goes. -/
def Tab.drop (b : Tab) (p : Peer) : Tab :=
  ⟨upd b.list p [], upd b.cnt p 0, fun h => if h ∈ (b.list p).map (·.hash) then none else b.map h⟩

/-- `CNodeState()`. -/
def Tab.fresh (b : Tab) (p : Peer) : Tab := ⟨upd b.list p [], upd b.cnt p 0, b.map⟩

structure St where
  conn : Peer → Bool
  todo : Tab
  flight : Tab
  score : Peer → Int
  nextPeer : Peer
  nextTok : Nat

def Tab.none : Tab := ⟨fun _ => [], fun _ => 0, fun _ => Option.none⟩

def St.init : St := ⟨fun _ => false, Tab.none, Tab.none, fun _ => 0, 0, 0⟩

/-- `CNode::CNode` and `InitializeNode`. -/
def connect (s : St) : St :=
  { s with conn := upd s.conn s.nextPeer true, todo := s.todo.fresh s.nextPeer, flight := s.flight.fresh s.nextPeer,
           score := upd s.score s.nextPeer 0, nextPeer := s.nextPeer + 1 }

/-- `FinalizeNode`. -/
def disconnect (s : St) (p : Peer) : Option St :=
  if s.conn p then some { s with conn := upd s.conn p false, todo := s.todo.drop p, flight := s.flight.drop p } else none

/-- `MarkBlockAsReceived`. -/
def received (s : St) (h : Hash) : Option St :=
  match s.todo.remove s.conn h with
  | none => none
  | some t =>
    match s.flight.remove s.conn h with
    | none => none
    | some f => some { s with todo := t, flight := f }

/-- `MarkBlockAsInFlight`. -/
def inFlight (s : St) (h : Hash) (p : Peer) (now : Int) : Option St :=
  if s.conn p then
    match received s h with
    | none => none
    | some s => some { s with flight := s.flight.push p h s.nextTok now, nextTok := s.nextTok + 1 }
  else none

/-- The test for an entry younger than `limit` microseconds. -/
def young (b : Tab) (h : Hash) (now limit : Int) : Bool :=
  match b.map h with
  | none => false
  | some (_, _, t) => decide (now - t < limit)

/-- The limits in microseconds: blocks to download and in flight, for a miner and for others. -/
def todoLimit (miner : Bool) : Int := if miner then 2000000 else 20000000
def flightLimit (miner : Bool) : Int := if miner then 1000000 else 10000000

/-- `AddBlockToQueue`. -/
def addToQueue (s : St) (h : Hash) (p : Peer) (now : Int) (miner : Bool) : Option (Bool × St) :=
  if young s.todo h now (todoLimit miner) || young s.flight h now (flightLimit miner) then some (false, s)
  else if s.conn p then
    match received s h with
    | none => none
    | some s =>
      let s := { s with todo := s.todo.push p h s.nextTok now, nextTok := s.nextTok + 1 }
      some (true, if s.todo.cnt p > 5000 then { s with score := upd s.score p (s.score p + 10) } else s)
  else some (false, s)

/-- The loop that asks a peer for blocks: the hashes asked for and the state. `n` bounds the rounds. -/
def askLoop : Nat → St → Peer → Int → Option (List Hash × St)
  | 0, _, _, _ => none
  | n + 1, s, p, now =>
    if s.todo.cnt p ≠ 0 ∧ s.flight.cnt p < 128 then
      match s.todo.list p with
      | [] => none
      | e :: _ =>
        match inFlight s e.hash p now with
        | none => none
        | some s' => (askLoop n s' p now).map (fun r => (e.hash :: r.1, r.2))
    else some ([], s)

/-- What happens. -/
inductive Ev
  | connect
  | disconnect (p : Peer)
  /-- A block not yet here is announced by a peer. -/
  | announce (p : Peer) (h : Hash) (now : Int) (miner : Bool)
  /-- `SendMessages` for a peer. -/
  | send (p : Peer) (now : Int)
  /-- A block message. -/
  | block (h : Hash)

/-- The blocks asked for, and the state. -/
def step (s : St) : Ev → Option (List Hash × St)
  | .connect => some ([], connect s)
  | .disconnect p => (disconnect s p).map (fun s' => ([], s'))
  | .announce p h now miner => (addToQueue s h p now miner).map (fun r => ([], r.2))
  | .send p now => if s.conn p then askLoop 129 s p now else none
  | .block h => (received s h).map (fun s' => ([], s'))

/-! ## getblocks, getheaders -/

/-- The loop of `ProcessGetBlocksMessage` over the blocks after the fork point: each with the flag that it is sent again;
`i` counts from the start. -/
def blocksLoop (stop : Hash) : Nat → Nat → List Hash → List (Hash × Bool) × Option Hash
  | _, _, [] => ([], none)
  | lim, i, h :: rest =>
    if h = stop then ([], none)
    else if lim - 1 ≤ 0 then ([(h, decide (i < 2))], some h)
    else
      let r := blocksLoop stop (lim - 1) (i + 1) rest
      ((h, decide (i < 2)) :: r.1, r.2)

/-- `fork`: the height of the block `FindFork` gives. The second value is the new `hashContinue`, if it is set. -/
def getBlocks (active : List Hash) (fork : Nat) (stop : Hash) : List (Hash × Bool) × Option Hash :=
  blocksLoop stop 500 0 (active.drop (fork + 1))

/-- The loop of `ProcessGetHeadersMessage`. -/
def headersLoop (stop : Hash) : Nat → List Hash → List Hash
  | _, [] => []
  | lim, h :: rest => if lim - 1 ≤ 0 ∨ h = stop then [h] else h :: headersLoop stop (lim - 1) rest

def getHeaders (active : List Hash) (fork : Nat) (stop : Hash) : List Hash :=
  headersLoop stop 2000 (active.drop (fork + 1))

/-! ## Inventory -/

inductive Kind
  | tx
  | block
  | filtered
  | other (n : Nat)
  deriving DecidableEq

structure Inv where
  kind : Kind
  hash : Hash
  deriving DecidableEq

/-- The inventory of a peer: `setInventoryKnown` (oldest first, `cap` its limit), `setForceToSend`, `vInventoryToSend`. -/
structure Ann where
  known : List Inv
  force : List Inv
  pending : List Inv
  deriving DecidableEq

/-- `mruset::insert`. -/
def mruInsert (cap : Nat) (l : List Inv) (x : Inv) : List Inv :=
  if x ∈ l then l else if cap ≠ 0 ∧ l.length = cap then l.tail ++ [x] else l ++ [x]

def Ann.addKnown (cap : Nat) (a : Ann) (x : Inv) : Ann := { a with known := mruInsert cap a.known x }

/-- `PushInventory`. -/
def Ann.push (a : Ann) (x : Inv) (forced : Bool) : Ann :=
  let f := if forced then (if x ∈ a.force then a.force else x :: a.force) else a.force
  if forced ∨ x ∉ a.known then { a with force := f, pending := a.pending ++ [x] } else { a with force := f }

/-- The loop over `vInventoryToSend`: `wait` tells which transactions are kept for later. Gives the new sets, what is sent and what
waits. The cutting into messages of at most 1000 is left out. -/
def annLoop (cap : Nat) (wait : Inv → Bool) : List Inv → List Inv → List Inv → List Inv × List Inv × List Inv × List Inv
  | known, force, [] => (known, force, [], [])
  | known, force, x :: rest =>
    if x ∈ force then
      let r := annLoop cap wait (mruInsert cap known x) (force.filter (· ≠ x)) rest
      (r.1, r.2.1, x :: r.2.2.1, r.2.2.2)
    else if x ∈ known then annLoop cap wait known force rest
    else if wait x then
      let r := annLoop cap wait known force rest
      (r.1, r.2.1, r.2.2.1, x :: r.2.2.2)
    else
      let r := annLoop cap wait (mruInsert cap known x) force rest
      (r.1, r.2.1, x :: r.2.2.1, r.2.2.2)

/-- The inventory part of `SendMessages`: only transactions wait, and none when it is the peer's turn (`trickle`). -/
def Ann.send (cap : Nat) (a : Ann) (trickle : Bool) (coin : Inv → Bool) : List Inv × Ann :=
  let r := annLoop cap (fun x => decide (x.kind = .tx) && !trickle && coin x) a.known a.force a.pending
  (r.2.2.1, ⟨r.1, r.2.1, r.2.2.2⟩)

/-! ## getdata -/

/-- What the node has: blocks, relayed and waiting transactions, whether the peer has set a filter, the tip. -/
structure Env where
  hasBlock : Hash → Bool
  hasTx : Hash → Bool
  relayed : Inv → Bool
  filter : Bool
  tip : Hash

inductive Msg
  | block (h : Hash)
  | merkle (h : Hash)
  | item (x : Inv)
  | inv (l : List Hash)
  | notFound (l : List Inv)
  deriving DecidableEq

/-- One round of the loop of `ProcessGetData`: messages, what is not found, `hashContinue`. -/
def answer (e : Env) (cont : Option Hash) (x : Inv) : List Msg × List Inv × Option Hash :=
  match x.kind with
  | .other _ => ([], [], cont)
  | .tx => if e.relayed x || e.hasTx x.hash then ([.item x], [], cont) else ([], [x], cont)
  | k =>
    if e.hasBlock x.hash then
      let m := if k = .block then [Msg.block x.hash] else if e.filter then [Msg.merkle x.hash] else []
      if cont = some x.hash then (m ++ [.inv [e.tip]], [], none) else (m, [], cont)
    else ([], [], cont)

/-- The loop; it stops before the item at which the send buffer is full, here after `room` items. -/
def getDataLoop (e : Env) : Nat → Option Hash → List Inv → List Msg × List Inv × Option Hash × List Inv
  | _, cont, [] => ([], [], cont, [])
  | 0, cont, q => ([], [], cont, q)
  | n + 1, cont, x :: q =>
    let a := answer e cont x
    let r := getDataLoop e n a.2.2 q
    (a.1 ++ r.1, a.2.1 ++ r.2.1, r.2.2.1, r.2.2.2)

/-- `ProcessGetData`: messages, `hashContinue`, what is left of `vRecvGetData`. -/
def getData (e : Env) (room : Nat) (cont : Option Hash) (q : List Inv) : List Msg × Option Hash × List Inv :=
  let r := getDataLoop e room cont q
  (r.1 ++ (if r.2.1 = [] then [] else [.notFound r.2.1]), r.2.2.1, r.2.2.2)

/-! ## Asking for transactions -/

/-- `mapAlreadyAskedFor` and `nLastTime` (microseconds). -/
structure Asked where
  at_ : Inv → Option Int
  last : Int

/-- `AskFor`: the time of the request in `mapAskFor`; `now` is `GetTimeMicros`. -/
def askFor (a : Asked) (x : Inv) (now : Int) : Int × Asked :=
  let r0 := (a.at_ x).getD 0
  let n := max (now - 1000000) (a.last + 1)
  let r := max (r0 + 120000000) n
  (r, ⟨fun y => if y = x then some r else a.at_ y, n⟩)

/-- The requests for a list of announcements of items at times. -/
def askAll (a : Asked) : List (Inv × Int) → List (Inv × Int) × Asked
  | [] => ([], a)
  | (x, now) :: l =>
    let r := askFor a x now
    let q := askAll r.2 l
    ((x, r.1) :: q.1, q.2)

/-! ## Bans -/

structure Score where
  misbehavior : Int
  shouldBan : Bool
  deriving DecidableEq

/-- `Misbehaving`; `limit` is `-banscore`. -/
def misbehaving (limit : Int) (s : Score) (howmuch : Int) : Score :=
  if howmuch = 0 then s
  else
    let m := s.misbehavior + howmuch
    ⟨m, if m ≥ limit then true else s.shouldBan⟩

/-- The ban part of `SendMessages`: whether the peer is disconnected, the node state and the table of bans. -/
def banStep (bans : Nat → Option Int) (addr : Nat) (isLocal : Bool) (now banTime : Int) (s : Score) :
    Bool × Score × (Nat → Option Int) :=
  if s.shouldBan then
    if isLocal then (false, { s with shouldBan := false }, bans)
    else
      let t := now + banTime
      (true, { s with shouldBan := false }, fun a => if a = addr then (if (bans addr).getD 0 < t then some t else some ((bans addr).getD 0)) else bans a)
  else (false, s, bans)

def isBanned (bans : Nat → Option Int) (addr : Nat) (now : Int) : Bool :=
  match bans addr with
  | none => false
  | some t => decide (now < t)

/-! ## Filters -/

abbrev Bytes := List Nat

/-- `CBloomFilter`; `hash n data` is `MurmurHash3(n * 0xFBA4C795 + nTweak, data)`. -/
structure Filter where
  data : Bytes
  full : Bool
  empty : Bool
  funcs : Nat
  deriving DecidableEq

variable (hash : Nat → Bytes → Nat)

/-- `Hash`: the rest of a division by zero is `none`. -/
def Filter.index (f : Filter) (i : Nat) (x : Bytes) : Option Nat :=
  if f.data.length * 8 = 0 then none else some (hash i x % (f.data.length * 8))

/-- Sets a bit; `none` outside of the array. -/
def setBit (d : Bytes) (i : Nat) : Option Bytes :=
  match d[i / 8]? with
  | none => none
  | some b => some (d.set (i / 8) (b ||| 1 <<< (i % 8)))

/-- The loop of `insert`; `n` functions are left. -/
def Filter.insertLoop (f : Filter) (x : Bytes) : Nat → Nat → Bytes → Option Bytes
  | 0, _, d => some d
  | n + 1, i, d =>
    match f.index hash i x with
    | none => none
    | some k =>
      match setBit d k with
      | none => none
      | some d' => f.insertLoop x n (i + 1) d'

def Filter.insert (f : Filter) (x : Bytes) : Option Filter :=
  if f.full then some f
  else
    match f.insertLoop hash x f.funcs 0 f.data with
    | none => none
    | some d => some { f with data := d, empty := false }

def Filter.containsLoop (f : Filter) (x : Bytes) : Nat → Nat → Option Bool
  | 0, _ => some true
  | n + 1, i =>
    match f.index hash i x with
    | none => none
    | some k =>
      match f.data[k / 8]? with
      | none => none
      | some b => if b &&& 1 <<< (k % 8) = 0 then some false else f.containsLoop x n (i + 1)

def Filter.contains (f : Filter) (x : Bytes) : Option Bool :=
  if f.full then some true
  else if f.empty then some false
  else f.containsLoop hash x f.funcs 0

/-- `UpdateEmptyFull`. -/
def Filter.update (f : Filter) : Filter :=
  { f with full := f.data.all (· = 255), empty := f.data.all (· = 0) }

/-- `IsWithinSizeConstraints`. -/
def Filter.sizeOk (f : Filter) : Bool := decide (f.data.length ≤ 36000) && decide (f.funcs ≤ 50)

/-- The filter of a peer and the penalties it got. -/
structure Spv where
  filter : Option Filter
  penalty : Nat
  deriving DecidableEq

inductive FMsg
  | load (data : Bytes) (funcs : Nat)
  | add (x : Bytes)
  | clear

def fstep (s : Spv) : FMsg → Option Spv
  | .load d n =>
    let f : Filter := ⟨d, true, false, n⟩
    if f.sizeOk then some { s with filter := some f.update } else some { s with penalty := s.penalty + 100 }
  | .add x =>
    if x.length > 520 then some { s with penalty := s.penalty + 100 }
    else
      match s.filter with
      | none => some { s with penalty := s.penalty + 100 }
      | some f =>
        match f.insert hash x with
        | none => none
        | some f' => some { s with filter := some f' }
  | .clear => some { s with filter := some ⟨[], true, false, 0⟩ }

def frun (s : Spv) : List FMsg → Option Spv
  | [] => some s
  | m :: l =>
    match fstep hash s m with
    | none => none
    | some s' => frun s' l

/-- `IsRelevantAndUpdate`: the tests of the transaction are commented out. -/
def Filter.relevant (f : Filter) : Bool := if f.full then true else if f.empty then false else false

/-- `RelayTransaction` for one peer: whether the transaction is announced. -/
def relays (s : Spv) : Bool :=
  match s.filter with
  | none => true
  | some f => f.relevant

end Verif.Sync
