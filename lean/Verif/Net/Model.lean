import Mathlib.Data.List.Basic

/-!
# Messages on a connection: framing, handling, sending

Code modelled (all under /repo/src):

* `CMessageHeader` (p2p/protocol.h 26-61, p2p/protocol.cpp 54-107);
* `CNetMessage` (p2p/netmessage.h 13-43, p2p/netmessage.cpp 8-46);
* `CNode::ReceiveMsgBytes` (p2p/node.cpp 210-232), `GetTotalRecvSize` (p2p/node.h 295-300), `CloseSocketDisconnect` (node.cpp 138-154);
* `ProcessMessages` (p2p/processmessage.hpp 152-261) up to the call of `ProcessMessage`;
* `BeginMessage`, `EndMessage` (p2p/node.h 402-457), `SocketSendData` (p2p/node.cpp 61-101);
* the socket loop's choice of what to wait for (net.cpp 575-602) and its receive step (678-706), and the message loop's reaction to
  `ProcessMessages` (net.cpp 1203-1217).

Conventions

* A byte is a number below 256; streams are lists of bytes. The socket gives and takes arbitrary pieces.
* `Params`: the network's four start bytes, and the checksum (the first four bytes of the double hash) as a function.
* Handling a message is recorded in `Node.log`; whether the handler closes the connection and whether requests for data remain after it
  are inputs of the event.
* The test options that drop or disturb messages are off. Locks are always available.
-/
namespace Verif.Net

/-- `MAX_SIZE` (commons/serialize.h 35) -/
def MAX_SIZE : Nat := 33554432

/-- The size of the socket loop's buffer. -/
def CHUNK : Nat := 65536

structure Params where
  start : List Nat
  cksum : List Nat → Nat

/-! ## Headers -/

/-- A 32-bit number, lowest byte first. -/
def put32 (n : Nat) : List Nat := [n % 256, n / 256 % 256, n / 65536 % 256, n / 16777216 % 256]

def get32 : List Nat → Nat
  | [a, b, c, d] => a + 256 * b + 65536 * c + 16777216 * d
  | _ => 0

def hStart (h : List Nat) : List Nat := h.take 4
def hCmd (h : List Nat) : List Nat := (h.drop 4).take 12
def hSize (h : List Nat) : Nat := get32 ((h.drop 16).take 4)
def hSum (h : List Nat) : Nat := get32 ((h.drop 20).take 4)

/-- `strncpy(pchCommand, pszCommand, 12)` -/
def putCmd (c : List Nat) : List Nat := c.take 12 ++ List.replicate (12 - c.length) 0

/-- `GetCommand` -/
def getCmd (b : List Nat) : List Nat :=
  if b.getLast? = some 0 then b.takeWhile (· ≠ 0) else b

/-- The command test of `IsValid`: printable characters, then zeros only. Bytes from 128 on are negative characters. -/
def cmdOk : List Nat → Bool
  | [] => true
  | c :: cs => if c = 0 then cs.all (· == 0) else if c < 32 ∨ c > 126 then false else cmdOk cs

/-- `IsValid` -/
def headerOk (p : Params) (h : List Nat) : Bool :=
  if hStart h ≠ p.start then false
  else if !cmdOk (hCmd h) then false
  else decide (hSize h ≤ MAX_SIZE)

/-! ## Receiving -/

/-- `CNetMessage`: `hdr` are the header bytes received so far, `data` the data bytes; `size` is meaningful once `inData`. -/
structure Msg where
  inData : Bool
  hdr : List Nat
  size : Nat
  data : List Nat
  deriving DecidableEq

def Msg.new : Msg := ⟨false, [], 0, []⟩

def Msg.complete (m : Msg) : Bool := m.inData && m.size == m.data.length

/-- `readHeader`: the new state and the number of bytes taken, or -1. -/
def readHeader (m : Msg) (bs : List Nat) : Option (Msg × Nat) :=
  let n := min (24 - m.hdr.length) bs.length
  let h := m.hdr ++ bs.take n
  if h.length < 24 then some ({ m with hdr := h }, n)
  else if hSize h > MAX_SIZE then none
  else some (⟨true, h, hSize h, m.data⟩, n)

/-- `readData` -/
def readData (m : Msg) (bs : List Nat) : Msg × Nat :=
  let n := min (m.size - m.data.length) bs.length
  ({ m with data := m.data ++ bs.take n }, n)

/-- The message the next byte belongs to, and those before it. -/
def current (q : List Msg) : List Msg × Msg :=
  match q.getLast? with
  | none => (q, .new)
  | some m => if m.complete then (q, .new) else (q.dropLast, m)

inductive Got
  | ok (q : List Msg)
  /-- `ReceiveMsgBytes` returns false -/
  | refused
  /-- the loop makes no progress -/
  | spin
  deriving DecidableEq

/-- `ReceiveMsgBytes`; the fuel only bounds the number of rounds. -/
def receiveLoop : Nat → List Msg → List Nat → Got
  | _, q, [] => .ok q
  | 0, _, _ :: _ => .spin
  | f + 1, q, b :: bs =>
    let c := current q
    if !c.2.inData then match readHeader c.2 (b :: bs) with
      | none => .refused
      | some (m, n) => receiveLoop f (c.1 ++ [m]) ((b :: bs).drop n)
    else
      let r := readData c.2 (b :: bs)
      receiveLoop f (c.1 ++ [r.1]) ((b :: bs).drop r.2)

def receive (q : List Msg) (bs : List Nat) : Got := receiveLoop bs.length q bs

/-- `GetTotalRecvSize`: data buffers have the announced size from the start. -/
def Msg.mem (m : Msg) : Nat := (if m.inData then m.size else 0) + 24

def totalRecv (q : List Msg) : Nat := (q.map Msg.mem).sum

/-! ## Handling -/

/-- One pass over the queue: what is handed to `ProcessMessage`, the rest of the queue, and `fOk`. -/
def scan (p : Params) : List Msg → Option (List Nat × List Nat) × List Msg × Bool
  | [] => (none, [], true)
  | m :: ms =>
    if !m.complete then (none, m :: ms, true)
    else if hStart m.hdr ≠ p.start then (none, ms, false)
    else if !headerOk p m.hdr then scan p ms
    else if p.cksum m.data ≠ hSum m.hdr then scan p ms
    else (some (getCmd (hCmd m.hdr), m.data), ms, true)

/-! ## Sending -/

structure Out where
  /-- `vSendMsg` -/
  queue : List (List Nat)
  /-- `nSendOffset` -/
  offset : Nat
  /-- `nSendSize` -/
  size : Nat
  /-- what the socket took -/
  wire : List Nat
  deriving DecidableEq

/-- `EndMessage`: the frame of a message, size and checksum filled in. -/
def frame (p : Params) (cmd payload : List Nat) : List Nat :=
  p.start ++ putCmd cmd ++ put32 payload.length ++ put32 (p.cksum payload) ++ payload

/-- `SocketSendData`; each element of the second argument is what one call of `send` would take at most (0: it would block). `none`: an
assertion fails. When the answers end, the last call is taken to block. -/
def sendLoop : Out → List Nat → Option Out
  | o, ks =>
    match o.queue with
    | [] => if o.offset = 0 ∧ o.size = 0 then some o else none
    | d :: ds =>
      if d.length ≤ o.offset then none
      else match ks with
        | [] => some o
        | k :: ks =>
          let n := min k (d.length - o.offset)
          if n = 0 then some o
          else
            let o' := { o with wire := o.wire ++ (d.drop o.offset).take n }
            if o.offset + n = d.length then sendLoop { o' with queue := ds, offset := 0, size := o.size - d.length } ks
            else some { o' with offset := o.offset + n }
  termination_by _ ks => ks.length

/-- `EndMessage`: queue the frame and try to write if it is the only one. -/
def push (p : Params) (o : Out) (cmd payload ks : List Nat) : Option Out :=
  let f := frame p cmd payload
  let o' := { o with queue := o.queue ++ [f], size := o.size + f.length }
  if o.queue = [] then sendLoop o' ks else some o'

/-! ## A connection -/

structure Node where
  recv : List Msg
  out : Out
  /-- the connection is closed; `vRecvMsg` is then empty -/
  closed : Bool
  /-- requests for data remain (`vRecvGetData` is not empty) -/
  owed : Bool
  /-- the messages handled so far -/
  log : List (List Nat × List Nat)
  deriving DecidableEq

/-- What a node waits for (net.cpp 590-601); `flood` is `ReceiveFloodSize`. -/
def wantsRecv (flood : Nat) (n : Node) : Bool :=
  n.out.queue.isEmpty && (n.recv.isEmpty || !(n.recv.head?.any Msg.complete) || decide (totalRecv n.recv ≤ flood))

def close (n : Node) : Node := { n with closed := true, recv := [] }

inductive Ev
  /-- the socket loop reads a piece -/
  | recv (bs : List Nat)
  /-- the message loop runs; `full`: the send buffer is full; `owed0`: requests remain after serving some, `owed1`: after handling;
  `drop`: the handler closes the connection -/
  | process (full owed0 owed1 drop : Bool)

/-- The receive step of the socket loop. -/
def onRecv (n : Node) (bs : List Nat) : Option Node :=
  match receive n.recv bs with
  | .ok q => some { n with recv := q }
  | .refused => some (close n)
  | .spin => none

/-- `ProcessMessages` and the reaction to it. -/
def onProcess (p : Params) (n : Node) (full owed0 owed1 drop : Bool) : Node :=
  if n.owed && owed0 then n
  else if full then { n with owed := false }
  else match scan p n.recv with
    | (none, q, true) => { n with owed := false, recv := q }
    | (none, q, false) => close { n with owed := false, recv := q }
    | (some m, q, _) =>
      let n' := { n with owed := owed1, recv := q, log := n.log ++ [m] }
      if drop then close n' else n'

def step (p : Params) (n : Node) : Ev → Option Node
  | .recv bs => if n.closed then some n else onRecv n bs
  | .process full o0 o1 d => if n.closed then some n else some (onProcess p n full o0 o1 d)

def run (p : Params) : Node → List Ev → Option Node
  | n, [] => some n
  | n, e :: es => match step p n e with
    | none => none
    | some n' => run p n' es

def Node.new : Node := ⟨[], ⟨[], 0, 0, []⟩, false, false, []⟩

end Verif.Net
