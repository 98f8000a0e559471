import Mathlib.Data.List.Sort
import Verif.Util.U64

/-!
# The pool of unconfirmed transactions and the making of blocks

Models `AcceptToMemoryPool` (src/main.cpp 236-305), `CTxMemPool` (src/tx/txmempool.cpp 46-179), the parts of `ConnectTip` and
`DisconnectTip` that touch the pool (src/main.cpp 1376-1386, 1427-1429), `ReScanMemPoolTx` after a change of the tip (1500, 1553, 1574),
`TxPriority` (src/miner/miner.h 42-62), `GetPriorityTx`, `CreateNewBlockForStableCoinRelease` and `CheckWork` (src/miner/miner.cpp 91-113,
431-573, 575-600), the transaction part of `ConnectBlock` and of `CheckBlock` (src/main.cpp 1050-1130, 1819-1870), `IsValidHeight`
(src/tx/tx.cpp 78-84) and `ProcessMempoolMessage` (src/p2p/chainmessage.cpp 728-750).

* The state of the chain is a value of an arbitrary type `V`; a transaction is a pair of arbitrary functions `check` and `exec` of the
  context and the state.
* Priorities and fees per kilobyte are natural numbers: the code only compares them, and no priority or fee rate is NaN.
* The producer may run out of time after any number of transactions (`cut`).
* The free-transaction limiter of `AcceptToMemoryPool` is left out: it only refuses more.
* After `reorg`, transactions are offered to the pool in a state that is arbitrary (the pool's cache lies over a changed base).
* Merkle root, nonce, version, time and the producer's turn are checked elsewhere (C26, C48, C53).
-/
namespace Verif.Mine

/-- Kinds of transactions that are treated differently here. -/
inductive Kind
  | reward | median | settle | feed | other
deriving DecidableEq, Repr

/-- `CTxExecuteContext`. -/
structure Ctx where
  height : Nat
  index : Nat
  rate : Nat
  time : Nat
  prev : Nat
  bp : Nat
deriving DecidableEq, Repr

/-- A transaction. `size` is the serialized size without the byte for the type; `exec` gives the new state and the fuel used. -/
structure Tx (V : Type) where
  id : Nat
  kind : Kind
  validHeight : Int
  size : Nat
  fee : Nat
  wusd : Bool
  check : Ctx → V → Bool
  exec : Ctx → V → Option (V × Nat)

/-- `CheckAndExecuteTx`. -/
def Tx.run {V : Type} (t : Tx V) (c : Ctx) (v : V) : Option (V × Nat) := if t.check c v then t.exec c v else none

/-- `GetTxCacheHeight() / 2`. -/
def half : Int := 250

/-- `IsValidHeight`. -/
def validAt {V : Type} (t : Tx V) (cur : Int) : Bool :=
  match t.kind with
  | .reward | .median => true
  | _ => decide (t.validHeight ≤ cur + half) && decide (t.validHeight ≥ cur - half)

/-- `IsRelayForbidden` (src/config/txbase.h 159-164). -/
def forbidden {V : Type} (t : Tx V) : Bool :=
  match t.kind with
  | .reward | .median | .settle => true
  | _ => false

/-! ## The pool -/

/-- A node: height and state of the tip, confirmed transactions, the pool by ascending id, and the state of the pool's cache. -/
structure Node (V : Type) where
  tip : Nat
  base : V
  conf : Nat → Bool
  pool : List (Tx V)
  view : V

/-- What is the same for all transactions checked on one tip. -/
structure Env where
  rate : Nat
  time : Nat
  prev : Nat
  bp : Nat

def ctx (e : Env) (tip index : Nat) : Ctx :=
  { height := tip + 1, index := index, rate := e.rate, time := e.time, prev := e.prev, bp := e.bp }

/-- `CheckTxInMemPool`: the new state of the pool's cache. -/
def inPool {V : Type} (e : Env) (n : Node V) (t : Tx V) (index : Nat) : Option V :=
  if validAt t ((n.tip : Int) + 1) = false then none
  else if n.conf t.id then none
  else (t.exec (ctx e n.tip index) n.view).map (·.1)

/-- `memPoolTxs.insert`. -/
def insertTx {V : Type} (t : Tx V) : List (Tx V) → List (Tx V)
  | [] => [t]
  | x :: xs => if t.id < x.id then t :: x :: xs else if t.id = x.id then x :: xs else x :: insertTx t xs

/-- `AcceptToMemoryPool`. -/
def accept {V : Type} (e : Env) (n : Node V) (t : Tx V) : Option (Node V) :=
  if n.pool.any (fun x => x.id == t.id) then none
  else if forbidden t then none
  else if t.check (ctx e n.tip 0) n.view = false then none
  else (inPool e n t n.pool.length).map fun v => { n with pool := insertTx t n.pool, view := v }

/-- The loop of `ReScanMemPoolTx` over the rest of the pool. -/
def rescanLoop {V : Type} (e : Env) (n : Node V) : Nat → List (Tx V) → List (Tx V) × V
  | _, [] => ([], n.view)
  | i, t :: ts =>
    match inPool e n t i with
    | none => rescanLoop e n (i + 1) ts
    | some v =>
      let r := rescanLoop e { n with view := v } (i + 1) ts
      (t :: r.1, r.2)

/-- `ReScanMemPoolTx`. -/
def rescan {V : Type} (e : Env) (n : Node V) : Node V :=
  let r := rescanLoop e { n with view := n.base } 0 n.pool
  { n with pool := r.1, view := r.2 }

/-- A block with these transactions was connected; `base` and `conf` are the state after it. -/
def newTip {V : Type} (e : Env) (n : Node V) (base : V) (conf : Nat → Bool) (ids : List Nat) : Node V :=
  rescan e { n with tip := n.tip + 1, base := base, conf := conf, pool := n.pool.filter fun t => !ids.contains t.id }

/-- `AcceptToMemoryPool` or else `Remove`, for a transaction of a disconnected block. -/
def back {V : Type} (e : Env) (n : Node V) (t : Tx V) : Node V :=
  if forbidden t then n
  else
    match accept e n t with
    | some m => m
    | none => { n with pool := n.pool.filter fun x => x.id != t.id }

/-- A block was disconnected, its transactions go back to the pool, and the pool is checked again on the new tip. -/
def reorg {V : Type} (e : Env) (n : Node V) (tip : Nat) (base stale : V) (conf : Nat → Bool) (txs : List (Tx V)) : Node V :=
  rescan e (txs.foldl (back e) { n with tip := tip, base := base, conf := conf, view := stale })

/-! ## Priorities -/

/-- A candidate: a transaction, or the price median which is filled in when its turn comes. -/
inductive Cand (V : Type)
  | tx (t : Tx V)
  | median

/-- `TxPriority`. -/
structure Item (V : Type) where
  prio : Nat
  fee : Nat
  id : Nat
  cand : Cand V

def dist (a b : Nat) : Nat := max a b - min a b

/-- `TxPriority::operator<`; the inner `fabs` is applied to the result of a comparison. -/
def less {V : Type} (a b : Item V) : Bool :=
  if dist a.prio b.prio ≤ 1000 then
    (if (if a.fee < b.fee then 1 else 0) ≤ 0 then decide (a.id < b.id) else decide (a.fee < b.fee))
  else decide (a.prio < b.prio)

/-- The red-black tree of a `std::set`. -/
inductive Tree (V : Type)
  | leaf
  | node (l : Tree V) (x : Item V) (r : Tree V)

def Tree.flat {V : Type} : Tree V → List (Item V)
  | .leaf => []
  | .node l x r => l.flat ++ x :: r.flat

/-- The descent of `_M_get_insert_unique_pos`: the number of elements before the new one. -/
def Tree.pos {V : Type} (k : Item V) : Tree V → Nat
  | .leaf => 0
  | .node l x r => if less k x then l.pos k else l.flat.length + 1 + r.pos k

/-- Is the element before position `p` smaller? -/
def fits {V : Type} (k : Item V) (l : List (Item V)) (p : Nat) : Bool :=
  match p with
  | 0 => true
  | q + 1 =>
    match l[q]? with
    | some j => less j k
    | none => false

/-- `emplace`: the content afterwards. -/
def Tree.insert {V : Type} (k : Item V) (t : Tree V) : List (Item V) :=
  if fits k t.flat (t.pos k) then t.flat.take (t.pos k) ++ k :: t.flat.drop (t.pos k) else t.flat

/-- The set after inserting a list of items; rebalancing may give the tree any shape. -/
inductive Built {V : Type} : List (Item V) → Tree V → Prop
  | nil (t : Tree V) : t.flat = [] → Built [] t
  | snoc (ks : List (Item V)) (k : Item V) (t t' : Tree V) : Built ks t → t'.flat = t.insert k → Built (ks ++ [k]) t'

/-- `GetPriority` of a transaction in the pool (src/tx/tx.h 177-179, src/tx/pricefeedtx.h 45). -/
def prioOf {V : Type} (t : Tx V) : Nat :=
  match t.kind with
  | .feed => 20000
  | _ => 1000 / t.size

/-- The item of a transaction of the pool; `feeRate` is the fee per kilobyte after fuel. -/
def itemOf {V : Type} (feeRate : Tx V → Nat) (t : Tx V) : Item V :=
  { prio := prioOf t, fee := feeRate t, id := t.id, cand := .tx t }

/-- The items in the order of their insertion: the pool, the price median, the forced settlement if there is one. -/
def items {V : Type} (feeRate : Tx V → Nat) (n : Node V) (medianId : Nat) (settle : Option (Tx V)) : List (Item V) :=
  (n.pool.filter fun t => t.kind != .reward && !n.conf t.id).map (itemOf feeRate) ++
    ({ prio := 10000, fee := 0, id := medianId, cand := .median } ::
      match settle with
      | none => []
      | some t => [{ prio := 1000, fee := 0, id := t.id, cand := .tx t }])

/-! ## Making a block -/

/-- Limits and derived quantities. `maxSize` is `nBlockMaxSize`, `size0` the size of the block with only an empty reward transaction. -/
structure Cfg (V : Type) where
  maxSize : Nat
  size0 : Nat
  fuelFee : Nat → Nat → Nat
  median : Ctx → V → Tx V

/-- `MAX_BLOCK_SIZE`, `MAX_BLOCK_FUEL`. -/
def MAXSIZE : Nat := 4000000
def MAXFUEL : Nat := 600562500

/-- The variables of the loop. -/
structure Pack (V : Type) where
  view : V
  size : Nat
  fuel : Nat
  fuelFee : Nat
  wicc : Nat
  wusd : Nat
  txs : List (Tx V)

def Cand.get {V : Type} (cfg : Cfg V) (c : Ctx) (v : V) : Cand V → Tx V
  | .tx t => t
  | .median => cfg.median c v

/-- One round (`none`: the assertion that the fees cover the fuel fails). -/
def pack {V : Type} (cfg : Cfg V) (e : Env) (tip : Nat) (p : Pack V) (cand : Cand V) : Option (Pack V) :=
  let c := ctx e tip (p.txs.length + 1)
  let t := cand.get cfg c p.view
  if p.size + t.size ≥ cfg.maxSize then some p
  else
    match t.run c p.view with
    | none => some p
    | some (v, fuel) =>
      if p.fuel + fuel ≥ MAXFUEL then some p
      else
        let ff := cfg.fuelFee fuel e.rate
        if t.fee < ff then none
        else
          some
            { view := v, size := p.size + t.size, fuel := p.fuel + fuel, fuelFee := wadd p.fuelFee ff
              wicc := if t.wusd then p.wicc else wadd p.wicc (t.fee - ff)
              wusd := if t.wusd then wadd p.wusd (t.fee - ff) else p.wusd
              txs := p.txs ++ [t] }

def packAll {V : Type} (cfg : Cfg V) (e : Env) (tip : Nat) : List (Cand V) → Pack V → Option (Pack V)
  | [], p => some p
  | c :: cs, p => (pack cfg e tip p c).bind (packAll cfg e tip cs)

/-- A block: its transactions without the reward, and what header and reward state. -/
structure Block (V : Type) where
  height : Nat
  txs : List (Tx V)
  fuelFee : Nat
  rate : Nat
  time : Nat
  bp : Nat
  wicc : Nat
  wusd : Nat
  rewardId : Nat

/-- Assemble a block from candidates in the order of packing; time runs out after `cut` of them. -/
def assemble {V : Type} (cfg : Cfg V) (e : Env) (n : Node V) (order : List (Cand V)) (cut rewardId : Nat) : Option (Block V) :=
  (packAll cfg e n.tip (order.take cut)
      { view := n.base, size := cfg.size0, fuel := 0, fuelFee := 0, wicc := 0, wusd := 0, txs := [] }).map fun p =>
    { height := n.tip + 1, txs := p.txs, fuelFee := p.fuelFee, rate := e.rate, time := e.time, bp := e.bp, wicc := p.wicc,
      wusd := p.wusd, rewardId := rewardId }

/-! ## Connecting a block -/

/-- The variables of the loop in `ConnectBlock`. -/
structure Conn (V : Type) where
  view : V
  fuel : Nat
  fuelFee : Nat
  wicc : Nat
  wusd : Nat

/-- Result of connecting: state afterwards, refused, or the node stops on a failed assertion. -/
inductive Res (A : Type)
  | ok (a : A)
  | bad
  | stop
deriving DecidableEq, Repr

/-- One transaction of a block. -/
def connTx {V : Type} (cfg : Cfg V) (n : Node V) (b : Block V) (prev index : Nat) (s : Conn V) (t : Tx V) : Res (Conn V) :=
  if n.conf t.id then .bad
  else if validAt t (n.tip : Int) = false then .bad
  else
    match t.run { height := b.height, index := index, rate := b.rate, time := b.time, prev := prev, bp := b.bp } s.view with
    | none => .bad
    | some (v, fuel) =>
      if s.fuel + fuel > MAXFUEL then .bad
      else
        let ff := cfg.fuelFee fuel b.rate
        if t.fee < ff then .stop
        else
          .ok
            { view := v, fuel := s.fuel + fuel, fuelFee := wadd s.fuelFee ff
              wicc := if t.wusd then s.wicc else wadd s.wicc (t.fee - ff)
              wusd := if t.wusd then wadd s.wusd (t.fee - ff) else s.wusd }

def connAll {V : Type} (cfg : Cfg V) (n : Node V) (b : Block V) (prev : Nat) : Nat → List (Tx V) → Conn V → Res (Conn V)
  | _, [], s => .ok s
  | i, t :: ts, s =>
    match connTx cfg n b prev i s t with
    | .ok s' => connAll cfg n b prev (i + 1) ts s'
    | .bad => .bad
    | .stop => .stop

/-- The serialized size of a block: `rest` is what is not in the transactions after the reward; every transaction has a byte for its
type. -/
def blockSize {V : Type} (rest : Nat) (b : Block V) : Nat := rest + (b.txs.map fun t => t.size + 1).sum

/-- `CheckBlock` and the transaction part of `ConnectBlock`; `GetFuelFee` returns 32 bits. -/
def connect {V : Type} (cfg : Cfg V) (n : Node V) (prev rest : Nat) (b : Block V) : Res V :=
  if blockSize rest b > MAXSIZE then .bad
  else if b.txs.any (fun t => t.kind == .reward) then .bad
  else if (b.txs.filter fun t => t.kind == .median).length ≠ 1 then .bad
  else if ¬ (b.rewardId :: b.txs.map (·.id)).Nodup then .bad
  else
    match connAll cfg n b prev 1 b.txs { view := n.base, fuel := 0, fuelFee := 0, wicc := 0, wusd := 0 } with
    | .bad => .bad
    | .stop => .stop
    | .ok s =>
      if s.fuelFee ≠ b.fuelFee % 2 ^ 32 then .bad
      else if s.wicc ≠ b.wicc ∨ s.wusd ≠ b.wusd then .bad
      else .ok s.view

/-- `CheckWork`: the producer's own test. -/
def checkWork {V : Type} (cfg : Cfg V) (n : Node V) (prev rest : Nat) (b : Block V) : Res V :=
  if (b.txs.any fun t => t.kind == .median) = false then .bad else connect cfg n prev rest b

/-- `ProcessMempoolMessage`: what a peer without a filter is told. -/
def poolMessage {V : Type} (n : Node V) : List Nat :=
  (n.pool.map (·.id)).filter fun h => !(n.pool.any fun t => t.id == h)

end Verif.Mine
