import Verif.Util.SMap

/-!
# Recent-transaction cache and replay protection

Models `CTxMemCache` (src/persistence/txdb.cpp:17-66, txdb.h) and the parts of
`ConnectBlock` / `DisconnectBlock` / start-up (src/main.cpp, src/init.cpp) which
decide whether a transaction may be confirmed.

Transaction ids are natural numbers (`uint256`).  `std::map<uint256,bool>` is an
ordered association list.
-/

namespace Verif.TxCache

/-- `typedef map<uint256, bool> TxIdMap` (src/persistence/txdb.h). -/
abbrev TxMap := List (Nat × Bool)

def ltN (a b : Nat) : Bool := decide (a < b)

/-- A stack of caches, top first.  The last one is the root (`pBase == nullptr`). -/
abbrev Stack := List TxMap

/-- `CTxMemCache::AddBlockTx` (src/persistence/txdb.cpp:17-22). -/
def addTxs (m : TxMap) : List Nat → TxMap
  | [] => m
  | t :: ts => addTxs (put ltN m t true) ts

/-- `CTxMemCache::RemoveBlockTx` (src/persistence/txdb.cpp:24-33). -/
def removeTxs (isRoot : Bool) (m : TxMap) : List Nat → TxMap
  | [] => m
  | t :: ts => removeTxs isRoot (if isRoot then del m t else put ltN m t false) ts

/-- `CTxMemCache::HasTx` (src/persistence/txdb.cpp:35-45). -/
def hasTx : Stack → Nat → Bool
  | [], _ => false
  | m :: rest, t =>
    match find m t with
    | some b => b
    | none => hasTx rest t

/-- `CTxMemCache::BatchWrite` (src/persistence/txdb.cpp:47-56). -/
def batchWrite (isRoot : Bool) (dst : TxMap) : TxMap → TxMap
  | [] => dst
  | (t, b) :: rest =>
    batchWrite isRoot (if isRoot && !b then del dst t else put ltN dst t b) rest

/-- Operations through the top cache of a stack.
`push` creates a child (`CCacheWrapper(CCacheWrapper*)`, cachewrapper.cpp:35),
`drop` destroys it without flushing, `flush` is `CTxMemCache::Flush`
(src/persistence/txdb.cpp:58-63). -/
inductive Op
  | add (txs : List Nat)
  | remove (txs : List Nat)
  | push
  | flush
  | drop
  deriving DecidableEq, Repr

/-- One operation; `none` is the failed `assert(pBase)` (or a missing cache). -/
def step : Stack → Op → Option Stack
  | [], _ => none
  | m :: rest, .add txs => some (addTxs m txs :: rest)
  | m :: rest, .remove txs => some (removeTxs rest.isEmpty m txs :: rest)
  | m :: rest, .push => some ([] :: m :: rest)
  | [_], .flush => none
  | m :: b :: rest, .flush => some ([] :: batchWrite rest.isEmpty b m :: rest)
  | [_], .drop => none
  | _ :: b :: rest, .drop => some (b :: rest)

def run : Stack → List Op → Option Stack
  | s, [] => some s
  | s, o :: os => match step s o with
    | none => none
    | some s' => run s' os

/-! ## Chain part -/

/-- Transaction kinds which matter here (src/tx/tx.cpp:79, tx.h `IsBlockRewardTx`,
`IsPriceMedianTx`). -/
inductive Kind
  | reward
  | median
  | ordinary
  deriving DecidableEq, Repr

/-- What the replay check looks at in a transaction: id, kind and `valid_height`.
All of them are functions of the signed content `T`. -/
structure TxInfo (T : Type) where
  hash : T → Nat
  kind : T → Kind
  validHeight : T → Int

/-- `CBaseTx::IsValidHeight` (src/tx/tx.cpp:78-84). -/
def isValidHeight {T} (I : TxInfo T) (t : T) (cur : Int) (cacheH : Nat) : Bool :=
  if I.kind t = .reward ∨ I.kind t = .median then true
  else
    let half : Int := (cacheH : Int) / 2
    decide (I.validHeight t ≤ cur + half) && decide (I.validHeight t ≥ cur - half)

/-- Node state: active chain (tip first, genesis last) and the global cache
(`pCdMan->pTxCache`, a root). -/
structure Node (T : Type) where
  chain : List (List T)
  cache : TxMap

/-- Height of the tip; `chain = []` has none. -/
def tipHeight {T} (chain : List (List T)) : Nat := chain.length - 1

/-- `CheckBlock` (src/main.cpp:1819-1880): the parts about transactions.
`medianRule` is `GetFeatureForkVersion(height) >= MAJOR_VER_R2`. -/
def checkBlock {T} (I : TxInfo T) (medianRule : Bool) (b : List T) : Bool :=
  match b with
  | [] => false
  | r :: txs =>
    decide (I.kind r = .reward)
    && txs.all (fun t => decide (I.kind t ≠ .reward))
    && (!medianRule || decide ((b.filter (fun t => decide (I.kind t = .median))).length = 1))
    && decide ((b.map I.hash).Nodup)

/-- `ConnectBlock` loop over `index >= 1` (src/main.cpp:1062-1071): duplicate
check and valid height check.  Execution of the transactions is a separate
parameter of `connect`. -/
def txsAllowed {T} (I : TxInfo T) (cacheH : Nat) (cw : Stack) (cur : Int) (txs : List T) : Bool :=
  txs.all (fun t => !hasTx cw (I.hash t) && isValidHeight I t cur cacheH)

/-- `ConnectTip` (src/main.cpp:1392-1430) with `ConnectBlock` (988-1271):
a fresh child cache over the global one; checks; `AddBlockTx`; forget the block
`cacheH` below (main.cpp:1247-1262); flush.  The genesis block skips everything
(main.cpp:1009-1016).  `execOk` stands for all other checks. -/
def connect {T} (I : TxInfo T) (cacheH : Nat) (medianRule execOk : Bool) (n : Node T) (b : List T) :
    Option (Node T) :=
  match n.chain with
  | [] => some { n with chain := [b] }
  | _ :: _ =>
    let height := n.chain.length
    if !checkBlock I medianRule b then none
    else if !txsAllowed I cacheH [[], n.cache] (tipHeight n.chain) b.tail then none
    else if !execOk then none
    else
      let top := addTxs [] (b.map I.hash)
      let top :=
        if height > cacheH then
          match (b :: n.chain)[cacheH]? with
          | some old => removeTxs false top (old.map I.hash)
          | none => top
        else top
      some { chain := b :: n.chain, cache := batchWrite true n.cache top }

/-- `DisconnectTip` (src/main.cpp:1344-1388) with `DisconnectBlock` (627-687).
The genesis block has no undo data, so it is never disconnected (638-640). -/
def disconnect {T} (I : TxInfo T) (cacheH : Nat) (n : Node T) : Option (Node T) :=
  match n.chain with
  | [] => none
  | [_] => none
  | b :: rest =>
    let height := rest.length
    let top := removeTxs false [] (b.map I.hash)
    let top :=
      if height > cacheH then
        match (b :: rest)[cacheH]? with
        | some old => addTxs top (old.map I.hash)
        | none => top
      else top
    some { chain := rest, cache := batchWrite true n.cache top }

/-- Adding blocks one after the other to a root cache. -/
def loadBlocks {T} (I : TxInfo T) (m : TxMap) : List (List T) → TxMap
  | [] => m
  | b :: bs => loadBlocks I (addTxs m (b.map I.hash)) bs

/-- Start-up load (src/init.cpp:820-834): the last `cacheH` blocks from the tip down. -/
def loadCache {T} (I : TxInfo T) (cacheH : Nat) (n : Node T) : Node T :=
  { n with cache := loadBlocks I n.cache (n.chain.take cacheH) }

/-- RPC `reloadtxcache` (src/rpc/rpctx.cpp:840-856): clear, then load from height
`tip - cacheH` (or genesis) up to the tip, which is one block more than start-up. -/
def reloadCache {T} (I : TxInfo T) (cacheH : Nat) (n : Node T) : Node T :=
  { n with cache := loadBlocks I [] (n.chain.take (cacheH + 1)).reverse }

/-- A new process starts with an empty cache (src/persistence/cachewrapper.cpp:219). -/
def startProcess {T} (n : Node T) : Node T := { n with cache := [] }

/-- Events in the life of a node.  `restart` is a start-up at which no stored
block waits to be connected; the general start-up is `start` followed by
`connect`s (`ActivateBestChain`, init.cpp:814-816) followed by `load`. -/
inductive Ev (T : Type)
  | connect (medianRule execOk : Bool) (b : List T)
  | disconnect
  | restart
  | reload
  | start
  | load

/-- Apply an event; a rejected block or failed disconnect leaves the node as it was. -/
def evStep {T} (I : TxInfo T) (cacheH : Nat) (n : Node T) : Ev T → Node T
  | .connect mr ok b => (connect I cacheH mr ok n b).getD n
  | .disconnect => (disconnect I cacheH n).getD n
  | .restart => loadCache I cacheH (startProcess n)
  | .reload => reloadCache I cacheH n
  | .start => startProcess n
  | .load => loadCache I cacheH n

def evRun {T} (I : TxInfo T) (cacheH : Nat) : Node T → List (Ev T) → Node T
  | n, [] => n
  | n, e :: es => evRun I cacheH (evStep I cacheH n e) es

/-- A node before the genesis block is connected. -/
def freshNode (T : Type) : Node T := { chain := [], cache := [] }

end Verif.TxCache
