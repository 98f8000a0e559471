import Verif.Util.SMap
import Verif.Util.U64

/-!
# Price feeds

Code modelled (all under /repo/src):

* `CPricePointMemCache` (persistence/pricefeeddb.cpp 23-424): `AddPrice`, `ExistBlockUserPrice`, `AddPriceByBlock`,
  `DeleteBlockFromCache`, `BatchWrite`, `GetBlockUserPrices`, `ComputeBlockMedianPrice`, `ComputeMedianNumber`, `GetMedianPrice`,
  `CalcMedianPriceDetails`, `PushBlock`, `UndoBlock`, `ReleadBlocks`;
* `CPriceFeedTx::CheckTx`, `ExecuteTx` (tx/pricefeedtx.cpp 25-91);
* `CBlockPriceMedianTx::ExecuteTx` up to the forced liquidations, `EqualToCalculatedPrices` (tx/blockpricemediantx.cpp 124-159,
  217-236);
* the calls in `ConnectBlock`, `DisconnectBlock` (main.cpp 1082-1100, 1264, 678), `ConnectTip`, `DisconnectTip` (1343-1427),
  `ProcessForkedChain` (1750-1776) and `CheckBlock` (1855-1863: exactly one median transaction).

Conventions

* A layer is `mapCoinPricePointCache`. Heights and pairs are looked up only, so the outer maps are functions. `BatchWrite` creates a
  pair without heights where the code creates none; a pair without heights is read like a missing one.
* A regid is a number. The sender of a feed is given by regid (`CheckBaseTx` requires it).
* A block is the list of its transactions after the reward. The genesis block is the last of the chain.
* The medians in the database are stored with the block that wrote them: the undo data restores the previous ones (Verif/KV).
* Prices and heights are natural numbers; the sum of two prices wraps at 64 bits.
-/
namespace Verif.Price

abbrev Pair := String × String

/-- `map<CRegID, uint64_t>` -/
abbrev Users := List (Nat × Nat)

/-- `map<PriceCoinPair, CConsecutiveBlockPrice>` -/
abbrev Layer := Pair → Option (Nat → Option Users)

def Layer.empty : Layer := fun _ => none

def natLt (a b : Nat) : Bool := decide (a < b)

/-- `mapCoinPricePointCache[p].mapBlockUserPrices[h]` if present -/
def Layer.users (l : Layer) (p : Pair) (h : Nat) : Option Users :=
  match l p with
  | none => none
  | some f => f h

def Layer.set (l : Layer) (p : Pair) (h : Nat) (u : Users) : Layer :=
  fun q => if q = p then some (fun k => if k = h then some u else l.users p k) else l q

/-- `AddUserPrice` -/
def Layer.add (l : Layer) (p : Pair) (h r v : Nat) : Layer := l.set p h (put natLt ((l.users p h).getD []) r v)

/-- `ExistBlockUserPrice`, through the layers from the top. -/
def exist : List Layer → Pair → Nat → Nat → Bool
  | [], _, _, _ => false
  | l :: ls, p, h, r =>
    match l.users p h with
    | some u => (find u r).isSome || exist ls p h r
    | none => exist ls p h r

/-- `AddPrice`: points before a duplicate stay. -/
def addPrice (top : Layer) (rest : List Layer) (h r : Nat) : List (Pair × Nat) → Layer × Bool
  | [] => (top, true)
  | (p, v) :: pts => if exist (top :: rest) p h r then (top, false) else addPrice (top.add p h r v) rest h r pts

/-- Transactions as far as prices are concerned. -/
inductive Tx
  | feed (r : Nat) (pts : List (Pair × Nat))
  | median (claimed : List (Pair × Nat))
  | other
  deriving DecidableEq

abbrev Block := List Tx

def Tx.isFeed : Tx → Bool
  | .feed _ _ => true
  | _ => false

def Tx.isMedian : Tx → Bool
  | .median _ => true
  | _ => false

/-- The loop of `AddPriceByBlock`: it stops at the first other transaction and ignores failures. -/
def addFeeds (top : Layer) (rest : List Layer) (h : Nat) : List Tx → Layer
  | .feed r pts :: ts => addFeeds (addPrice top rest h r pts).1 rest h ts
  | _ => top

/-- `AddPriceByBlock`. -/
def addBlock (top : Layer) (rest : List Layer) (h : Nat) (b : Block) : Layer :=
  if b.length + 1 < 3 then top else addFeeds top rest h b

/-- The pairs collected by `DeleteBlockFromCache`. -/
def leadPairs : List Tx → List Pair
  | .feed _ pts :: ts => pts.map (·.1) ++ leadPairs ts
  | _ => []

/-- `DeleteBlockFromCache`: an empty map at the height, for the pairs found in the block and for all pairs of this layer. -/
def deleteBlock (top : Layer) (h : Nat) (b : Block) : Layer :=
  fun p => if p ∈ leadPairs b ∨ (top p).isSome then some (fun k => if k = h then some [] else top.users p k) else none

/-- `emplace` of every item -/
def emplaceAll (base : Users) : Users → Users
  | [] => base
  | (r, v) :: u => emplaceAll (if (find base r).isSome then base else put natLt base r v) u

/-- `BatchWrite` -/
def batchWrite (base child : Layer) : Layer :=
  fun p => match child p with
    | none => base p
    | some f => some (fun k => match f k with
      | none => base.users p k
      | some [] => none
      | some u => some (emplaceAll ((base.users p k).getD []) u))

/-- `GetBlockUserPrices`: the layers from the top, with the heights expired so far and the result so far. -/
def scan (p : Pair) : List Layer → (Nat → Bool) → (Nat → Option Users) → Nat → Option Users
  | [], _, acc => acc
  | l :: ls, ex, acc =>
    scan p ls (fun h => ex h || decide (l.users p h = some []))
      (fun h => match l.users p h with
        | some (u :: us) => if ex h || (acc h).isSome then acc h else some (u :: us)
        | _ => acc h)

def userPrices (ls : List Layer) (p : Pair) : Nat → Option Users := scan p ls (fun _ => false) (fun _ => none)

/-- The prices of heights `h`, `h-1`, ... above `begin`. -/
def collect (up : Nat → Option Users) (h : Nat) : Nat → List Nat
  | 0 => []
  | n + 1 => (match up h with | some u => u.map (·.2) | none => []) ++ collect up (h - 1) n

def insort (x : Nat) : List Nat → List Nat
  | [] => [x]
  | y :: ys => if x ≤ y then x :: y :: ys else y :: insort x ys

/-- `std::sort` -/
def sort : List Nat → List Nat
  | [] => []
  | x :: xs => insort x (sort xs)

/-- `ComputeMedianNumber` -/
def medianNumber (l : List Nat) : Nat :=
  if l.length < 2 then l.headD 0
  else if l.length % 2 = 0 then wadd ((sort l).getD (l.length / 2 - 1) 0) ((sort l).getD (l.length / 2) 0) / 2
  else (sort l).getD (l.length / 2) 0

/-- `CMedianPriceDetail` -/
structure Detail where
  price : Nat
  last : Nat
  deriving DecidableEq

/-- `PriceDetailMap` -/
abbrev Details := List (Pair × Detail)

/-- `ComputeBlockMedianPrice` -/
def blockMedian (up : Nat → Option Users) (h w : Nat) : Detail :=
  let begin := if h > w then h - w else 0
  ⟨medianNumber (collect up h (h - begin)), if (up h).isSome ∧ begin < h then h else 0⟩

/-- `GetMedianPrice` -/
def medianPrice (latest : Details) (h w : Nat) (ls : List Layer) (p : Pair) : Detail :=
  let d := blockMedian (userPrices ls p) h w
  match find latest p with
  | none => d
  | some prev =>
    if d.price = 0 then prev
    else if d.last ≠ h then ⟨d.price, prev.last⟩
    else d

/-- What the database says while a block is executed. -/
structure Env where
  /-- the window read by the median transaction -/
  window : Nat
  /-- the window read by `PushBlock`, after the whole block -/
  windowAfter : Nat
  /-- `GetFeedCoinPairs`, in the order of the set -/
  pairs : List Pair
  /-- the price feed permission of an asset, if it exists -/
  asset : String → Option Bool
  /-- `CheckPriceFeedQuoteSymbol` -/
  quote : String → Bool
  /-- the account is an active delegate with enough coins staked -/
  feeder : Nat → Bool

/-- `CalcMedianPriceDetails` -/
def calcDetails (env : Env) (latest : Details) (h : Nat) (ls : List Layer) : Option Details :=
  if env.pairs.all (fun p => (env.asset p.1).isSome) then
    some ((env.pairs.filter (fun p => env.asset p.1 = some true)).filterMap (fun p =>
      let d := medianPrice latest h env.window ls p
      if d.price = 0 then none else some (p, d)))
  else none

/-- `EqualToCalculatedPrices` -/
def claimOk (claimed : List (Pair × Nat)) (found : Details) : Bool :=
  claimed.filter (fun x => decide (x.2 ≠ 0)) = found.map (fun x => (x.1, x.2.price))

/-- `COIN_PRICE_PAIR_COUNT_MAX` -/
def maxPoints : Nat := 100

/-- `CPriceFeedTx::CheckTx` -/
def feedOk (env : Env) (pts : List (Pair × Nat)) : Bool :=
  decide (pts ≠ []) && decide (pts.length ≤ maxPoints) && pts.all (fun x =>
    decide (x.2 ≠ 0) && decide (x.1.1 ≠ x.1.2) && decide (env.asset x.1.1 = some true) && env.quote x.1.2 && env.pairs.contains x.1)

/-- The transactions of a block, in the layer `cw` over `base`. -/
def execTxs (env : Env) (base : Layer) (h : Nat) : List Tx → Layer → Details → Option (Layer × Details)
  | [], cw, med => some (cw, med)
  | .feed r pts :: ts, cw, med =>
    if !feedOk env pts then none
    else if !env.feeder r then none
    else match addPrice cw [base] h r pts with
      | (_, false) => none
      | (cw', true) => execTxs env base h ts cw' med
  | .median claimed :: ts, cw, med =>
    match calcDetails env med h [cw, base] with
    | none => none
    | some d => if claimOk claimed d then execTxs env base h ts cw d else none
  | .other :: ts, cw, med => execTxs env base h ts cw med

structure Entry where
  block : Block
  medians : Details

structure State where
  /-- `pCdMan->pPpCache` -/
  base : Layer
  /-- the active chain, the tip first -/
  chain : List Entry

/-- Height of the tip. -/
def State.tip (st : State) : Nat := st.chain.length - 1

def State.medians (st : State) : Details :=
  match st.chain with
  | [] => []
  | e :: _ => e.medians

/-- `PushBlock` on the layer of a block at height `h`; `chain` starts with that block. -/
def pushBlock (cw : Layer) (chain : List Entry) (h w : Nat) : Option Layer :=
  if h > w then
    match chain[w]? with
    | none => none
    | some e => some (deleteBlock cw (h - w) e.block)
  else some cw

/-- `ConnectTip`. -/
def connect (st : State) (env : Env) (b : Block) : Option State :=
  if (b.filter Tx.isMedian).length ≠ 1 then none
  else match execTxs env st.base (st.tip + 1) b Layer.empty st.medians with
    | none => none
    | some (cw, med) =>
      match pushBlock cw (⟨b, med⟩ :: st.chain) (st.tip + 1) env.windowAfter with
      | none => none
      | some cw' => some ⟨batchWrite st.base cw', ⟨b, med⟩ :: st.chain⟩

/-- `UndoBlock` on the layer `top` over `rest`; the tip is the block at height `h`. -/
def undoBlock (top : Layer) (rest : List Layer) (chain : List Entry) (h w : Nat) (b : Block) : Option Layer :=
  let cw := deleteBlock top h b
  if h > w then
    match chain[w]? with
    | none => none
    | some e => some (addBlock cw rest (h - w) e.block)
  else some cw

/-- `DisconnectTip`. The first block cannot be disconnected. -/
def disconnect (st : State) (w : Nat) : Option State :=
  match st.chain with
  | e :: e' :: rest =>
    match undoBlock Layer.empty [st.base] st.chain st.tip w e.block with
    | none => none
    | some cw => some ⟨batchWrite st.base cw, e' :: rest⟩
  | _ => none

/-- `DisconnectBlock` on a copy of the caches, as `ProcessForkedChain` does. -/
def disconnectCopy (st : State) (w : Nat) : Option State :=
  match st.chain with
  | e :: e' :: rest =>
    match undoBlock st.base [] st.chain st.tip w e.block with
    | none => none
    | some base => some ⟨base, e' :: rest⟩
  | _ => none

/-- The loop of `ReleadBlocks`, from the block at height `h` down. -/
def reload (l : Layer) (h : Nat) : List Entry → Nat → Layer
  | e :: es, n + 1 => reload (addBlock l [] h e.block) (h - 1) es n
  | _, _ => l

/-- Restart of the node: the cache is filled from the blocks. -/
def restart (st : State) (w : Nat) : State := ⟨reload Layer.empty st.tip st.chain w, st.chain⟩

/-! ## Histories -/

inductive Ev
  | connect (env : Env) (b : Block)
  | disconnect (w : Nat)
  | disconnectCopy (w : Nat)
  | restart (w : Nat)

def apply (st : State) : Ev → Option State
  | .connect env b => connect st env b
  | .disconnect w => disconnect st w
  | .disconnectCopy w => disconnectCopy st w
  | .restart w => some (restart st w)

/-- A refused block changes nothing. -/
def step (st : State) (e : Ev) : State := (apply st e).getD st

def run (st : State) (es : List Ev) : State := es.foldl step st

end Verif.Price
