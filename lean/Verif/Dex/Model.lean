import Verif.Ledger.Basic
import Verif.Util.SSum

/-!
# The decentralised exchange

Model of `src/tx/dextx.cpp`: placing orders (`CDEXOrderBaseTx::CheckTx` 93-122, `ExecuteTx` 125-186, `CheckOrderSymbols` 253-268,
`CheckOrderAmounts` 270-304, `CheckOrderPrice` 306-321, `CheckOrderOperatorParam` 323-362, `CalcCoinAmount` 390-394), cancelling
(`CDEXCancelOrderTx` 459-517), settling (`CDealItemExecuter` 585-1027, `CDEXSettleTx` 1071-1115); of the order table
`src/persistence/dexdb.cpp` (75-108); of system orders `src/entities/dexorder.cpp` (80-118) as created by `cdptx.cpp` 94-107,
`blockpricemediantx.cpp` 430-455, `cointransfertx.cpp` 159-172; of `CGovCancelOrderProposal` (`src/entities/proposal.cpp` 905-961);
of `CalcAmountByRatio` (`src/commons/util/util.h` 462-470).

* Accounts are references (`Verif.Account`); a registration id is identified with the reference of its account, so the owner of
  an order and the sender of a transaction are references. An operator whose fee account cannot be found has none.
* A failing transaction leaves no trace, so `fail` carries no state. `crash` is a failed `assert` (asserts are always on,
  `main.cpp` 43-45) or undefined behaviour.
* The ordinary fee of the transaction (`CBaseTx`) is charged before and modelled in `Verif.Transfer`. The second index of the
  orders by height (`blockOrdersCache`) is written together with the first and left out. Signatures are a flag.
-/
namespace Verif.Dex

open Verif.Account Verif.Ledger

inductive Res (α : Type)
  | ok (a : α)
  | fail
  | crash

def Res.bind {α β : Type} (r : Res α) (f : α → Res β) : Res β :=
  match r with
  | .ok a => f a
  | .fail => .fail
  | .crash => .crash

/-- `PRICE_BOOST`, `RATIO_BOOST`, `DEX_OPERATOR_FEE_RATIO_MAX`, `MIN_DEX_ORDER_AMOUNT`, `MAX_SETTLE_ITEM_COUNT`. -/
def boost : Nat := 100000000
def ratioBoost : Nat := 10000
def maxFeeRatio : Nat := 50000000
def minAmount : Nat := 10000000
def maxItems : Nat := 10000

/-- `COrderOperatorParams`. -/
structure Params where
  isPublic : Bool
  maker : Nat
  taker : Nat
  deriving DecidableEq

/-- `CDEXOrderDetail`. `user`: `USER_GEN_ORDER`, otherwise `SYSTEM_GEN_ORDER`. -/
structure Order where
  user : Bool
  limit : Bool
  buy : Bool
  coin : Sym
  asset : Sym
  coinAmt : Nat
  assetAmt : Nat
  price : Nat
  dex : Nat
  params : Option Params
  cord : Nat × Nat
  owner : Ref
  dealCoin : Nat
  dealAsset : Nat
  deriving DecidableEq

/-- `DexOperatorDetail`. -/
structure Oper where
  recv : Option Ref
  params : Params
  openSet : List Nat
  active : Bool

/-- What the surrounding block and the other tables provide. `sysId i`: the id of the order created for the friction fee of deal
`i`, a hash. -/
structure Ctx where
  r3 : Bool
  friction : Option Nat
  bp : Option Ref
  fcoin : Ref
  match_ : Ref
  opers : Nat → Option Oper
  baseOk : Sym → Bool
  quoteOk : Sym → Bool
  cord : Nat × Nat
  sysId : Nat → Nat

structure State where
  mem : Mem
  orders : List (Nat × Order)

def ltN (a b : Nat) : Bool := decide (a < b)

/-- `CreateActiveOrder`. -/
def create (l : List (Nat × Order)) (id : Nat) (o : Order) : Res (List (Nat × Order)) :=
  match find l id with
  | some _ => .fail
  | none => .ok (put ltN l id o)

/-- `CalcCoinAmount`; the product fits in 128 bits. -/
def calcCoin (asset price : Nat) : Res Nat :=
  if asset * price / boost < 18446744073709551615 then .ok (asset * price / boost) else .crash

/-- `CalcAmountByRatio`. -/
def byRatio (amount ratio b : Nat) : Res Nat :=
  if amount * ratio / b ≤ 18446744073709551615 then .ok (amount * ratio / b) else .fail

/-- `(int64_t) uint64`. -/
def i64 (x : Nat) : Int := if x < 9223372036854775808 then x else (x : Int) - 18446744073709551616

/-- `CheckCoinRange`. -/
def maxCoin (s : Sym) : Int :=
  if s = "WICC" then 21000000000000000
  else if s = "WGRT" then 2100000000000000000
  else if s = "WUSD" then 210000000000000000
  else 9223372036854775807

/-- `CheckOrderAmount`. -/
def amountOk (s : Sym) (a : Nat) : Bool :=
  decide ((minAmount : Int) ≤ i64 a) && decide (0 ≤ i64 a) && decide (i64 a ≤ maxCoin s)

/-! ## Placing -/

/-- The operator part of an order transaction. -/
structure Cfg where
  params : Params
  modeOk : Bool
  oper : Ref
  signed : Bool
  txFee : Nat

/-- An order transaction; `type` 1 limit, 2 market; `side` 1 buy, 2 sell. -/
structure Place where
  type : Nat
  side : Nat
  coin : Sym
  asset : Sym
  coinAmt : Nat
  assetAmt : Nat
  price : Nat
  dex : Nat
  feeSym : Sym
  cfg : Option Cfg

/-- `CheckOrderAmounts`. -/
def amountsOk (p : Place) : Bool :=
  if p.type = 2 ∧ p.side = 1 then decide (p.assetAmt = 0) && amountOk p.coin p.coinAmt
  else decide (p.coinAmt = 0) && amountOk p.asset p.assetAmt

/-- `CheckOrderPrice`. -/
def priceOk (p : Place) : Bool := if p.type = 2 then decide (p.price = 0) else decide (0 < p.price)

/-- `CheckOrderOperatorParam`; `r`: the fee account of the operator. -/
def cfgOk (who r : Ref) : Option Cfg → Bool
  | none => true
  | some c => c.modeOk && decide (c.params.taker ≤ maxFeeRatio) && decide (c.params.maker ≤ maxFeeRatio) && decide (c.oper = r) &&
      decide (who ≠ r) && c.signed

/-- `CDEXOrderBaseTx::CheckTx`: the fee account of the operator, if all checks pass. -/
def checkPlace (c : Ctx) (who : Ref) (p : Place) : Option Ref :=
  if (p.type = 1 ∨ p.type = 2) ∧ (p.side = 1 ∨ p.side = 2) ∧ p.coin ≠ p.asset ∧ c.baseOk p.asset = true ∧ c.quoteOk p.coin = true ∧
      amountsOk p = true ∧ priceOk p = true then
    match c.opers p.dex with
    | none => none
    | some o =>
      if o.active then
        match o.recv with
        | none => none
        | some r => if cfgOk who r p.cfg then some r else none
      else none
  else none

/-- The operator's fee, taken in `ExecuteTx`. -/
def operFee (p : Place) (r : Ref) : List Req :=
  match p.cfg with
  | some c => if c.txFee > 0 then [⟨r, p.feeSym, .subFree, c.txFee, none⟩] else []
  | none => []

/-- The order stored. -/
def newOrder (c : Ctx) (who : Ref) (p : Place) (coinAmt : Nat) : Order :=
  ⟨true, decide (p.type = 1), decide (p.side = 1), p.coin, p.asset, coinAmt, p.assetAmt, p.price, p.dex, p.cfg.map (·.params), c.cord,
    who, 0, 0⟩

/-- `CDEXOrderBaseTx`: check and execute. -/
def place (c : Ctx) (σ : State) (id : Nat) (who : Ref) (p : Place) : Res State :=
  match checkPlace c who p with
  | none => .fail
  | some r =>
    match execAll σ.mem (operFee p r) with
    | none => .fail
    | some m1 =>
      (if p.type = 1 ∧ p.side = 1 then calcCoin p.assetAmt p.price else .ok p.coinAmt).bind fun ca =>
        match opBal m1 (if p.side = 1 then ⟨who, p.coin, .freeze, ca, none⟩ else ⟨who, p.asset, .freeze, p.assetAmt, none⟩) with
        | none => .fail
        | some m2 => (create σ.orders id (newOrder c who p ca)).bind fun l => .ok ⟨m2, l⟩

/-! ## Cancelling -/

/-- Symbol and amount still frozen for an order, as computed by both cancellations. -/
def frozenSym (o : Order) : Sym := if o.buy then o.coin else o.asset
def frozenAmt (o : Order) : Nat := if o.buy then wsub o.coinAmt o.dealCoin else wsub o.assetAmt o.dealAsset

/-- The common end of both cancellations. -/
def release (σ : State) (id : Nat) (o : Order) : Res State :=
  match opBal σ.mem ⟨o.owner, frozenSym o, .unfreeze, frozenAmt o, none⟩ with
  | none => .fail
  | some m => .ok ⟨m, del σ.orders id⟩

/-- `CDEXCancelOrderTx`; the empty id is 0. -/
def cancel (σ : State) (id : Nat) (who : Ref) : Res State :=
  if id = 0 then .fail
  else
    match find σ.orders id with
    | none => .fail
    | some o => if o.user then (if who = o.owner then release σ id o else .fail) else .fail

/-- `CGovCancelOrderProposal`. -/
def govCancel (σ : State) (id : Nat) : Res State :=
  if id = 0 then .fail
  else
    match find σ.orders id with
    | none => .fail
    | some o => if o.user then release σ id o else .fail

/-! ## System orders -/

/-- `CSysOrder::Create`. -/
def sysOrder (c : Ctx) (buy : Bool) (coin asset : Sym) (amount : Nat) : Order :=
  ⟨false, false, buy, coin, asset, if buy then amount else 0, if buy then 0 else amount, 0, 0, some ⟨true, 0, 0⟩, c.cord, c.fcoin, 0, 0⟩

/-- Freezing coins of the reserve account and creating a market order of it. -/
def sysPlace (c : Ctx) (σ : State) (id : Nat) (buy : Bool) (coin asset : Sym) (amount : Nat) : Res State :=
  match opBal σ.mem ⟨c.fcoin, if buy then coin else asset, .freeze, amount, none⟩ with
  | none => .fail
  | some m => (create σ.orders id (sysOrder c buy coin asset amount)).bind fun l => .ok ⟨m, l⟩

/-! ## Settling -/

/-- `DealItem`. -/
structure Deal where
  buyId : Nat
  sellId : Nat
  price : Nat
  coin : Nat
  asset : Nat

/-- `GetDealOrder`. -/
def getOrder (σ : State) (id : Nat) (buy : Bool) : Option Order :=
  match find σ.orders id with
  | none => none
  | some o => if o.buy = buy then some o else none

/-- `GetDexOperator` with the fee account. -/
def getOper (c : Ctx) (dex : Nat) : Option (Oper × Ref) :=
  match c.opers dex with
  | none => none
  | some o =>
    match o.recv with
    | none => none
    | some r => some (o, r)

/-- `operator<` of `CTxCord`. -/
def cordLt (a b : Nat × Nat) : Bool := decide (a.1 < b.1) || (decide (a.1 = b.1) && decide (a.2 < b.2))

/-- `GetTakerOrderSide`: whether the taker is the buyer. -/
def takerBuys (b s : Order) : Bool :=
  if b.limit ≠ s.limit then !b.limit else !(cordLt b.cord s.cord)

/-- `GetOrderOperatorParams`. -/
def paramsOf (o : Order) (op : Oper) : Params := o.params.getD op.params

/-- The price check, step 4. -/
def priceMatch (b s : Order) (price : Nat) : Bool :=
  if b.limit && s.limit then !(decide (b.price < price) || decide (s.price > price))
  else if b.limit then decide (price = b.price)
  else if s.limit then decide (price = s.price)
  else true

/-- `CheckOrderOpenMode`. -/
def openOk (b s : Order) (bo so : Oper) (takerBuy : Bool) : Bool :=
  if b.dex = s.dex then true
  else if takerBuy then (paramsOf s so).isPublic && (so.openSet.isEmpty || so.openSet.contains b.dex)
  else (paramsOf b bo).isPublic && (bo.openSet.isEmpty || bo.openSet.contains s.dex)

/-- The comparison of the coin amount with the calculated one, step 6. `std::abs` of the smallest number is undefined. -/
def coinMatch (b : Order) (calcd coin price : Nat) : Res Bool :=
  let diff := i64 (wsub calcd coin)
  if b.limit then .ok (decide (diff = 0))
  else if diff = -9223372036854775808 then .crash
  else .ok (decide ((diff.natAbs : Int) ≤ max 1 (i64 (price / boost))))

/-- `CalcMatchFee`. -/
def matchFee (o : Order) (op : Oper) (taker : Bool) (amount : Nat) : Res Nat :=
  let ratio := if taker then (paramsOf o op).taker else (paramsOf o op).maker
  if ratio > maxFeeRatio then .fail else byRatio amount ratio boost

/-- `SubDealFee`. -/
def subFee (received fee : Nat) : Res Nat := if received ≤ fee then .fail else .ok (received - fee)

/-- Steps 8 and 9: the friction fees and the match fees, in coins and assets. -/
structure Fees where
  coinFriction : Nat
  assetFriction : Nat
  coinMatch : Nat
  assetMatch : Nat

def frictions (friction : Option Nat) (fr : Bool) (d : Deal) : Res (Nat × Nat × Nat × Nat) :=
  if fr then
    match friction with
    | none => .fail
    | some ratio =>
      (byRatio d.coin ratio ratioBoost).bind fun cf => (subFee d.coin cf).bind fun rc =>
      (byRatio d.asset ratio ratioBoost).bind fun af => (subFee d.asset af).bind fun ra => .ok (cf, rc, af, ra)
  else .ok (0, d.coin, 0, d.asset)

def fees (b s : Order) (bo so : Oper) (friction : Option Nat) (fr takerBuy : Bool) (d : Deal) : Res Fees :=
  (frictions friction fr d).bind fun x =>
  (matchFee b bo takerBuy x.2.2.2).bind fun am => (subFee x.2.2.2 am).bind fun _ =>
  (matchFee s so (!takerBuy) x.2.1).bind fun cm => (subFee x.2.1 cm).bind fun _ => .ok ⟨x.1, x.2.2.1, cm, am⟩

/-- Everything computed before the balances are touched. -/
structure Prep where
  b : Order
  s : Order
  buyLeft : Nat
  sellLeft : Nat
  fr : Bool
  fee : Fees
  buyOp : Ref
  sellOp : Ref
  bp : Ref

/-- Steps 1 to 9 of `CDealItemExecuter::Execute`. -/
def prep (c : Ctx) (σ : State) (d : Deal) : Res Prep :=
  match getOrder σ d.buyId true, getOrder σ d.sellId false with
  | some b, some s =>
    match getOper c b.dex, getOper c s.dex, c.bp with
    | some (bo, br), some (so, sr), some bp =>
      let tb := takerBuys b s
      if b.coin ≠ s.coin ∨ b.asset ≠ s.asset ∨ priceMatch b s d.price = false ∨ openOk b s bo so tb = false then .fail
      else
        (calcCoin d.asset d.price).bind fun calcd => (coinMatch b calcd d.coin d.price).bind fun ok =>
        if ok = false then .fail
        else
          let b' := { b with dealCoin := wadd b.dealCoin d.coin, dealAsset := wadd b.dealAsset d.asset }
          let s' := { s with dealCoin := wadd s.dealCoin d.coin, dealAsset := wadd s.dealAsset d.asset }
          let lim := if b.limit then b'.assetAmt else b'.coinAmt
          let tot := if b.limit then b'.dealAsset else b'.dealCoin
          if lim < tot then .fail
          else if s'.assetAmt < s'.dealAsset then .fail
          else
            let fr := s.user && b.user && c.r3
            (fees b s bo so c.friction fr tb d).bind fun f =>
              .ok ⟨b', s', lim - tot, s'.assetAmt - s'.dealAsset, fr, f, br, sr, bp⟩
    | _, _, _ => .fail
  | _, _ => .fail

/-- Steps 10 to 12 and the unfreezing of step 13: the balance operations in order. -/
def dealReqs (fcoin : Ref) (d : Deal) (p : Prep) : List Req :=
  [⟨p.b.owner, p.b.coin, .dexDeal, d.coin, some p.s.owner⟩, ⟨p.s.owner, p.s.asset, .dexDeal, d.asset, some p.b.owner⟩] ++
  (if p.fr then
    (if p.fee.coinFriction > 0 then
      [⟨p.s.owner, p.s.coin, .subFree, p.fee.coinFriction, some fcoin⟩, ⟨fcoin, p.s.coin, .freeze, p.fee.coinFriction, none⟩]
     else []) ++ [⟨p.b.owner, p.b.asset, .subFree, p.fee.assetFriction, some p.bp⟩]
   else []) ++
  [⟨p.s.owner, p.s.coin, .subFree, p.fee.coinMatch, some p.sellOp⟩, ⟨p.b.owner, p.b.asset, .subFree, p.fee.assetMatch, some p.buyOp⟩] ++
  (if p.buyLeft = 0 ∧ p.b.limit = true ∧ p.b.coinAmt > p.b.dealCoin then
    [⟨p.b.owner, p.b.coin, .unfreeze, p.b.coinAmt - p.b.dealCoin, none⟩] else [])

/-- The order bought with the friction fee. -/
def frictionOrder (c : Ctx) (i : Nat) (p : Prep) (l : List (Nat × Order)) : Res (List (Nat × Order)) :=
  if p.fr = true ∧ p.fee.coinFriction > 0 then create l (c.sysId i) (sysOrder c true p.s.coin "WGRT" p.fee.coinFriction) else .ok l

/-- Step 13: erase or update. -/
def store (l : List (Nat × Order)) (id : Nat) (left : Nat) (o : Order) : List (Nat × Order) :=
  if left = 0 then del l id else put ltN l id o

/-- `CDealItemExecuter::Execute`. -/
def deal (c : Ctx) (σ : State) (i : Nat) (d : Deal) : Res State :=
  (prep c σ d).bind fun p =>
    match execAll σ.mem (dealReqs c.fcoin d p) with
    | none => .fail
    | some m =>
      (frictionOrder c i p σ.orders).bind fun l =>
        if p.buyLeft = 0 ∧ p.b.limit = true ∧ ¬ p.b.coinAmt > p.b.dealCoin ∧ p.b.coinAmt ≠ p.b.dealCoin then .crash
        else .ok ⟨m, store (store l d.buyId p.buyLeft p.b) d.sellId p.sellLeft p.s⟩

/-- The loop of `CDEXSettleTx::ExecuteTx`. -/
def deals (c : Ctx) : State → Nat → List Deal → Res State
  | σ, _, [] => .ok σ
  | σ, i, d :: ds => (deal c σ i d).bind fun σ' => deals c σ' (i + 1) ds

/-- `CDEXSettleTx::CheckTx` for one item. -/
def dealOk (d : Deal) : Bool :=
  decide (d.buyId ≠ 0) && decide (d.sellId ≠ 0) && decide (d.buyId ≠ d.sellId) && decide (d.coin ≠ 0) && decide (d.asset ≠ 0) &&
    decide (d.price ≠ 0)

/-- `CDEXSettleTx`. -/
def settle (c : Ctx) (σ : State) (who : Ref) (ds : List Deal) : Res State :=
  if who = c.match_ ∧ ds ≠ [] ∧ ds.length ≤ maxItems ∧ ds.all dealOk = true then deals c σ 0 ds else .fail

end Verif.Dex
