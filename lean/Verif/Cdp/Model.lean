import Verif.Ledger.Basic
import Verif.Util.SMap
import Verif.Util.Double
/-!
# Collateralised debt positions

Models `src/entities/cdp.h` 66-218, `src/entities/cdp.cpp` 31-57, `src/persistence/cdpdb.cpp` 25-133, 200-210,
`src/tx/cdptx.cpp` 17-109, 113-117, 172-361 (stake), 390-545 (redeem), 568-812 (liquidate), 834-874 (penalty),
878-968 (interest settlement), 989-1048 (choice of positions to settle) and
`src/tx/blockpricemediantx.cpp` 163-220, 273-428 (forced liquidation).

Simplifications, for the whole file:
* the owner's registration id is identified with the account it denotes (`Ref`); accounts are never deleted, so looking
  up the owner's account cannot fail;
* reading a parameter cannot fail (`GetCdpParam` falls back to the table of defaults, see `Verif/Gov`);
* the interest (`ComputeCDPInterest`, 124-169, logarithms in floating point) is an arbitrary input of the
  transaction: a function of the pair, the debt and the two heights, `none` where the parameter history cannot be read;
* creating the system's market order on the exchange is an input `orderOk`: it may fail, and otherwise has no effect
  on accounts or positions (the exchange itself is modelled in `Verif/Dex`);
* receipts and the optional archive of closed positions are left out;
* the testnet-only variant `ForceLiquidateCDPCompat` is left out.
-/
namespace Verif.Cdp

open Verif.Account Verif.Ledger Verif.Dbl

/-- `PRICE_BOOST`, `CDP_BASE_RATIO_BOOST`, `COIN` (config/const.h, config/scoin.h). -/
def PB : Nat := 100000000
/-- `RATIO_BOOST`. -/
def RB : Nat := 10000
/-- `UINT64_MAX`. -/
def MAXU : Nat := 18446744073709551615
def WUSD : Sym := "WUSD"
def WGRT : Sym := "WGRT"

/-- Outcome of a step: `fail` is a rejected transaction, `crash` an assertion of the C++ (`abort()`). -/
inductive Res (α : Type) where
  | ok (a : α)
  | fail
  | crash
  deriving DecidableEq, Repr

def Res.bind {α β : Type} : Res α → (α → Res β) → Res β
  | .ok a, f => f a
  | .fail, _ => .fail
  | .crash, _ => .crash

instance : Monad Res where
  pure := .ok
  bind := Res.bind

/-- `if (!c) return state.DoS(...)`. -/
def chk (c : Bool) : Res Unit := if c then .ok () else .fail
/-- `assert(c)`. -/
def asrt (c : Bool) : Res Unit := if c then .ok () else .crash

/-- `CCdpCoinPair`: collateral coin, stable coin. -/
abbrev Pair := Sym × Sym

/-- `CUserCDP` (cdp.h 66-75); `collateral_ratio_base` is recomputed wherever amounts change. -/
structure Cdp where
  id : Nat
  owner : Ref
  height : Nat
  bcoin : Sym
  scoin : Sym
  staked : Nat
  owed : Nat
  deriving DecidableEq, Repr

def Cdp.pair (c : Cdp) : Pair := (c.bcoin, c.scoin)

/-- `ComputeCollateralRatioBase` (cdp.h 130-138). -/
def Cdp.base (c : Cdp) : Nat :=
  if c.staked ≠ 0 ∧ c.owed = 0 then ofU MAXU
  else if c.staked = 0 ∨ c.owed = 0 then 0
  else div (ofU c.staked) (ofU c.owed)

/-- `CUserCDP::GetCollateralRatio` (cdp.h 140-146). -/
def Cdp.ratio (k : Conv) (c : Cdp) (price : Nat) : Nat :=
  if c.base = ofU MAXU then MAXU
  else k.cv (mul (mul (div (ofU price) (ofU PB)) c.base) (ofU RB))

/-- `AddStake` (cdp.cpp 40-47). -/
def Cdp.addStake (c : Cdp) (h b s : Nat) : Res Cdp := do
  asrt (c.staked ≤ wadd c.staked b)
  asrt (c.owed ≤ wadd c.owed s)
  pure { c with height := h, staked := wadd c.staked b, owed := wadd c.owed s }

/-- `Redeem` (cdp.cpp 31-38). -/
def Cdp.redeem (c : Cdp) (h b s : Nat) : Res Cdp := do
  asrt (b ≤ c.staked)
  asrt (s ≤ c.owed)
  pure { c with height := h, staked := c.staked - b, owed := c.owed - s }

/-- `PartialLiquidate` (cdp.cpp 49-57). -/
def Cdp.partialLiq (c : Cdp) (b s : Nat) : Res Cdp := do
  asrt (b ≤ c.staked)
  asrt (s ≤ c.owed)
  pure { c with staked := c.staked - b, owed := c.owed - s }

/-! ## The store (persistence/cdpdb.cpp) -/

/-- Key of the ratio index without the coin pair: boosted ratio, height, id; compared in this order. -/
abbrev RKey := Nat × Nat × Nat
/-- Key of the height index without the coin pair: height, id. -/
abbrev HKey := Nat × Nat

def ltN (a b : Nat) : Bool := decide (a < b)
def ltH (a b : HKey) : Bool := decide (a.1 < b.1 ∨ (a.1 = b.1 ∧ a.2 < b.2))
def ltR (a b : RKey) : Bool := decide (a.1 < b.1 ∨ (a.1 = b.1 ∧ (a.2.1 < b.2.1 ∨ (a.2.1 = b.2.1 ∧ a.2.2 < b.2.2))))

/-- `MakeCdpRatioIndexKey` (cdpdb.cpp 200-205). -/
def rkey (k : Conv) (c : Cdp) : RKey :=
  let boosted := k.cv (mul c.base (ofU PB))
  (if ofU boosted < c.base then MAXU else boosted, c.height, c.id)

/-- `MakeCdpHeightIndexKey` (207-210). -/
def hkey (c : Cdp) : HKey := (c.height, c.id)

/-- The tables of `CCdpDBCache` (cdpdb.h 100-110) together with the accounts.  Tables whose keys begin with the coin pair
are kept per pair (the code iterates them only with the pair as prefix).  `glob` holds staked and owed totals; a missing
entry reads as zeros. -/
structure St where
  mem : Mem
  cdps : List (Nat × Cdp)
  user : Ref × Pair → Option Nat
  glob : Pair → Nat × Nat
  ridx : Pair → List (RKey × Cdp)
  hidx : Pair → List (HKey × Cdp)

/-- `SaveCdpIndexData` (77-93). -/
def saveIdx (k : Conv) (σ : St) (c : Cdp) : St :=
  { σ with
    glob := fun p => if p = c.pair then (wadd (σ.glob p).1 c.staked, wadd (σ.glob p).2 c.owed) else σ.glob p
    ridx := fun p => if p = c.pair then put ltR (σ.ridx p) (rkey k c) c else σ.ridx p
    hidx := fun p => if p = c.pair then put ltH (σ.hidx p) (hkey c) c else σ.hidx p }

/-- `EraseCdpIndexData` (95-110). -/
def eraseIdx (k : Conv) (σ : St) (c : Cdp) : St :=
  { σ with
    glob := fun p => if p = c.pair then (wsub (σ.glob p).1 c.staked, wsub (σ.glob p).2 c.owed) else σ.glob p
    ridx := fun p => if p = c.pair then del (σ.ridx p) (rkey k c) else σ.ridx p
    hidx := fun p => if p = c.pair then del (σ.hidx p) (hkey c) else σ.hidx p }

/-- `NewCDP` (25-29). -/
def newCDP (k : Conv) (σ : St) (c : Cdp) : St :=
  saveIdx k { σ with
    cdps := put ltN σ.cdps c.id c
    user := fun x => if x = (c.owner, c.pair) then some c.id else σ.user x } c

/-- `EraseCDP` (31-35): the second argument of the C++ has the same id, owner and pair as the first. -/
def eraseCDP (k : Conv) (σ : St) (old : Cdp) : St :=
  eraseIdx k { σ with
    cdps := del σ.cdps old.id
    user := fun x => if x = (old.owner, old.pair) then none else σ.user x } old

/-- `UpdateCDP` (38-41); the assertion is about the id being non-zero. -/
def updateCDP (k : Conv) (σ : St) (old new : Cdp) : St :=
  saveIdx k (eraseIdx k { σ with cdps := put ltN σ.cdps new.id new } old) new

/-- `CCdpGlobalData::GetCollateralRatio` (cdp.h 198-205). -/
def globRatio (k : Conv) (g : Nat × Nat) (price : Nat) : Nat :=
  if g.2 = 0 then MAXU
  else k.cv (mul (div (div (mul (ofU g.1) (ofU price)) (ofU PB)) (ofU g.2)) (ofU RB))

/-- `CheckGlobalCollateralRatioFloorReached` (cdp.h 208-211). -/
def floorReached (k : Conv) (g : Nat × Nat) (price lim : Nat) : Bool := decide (globRatio k g price < lim)

/-- `CheckGlobalCollateralCeilingReached` (cdp.h 214-217). -/
def ceilReached (g : Nat × Nat) (new ceil : Nat) : Bool := decide (wmul ceil PB < wadd new g.1)

/-! ## Transactions -/

/-- Parameters of one pair (config/scoin.h 86-99). -/
structure Params where
  gmin : Nat       -- CDP_GLOBAL_COLLATERAL_RATIO_MIN
  ceil : Nat       -- CDP_GLOBAL_COLLATERAL_CEILING_AMOUNT
  start : Nat      -- CDP_START_COLLATERAL_RATIO
  startLiq : Nat   -- CDP_START_LIQUIDATE_RATIO
  nonReturn : Nat  -- CDP_NONRETURN_LIQUIDATE_RATIO
  forced : Nat     -- CDP_FORCE_LIQUIDATE_RATIO
  discount : Nat   -- CDP_LIQUIDATE_DISCOUNT_RATIO
  minStake : Nat   -- CDP_BCOINSTOSTAKE_AMOUNT_MIN_IN_SCOIN
  days : Nat       -- CDP_CONVERT_INTEREST_TO_DEBT_DAYS

/-- The defaults. -/
def defaults : Params := ⟨8000, 52500000, 19000, 15000, 11300, 10400, 9700, 90000000, 30⟩

/-- What a transaction reads besides accounts and positions. -/
structure Env where
  k : Conv
  /-- median price, `0` when missing or too old (`GetBcoinMedianPrice`, cdptx.cpp 27-51) -/
  price : Pair → Nat
  par : Pair → Params
  /-- `CheckAsset(symbol, PERM_CDP_BCOIN)` -/
  bcoinOk : Sym → Bool
  interest : Pair → Nat → Nat → Nat → Option Nat
  height : Nat
  fcoin : Ref
  r3 : Bool
  testnet : Bool
  oneDay : Nat
  /-- creating the system order for this position and coin succeeds -/
  orderOk : Nat → Sym → Bool

/-- A sequence of balance operations, each followed by `return state.DoS(...)` on failure. -/
def ops (m : Mem) (qs : List Req) : Res Mem :=
  match execAll m qs with
  | none => .fail
  | some m' => .ok m'

/-- `ComputeCDPInterest` (146-169). -/
def getInterest (e : Env) (c : Cdp) : Res Nat :=
  if c.owed = 0 then .ok 0
  else match e.interest c.pair c.owed c.height e.height with
    | none => .fail
    | some i => .ok i

/-- The balance operations of `SellInterestForFcoins` (77-109). -/
def interestReqs (e : Env) (c : Cdp) (acct : Ref) (i : Nat) : List Req :=
  if i = 0 then []
  else [⟨acct, c.scoin, .subFree, i, some e.fcoin⟩, ⟨e.fcoin, WUSD, .freeze, i, none⟩]

def sellInterest (e : Env) (m : Mem) (c : Cdp) (acct : Ref) (i : Nat) : Res Mem := do
  let m' ← ops m (interestReqs e c acct i)
  chk (i = 0 ∨ e.orderOk c.id c.scoin)
  pure m'

/-- `CalcCollateralRatio` (113-117). -/
def calcRatio (k : Conv) (asset scoin price : Nat) : Nat :=
  if scoin = 0 then MAXU
  else k.cv (mul (div (div (mul (ofU asset) (ofU price)) (ofU PB)) (ofU scoin)) (ofU RB))

/-- `bcoinsToStakeAmountMin` (281, 520, 792). -/
def minBcoins (e : Env) (p : Pair) : Nat :=
  e.k.cv (div (ofU (e.par p).minStake) (div (ofU (e.price p)) (ofU PB)))

/-- Fields of `CCDPStakeTx`; `cdp = none` is an empty `cdp_txid`; `id` is the transaction's own hash. -/
structure Stake where
  id : Nat
  who : Ref
  cdp : Option Nat
  assets : List (Sym × Nat)
  scoin : Sym
  mint : Nat

/-- `CCDPStakeTx::CheckTx` (172-190); the only stable coin is WUSD (config/scoin.h `kCdpScoinSymbolSet`). -/
def checkStake (e : Env) (t : Stake) : Res (Sym × Nat) :=
  match t.assets with
  | [(a, v)] => do
    chk (t.scoin = WUSD)
    chk (a ≠ WGRT ∧ a ≠ WUSD ∧ e.bcoinOk a)
    pure (a, v)
  | _ => .fail

/-- The coins minted to cover interest the owner cannot pay (314-325). -/
def shortfall (e : Env) (m : Mem) (who : Ref) (scoin : Sym) (i : Nat) : Nat :=
  if e.r3 then i - bal m who scoin .free else 0

/-- Minting the shortfall: the result of `OperateBalance` is ignored, but `ADD_FREE` without a peer cannot fail. -/
def shortReqs (who : Ref) (scoin : Sym) (s : Nat) : List Req :=
  if s = 0 then [] else [⟨who, scoin, .addFree, s, none⟩]

/-- First stake: a new position (247-286). -/
def openCdp (e : Env) (σ : St) (t : Stake) (a : Sym) (v : Nat) : Res St := do
  let p : Pair := (a, t.scoin)
  chk (v ≠ 0 ∧ t.mint ≠ 0)
  chk ((σ.user (t.who, p)).isNone)
  chk ((e.par p).start ≤ calcRatio e.k v t.mint (e.price p))
  chk (minBcoins e p ≤ v)
  pure (newCDP e.k σ ⟨t.id, t.who, e.height, a, t.scoin, v, t.mint⟩)

/-- Further stake on an existing position (287-349). -/
def growCdp (e : Env) (σ : St) (t : Stake) (a : Sym) (v cid : Nat) : Res St := do
  let p : Pair := (a, t.scoin)
  match find σ.cdps cid with
  | none => .fail
  | some c =>
    chk (a = c.bcoin)
    chk (t.who = c.owner)
    chk (c.height ≤ e.height)
    let i ← getInterest e { c with scoin := t.scoin }
    let s := shortfall e σ.mem t.who t.scoin i
    let m1 ← ops σ.mem (shortReqs t.who t.scoin s)
    let newMint := wadd t.mint s
    chk ((e.par p).start ≤ calcRatio e.k v newMint (e.price p) ∨
      (e.par p).start ≤ calcRatio e.k (wadd c.staked v) (wadd c.owed newMint) (e.price p))
    let m2 ← sellInterest e m1 c t.who i
    let c' ← c.addStake e.height v t.mint
    pure (updateCDP e.k { σ with mem := m2 } c c')

/-- A new or an existing position (247-349). -/
def position (e : Env) (σ : St) (t : Stake) (a : Sym) (v : Nat) : Res St :=
  match t.cdp with
  | none => openCdp e σ t a v
  | some cid => growCdp e σ t a v cid

/-- `CCDPStakeTx::ExecuteTx` (192-361) after `CheckTx`. -/
def stake (e : Env) (σ : St) (t : Stake) : Res St := do
  let (a, v) ← checkStake e t
  let p : Pair := (a, t.scoin)
  chk (e.price p ≠ 0)
  chk (e.testnet ∨ (e.par p).gmin ≤ globRatio e.k (σ.glob p) (e.price p))
  chk (!ceilReached (σ.glob p) v (e.par p).ceil)
  let σ1 ← position e σ t a v
  let m ← ops σ1.mem [⟨t.who, a, .pledge, v, none⟩, ⟨t.who, t.scoin, .addFree, t.mint, none⟩]
  pure { σ1 with mem := m }

/-- Fields of `CCDPRedeemTx`. -/
structure Redeem where
  who : Ref
  cdp : Nat
  repay : Nat
  assets : List (Sym × Nat)

/-- Checks on what remains after a redemption and storing it (485-531). -/
def storeRedeemed (e : Env) (σ : St) (c c' : Cdp) (v : Nat) : Res St :=
  if c'.owed = 0 ∧ c'.staked = 0 then pure (eraseCDP e.k σ c)
  else if v ≠ 0 then do
    chk ((e.par c.pair).start ≤ c'.ratio e.k (e.price c.pair))
    chk (minBcoins e c.pair ≤ c'.staked)
    pure (updateCDP e.k σ c c')
  else pure (updateCDP e.k σ c c')

/-- `CCDPRedeemTx::ExecuteTx` (400-545). -/
def redeem (e : Env) (σ : St) (t : Redeem) : Res St :=
  match find σ.cdps t.cdp with
  | none => .fail
  | some c =>
    match t.assets with
    | [(a, v0)] => do
      chk (a = c.bcoin)
      chk (t.who = c.owner)
      chk (e.price c.pair ≠ 0)
      chk (!floorReached e.k (σ.glob c.pair) (e.price c.pair) (e.par c.pair).gmin)
      chk (c.height ≤ e.height)
      let i ← getInterest e c
      let m1 ← sellInterest e σ.mem c t.who i
      let v := min v0 c.staked
      let r := min t.repay c.owed
      chk (t.repay ≤ bal m1 t.who c.scoin .free)
      let c' ← c.redeem e.height v r
      let σ1 ← storeRedeemed e { σ with mem := m1 } c c' v
      let m ← ops σ1.mem [⟨t.who, c.scoin, .subFree, r, none⟩, ⟨t.who, c.bcoin, .unpledge, v, none⟩]
      pure { σ1 with mem := m }
    | _ => .fail

/-- Fields of `CCDPLiquidateTx`. -/
structure Liq where
  who : Ref
  cdp : Nat
  asset : Option Sym
  amount : Nat

/-- What a complete liquidation involves (653-692). -/
structure Terms where
  toLiq : Nat    -- totalBcoinsToReturnLiquidator
  pay : Nat      -- totalScoinsToLiquidate
  fund : Nat     -- totalScoinsToReturnSysFund
  toOwner : Nat  -- totalBcoinsToCdpOwner
  deriving DecidableEq, Repr

def terms (k : Conv) (par : Params) (c : Cdp) (price : Nat) : Res Terms :=
  let r := c.ratio k price
  if par.startLiq < r then .fail
  else if par.nonReturn < r then
    let x := div (mul (ofU c.owed) (ofU par.nonReturn)) (ofU RB)
    let toLiq := k.cv (div x (div (ofU price) (ofU PB)))
    let pay := k.cv (div (mul x (ofU par.discount)) (ofU RB))
    if toLiq ≤ c.staked then .ok ⟨toLiq, pay, wsub pay c.owed, c.staked - toLiq⟩ else .crash
  else if par.forced < r then
    let pay := k.cv (div (mul (mul (ofU c.staked) (div (ofU price) (ofU PB))) (ofU par.discount)) (ofU RB))
    .ok ⟨c.staked, pay, wsub pay c.owed, 0⟩
  else .ok ⟨c.staked, c.owed, 0, 0⟩

/-- The balance operations of `ProcessPenaltyFees` (834-874). -/
def penaltyReqs (e : Env) (scoin : Sym) (fee : Nat) : List Req :=
  if fee = 0 then []
  else if !e.r3 ∧ fee ≤ 10 then [⟨e.fcoin, scoin, .addFree, fee, none⟩]
  else [⟨e.fcoin, scoin, .addFree, fee, none⟩, ⟨e.fcoin, scoin, .freeze, fee - fee / 2, none⟩]

/-- `ProcessPenaltyFees`. -/
def penalty (e : Env) (m : Mem) (c : Cdp) (fee : Nat) : Res Mem := do
  let m' ← ops m (penaltyReqs e c.scoin fee)
  chk (fee = 0 ∨ (!e.r3 ∧ fee ≤ 10) ∨ e.orderOk c.id c.scoin)
  pure m'

/-- The balance operations common to both kinds of liquidation (695-723, 748-777). -/
def liqReqs (who owner : Ref) (bcoin scoin : Sym) (pay toLiq toOwner : Nat) : List Req :=
  [⟨who, scoin, .subFree, pay, none⟩, ⟨who, bcoin, .addFree, toLiq, none⟩, ⟨owner, bcoin, .unpledge, toLiq, none⟩,
   ⟨owner, bcoin, .subFree, toLiq, none⟩, ⟨owner, bcoin, .unpledge, toOwner, none⟩]

/-- Complete liquidation (694-741). -/
def liqFull (e : Env) (σ : St) (t : Liq) (c : Cdp) (x : Terms) : Res St := do
  let m1 ← ops σ.mem (liqReqs t.who c.owner c.bcoin c.scoin x.pay x.toLiq x.toOwner)
  let m2 ← penalty e m1 c x.fund
  pure (eraseCDP e.k { σ with mem := m2 } c)

/-- Partial liquidation (743-809). -/
def liqPart (e : Env) (σ : St) (t : Liq) (c : Cdp) (x : Terms) : Res St := do
  let rate := div (ofU t.amount) (ofU x.pay)
  asrt (rate < ONE)
  let toLiq := e.k.cv (mul (ofU x.toLiq) rate)
  let toOwner := e.k.cv (mul (ofU x.toOwner) rate)
  let m1 ← ops σ.mem (liqReqs t.who c.owner c.bcoin c.scoin t.amount toLiq toOwner)
  let close := e.k.cv (mul (ofU c.owed) rate)
  let gone := wadd toLiq toOwner
  asrt (close < c.owed)
  asrt (gone < c.staked)
  let c' ← c.partialLiq gone close
  chk (minBcoins e c.pair ≤ c'.staked)
  let m2 ← penalty e m1 c (wsub t.amount close)
  pure (updateCDP e.k { σ with mem := m2 } c c')

/-- `CCDPLiquidateTx` (568-812). -/
def liquidate (e : Env) (σ : St) (t : Liq) : Res St := do
  chk (t.amount ≠ 0)
  match find σ.cdps t.cdp with
  | none => .fail
  | some c =>
    chk (t.asset = none ∨ t.asset = some c.bcoin)
    chk (t.amount ≤ bal σ.mem t.who c.scoin .free)
    chk (e.price c.pair ≠ 0)
    chk (!floorReached e.k (σ.glob c.pair) (e.price c.pair) (e.par c.pair).gmin)
    let x ← terms e.k (e.par c.pair) c (e.price c.pair)
    if x.pay ≤ t.amount then liqFull e σ t c x else liqPart e σ t c x

/-- `CdpNeedSettleInterest` (72-75). -/
def needSettle (oneDay last cur days : Nat) : Bool := decide (last < cur ∧ wmul days oneDay ≤ cur - last)

/-- Settling one position (904-961). The result of the minting `OperateBalance` is ignored; it cannot fail. -/
def settleOne (e : Env) (σ : St) (cid : Nat) : Res St :=
  match find σ.cdps cid with
  | none => .fail
  | some c => do
    chk (e.price c.pair ≠ 0)
    chk (!floorReached e.k (σ.glob c.pair) (e.price c.pair) (e.par c.pair).gmin)
    chk (needSettle e.oneDay c.height e.height (e.par c.pair).days)
    let i ← getInterest e c
    let m1 ← ops σ.mem [⟨c.owner, c.scoin, .addFree, i, none⟩]
    let m2 ← sellInterest e m1 c c.owner i
    let c' ← c.addStake e.height 0 i
    pure (updateCDP e.k { σ with mem := m2 } c c')

/-- The loop of `CCDPInterestForceSettleTx::ExecuteTx` (898-965) with the set of ids seen. -/
def settleLoop (e : Env) : St → List Nat → List Nat → Res St
  | σ, _, [] => .ok σ
  | σ, seen, i :: is =>
    if i ∈ seen then .fail
    else match settleOne e σ i with
      | .ok σ' => settleLoop e σ' (i :: seen) is
      | .fail => .fail
      | .crash => .crash

/-- `CCDPInterestForceSettleTx` (878-968). -/
def settle (e : Env) (σ : St) (ids : List Nat) : Res St := do
  chk (ids.length ≠ 0 ∧ ids.length ≤ 100)
  settleLoop e σ [] ids

/-! ## Forced liquidation (tx/blockpricemediantx.cpp) -/

/-- The bound of `GetCdpListByCollateralRatio` (cdpdb.cpp 115-117). -/
def boundKey (k : Conv) (ratio price : Nat) : Nat :=
  k.cv (mul (div (div (ofU ratio) (ofU RB)) (div (ofU price) (ofU PB))) (ofU PB))

/-- `GetCdpListByCollateralRatio` (cdpdb.cpp 112-127). -/
def byRatio (k : Conv) (idx : List (RKey × Cdp)) (bound : Nat) : List Cdp :=
  (idx.takeWhile (fun x => decide (x.1.1 ≤ bound))).map (·.2)

/-- Balance operations of the forced liquidation of one position (350-397); `infl` is the amount of inflated WGRT, if any. -/
def forceReqs (e : Env) (c : Cdp) (infl : Option Nat) : List Req :=
  [⟨e.fcoin, WUSD, .subFree, c.owed, none⟩, ⟨c.owner, c.bcoin, .unpledge, c.staked, none⟩,
   ⟨c.owner, c.bcoin, .subFree, c.staked, some e.fcoin⟩, ⟨e.fcoin, c.bcoin, .freeze, c.staked, none⟩] ++
  (match infl with
   | none => []
   | some v => [⟨e.fcoin, WGRT, .addFree, v, none⟩, ⟨e.fcoin, WGRT, .freeze, v, none⟩])

/-- The inflation (377-386). -/
def inflation (e : Env) (c : Cdp) (fprice : Nat) : Option Nat :=
  let value := e.k.cv (div (mul (ofU c.staked) (ofU (e.price c.pair))) (ofU PB))
  if value < c.owed then some (e.k.cv (div (mul (ofU (c.owed - value)) (ofU PB)) (ofU fprice))) else none

/-- One position (343-419). -/
def forceOne (e : Env) (σ : St) (fprice : Nat) (c : Cdp) : Res St := do
  let infl := inflation e c fprice
  let m ← ops σ.mem (forceReqs e c infl)
  chk (e.orderOk c.id c.bcoin ∧ (infl = none ∨ e.orderOk c.id WGRT))
  pure (eraseCDP e.k { σ with mem := m } c)

/-- The loop of `CCdpForceLiquidator::Execute` (328-425): state and `liquidated_count`. -/
def forceLoop (e : Env) (fprice limit : Nat) : St → Nat → List Cdp → Res (St × Nat)
  | σ, n, [] => .ok (σ, n)
  | σ, n, c :: cs =>
    if limit < n + 1 then .ok (σ, n + 1)
    else if bal σ.mem e.fcoin WUSD .free < c.owed then .ok (σ, n + 1)
    else match forceOne e σ fprice c with
      | .ok σ' => forceLoop e fprice limit σ' (n + 1) cs
      | .fail => .fail
      | .crash => .crash

/-- `CCdpForceLiquidator::Execute` (273-428). -/
def forcePair (e : Env) (σ : St) (fprice limit : Nat) (p : Pair) : Res (St × Nat) :=
  if floorReached e.k (σ.glob p) (e.price p) (e.par p).gmin then .ok (σ, 0)
  else
    let b := boundKey e.k (e.par p).forced (e.price p)
    if b < MAXU then forceLoop e fprice limit σ 0 (byRatio e.k (σ.ridx p) b) else .crash

/-- `ForceLiquidateCdps` (199-217): over the pairs with a price. -/
def forceAll (e : Env) (fprice : Nat) : St → Nat → List Pair → Res St
  | σ, _, [] => .ok σ
  | σ, limit, p :: ps =>
    match forcePair e σ fprice limit p with
    | .ok (σ', n) => if limit ≤ n then .ok σ' else forceAll e fprice σ' (limit - n) ps
    | .fail => .fail
    | .crash => .crash

/-- `ForceLiquidateCdps` (163-220): nothing happens without a price of WGRT. -/
def force (e : Env) (σ : St) (fprice : Nat) (ps : List Pair) : Res St :=
  if fprice = 0 then .ok σ else forceAll e fprice σ 1000 ps

/-! ## Which positions are settled (cdptx.cpp 989-1048) -/

/-- The loop of the inner `GetSettledInterestCdps` (1009-1019); `count` is `uint32_t`. -/
def pickLoop (oneDay height days : Nat) : Nat → List (HKey × Cdp) → Nat × List Nat
  | n, [] => (n, [])
  | n, (k, _) :: r =>
    if needSettle oneDay k.1 height days then
      let n' := (n + 4294967295) % 4294967296
      if n' = 0 then (n', [])
      else
        let (n'', l) := pickLoop oneDay height days n' r
        (n'', k.2 :: l)
    else (n, [])

/-- Over the pairs with an active price (1040-1046). -/
def pickAll (e : Env) (σ : St) : Nat → List Pair → List Nat
  | _, [] => []
  | n, p :: ps =>
    if floorReached e.k (σ.glob p) (e.price p) (e.par p).gmin then pickAll e σ n ps
    else
      let (n', l) := pickLoop e.oneDay e.height (e.par p).days n (σ.hidx p)
      l ++ pickAll e σ n' ps

/-- `GetSettledInterestCdps` (1023-1048). -/
def pick (e : Env) (σ : St) (ps : List Pair) : List Nat := pickAll e σ 100 ps

end Verif.Cdp
