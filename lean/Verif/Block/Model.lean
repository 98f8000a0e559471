import Verif.Ledger.Basic

/-!
# Connecting blocks: fees, fuel fees and block rewards

Models the money part of `ConnectBlock` (src/main.cpp 988-1229), the reward transactions
(src/tx/blockrewardtx.cpp 14-31, 59-89), the fee part of `CBaseTx::ExecuteFullTx`
(src/tx/tx.cpp 182-221) and `GetFees` (src/tx/tx.h 163, src/tx/dextx.h 440).

Simplifications:
* The duplicate and height checks of `ConnectBlock` are in `Verif.TxCache`; `CheckBlock`, `VerifyRewardTx`
  and index/undo writing only reject or do not touch balances and are left out.
* What a transaction does besides paying fees is an arbitrary function `body`; the fuel it reports after
  execution and the fuel fee computed from it (`Verif.Fuel`) are arbitrary numbers.
* `extra` stands for everything else a block does to accounts between its reward check and the mature
  reward (vote interest at the fork height, main.cpp 1156-1159; `ProcessBlockDelegates`).
* `profits` is the inflation reward the code computes for the block (main.cpp 1133-1137).
* Disconnecting a block returns to the balances before it; that undo really does that is `Verif.KV`
  (C07, C08).
-/
namespace Verif.Block

open Verif.Account Verif.Ledger

def MAX_BLOCK_FUEL : Nat := 600562500      -- src/config/const.h
def MATURITY : Nat := 100                  -- BLOCK_REWARD_MATURITY

/-- Result of a validation step: passed, rejected, or the process aborted on an `assert`. -/
inductive Out (α : Type) where
  | ok (a : α)
  | reject
  | crash

structure Tx where
  /-- `processingTxAccount` (tx.cpp 188): false for price median, mint and CDP force-settle transactions. -/
  charged : Bool
  payer : Ref
  feeSym : Sym
  /-- `llFees` -/
  fee : Nat
  /-- `operator_tx_fee` (operator orders only, 0 elsewhere) and the account it is taken from. -/
  opFee : Nat
  opPayer : Ref
  /-- `fuel` after execution and `GetFuelFee`. -/
  fuel : Nat
  fuelFee : Nat
  body : Mem → Option Mem

/-- `GetFees().second`: tx.h 163; dextx.h 440 (unchecked sum). -/
def Tx.fees (t : Tx) : Nat := wadd t.fee t.opFee

inductive Reward where
  /-- `CBlockRewardTx` -/
  | legacy (amount : Nat)
  /-- `CUCoinBlockRewardTx`: the fee map in key order and the inflated coins. -/
  | ucoin (fees : List (Sym × Nat)) (inflated : Nat)

structure Blk where
  miner : Ref
  /-- `nFuelFee` of the header, a 64-bit field. -/
  headerFuelFee : Nat
  reward : Reward
  txs : List Tx
  /-- TEST_NET below height 200000: the fee map is not checked (main.cpp 1121). -/
  testnetEarly : Bool
  profits : Nat
  extra : Mem → Option Mem

/-- `CBlockHeader::GetFuelFee()` (src/persistence/block.h): returns `uint32_t`. -/
def Blk.getFuelFee (b : Blk) : Nat := b.headerFuelFee % 2 ^ 32

/-- `CheckAndExecuteTx` seen from the accounts: tx.cpp 192-203 (fee), dextx.cpp 128-142 (operator fee),
then the rest. -/
def execTx (m : Mem) (t : Tx) : Option Mem :=
  match (if t.charged = true ∧ 0 < t.fee then opBal m ⟨t.payer, t.feeSym, .subFree, t.fee, none⟩ else some m) with
  | none => none
  | some m1 =>
    match (if 0 < t.opFee then opBal m1 ⟨t.opPayer, t.feeSym, .subFree, t.opFee, none⟩ else some m1) with
    | none => none
    | some m2 => t.body m2

structure Acc where
  mem : Mem
  totalFuel : Nat
  totalFuelFee : Nat
  wicc : Nat
  wusd : Nat

/-- One turn of the loop at main.cpp 1055-1098. -/
def connectTx (a : Acc) (t : Tx) : Out Acc :=
  match execTx a.mem t with
  | none => .reject
  | some m =>
    let tf := wadd a.totalFuel t.fuel
    if tf > MAX_BLOCK_FUEL then .reject
    else
      let tff := wadd a.totalFuelFee t.fuelFee
      if t.feeSym ≠ "WICC" ∧ t.feeSym ≠ "WUSD" then .crash
      else if t.fees < t.fuelFee then .crash
      else
        let d := wsub t.fees t.fuelFee
        if t.feeSym = "WICC" then .ok ⟨m, tf, tff, wadd a.wicc d, a.wusd⟩
        else .ok ⟨m, tf, tff, a.wicc, wadd a.wusd d⟩

def connectTxs : Acc → List Tx → Out Acc
  | a, [] => .ok a
  | a, t :: ts => match connectTx a t with
    | .ok a' => connectTxs a' ts
    | .reject => .reject
    | .crash => .crash

/-- main.cpp 1101-1144: header fuel fee and claimed reward. -/
def checkReward (b : Blk) (a : Acc) : Bool :=
  decide (a.totalFuelFee = b.getFuelFee) &&
  match b.reward with
  | .legacy v => decide (v = a.wicc)
  | .ucoin fees infl =>
    (b.testnetEarly || decide (fees = [("WICC", a.wicc), ("WUSD", a.wusd)])) && decide (infl = b.profits)

/-- The loop over `reward_fees` (blockrewardtx.cpp 70-81). -/
def payFees (miner : Ref) : Mem → List (Sym × Nat) → Option Mem
  | m, [] => some m
  | m, (s, v) :: rest =>
    if s = "WICC" ∨ s = "WUSD" then
      match opBal m ⟨miner, s, .addFree, v, none⟩ with
      | none => none
      | some m' => payFees miner m' rest
    else none

/-- `ExecuteTx` of a reward transaction with `index == -1`: blockrewardtx.cpp 19-25, 66-86. -/
def payReward (m : Mem) (b : Blk) : Option Mem :=
  match b.reward with
  | .legacy v => opBal m ⟨b.miner, "WICC", .addFree, v, none⟩
  | .ucoin fees infl =>
    match payFees b.miner m fees with
    | none => none
    | some m' => opBal m' ⟨b.miner, "WICC", .addFree, infl, none⟩

/-- The active chain above the genesis block, newest first, each block with the balances after it. -/
structure Chain where
  genesis : Mem
  blocks : List (Blk × Mem)

def Chain.mem (c : Chain) : Mem :=
  match c.blocks with
  | [] => c.genesis
  | (_, m) :: _ => m

/-- Height of the tip (the genesis block has height 0). -/
def Chain.height (c : Chain) : Nat := c.blocks.length

/-- The mature reward, main.cpp 1171-1196: `height - 100 > 0`, then 100 steps back from the new block. -/
def payMature (m : Mem) (b : Blk) (older : List (Blk × Mem)) : Option Mem :=
  let height := older.length + 1
  if height > MATURITY then
    match (b :: older.map Prod.fst)[MATURITY]? with
    | none => some m                     -- `pMatureIndex == nullptr`
    | some mb => payReward m mb
  else some m

/-- `ConnectBlock` for a non-genesis block. -/
def connect (c : Chain) (b : Blk) : Out Chain :=
  match connectTxs ⟨c.mem, 0, 0, 0, 0⟩ b.txs with
  | .reject => .reject
  | .crash => .crash
  | .ok a =>
    if checkReward b a = true then
      match b.extra a.mem with
      | none => .reject
      | some m1 =>
        match payMature m1 b c.blocks with
        | none => .reject
        | some m2 => .ok { c with blocks := (b, m2) :: c.blocks }
    else .reject

/-- `DisconnectBlock` (main.cpp 627-687) of the tip. -/
def disconnect (c : Chain) : Chain := { c with blocks := c.blocks.tail }

inductive Cmd where
  | connect (b : Blk)
  | disconnect

/-- A rejected block leaves the chain as it was; an assert ends the process. -/
def apply (c : Chain) : Cmd → Option Chain
  | .connect b => match connect c b with
    | .ok c' => some c'
    | .reject => some c
    | .crash => none
  | .disconnect => some (disconnect c)

def run : Chain → List Cmd → Option Chain
  | c, [] => some c
  | c, x :: xs => match apply c x with
    | none => none
    | some c' => run c' xs

end Verif.Block
