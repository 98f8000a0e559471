import Verif.Util.U64
import Verif.Util.Float

/-!
# Contract fuel

* `GetFuelLimit` (src/tx/contracttx.cpp:21-42), `CBaseTx::GetFuelFee` (src/tx/tx.cpp:86-88),
  the deploy override (contracttx.cpp:111-120, 291-299), the fee check of `CUniversalTx`
  (src/tx/universaltx.cpp:195-202, 289-298).
* the Lua fuel meter (src/vm/luavm/lua/lburner.c) and its final check
  (src/vm/luavm/luavm.cpp:332-338).
* the fuel rate rule `GetElementForBurn` (src/miner/miner.cpp:54-88).

The C++ computes fees in `float`; the model rounds exactly as IEEE-754 binary32 does
(no extended intermediate precision).  The fuel rate uses `double`, rounded likewise.
-/
namespace Verif.Fuel

abbrev MAX_BLOCK_FUEL : Nat := 600562500   -- src/config/const.h:141
abbrev RESERVED_RATIO : Nat := 10          -- src/config/const.h:215
abbrev MIN_FUEL_RATE : Nat := 1            -- src/config/const.h:143
abbrev INIT_FUEL_RATE : Nat := 100         -- src/config/const.h:142
abbrev BURN_BLOCKS : Nat := 50             -- src/config/const.h:140

/-! ## Limits and fees -/

/-- `minFee * CONTRACT_CALL_RESERVED_FEES_RATIO / 100` (contracttx.cpp:33). -/
def reservedForMiner (minFee : Nat) : Nat := wmul minFee RESERVED_RATIO / 100

/-- `GetFuelLimit`: `none` when the transaction is refused. -/
def getFuelLimit (fee minFee rate : Nat) : Option Nat :=
  if rate = 0 then none
  else if fee < minFee then none
  else
    let gas := wsub fee (reservedForMiner minFee)
    let lim := min (wmul (gas / rate) 100) MAX_BLOCK_FUEL
    if lim = 0 then none else some lim

/-- Fixed-point scale used for the value of `fuel / 100.0f`. -/
abbrev SC : Nat := 2 ^ 40

/-- `fuel / 100.0f`, scaled by `SC`. -/
def fuelDiv100 (fuel : Nat) : Nat := fround 24 (fround 24 fuel 1 * SC) 100

/-- `CBaseTx::GetFuelFee`: `std::ceil(fuel / 100.0f) * fuelRate`. -/
def fuelFee (fuel rate : Nat) : Nat :=
  if fuel = 0 ∨ rate = 0 then 0
  else fround 24 ((fuelDiv100 fuel + SC - 1) / SC * fround 24 rate 1) 1

/-- Deploy override: `max<uint64_t>((fuel / 100.0f) * fuelRate, minFee)`. -/
def deployFuelFee (fuel rate minFee : Nat) : Nat :=
  max (if fuel = 0 then 0 else fround 24 (fuelDiv100 fuel * fround 24 rate 1) 1 / SC) minFee

/-- Fee check of a deployment (contracttx.cpp:54-57): made before `fuel` is set, i.e. with
`fuel = 0` (ExecuteTx sets it at line 106). -/
def deployCheck (fee rate minFee : Nat) : Bool := decide (deployFuelFee 0 rate minFee ≤ fee)

/-- `get_run_fee_in_wicc` (universaltx.cpp:195-202). -/
def universalRunFee (fuel rate : Nat) : Nat := wmul (fuel / 100) rate

/-- Fee check of a `CUniversalTx` after execution (universaltx.cpp:291-298). -/
def universalCheck (fee minFee fuel rate : Nat) : Bool :=
  decide (rate > 0) && decide (fuel ≤ MAX_BLOCK_FUEL) && decide (max minFee (universalRunFee fuel rate) ≤ fee)

/-! ## The Lua fuel meter -/

/-- One request to the meter.  `mem`: allocation (`lua_BurnMemory`); `add`: steps,
operators, calls, account operations; the store requests carry sizes. -/
inductive Burn
  | mem (size : Nat)
  | add (fuel : Nat)
  | storeSet (key old new : Nat)
  | storeUnchanged (key data : Nat)
  | storeGet (key data : Nat)
  deriving DecidableEq

/-- Fuel added by a request (lburner.c:180-320; constants of fuel.h:48-52). -/
def Burn.fuel : Burn → Nat
  | .mem _ => 0
  | .add n => n
  | .storeSet key old new =>
    if new = old then new * 150
    else if old < new then (if old = 0 then (key + new) * 600 else (new - old) * 600 + old * 150)
    else (if new = 0 then 0 else new * 150)
  | .storeUnchanged _ _ => 3
  | .storeGet key data => (key + data) * 6

def Burn.refund : Burn → Nat
  | .storeSet _ old new => if new < old then (if new = 0 then old * 450 else (old - new) * 450) else 0
  | _ => 0

def Burn.size : Burn → Nat
  | .mem n => n
  | _ => 0

/-- `lua_burner_state` (lburner.h), the accounting fields. -/
structure Burner where
  limit : Nat
  fuel : Nat
  refund : Nat
  mem : Nat
  err : Bool
  deriving DecidableEq

/-- `lua_StartBurner` (lburner.c:139-160). -/
def Burner.start (limit : Nat) : Burner := ⟨limit, 0, 0, 0, false⟩

/-- `lua_GetBurnedFuel` (lburner.c:313-321) with `lua_GetMemoryFuel` (332-334). -/
def Burner.burned (b : Burner) : Nat :=
  let f := wadd b.fuel (wmul (wadd b.mem 31 / 32) 3)
  f - min (f / 2) b.refund

/-- One request (lburner.c:169-311): ignored once the error flag is set; otherwise
counted, and refused (Lua error `LUA_ERR_BURNEDOUT`, error flag set) when burned out.
The result tells whether the request returned normally. -/
def Burner.step (b : Burner) (q : Burn) : Burner × Bool :=
  if b.err then (b, true)
  else
    let b' := { b with fuel := wadd b.fuel q.fuel, refund := wadd b.refund q.refund, mem := wadd b.mem q.size }
    if b'.burned > b'.limit then ({ b' with err := true }, false) else (b', true)

/-- A run of the interpreter as the meter sees it: the requests made, in order.  A refused
request is a Lua error, which a contract may catch with `pcall` and go on. -/
def Burner.run (b : Burner) : List Burn → Burner × List Bool
  | [] => (b, [])
  | q :: qs => let (b', ok) := b.step q; let (b'', oks) := b'.run qs; (b'', ok :: oks)

/-- End of `CLuaVM::Run` (luavm.cpp:332-338): the fuel charged, or refusal. -/
def Burner.finish (b : Burner) : Option Nat := if b.burned > b.limit then none else some b.burned

/-! ## Fuel rate -/

/-- `rate * 0.9` and `rate * 1.1` in `double`, truncated to an integer.  `0.9` is
8106479329266893 / 2^53 and `1.1` is 4953959590107546 / 2^52. -/
def rate09 (r : Nat) : Nat := fround 53 (r * 8106479329266893) 1 / 2 ^ 53
def rate11 (r : Nat) : Nat := fround 53 (r * 4953959590107546) 1 / 2 ^ 52

/-- A block as `GetElementForBurn` reads it: header fuel fee and fuel rate. -/
structure Blk where
  fuelFee : Nat
  fuelRate : Nat

/-- Fuel used by a block (miner.cpp:68): `nFuelFee / nFuelRate * 100`. -/
def Blk.used (b : Blk) : Nat := b.fuelFee / b.fuelRate * 100

/-- `GetElementForBurn`: fuel rate of the block after `chain` (newest first, genesis last;
`height = chain.length - 1`).  `MAX_BLOCK_FUEL * 0.75` = 450421875 and
`MAX_BLOCK_FUEL * 0.85` = 510478125 (both exact in `double` up to the comparison with
an integer). -/
def nextRate (chain : List Blk) : Nat :=
  match chain with
  | [] => INIT_FUEL_RATE
  | tip :: _ =>
    if BURN_BLOCKS * 2 + 2 ≥ chain.length then INIT_FUEL_RATE
    else
      let avg := ((chain.take BURN_BLOCKS).map Blk.used).sum / BURN_BLOCKS
      let r := if avg < 450421875 then rate09 tip.fuelRate
               else if avg > 510478125 then rate11 tip.fuelRate
               else tip.fuelRate
      if r < MIN_FUEL_RATE then MIN_FUEL_RATE else r

end Verif.Fuel
