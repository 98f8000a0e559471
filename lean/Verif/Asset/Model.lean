import Verif.Ledger.Basic
import Verif.Util.Float

/-!
# Issued assets, mirrored coins and the fees split among producers

Code modelled (all under /repo/src):

* `CAsset::CheckSymbol` (entities/asset.cpp 15-59), `CAssetDbCache` (persistence/assetdb.cpp 16-26, 93-109),
  `CAxcDBCache` (persistence/axcdb.h 46-60);
* `ProcessAssetFee` (tx/assettx.cpp 33-113), `CUserIssueAssetTx` (118-181), `CUserUpdateAssetTx` (288-413);
* `ProcessDexOperatorFee` (tx/dexoperatortx.cpp 21-85);
* the bank contract: `issue`, `update` (vm/wasm/modules/wasm_native_bank_module.hpp 131-207, 233-296), `mint`, `burn`
  (wasm_native_commons.hpp 78-162);
* `CGovAssetPermProposal` (entities/proposal.cpp 284-339), `CGovAxcInProposal` (528-689), `CGovAxcOutProposal` (691-769),
  `CGovAxcCoinProposal` (771-849), `CGovAssetIssueProposal` (851-901), each as check and execution by the deciding approval.

Conventions

* An account is a reference; a regid is the reference of its account. Which references have an account, and which are
  mature, is part of the environment (`Env`), like the governed parameters and the list of active delegates.
* The sender of a user transaction is given by regid; names, icons and memos carry no meaning and are reduced to the result
  of their length check.
* A failing transaction changes nothing: `none`.
* `State.log` records what changed a supply. The code has no such field; nothing reads it.
-/
namespace Verif.Asset

open Verif.Account Verif.Ledger

/-- `MAX_ASSET_TOTAL_SUPPLY` (config/const.h): 90 billion coins of 10^8. -/
def MAX : Nat := 9000000000000000000

/-- `DUST_AMOUNT_THRESHOLD` -/
def DUST : Nat := 10000

/-- `RATIO_BOOST` -/
def BOOST : Nat := 10000

def WICC : Sym := "WICC"

/-- The assets stored in the genesis block (main.cpp 749-757). -/
def natives : List Sym := ["WICC", "WUSD", "WGRT"]

/-- `AssetType`: natively issued, issued by governance, issued by a user, market pegged. -/
inductive Typ
  | nia | dia | uia | mpa
  deriving DecidableEq

/-- `CAsset` without name and icon. -/
structure Asset where
  typ : Typ
  perms : Nat
  owner : Option Ref
  supply : Nat
  mintable : Bool
  deriving DecidableEq

/-- `CAxcSwapPairStore` (persistence/assetdb.h 22-60). -/
structure Swap where
  status : Nat
  peer : Sym
  chain : Nat
  deriving DecidableEq

/-- What changed a supply. -/
inductive Done
  | issue (s : Sym) (v : Nat)
  | mint (s : Sym) (v : Nat)
  | burn (s : Sym) (v : Nat)
  | axcIn (s : Sym) (chain : Nat) (txid : String) (v : Nat)
  | axcOut (s : Sym) (v : Nat)
  deriving DecidableEq

structure State where
  mem : Mem
  /-- `asset_cache` -/
  assets : Sym → Option Asset
  /-- `axc_swap_coin_ps_cache`, by peer symbol -/
  ps : Sym → Option Swap
  /-- `axc_swap_coin_sp_cache`, by own symbol -/
  sp : Sym → Option Swap
  /-- `axc_swapin_cache`, by chain and transaction -/
  mints : Nat × String → Option Nat
  log : List Done

structure Env where
  /-- `GetAccount` finds the account -/
  acct : Ref → Bool
  mature : Ref → Bool
  fcoin : Ref
  gateway : Ref
  /-- `GetActiveDelegates`; the empty list counts as missing -/
  delegates : List Ref
  /-- `GetApprovalList` of the proposal being executed -/
  voters : List Ref
  issueFee : Nat
  assetRatio : Nat
  operRatio : Nat
  axcRatio : Nat
  /-- feature fork version at least R3.5 -/
  r35 : Bool
  /-- the fee of an update, charged on the test net before R3 only (assettx.cpp 400-407) -/
  updateFee : Option Nat

/-! ## Symbols -/

def isDigit (c : Char) : Bool := decide ('0' ≤ c) && decide (c ≤ '9')
def isUpper (c : Char) : Bool := decide ('A' ≤ c) && decide (c ≤ 'Z')
def isLower (c : Char) : Bool := decide ('a' ≤ c) && decide (c ≤ 'z')

/-- The character test of `CheckSymbol`. -/
def charOk (t : Typ) (c : Char) : Bool :=
  isDigit c || isUpper c
  || (decide (t = .uia) && (c == '#' || c == '.' || c == '@' || c == '_'))
  || (decide (t = .dia) && isLower c)

/-- `CheckSymbol`. A symbol that passes consists of one-byte characters. -/
def symbolOk (r35 : Bool) (t : Typ) (s : Sym) : Bool :=
  let lo := if t = .uia then (if r35 then 4 else 6) else 2
  decide (lo ≤ s.length) && decide (s.length ≤ 7) && s.toList.all (charOk t)

/-! ## Fees -/

/-- The reserve's share of a fee. -/
def riskFee (fee ratio : Nat) : Nat := wmul fee ratio / BOOST

/-- What each of `n` delegates receives of `total`; the first one also the rest. -/
def share (total n i : Nat) : Nat := if i = 0 then wadd (total / n) (total % n) else total / n

/-- Payments to the delegates from position `i` on. -/
def shareReqs (pay : Ref → Nat → Req) (total n : Nat) : Nat → List Ref → List Req
  | _, [] => []
  | i, d :: ds => pay d (share total n i) :: shareReqs pay total n (i + 1) ds

/-- The balance operations of `ProcessAssetFee`. -/
def assetFeeReqs (env : Env) (src : Ref) (fee : Nat) : List Req :=
  ⟨src, WICC, .subFree, riskFee fee env.assetRatio, some env.fcoin⟩ ::
    shareReqs (fun d v => ⟨src, WICC, .subFree, v, some d⟩) (wsub fee (riskFee fee env.assetRatio)) env.delegates.length 0
      env.delegates

/-- `ProcessAssetFee`. -/
def assetFee (env : Env) (m : Mem) (src : Ref) (fee : Nat) : Option Mem :=
  if bal m src WICC .free < fee then none
  else if !env.acct env.fcoin then none
  else if env.delegates = [] then none
  else if !env.delegates.all env.acct then none
  else execAll m (assetFeeReqs env src fee)

/-- The balance operations of `ProcessDexOperatorFee`. -/
def operFeeReqs (env : Env) (src : Ref) (fee : Nat) : List Req :=
  ⟨src, WICC, .subFree, fee, none⟩ :: ⟨env.fcoin, WICC, .addFree, riskFee fee env.operRatio, none⟩ ::
    shareReqs (fun d v => ⟨d, WICC, .addFree, v, none⟩) (wsub fee (riskFee fee env.operRatio)) env.delegates.length 0
      env.delegates

/-- `ProcessDexOperatorFee`. -/
def operFee (env : Env) (m : Mem) (src : Ref) (fee : Nat) : Option Mem :=
  if !env.acct env.fcoin then none
  else if env.delegates = [] then none
  else if !env.delegates.all env.acct then none
  else execAll m (operFeeReqs env src fee)

/-! ## Assets -/

def setAsset (st : State) (s : Sym) (a : Asset) : State :=
  { st with assets := fun q => if q = s then some a else st.assets q }

/-- `kAssetDefaultPerms` -/
def defaultPerms : Nat := 3

/-- `CUserIssueAssetTx`. -/
def userIssue (env : Env) (st : State) (who : Ref) (s : Sym) (owner : Ref) (supply : Nat) (mintable nameOk : Bool) :
    Option State :=
  if !symbolOk env.r35 .uia s then none
  else if !nameOk then none
  else if supply = 0 ∨ supply > MAX then none
  else if !env.mature who then none
  else if (st.assets s).isSome then none
  else if !(env.acct owner && env.mature owner) then none
  else match assetFee env st.mem who env.issueFee with
    | none => none
    | some m => match opBal m ⟨owner, s, .addFree, supply, none⟩ with
      | none => none
      | some m' =>
        some (setAsset { st with mem := m', log := st.log ++ [.issue s supply] } s
          ⟨.uia, defaultPerms, some owner, supply, mintable⟩)

/-- `CUserUpdateAsset`. -/
inductive Upd
  | owner (r : Ref)
  | name (ok : Bool)
  | mint (v : Nat)

/-- The update itself (assettx.cpp 349-398). -/
def applyUpd (env : Env) (st : State) (who : Ref) (s : Sym) (a : Asset) : Upd → Option (State × Asset)
  | .owner r =>
    if r = who then none
    else if !(env.acct r && env.mature r) then none
    else some (st, { a with owner := some r })
  | .name ok => if ok then some (st, a) else none
  | .mint v =>
    if v = 0 ∨ v > MAX then none
    else if !a.mintable then none
    else if wadd a.supply v > MAX ∨ wadd a.supply v < a.supply then none
    else match opBal st.mem ⟨who, s, .addFree, v, none⟩ with
      | none => none
      | some m => some ({ st with mem := m, log := st.log ++ [.mint s v] }, { a with supply := wadd a.supply v })

/-- `CUserUpdateAssetTx`. -/
def userUpdate (env : Env) (st : State) (who : Ref) (s : Sym) (u : Upd) : Option State :=
  match st.assets s with
  | none => none
  | some a =>
    if !symbolOk env.r35 a.typ s then none
    else if !env.mature who then none
    else if a.owner ≠ some who then none
    else match applyUpd env st who s a u with
      | none => none
      | some (st1, a1) =>
        match env.updateFee with
        | none => some (setAsset st1 s a1)
        | some fee => match assetFee env st1.mem who fee with
          | none => none
          | some m => some (setAsset { st1 with mem := m } s a1)

/-- `issue` of the bank contract. `auth`: the accounts that signed (`require_auth`). -/
def bankIssue (env : Env) (st : State) (auth : Ref → Bool) (s : Sym) (owner : Ref) (supply : Nat) (mintable textOk : Bool) :
    Option State :=
  if !symbolOk env.r35 .uia s then none
  else if !textOk then none
  else if (st.assets s).isSome then none
  else if !auth owner then none
  else if !env.acct owner then none
  else match assetFee env st.mem owner env.issueFee with
    | none => none
    | some m =>
      if supply > MAX then none
      else match opBal m ⟨owner, s, .addFree, supply, none⟩ with
        | none => none
        | some m' =>
          some (setAsset { st with mem := m', log := st.log ++ [.issue s supply] } s
            ⟨.uia, defaultPerms, some owner, supply, mintable⟩)

/-- `mint_burn_balance`. Quantities are below `2^62` (`asset::is_valid`). -/
def bankMintBurn (env : Env) (st : State) (auth : Ref → Bool) (mint : Bool) (target : Ref) (s : Sym) (v : Nat)
    (textOk : Bool) : Option State :=
  if v = 0 ∨ v ≥ 2 ^ 62 then none
  else match st.assets s with
  | none => none
  | some a =>
    if !a.mintable then none
    else match a.owner with
    | none => none
    | some o =>
      if !env.acct o then none
      else if !auth o then none
      else if !env.acct target then none
      else if !textOk then none
      else if mint then
        if wadd a.supply v > MAX ∨ wadd a.supply v < a.supply then none
        else match opBal st.mem ⟨target, s, .addFree, v, none⟩ with
          | none => none
          | some m =>
            some (setAsset { st with mem := m, log := st.log ++ [.mint s v] } s { a with supply := wadd a.supply v })
      else
        if target ≠ o then none
        else if a.supply < v then none
        else match opBal st.mem ⟨target, s, .subFree, v, none⟩ with
          | none => none
          | some m =>
            some (setAsset { st with mem := m, log := st.log ++ [.burn s v] } s { a with supply := wsub a.supply v })

/-- `update` of the bank contract. -/
def bankUpdate (env : Env) (st : State) (auth : Ref → Bool) (s : Sym) (newOwner : Option Ref) (textOk : Bool) : Option State :=
  match st.assets s with
  | none => none
  | some a => match a.owner with
    | none => none
    | some o =>
      if !auth o then none
      else if !env.acct o then none
      else if !textOk then none
      else match newOwner with
        | none => some (setAsset st s a)
        | some r => if env.acct r then some (setAsset st s { a with owner := some r }) else none

/-! ## Governance -/

/-- `CGovAssetPermProposal` as far as the asset is concerned. -/
def govPerm (st : State) (s : Sym) (perms : Nat) : Option State :=
  match st.assets s with
  | none => none
  | some a =>
    if natives.contains s then none
    else if perms = 0 then none
    else some (setAsset st s { a with perms := perms })

/-- `CGovAssetIssueProposal`. -/
def govIssue (env : Env) (st : State) (s : Sym) (owner : Ref) (supply : Nat) : Option State :=
  if !symbolOk env.r35 .dia s then none
  else if s.toList.head? = some 'm' then none
  else if supply > MAX then none
  else if !env.acct owner then none
  else if (st.assets s).isSome then none
  else match opBal st.mem ⟨owner, s, .addFree, supply, none⟩ with
    | none => none
    | some m =>
      some (setAsset { st with mem := m, log := st.log ++ [.issue s supply] } s ⟨.dia, defaultPerms, some owner, supply, true⟩)

/-- `GenSelfChainCoinSymbol`, `GetSelfSymbol`. -/
def selfSym (peer : Sym) : Sym := "m" ++ peer

/-- `SetAxcSwapPair`. -/
def setSwap (st : State) (w : Swap) : State :=
  { st with
    ps := fun q => if q = w.peer then some w else st.ps q,
    sp := fun q => if q = selfSym w.peer then some w else st.sp q }

/-- The status test of `CGovAxcCoinProposal::CheckProposal` (776-802). -/
def axcCoinOk (st : State) (peer : Sym) (chain op : Nat) : Bool :=
  match st.ps peer with
  | none => decide (op = 1) && (st.assets (selfSym peer)).isNone
  | some w => decide (w.chain = chain) && decide (w.status ≠ op)

/-- `CGovAxcCoinProposal`. Operation 1 enables, 2 disables; chains 1 to 3. -/
def axcCoin (env : Env) (st : State) (peer : Sym) (chain op : Nat) : Option State :=
  if !(op = 1 || op = 2) then none
  else if !axcCoinOk st peer chain op then none
  else if !(chain = 1 || chain = 2 || chain = 3) then none
  else if peer.length > 6 then none
  else if !symbolOk env.r35 .dia (selfSym peer) then none
  else match st.ps peer with
    | none => some (setSwap (setAsset st (selfSym peer) ⟨.dia, defaultPerms, none, 0, false⟩) ⟨op, peer, chain⟩)
    | some w => some (setSwap st { w with status := op })

/-- A stored amount as `GetData` sees it: zero is missing. -/
def present : Option Nat → Option Nat
  | some v => if v = 0 then none else some v
  | none => none

/-- `swap_fee_ratio * (swap_amount * 1.0 / RATIO_BOOST)` truncated, in `double`. Intermediate values are scaled by `2^60`. -/
def swapFee (ratio amount : Nat) : Nat :=
  fround 53 (ratio * fround 53 (fround 53 amount 1 * 2 ^ 60) BOOST) 1 / 2 ^ 60

/-- The balance operations of `ProcessAxcInFee` and the payment to the user. -/
def axcInReqs (env : Env) (s : Sym) (dest : Ref) (fee amount : Nat) : List Req :=
  env.voters.map (fun r => ⟨r, s, .addFree, fee / (env.voters.length + 3), none⟩) ++
    [⟨env.gateway, s, .addFree, wsub fee (wmul (fee / (env.voters.length + 3)) env.voters.length), none⟩,
     ⟨dest, s, .addFree, wsub amount fee, none⟩]

/-- The format tests of a swap (545-554, 706-710). -/
def swapFormatOk (chain addrLen txidLen : Nat) : Bool :=
  !((decide (chain = 1) && (decide (addrLen < 26) || decide (addrLen > 35))) || (decide (chain = 2) && decide (addrLen > 42)))
  && !((decide (chain = 1) || decide (chain = 2)) && decide (txidLen ≠ 66))

/-- `CGovAxcInProposal`. -/
def axcIn (env : Env) (st : State) (peer : Sym) (addrLen : Nat) (txid : String) (dest : Ref) (amount : Nat) : Option State :=
  match st.ps peer with
  | none => none
  | some w =>
    if w.status ≠ 1 then none
    else if !swapFormatOk w.chain addrLen txid.length then none
    else if !env.acct dest then none
    else if amount < DUST then none
    else if amount > MAX then none
    else if (present (st.mints (w.chain, txid))).isSome then none
    else match st.assets (selfSym w.peer) with
    | none => none
    | some a =>
      if wadd a.supply amount > MAX then none
      else if env.axcRatio > BOOST then none
      else if env.voters = [] then none
      else if !(env.voters.all env.acct && env.acct env.gateway) then none
      else match execAll st.mem (axcInReqs env (selfSym w.peer) dest (swapFee env.axcRatio amount) amount) with
        | none => none
        | some m =>
          some (setAsset
            { st with
              mem := m,
              mints := fun k =>
                if k = (w.chain, txid) then some (wsub amount (swapFee env.axcRatio amount)) else st.mints k,
              log := st.log ++ [.axcIn (selfSym w.peer) w.chain txid amount] }
            (selfSym w.peer) { a with supply := wadd a.supply amount })

/-- `CGovAxcOutProposal`. -/
def axcOut (env : Env) (st : State) (who : Ref) (s : Sym) (addrLen : Nat) (amount : Nat) : Option State :=
  match st.sp s with
  | none => none
  | some w =>
    if w.status ≠ 1 then none
    else if !swapFormatOk w.chain addrLen 66 then none
    else if !env.acct who then none
    else if bal st.mem who s .free < amount then none
    else if amount < DUST then none
    else if amount > MAX then none
    else match opBal st.mem ⟨who, s, .subFree, amount, none⟩ with
      | none => none
      | some m => match st.assets s with
        | none => none
        | some a =>
          if amount > a.supply then none
          else some (setAsset { st with mem := m, log := st.log ++ [.axcOut s amount] } s
            { a with supply := wsub a.supply amount })

/-! ## Histories -/

inductive Ev
  | userIssue (env : Env) (who : Ref) (s : Sym) (owner : Ref) (supply : Nat) (mintable nameOk : Bool)
  | userUpdate (env : Env) (who : Ref) (s : Sym) (u : Upd)
  | bankIssue (env : Env) (auth : Ref → Bool) (s : Sym) (owner : Ref) (supply : Nat) (mintable textOk : Bool)
  | bankMintBurn (env : Env) (auth : Ref → Bool) (mint : Bool) (target : Ref) (s : Sym) (v : Nat) (textOk : Bool)
  | bankUpdate (env : Env) (auth : Ref → Bool) (s : Sym) (newOwner : Option Ref) (textOk : Bool)
  | govPerm (s : Sym) (perms : Nat)
  | govIssue (env : Env) (s : Sym) (owner : Ref) (supply : Nat)
  | axcCoin (env : Env) (peer : Sym) (chain op : Nat)
  | axcIn (env : Env) (peer : Sym) (addrLen : Nat) (txid : String) (dest : Ref) (amount : Nat)
  | axcOut (env : Env) (who : Ref) (s : Sym) (addrLen : Nat) (amount : Nat)
  | operFee (env : Env) (who : Ref) (fee : Nat)
  /-- the balance operations of any other transaction -/
  | other (qs : List Req)

def apply (st : State) : Ev → Option State
  | .userIssue env who s owner supply mi ok => userIssue env st who s owner supply mi ok
  | .userUpdate env who s u => userUpdate env st who s u
  | .bankIssue env auth s owner supply mi ok => bankIssue env st auth s owner supply mi ok
  | .bankMintBurn env auth mint target s v ok => bankMintBurn env st auth mint target s v ok
  | .bankUpdate env auth s no ok => bankUpdate env st auth s no ok
  | .govPerm s p => govPerm st s p
  | .govIssue env s owner supply => govIssue env st s owner supply
  | .axcCoin env peer chain op => axcCoin env st peer chain op
  | .axcIn env peer al txid dest amount => axcIn env st peer al txid dest amount
  | .axcOut env who s al amount => axcOut env st who s al amount
  | .operFee env who fee => (operFee env st.mem who fee).map (fun m => { st with mem := m })
  | .other qs => (execAll st.mem qs).map (fun m => { st with mem := m })

def step (st : State) (e : Ev) : State := (apply st e).getD st

def run (st : State) (es : List Ev) : State := es.foldl step st

end Verif.Asset
