import Verif.Asset.Props

/-!
# Universal transactions and the contracts they run

Models
* `tx/universaltx.cpp` 52-186 (`validate_contracts`, `validate_authorization`, `get_accounts_from_signatures`, `CheckTx`),
  188-203 (fees), 245-372 (`ExecuteTx`, `execute_inline_transaction`);
* `vm/wasm/wasm_context.cpp` 38-80 (`execute_inline`), 82-103, 116-146 (`execute`), 148-197 (`execute_one`), 199-236
  (`notify_recipient`, `require_auth`), 293-297; `vm/wasm/wasm_context.hpp` 83-113 (contract data);
* `vm/wasm/wasm_interface.cpp` 275-355 (`db_store`, `db_remove`, `db_update`), 539-575 (`require_auth`, `notify_recipient`,
  `send_inline`);
* the native contracts `vm/wasm/modules/wasm_native_module.hpp` (`setcode`, `setcoder`), `wasm_native_bank_module.hpp` (`issue`,
  `mint`, `burn`, `update`, `transfer`, `setasseticon`), `wasm_native_voting_module.hpp` (`vote`, `mintrewards`);
* `CRegID` (`entities/id.h` 45-103, `entities/id.cpp` 73-76), `string_to_name` (`vm/wasm/types/name.hpp` 12-38).

The asset and balance part of the bank is the model of `Verif.Asset`.

A contract's program is an arbitrary function from the state, its own number and the action it runs for, to the host calls it makes,
or to a failure.  A deterministic program knows what its own writes do, so its host calls are a function of the state it starts from;
nothing else about the virtual machine is assumed.

Simplifications: byte strings are lists of numbers, and the decoders of action data are arbitrary functions; storage keys are pairs of
the eight-byte prefix and the rest; `fuel` is a natural number; the owner of an asset is the account rather than its number; texts
(memos, names, icons) are reduced to whether they pass their checks; the text and trace output is left out.  A failing action fails the
transaction and its cache layer is dropped, so failures carry no state.
-/
namespace Verif.Wasm

open Verif.Account Verif.Ledger

/-! ## Numbers of accounts -/

/-- `CRegID`: a 32-bit height and a 16-bit index. -/
structure RegId where
  h : Nat
  i : Nat
  deriving DecidableEq

/-- `CRegID::Set(uint64_t)` (id.cpp 73-76): `height = v >> 20; index = v & 0xFFFFF`, assigned to 32 and 16 bits. -/
def RegId.ofInt (v : Nat) : RegId := ⟨v / 2 ^ 20 % 2 ^ 32, v % 2 ^ 20 % 2 ^ 16⟩

/-- `CRegID::GetIntValue` (id.h 67). -/
def RegId.toInt (r : RegId) : Nat := r.h * 2 ^ 20 + r.i

/-- `CRegID::IsEmpty`. -/
def RegId.empty (r : RegId) : Bool := decide (r.h = 0 ∧ r.i = 0)

/-- The fields are within their types. -/
def RegId.Ok (r : RegId) : Prop := r.h < 2 ^ 32 ∧ r.i < 2 ^ 16

/-! ## Names (name.hpp 12-38; no name used here has more than twelve letters) -/

def letter (c : Char) : Nat :=
  if 'a' ≤ c ∧ c ≤ 'z' then c.toNat - 97 + 6 else if '1' ≤ c ∧ c ≤ '5' then c.toNat - 49 + 1 else 0

def nameFrom : Nat → List Char → Nat
  | _, [] => 0
  | i, c :: cs => letter c * 2 ^ (64 - 5 * (i + 1)) + nameFrom (i + 1) cs

/-- `NAME(x)` -/
def nm (s : String) : Nat := nameFrom 0 s.toList

/-! ## Constants (wasm_constants.hpp) -/

def wasmio : Nat := 100
def bank : Nat := 800
def voting : Nat := 900
def codePerm : Nat := nm "wasmio_code"
def maxDepth : Nat := 4
def maxRecipients : Nat := 16
def maxInlines : Nat := 1024
def maxSignatures : Nat := 64
def storeFuel : Nat := 10
def noticeFuel : Nat := 10000
/-- `MAX_BLOCK_FUEL` (const.h 141) -/
def maxFuel : Nat := 600562500
/-- `max_wasm_execute_time_infinite`, in microseconds, used when blocks are connected -/
def maxTime : Nat := 2000000

def isNative (v : Nat) : Bool := decide (v = wasmio ∨ v = bank ∨ v = voting)

/-! ## Actions (inline_transaction.hpp 29-64) -/

structure Perm where
  account : Nat
  perm : Nat
  deriving DecidableEq

structure Act where
  contract : Nat
  action : Nat
  auth : List Perm
  data : List Nat
  deriving DecidableEq

/-- `CUniversalContractStore` without texts and hash. -/
structure Contract where
  maintainer : RegId
  upgradable : Bool
  code : List Nat
  abi : List Nat
  deriving DecidableEq

/-- `CBlockInflatedReward` (persistence/blockdb.h 19-53). -/
structure Reward where
  start : Nat
  fresh : Nat
  total : Nat
  last : Nat
  lastHeight : Nat
  deriving DecidableEq

/-- One execution of an action at a receiver (the trace). `issuer`: the receiver that issued the action, none for an action of the
transaction itself; `ran`: a native contract or a program was executed. -/
structure Entry where
  act : Act
  recv : Nat
  depth : Nat
  issuer : Option Nat
  ran : Bool
  deriving DecidableEq

structure State where
  /-- balances and assets -/
  books : Asset.State
  /-- `regId2KeyIdCache`; accounts are identified by their key id -/
  reg : RegId → Option Ref
  /-- `CAccount::regid` -/
  regOf : Ref → RegId
  /-- `owner_pubkey.IsValid()` -/
  pub : Ref → Bool
  contracts : RegId → Option Contract
  /-- `contractDataCache`: contract, then prefix and key -/
  data : RegId → Nat × List Nat → Option (List Nat)
  /-- `voteRegIdCache` -/
  index : Nat × RegId → Bool
  reward : Reward
  /-- `CUniversalTx::fuel` and `recipients_size` -/
  fuel : Nat
  recips : Nat
  /-- trace of the transaction, and what it did to the books -/
  log : List Entry
  evs : List Asset.Ev

/-- What a program can ask for and that matters to others. -/
inductive Host
  | notify (r : Nat)
  | inline (a : Act)
  | store (k v : List Nat)
  | remove (k : List Nat)
  deriving DecidableEq

/-! ## Arguments of the native actions -/

structure Xfer where
  src : Nat
  dst : Nat
  sym : Sym
  amount : Int
  symOk : Bool
  textOk : Bool

structure Issue where
  sym : Sym
  owner : Nat
  supply : Nat
  mintable : Bool
  textOk : Bool

structure MintArgs where
  target : Nat
  sym : Sym
  amount : Int
  symOk : Bool
  textOk : Bool

structure UpdArgs where
  sym : Sym
  owner : Option Nat
  textOk : Bool

structure CodeArgs where
  contract : Nat
  maintainer : Nat
  code : List Nat
  abi : List Nat

structure CoderArgs where
  contract : Nat
  maintainer : Nat

structure VoteArgs where
  candidate : Nat
  votes : Int
  textOk : Bool

structure RewArgs where
  dst : Nat
  textOk : Bool

/-- `wasm::unpack` of the action data. -/
structure Dec where
  xfer : List Nat → Option Xfer
  issue : List Nat → Option Issue
  mint : List Nat → Option MintArgs
  upd : List Nat → Option UpdArgs
  code : List Nat → Option CodeArgs
  coder : List Nat → Option CoderArgs
  vote : List Nat → Option VoteArgs
  rew : List Nat → Option RewArgs

/-- What is fixed while a transaction runs. -/
structure World where
  vm : List Nat → State → Nat → Act → Option (List Host)
  dec : Dec
  env : Asset.Env
  /-- `txCord` -/
  cord : RegId
  /-- `Hash160(regid.GetRegIdRaw())` -/
  keyOf : RegId → Ref
  /-- `sp_tx_account` -/
  payer : Ref
  payerReg : RegId
  /-- `VOTING_CONTRACT_REGID`, 0 if unset -/
  voteContract : Nat
  /-- serialized size of an action -/
  size : Act → Nat
  /-- data of the `on_mint` call -/
  onMint : Nat → Nat → List Nat → List Nat

/-- `CBaseTx::GetAccount` (tx.cpp 290-311) by number. -/
def lookup (W : World) (σ : State) (v : Nat) : Option Ref :=
  if !W.payerReg.empty && decide (RegId.ofInt v = W.payerReg) then some W.payer else σ.reg (RegId.ofInt v)

/-- `require_auth` / `has_authorization` (wasm_context.cpp 220-236). -/
def hasAuth (a : Act) (v : Nat) : Bool := a.auth.any (fun p => decide (p.account = v))

/-! ## Contexts -/

/-- `wasm_context`: the recipients so far and the actions issued, with their issuer. -/
structure Ctx where
  σ : State
  notified : List Nat
  inl : List (Nat × Act)

/-- `wasm_context::notify_recipient` (206-218). -/
def notifyRec (c : Ctx) (r : Nat) : Option Ctx :=
  let n := if r ∈ c.notified then c.notified else c.notified ++ [r]
  if n.length ≤ maxRecipients then some { c with notified := n } else none

/-- The check of one permission of an action issued by `recv` while it runs `cur` (42-80). -/
def permOk (recv : Nat) (cur : Act) (a : Act) (p : Perm) : Bool :=
  if a.contract = bank ∧ (p.account ≠ recv ∨ p.perm ≠ codePerm) then false
  else if a.contract = recv ∧ p.account = recv then true
  else if a.contract = recv ∧ p ∉ cur.auth then false
  else if a.contract ≠ recv ∧ (p.account ≠ recv ∨ p.perm ≠ codePerm) then false
  else true

/-- `wasm_context::execute_inline`. -/
def executeInline (recv : Nat) (cur : Act) (c : Ctx) (a : Act) : Option Ctx :=
  if a.auth.all (permOk recv cur a) then some { c with inl := c.inl ++ [(recv, a)] } else none

def setData (σ : State) (recv : Nat) (k : List Nat) (v : Option (List Nat)) (n : Nat) : State :=
  { σ with
    data := fun r q => if r = RegId.ofInt recv ∧ q = (recv, k) then v else σ.data r q
    fuel := σ.fuel + n * storeFuel }

/-- One host call. -/
def host (recv : Nat) (cur : Act) (c : Ctx) : Host → Option Ctx
  | .notify r => if (c.σ.reg (RegId.ofInt r)).isSome then notifyRec c r else none
  | .inline a => executeInline recv cur c a
  | .store k v =>
    if (c.σ.contracts (RegId.ofInt recv)).isSome then
      some { c with σ := setData c.σ recv k (some v) (8 + k.length + v.length) }
    else none
  | .remove k =>
    if (c.σ.contracts (RegId.ofInt recv)).isSome then some { c with σ := setData c.σ recv k none (8 + k.length) } else none

def hosts (recv : Nat) (cur : Act) : Ctx → List Host → Option Ctx
  | c, [] => some c
  | c, h :: hs => match host recv cur c h with
    | none => none
    | some c' => hosts recv cur c' hs

/-! ## The bank -/

/-- `calc_inline_tx_fuel` -/
def addFuel (W : World) (σ : State) (a : Act) : State := { σ with fuel := σ.fuel + W.size a * storeFuel }

/-- An event on the books. -/
def onBooks (σ : State) (e : Asset.Ev) : Option State :=
  match Asset.apply σ.books e with
  | none => none
  | some b => some { σ with books := b, evs := σ.evs ++ [e] }

/-- A valid positive quantity (asset.hpp `is_valid`, `amount > 0`). -/
def quantity (v : Int) : Option Nat := if 0 < v ∧ v < 2 ^ 62 then some v.toNat else none

/-- `tansfer` (wasm_native_bank_module.hpp 289-341). -/
def transfer (W : World) (a : Act) (c : Ctx) : Option Ctx :=
  match W.dec.xfer a.data with
  | none => none
  | some x =>
    if !hasAuth a x.src then none
    else if (RegId.ofInt x.src).empty || (RegId.ofInt x.dst).empty then none
    else if x.src = x.dst then none
    else if !x.symOk || !x.textOk then none
    else match quantity x.amount, lookup W c.σ x.src, lookup W c.σ x.dst with
    | some v, some f, some t =>
      if (c.σ.books.assets x.sym).isNone then none
      else match onBooks (addFuel W c.σ a) (.other [⟨f, x.sym, .subFree, v, some t⟩]) with
      | none => none
      | some σ => match notifyRec { c with σ := σ } x.src with
        | none => none
        | some c' => notifyRec c' x.dst
    | _, _, _ => none

/-- `issue` (127-205). -/
def issue (W : World) (a : Act) (c : Ctx) : Option Ctx :=
  match W.dec.issue a.data with
  | none => none
  | some x =>
    if (RegId.ofInt x.owner).empty then none
    else match lookup W c.σ x.owner with
    | none => none
    | some r =>
      (onBooks (addFuel W c.σ a)
        (.bankIssue W.env (fun _ => hasAuth a x.owner) x.sym r x.supply x.mintable x.textOk)).map (fun σ => { c with σ := σ })

/-- `mint_burn_balance` (wasm_native_commons.hpp 79-153). -/
def mintBurn (W : World) (mint : Bool) (a : Act) (c : Ctx) : Option Ctx :=
  match W.dec.mint a.data with
  | none => none
  | some x =>
    if (RegId.ofInt x.target).empty || !x.symOk then none
    else match quantity x.amount, lookup W c.σ x.target with
    | some v, some t =>
      match onBooks (addFuel W c.σ a)
        (.bankMintBurn W.env (fun r => hasAuth a (c.σ.regOf r).toInt) mint t x.sym v x.textOk) with
      | none => none
      | some σ => if mint then notifyRec { c with σ := σ } x.target else some { c with σ := σ }
    | _, _ => none

/-- The account named as the new owner, if any: it must exist. -/
def newOwner (W : World) (σ : State) : Option Nat → Option (Option Ref)
  | none => some none
  | some v => if (RegId.ofInt v).empty then none else (lookup W σ v).map some

/-- `update` (229-287); also `setasseticon` (343-383) with neither a new owner nor a new name. -/
def update (W : World) (a : Act) (c : Ctx) : Option Ctx :=
  match W.dec.upd a.data with
  | none => none
  | some x =>
    match newOwner W c.σ x.owner with
    | none => none
    | some o =>
      (onBooks (addFuel W c.σ a) (.bankUpdate W.env (fun r => hasAuth a (c.σ.regOf r).toInt) x.sym o x.textOk)).map
        (fun σ => { c with σ := σ })

def bankRun (W : World) (a : Act) (c : Ctx) : Option Ctx :=
  if a.action = nm "transfer" then transfer W a c
  else if a.action = nm "issue" then issue W a c
  else if a.action = nm "mint" then mintBurn W true a c
  else if a.action = nm "burn" then mintBurn W false a c
  else if a.action = nm "update" ∨ a.action = nm "setasseticon" then update W a c
  else none

/-! ## Contract code -/

/-- `CAccount(keyid)`: no tokens, all permissions. -/
def newAccount (k : Ref) : Account := ⟨k, fun _ => none, 0, BitVec.allOnes 64⟩

/-- First deployment: the new account replaces whatever the key id had (`NewAccount`, `SaveAllAccounts`), and the number of the
transaction is bound to it (`NewRegId`). -/
def deploy (W : World) (σ : State) (x : CodeArgs) : State :=
  { σ with
    books := { σ.books with mem := fun r => if r = W.keyOf W.cord then newAccount r else σ.books.mem r }
    reg := fun r => if r = W.cord then some (W.keyOf W.cord) else σ.reg r
    regOf := fun k => if k = W.keyOf W.cord then W.cord else σ.regOf k
    pub := fun k => if k = W.keyOf W.cord then false else σ.pub k
    contracts := fun r => if r = W.cord then some ⟨RegId.ofInt x.maintainer, true, x.code, x.abi⟩ else σ.contracts r }

def setContract (σ : State) (r : RegId) (k : Contract) : State :=
  { σ with contracts := fun q => if q = r then some k else σ.contracts q }

/-- `setcode` (wasm_native_module.hpp 79-153). -/
def setcode (W : World) (a : Act) (c : Ctx) : Option Ctx :=
  match W.dec.code a.data with
  | none => none
  | some x =>
    if x.contract = 0 then
      if (c.σ.contracts W.cord).isSome then none
      else some { c with σ := deploy W c.σ x }
    else match c.σ.contracts (RegId.ofInt x.contract) with
      | none => none
      | some k =>
        if x.maintainer ≠ k.maintainer.toInt then none
        else if !hasAuth a k.maintainer.toInt then none
        else
          let k' : Contract := ⟨RegId.ofInt x.maintainer, k.upgradable, x.code, x.abi⟩
          some { c with σ := setContract c.σ (RegId.ofInt x.contract) k' }

/-- `setcoder` (155-190). -/
def setcoder (W : World) (a : Act) (c : Ctx) : Option Ctx :=
  match W.dec.coder a.data with
  | none => none
  | some x => match c.σ.contracts (RegId.ofInt x.contract) with
    | none => none
    | some k =>
      if !hasAuth a k.maintainer.toInt then none
      else
        let k' : Contract := ⟨RegId.ofInt x.maintainer, k.upgradable, k.code, k.abi⟩
        some { c with σ := setContract c.σ (RegId.ofInt x.contract) k' }

def wasmioRun (W : World) (a : Act) (c : Ctx) : Option Ctx :=
  if a.action = nm "setcode" then setcode W a c
  else if a.action = nm "setcoder" then setcoder W a c
  else none

/-! ## Voting -/

/-- The votes after adding, in the signed 64-bit arithmetic of the code: negative or overflowing results are refused. -/
def addVotes (old : Nat) (v : Int) : Option Nat :=
  if 2 ^ 63 ≤ old then none
  else if (old : Int) + v < 0 ∨ 2 ^ 63 ≤ (old : Int) + v then none
  else some ((old : Int) + v).toNat

/-- `received_votes` of the account and the ranking: the new entry is set, then the old one erased. -/
def setVotes (σ : State) (r : Ref) (g : RegId) (old new : Nat) : State :=
  { σ with
    books := { σ.books with mem := fun k => if k = r then { σ.books.mem k with receivedVotes := new } else σ.books.mem k }
    index := fun q => if q = (old, g) then false else if q = (new, g) then true else σ.index q }

/-- `vote` (wasm_native_voting_module.hpp 72-130). -/
def vote (W : World) (a : Act) (c : Ctx) : Option Ctx :=
  match W.dec.vote a.data with
  | none => none
  | some x =>
    if W.voteContract = 0 then none
    else if !hasAuth a W.voteContract then none
    else if (RegId.ofInt x.candidate).empty || !x.textOk then none
    else match lookup W c.σ x.candidate with
    | none => none
    | some r => match addVotes (c.σ.books.mem r).receivedVotes x.votes with
      | none => none
      | some n =>
        notifyRec { c with σ := setVotes (addFuel W c.σ a) r (RegId.ofInt x.candidate) (c.σ.books.mem r).receivedVotes n } x.candidate

/-- The books and the reward record after minting at height `h` to account `r`. -/
def payReward (σ : State) (r : Ref) (h : Nat) : Option State :=
  if σ.reward.start = 0 then some { σ with reward := { σ.reward with start := h } }
  else if h < σ.reward.start then none
  else
    let v := σ.reward.fresh
    let w : Reward := ⟨σ.reward.start, 0, wadd σ.reward.total v, v, h⟩
    if v = 0 then some { σ with reward := w }
    else match onBooks σ (.other [⟨r, Asset.WICC, .addFree, v, none⟩]) with
      | none => none
      | some σ' => some { σ' with reward := w }

/-- What a call mints. -/
def rewardDue (σ : State) : Nat := if σ.reward.start = 0 then 0 else σ.reward.fresh

/-- `mintrewards` (135-191) and `_on_mint` (197-202). -/
def mintrewards (W : World) (a : Act) (c : Ctx) : Option Ctx :=
  match W.dec.rew a.data with
  | none => none
  | some x =>
    if W.voteContract = 0 then none
    else if !hasAuth a W.voteContract then none
    else if (RegId.ofInt x.dst).empty || !x.textOk then none
    else match lookup W c.σ x.dst with
    | none => none
    | some r => match payReward (addFuel W c.σ a) r W.cord.h with
      | none => none
      | some σ =>
        executeInline voting a { c with σ := σ }
          ⟨W.voteContract, nm "on_mint", [⟨voting, codePerm⟩], W.onMint x.dst (rewardDue c.σ) a.data⟩

def votingRun (W : World) (a : Act) (c : Ctx) : Option Ctx :=
  if a.action = nm "vote" then vote W a c
  else if a.action = nm "mintrewards" then mintrewards W a c
  else none

/-! ## Execution -/

def nativeRun (W : World) (recv : Nat) (a : Act) (c : Ctx) : Option Ctx :=
  if recv = bank then bankRun W a c
  else if recv = wasmio then wasmioRun W a c
  else votingRun W a c

/-- The program of a receiver, if it has one (`get_code`). -/
def program (σ : State) (recv : Nat) : Option (List Nat) :=
  match σ.contracts (RegId.ofInt recv) with
  | none => none
  | some k => if k.code = [] then none else some k.code

def logEntry (σ : State) (a : Act) (recv depth : Nat) (issuer : Option Nat) : State :=
  { σ with
    recips := σ.recips + 1
    log := σ.log ++ [⟨a, recv, depth, issuer, isNative recv || (program σ recv).isSome⟩] }

/-- `execute_one`. -/
def executeOne (W : World) (a : Act) (depth : Nat) (issuer : Option Nat) (c : Ctx) (recv : Nat) : Option Ctx :=
  let c1 := { c with σ := logEntry c.σ a recv depth issuer }
  if isNative recv then nativeRun W recv a c1
  else match program c.σ recv with
    | none => some c1
    | some code => match W.vm code c1.σ recv a with
      | none => none
      | some hs => hosts recv a c1 hs

/-- The loop over the recipients from position `i` on; recipients may be added while it runs. `n` bounds the iterations: the list never
has more than `maxRecipients` entries (`notes_enough`). -/
def notes (W : World) (a : Act) (depth : Nat) (issuer : Option Nat) : Nat → Nat → Ctx → Option Ctx
  | 0, i, c => if i < c.notified.length then none else some c
  | n + 1, i, c => match c.notified[i]? with
    | none => some c
    | some r => match executeOne W a depth issuer c r with
      | none => none
      | some c' => notes W a depth issuer n (i + 1) c'

/-- The issued actions in order. -/
def inlines (f : State → Option Nat → Act → Option State) : State → List (Nat × Act) → Option State
  | σ, [] => some σ
  | σ, (r, x) :: xs => match f σ (some r) x with
    | none => none
    | some σ' => inlines f σ' xs

/-- `execute` of an action: itself, the recipients, then the issued actions one level deeper. `n` is the number of levels left. -/
def execute (W : World) : Nat → State → Option Nat → Act → Option State
  | 0, _, _, _ => none
  | n + 1, σ, issuer, a =>
    match executeOne W a (maxDepth - (n + 1)) issuer ⟨σ, [a.contract], []⟩ a.contract with
    | none => none
    | some c => match notes W a (maxDepth - (n + 1)) issuer maxRecipients 1 c with
      | none => none
      | some c' => inlines (execute W n) c'.σ c'.inl

/-! ## Transactions -/

/-- A universal transaction: the accounts whose signatures it carries besides the payer's, its actions, fees and size. `sigOk`: the
signature of the given entry verifies under the public key of the account. -/
structure Tx where
  signers : List Nat
  sigOk : Nat → Ref → Bool
  acts : List Act
  fees : Nat
  minFee : Nat
  rate : Nat
  size : Nat

def signerOk (W : World) (σ : State) (tx : Tx) (s : Nat) : Bool :=
  !(RegId.ofInt s).empty && decide (RegId.ofInt s ≠ W.payerReg) &&
    (match lookup W σ s with
     | none => false
     | some r => σ.pub r && tx.sigOk s r)

def contractOk (σ : State) (a : Act) : Bool :=
  isNative a.contract ||
    (match σ.contracts (RegId.ofInt a.contract) with
     | none => false
     | some k => decide (k.code ≠ []) && decide (k.abi ≠ []))

/-- `authorization_accounts`. `reg0`: the payer's number when the transaction is checked, before its account is registered. -/
def authorized (reg0 : RegId) (tx : Tx) : List Nat := tx.signers ++ [reg0.toInt]

/-- `CheckTx`. -/
def checkTx (W : World) (reg0 : RegId) (σ : State) (tx : Tx) : Bool :=
  decide (tx.signers.length ≤ maxSignatures) && decide (0 < tx.acts.length ∧ tx.acts.length ≤ maxInlines) &&
    tx.acts.all (contractOk σ) && decide tx.signers.Nodup && tx.signers.all (signerOk { W with payerReg := reg0 } σ tx) &&
    tx.acts.all (fun a => a.auth.all (fun p => decide (p.account ∈ authorized reg0 tx)))

def runActs (W : World) (σ : State) : List Act → Option State
  | [] => some σ
  | a :: as => match execute W maxDepth σ none a with
    | none => none
    | some σ' => runActs W σ' as

/-- `fuel / 100 * fuel_rate` (universaltx.cpp 195-202). -/
def runFee (fuel rate : Nat) : Nat := fuel / 100 * rate

/-- `ExecuteTx` when connecting a block, taking `elapsed` microseconds. -/
def runTx (W : World) (σ : State) (tx : Tx) (elapsed : Nat) : Option State :=
  match runActs W { σ with fuel := tx.size * storeFuel, recips := 0, log := [], evs := [] } tx.acts with
  | none => none
  | some σ' =>
    let f := σ'.fuel + σ'.recips * noticeFuel
    if maxTime ≤ elapsed then none
    else if tx.rate = 0 ∨ maxFuel < f then none
    else if tx.fees < max tx.minFee (runFee f tx.rate) then none
    else some { σ' with fuel := f }

end Verif.Wasm
