import Verif.Ledger.Basic

/-!
# UTXO transfer transactions

Models src/tx/coinutxotx.cpp 12-469 (`GetUtxoTxFromChain`, `ComputeRedeemScript`, `VerifyMultiSig`,
`CheckUtxoOutCondition`, `CCoinUtxoTransferTx::CheckTx`, `ExecuteTx`), the password proof transaction 475-510,
src/entities/utxo.h (conditions; a condition with type byte 0 is read as a null pointer, 283-288) and
src/persistence/txutxodb.cpp.

Simplifications:
* Ids, hashes, keys, signatures and passwords are numbers. `Env` holds the account lookup, signature check
  and hash functions (arbitrary functions).
* Registration of public keys, memo and the receipts are left out; the fee is paid first
  (`ExecuteFullTx`, src/tx/tx.cpp 200-203).
* The transaction index used to read previous transactions contains the transactions of earlier blocks only
  (main.cpp 1162-1168 writes it after all transactions of a block were executed): `pending` until `endBlock`.
-/
namespace Verif.Utxo

open Verif.Account Verif.Ledger

abbrev Uid := Nat
abbrev KeyId := Nat
abbrev TxId := Nat

/-- Outcome of validation; `crash` is a null pointer dereference or a failed assert. -/
inductive Out (α : Type) where
  | ok (a : α)
  | reject
  | crash
  deriving DecidableEq

def Out.bind {α β : Type} : Out α → (α → Out β) → Out β
  | .ok a, f => f a
  | .reject, _ => .reject
  | .crash, _ => .crash

/-- `CMultiSignAddressCondIn` -/
structure MultiIn where
  m : Nat
  n : Nat
  uids : List Uid
  sigs : List Nat
  deriving DecidableEq

/-- Conditions as they appear in inputs and outputs (utxo.h 17-30); the same variant type is used in both. -/
inductive Cond where
  | null
  | ip2sa
  | ip2ma (c : MultiIn)
  | ip2ph (password : Nat) (len : Nat)
  | op2sa (uid : Uid)
  | op2ma (k : KeyId)
  | op2ph (proofRequired : Bool) (hash : Nat)
  | oclaim (height : Nat)
  | oreclaim (height : Nat)
  deriving DecidableEq

/-- `cond_type` (utxo.h 17-30). -/
def Cond.type : Cond → Nat
  | .null => 0 | .ip2sa => 11 | .ip2ma _ => 12 | .ip2ph _ _ => 13
  | .op2sa _ => 111 | .op2ma _ => 112 | .op2ph _ _ => 113 | .oclaim _ => 114 | .oreclaim _ => 115

structure In where
  prev : TxId
  idx : Nat
  conds : List Cond
  deriving DecidableEq

structure Outp where
  amount : Nat
  conds : List Cond
  deriving DecidableEq

structure Tx where
  id : TxId
  uid : Uid
  payer : Ref
  feeSym : Sym
  fee : Nat
  coin : Sym
  vins : List In
  vouts : List Outp
  deriving DecidableEq

structure Acct where
  keyid : KeyId
  regid : Nat
  /-- the owner public key if `HasOwnerPubKey()` -/
  pubkey : Option Nat
  deriving DecidableEq

structure Env where
  height : Nat
  /-- `SysCfg().IsTxIndex()` -/
  txIndex : Bool
  vinSize : Nat
  voutSize : Nat
  minFee : Nat
  /-- `GetAccount(context, uid)` -/
  acct : Uid → Option Acct
  /-- the key id of the sender of a previous transaction, taken from the id itself if it is a key id, else from its
  account (coinutxotx.cpp 280-288) -/
  senderKey : Uid → Option KeyId
  /-- `VerifySignature(hash, signature, pubkey)` -/
  verify : Nat → Nat → Nat → Bool
  /-- `Hash160` of the redeem script of (m, n, addresses). -/
  msKey : Nat → Nat → List KeyId → KeyId
  /-- `ComputeUtxoMultisignHash(prev txid, index, spender keyid, redeem script of (m, n, addresses))` -/
  msHash : TxId → Nat → KeyId → Nat → Nat → List KeyId → Nat
  /-- `Hash(prev sender keyid, password)` -/
  pwHash : KeyId → Nat → Nat
  /-- `Hash(password, prev sender keyid, spender keyid, txid, index)` -/
  proofHash : Nat → KeyId → KeyId → TxId → Nat → Nat

/-- The unspent outputs, the readable earlier transactions, those of the current block, the password proofs. -/
structure St where
  mem : Mem
  chain : TxId → Option Tx
  pending : List Tx
  utxos : List (TxId × Nat)
  proofs : TxId × Nat × Nat → Option Nat

/-- Addresses of the listed members (`ComputeRedeemScript` 53-66). -/
def addresses (e : Env) : List Uid → Option (List KeyId)
  | [] => some []
  | u :: us => match e.acct u with
    | none => none
    | some a => match addresses e us with
      | none => none
      | some l => some (a.keyid :: l)

/-- The inner loop of `VerifyMultiSig` for one signature: `none` = return false from the function, otherwise whether
the signature passed. -/
def sigPasses (e : Env) (hash sig : Nat) : List Uid → Option Bool
  | [] => some false
  | u :: us => match e.acct u with
    | none => none
    | some a => match a.pubkey with
      | none => none
      | some pk => if e.verify hash sig pk = true then some true else sigPasses e hash sig us

/-- The outer loop: number of signatures that pass. -/
def countSigs (e : Env) (hash : Nat) (uids : List Uid) : List Nat → Option Nat
  | [] => some 0
  | s :: ss => match sigPasses e hash s uids with
    | none => none
    | some b => match countSigs e hash uids ss with
      | none => none
      | some k => some ((if b then 1 else 0) + k)

/-- `VerifyMultiSig`: coinutxotx.cpp 85-110. -/
def verifyMultiSig (e : Env) (hash : Nat) (c : MultiIn) : Bool :=
  if c.sigs.length < c.m then false
  else match addresses e c.uids with
    | none => false
    | some _ => match countSigs e hash c.uids c.sigs with
      | none => false
      | some k => decide (k ≥ c.m)

/-- OP2MA of a previous output: coinutxotx.cpp 143-187. -/
def checkMulti (e : Env) (spender : Acct) (i : In) (k : KeyId) (c : MultiIn) : Bool :=
  if c.m > c.n then false
  else if c.m > 20 ∨ c.n > 20 then false
  else if c.uids.length ≠ c.n then false
  else match addresses e c.uids with
    | none => false
    | some as =>
      if e.msKey c.m c.n as ≠ k then false
      else verifyMultiSig e (e.msHash i.prev i.idx spender.keyid c.m c.n as) c

/-- OP2PH of a previous output: coinutxotx.cpp 203-243. -/
def checkPassword (e : Env) (proofs : TxId × Nat × Nat → Option Nat) (prevUid : Uid) (spender : Acct) (i : In)
    (proofRequired : Bool) (hash pw len : Nat) : Bool :=
  if len > 256 then false
  else match e.acct prevUid with
    | none => false
    | some pa =>
      if proofRequired = true ∧ proofs (i.prev, i.idx, spender.regid)
          ≠ some (e.proofHash pw pa.keyid spender.keyid i.prev i.idx) then false
      else decide (hash = e.pwHash pa.keyid pw)

/-- Scan of `input.conds` for the first condition of a kind: `f` gives the verdict for a matching one; a null
condition met before it is dereferenced. Not found = false. -/
def scan (f : Cond → Option Bool) : List Cond → Out Unit
  | [] => .reject
  | .null :: _ => .crash
  | c :: cs => match f c with
    | some true => .ok ()
    | some false => .reject
    | none => scan f cs

/-- `CheckUtxoOutCondition` with `isPrevUtxoOut = true`: coinutxotx.cpp 112-312. -/
def checkPrev (e : Env) (proofs : TxId × Nat × Nat → Option Nat) (prevUid : Uid) (spender : Acct) (i : In) : Cond → Out Unit
  | .null => .crash
  | .op2sa uid => match e.acct uid with
    | none => .reject
    | some a => if a.keyid = spender.keyid then .ok () else .reject
  | .op2ma k => scan (fun c => match c with | .ip2ma mi => some (checkMulti e spender i k mi) | _ => none) i.conds
  | .op2ph pr h => scan (fun c => match c with
      | .ip2ph pw len => some (checkPassword e proofs prevUid spender i pr h pw len) | _ => none) i.conds
  | .oclaim h => if e.height ≤ h then .reject else .ok ()
  | .oreclaim h => match e.senderKey prevUid with
    | none => .reject
    | some k => if k = spender.keyid ∧ (h = 0 ∨ e.height ≤ h) then .reject else .ok ()
  | _ => .reject

/-- `CheckUtxoOutCondition` with `isPrevUtxoOut = false`. -/
def checkNew : Cond → Out Unit
  | .null => .crash
  | .op2sa uid => if uid = 0 then .reject else .ok ()
  | .op2ma k => if k = 0 then .reject else .ok ()
  | .op2ph _ h => if h = 0 then .reject else .ok ()
  | .oclaim h => if h = 0 then .reject else .ok ()
  | .oreclaim h => if h = 0 then .reject else .ok ()
  | _ => .reject

/-- The loop over conditions of one output: check, then refuse a repeated condition type (344-356, 371-382). -/
def checkConds (f : Cond → Out Unit) : List Nat → List Cond → Out (List Nat)
  | seen, [] => .ok seen
  | seen, c :: cs => (f c).bind fun _ =>
      if c.type ∈ seen then .reject else checkConds f (c.type :: seen) cs

/-- The loop over inputs in `CheckTx` (336-363): total value of the referenced outputs. -/
def checkIns (e : Env) (s : St) (spender : Acct) : List In → Nat → Out Nat
  | [], t => .ok t
  | i :: is, t =>
    if e.txIndex = false then .reject else
    match s.chain i.prev with
    | none => .reject
    | some p => match p.vouts[i.idx]? with
      | none => .reject
      | some o => (checkConds (checkPrev e s.proofs p.uid spender i) [] o.conds).bind fun seen =>
          if 11 ∈ seen ∧ 12 ∈ seen then .reject
          else checkIns e s spender is (wadd t o.amount)

/-- The loop over outputs in `CheckTx` (365-389). -/
def checkOuts : List Outp → Nat → Out Nat
  | [], t => .ok t
  | o :: os, t =>
    if o.amount = 0 then .reject else
    (checkConds checkNew [] o.conds).bind fun seen =>
      if 111 ∈ seen ∧ 112 ∈ seen then .reject
      else checkOuts os (wadd t o.amount)

/-- `CCoinUtxoTransferTx::CheckTx`: coinutxotx.cpp 314-405. -/
def checkTx (e : Env) (s : St) (t : Tx) : Out Unit :=
  if t.vins.length > e.vinSize then .reject
  else if t.vouts.length > e.voutSize then .reject
  else if t.vins.length = 0 ∧ t.vouts.length = 0 then .reject
  else if t.fee < wmul (2 * t.vins.length + t.vouts.length) e.minFee then .reject
  else match e.acct t.uid with
    | none => .reject
    | some spender =>
      (checkIns e s spender t.vins 0).bind fun tin =>
      (checkOuts t.vouts 0).bind fun tout =>
        match (s.mem t.payer).tokens t.coin with
        | none => .reject
        | some tok => if wadd (tok .free) tin < wadd tout t.fee then .reject else .ok ()

/-- The loop over inputs in `ExecuteTx` (413-436): each must be unspent, is removed; the password proof is deleted. -/
def spendIns (e : Env) (spender : Acct) : St → List In → Nat → Option (St × Nat)
  | s, [], t => some (s, t)
  | s, i :: is, t =>
    if (i.prev, i.idx) ∉ s.utxos then none
    else if e.txIndex = false then none
    else match s.chain i.prev with
      | none => none
      | some p => match p.vouts[i.idx]? with
        | none => none
        | some o =>
          let s' := { s with
            utxos := s.utxos.filter (fun x => decide (x ≠ (i.prev, i.idx)))
            proofs := fun x => if x = (i.prev, i.idx, spender.regid) then none else s.proofs x }
          spendIns e spender s' is (wadd t o.amount)

/-- The loop over outputs in `ExecuteTx` (438-448). -/
def makeOuts (id : TxId) : List (TxId × Nat) → Nat → List Outp → Nat → List (TxId × Nat) × Nat
  | us, _, [], t => (us, t)
  | us, k, o :: os, t => makeOuts id (if (id, k) ∈ us then us else (id, k) :: us) (k + 1) os (wadd t o.amount)

/-- Fee and `CCoinUtxoTransferTx::ExecuteTx`: coinutxotx.cpp 410-469. -/
def execTx (e : Env) (s : St) (t : Tx) : Option St :=
  match (if t.fee > 0 then opBal s.mem ⟨t.payer, t.feeSym, .subFree, t.fee, none⟩ else some s.mem) with
  | none => none
  | some m1 => match e.acct t.uid with
    | none => none
    | some spender => match spendIns e spender { s with mem := m1 } t.vins 0 with
      | none => none
      | some (s2, tin) =>
        let r := makeOuts t.id s2.utxos 0 t.vouts 0
        let tout := r.2
        match (s2.mem t.payer).tokens t.coin with
        | none => none
        | some tok =>
          if wadd (tok .free) tin < tout then none
          else
            match (if tin < tout then opBal s2.mem ⟨t.payer, t.coin, .subFree, tout - tin, none⟩
                   else if tin > tout then opBal s2.mem ⟨t.payer, t.coin, .addFree, tin - tout, none⟩
                   else some s2.mem) with
            | none => none
            | some m2 => some { s2 with mem := m2, utxos := r.1, pending := t :: s2.pending }

/-- Check then execute. -/
def step (e : Env) (s : St) (t : Tx) : Out St :=
  (checkTx e s t).bind fun _ => match execTx e s t with
    | none => .reject
    | some s' => .ok s'

/-- End of a block: its transactions become readable (`SaveTxIndex`). -/
def endBlock (s : St) : St :=
  { s with
    chain := fun x => match s.pending.find? (fun t => decide (t.id = x)) with
      | some t => some t
      | none => s.chain x
    pending := [] }

/-- `CCoinUtxoPasswordProofTx::ExecuteTx` (498-506). -/
def setProof (s : St) (txid : TxId) (idx regid proof : Nat) : St :=
  { s with proofs := fun x => if x = (txid, idx, regid) then some proof else s.proofs x }

end Verif.Utxo
