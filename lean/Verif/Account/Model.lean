import Verif.Util.U64
/-!
# Account balances

Models `src/entities/account.h` (class `CAccountToken` lines 71-95, struct `CAccount` lines 103-210) and
`src/entities/account.cpp` (`OperateBalance` lines 33-179, `CheckBalance` 571-601, `CheckPerms`
account.h 150-155).
-/
namespace Verif.Account

/-- Token symbols: `TokenSymbol` is `std::string`. -/
abbrev Sym := String

/-- The five amounts of `CAccountToken` (account.h:73-77) / `BalanceType` (account.h:60-67). -/
inductive Bucket where
  | free | frozen | staked | voted | pledged
  deriving DecidableEq, Repr

/-- `CAccountToken` (account.h:71-95): one `uint64_t` per bucket. -/
abbrev Token := Bucket → Nat

/-- A default constructed `CAccountToken` (account.h:80). -/
def Token.zero : Token := fun _ => 0

/-- `CAccount` (account.h:103-210). Only the fields used by the modelled functions are kept: `keyid`,
`tokens`, `received_votes`, `perms_sum`. `tokens` is the `std::map` as a partial function (a missing
entry is distinguishable from a zero entry through `GetBalance`). Simplification: `regid`, public keys,
`last_vote_height`, `last_vote_epoch` are left out; no modelled function in this file touches them. -/
structure Account where
  keyid : Nat
  tokens : Sym → Option Token
  receivedVotes : Nat
  perms : BitVec 64

/-- `CAccount::GetToken`: the stored token or a zero one. -/
def Account.token (a : Account) (s : Sym) : Token := (a.tokens s).getD Token.zero

/-- `CAccount::SetToken` / writing through the reference `tokens[symbol]`. -/
def Account.setToken (a : Account) (s : Sym) (t : Token) : Account :=
  { a with tokens := fun s' => if s' = s then some t else a.tokens s' }

/-- A location holding a `CAccount` object (a C++ pointer); needed because `OperateBalance` compares
pointers (account.cpp:42) and the peer may be the account itself. -/
abbrev Ref := Nat

/-- The account objects loaded in memory. -/
abbrev Mem := Ref → Account

/-- The amount in bucket `b` of token `s` of the account at `r`. -/
def bal (m : Mem) (r : Ref) (s : Sym) (b : Bucket) : Nat := (m r).token s b

/-- Assign `v` to one bucket (C++ `accountToken.x_amount = v`). -/
def setBal (m : Mem) (r : Ref) (s : Sym) (b : Bucket) (v : Nat) : Mem :=
  fun r' => if r' = r then (m r).setToken s (fun b' => if b' = b then v else (m r).token s b') else m r'

/-- `tokens[symbol]` default-inserts a zero token (account.cpp:36). -/
def touch (m : Mem) (r : Ref) (s : Sym) : Mem :=
  fun r' => if r' = r then (m r).setToken s ((m r).token s) else m r'

/-- `BalanceOpType` (commons/types.h:63-76). -/
inductive Op where
  | nullOp | addFree | subFree | stake | unstake | freeze | unfreeze | vote | unvote | pledge | unpledge
  | dexDeal
  deriving DecidableEq, Repr

/-- The in-account moves `STAKE .. UNPLEDGE` (account.cpp:84-155): check the source bucket, subtract from
it, add to the destination bucket (unchecked `uint64_t` addition). In the C++ the addition to `free`
precedes the subtraction for the UN* operations; source and destination differ, so the order is
immaterial. -/
def move (m : Mem) (self : Ref) (s : Sym) (src dst : Bucket) (v : Nat) : Bool × Mem :=
  if bal m self s src < v then (false, m)
  else
    let m1 := setBal m self s src (wsub (bal m self s src) v)
    (true, setBal m1 self s dst (wadd (bal m1 self s dst) v))

/-- `CAccount::OperateBalance` (account.cpp:33-179). Result: success flag and memory afterwards (also on
failure, since the C++ may have written before returning `false`). Receipts are left out: they are only
appended on success and never read back by balance code. -/
def operateBalance (m0 : Mem) (self : Ref) (s : Sym) (op : Op) (v : Nat) (peer : Option Ref) :
    Bool × Mem :=
  let m := touch m0 self s
  -- account.cpp:42-45: two different objects with the same key id are refused
  if (match peer with
      | some p => decide (p ≠ self ∧ (m p).keyid = (m self).keyid)
      | none => false) then (false, m)
  else match op with
  | .addFree => -- account.cpp:48-66
    let m1 := setBal m self s .free (wadd (bal m self s .free) v)
    match peer with
    | none => (true, m1)
    | some p =>
      if bal m1 p s .free < v then (false, m1)
      else (true, setBal m1 p s .free (wsub (bal m1 p s .free) v))
  | .subFree => -- account.cpp:67-83
    if bal m self s .free < v then (false, m)
    else
      let m1 := setBal m self s .free (wsub (bal m self s .free) v)
      match peer with
      | none => (true, m1)
      | some p => (true, setBal m1 p s .free (wadd (bal m1 p s .free) v))
  | .stake => move m self s .free .staked v
  | .unstake => move m self s .staked .free v
  | .freeze => move m self s .free .frozen v
  | .unfreeze => move m self s .frozen .free v
  | .vote => move m self s .free .voted v
  | .unvote => move m self s .voted .free v
  | .pledge => move m self s .free .pledged v
  | .unpledge => move m self s .pledged .free v
  | .dexDeal => -- account.cpp:156-172
    match peer with
    | none => (false, m)
    | some p =>
      if bal m self s .frozen < v then (false, m)
      else
        let m1 := setBal m self s .frozen (wsub (bal m self s .frozen) v)
        (true, setBal m1 p s .free (wadd (bal m1 p s .free) v))
  | .nullOp => (false, m)

/-- `CAccount::CheckBalance` (account.cpp:571-601). -/
def checkBalance (a : Account) (s : Sym) (b : Bucket) (v : Nat) : Bool :=
  match a.tokens s with
  | none => decide (v ≤ 0)
  | some t => decide (v ≤ t b)

/-- `CAccount::CheckPerms` (account.h:150-155). -/
def checkPerms (a : Account) (p : BitVec 64) : Bool :=
  if p > a.perms then false else p == (a.perms &&& p)

/-- One request to the balance code. -/
structure Req where
  self : Ref
  sym : Sym
  op : Op
  amount : Nat
  peer : Option Ref

/-- Running a request on the ledger. A request that fails makes the surrounding transaction fail, and the
cache layer holding its changes is dropped (main.cpp:1077-1081 returns without flushing; miner.cpp:494-521
`continue`s without `spCW->Flush()`), so the ledger stays as it was. -/
def step (m : Mem) (q : Req) : Mem :=
  let r := operateBalance m q.self q.sym q.op q.amount q.peer
  if r.1 then r.2 else m

/-- A history of requests. -/
def run (m : Mem) (qs : List Req) : Mem := qs.foldl step m

end Verif.Account
