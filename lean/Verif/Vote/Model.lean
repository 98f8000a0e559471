import Verif.Ledger.Basic

/-!
# Delegate votes

Models `CAccount::ProcessCandidateVotes` (src/entities/account.cpp 383-530), `StakeVoteBcoins` (532-557),
`CDelegateVoteTx::CheckTx`/`ExecuteTx` (src/tx/delegatetx.cpp 18-107), the vote index
(src/persistence/delegatedb.cpp 31-76) and the revocation run one block before the second fork
(`ComputeVoteStakingInterestAndRevokeVotes`, src/main.cpp 884-986, called at 1159).

Simplifications:
* Candidates are named by registration id or public key (`Uid`). `Table` is the final account table: which account a
  name belongs to and which public key an account registered. A name not known yet only leads to rejection.
* The interest paid when voting is an arbitrary amount given with each transaction (it never touches votes).
* `last_vote_height`/`last_vote_epoch` and receipts are left out; the height check fails never for increasing heights.
* `std::sort` by descending votes is insertion sort; the proofs use only that the result is a sorted permutation.
-/
namespace Verif.Vote

open Verif.Account Verif.Ledger

inductive Uid where
  | reg (n : Nat)
  | pk (k : Nat)
  deriving DecidableEq

structure Table where
  /-- `GetAccount(uid)` -/
  acct : Uid → Option Ref
  /-- `owner_pubkey` -/
  owner : Ref → Option Nat
  /-- `GetRegIdRaw()` of an account's registration id, least significant byte first (id.cpp 92-98) -/
  raw : Ref → List Nat

structure Params where
  /-- `IniCfg().GetMaxVoteCandidateNum()` -/
  maxCand : Nat
  /-- `GetBaseCoinMaxMoney()` -/
  maxMoney : Nat

inductive Kind where
  | add | minus
  deriving DecidableEq

structure Vote where
  kind : Kind
  cand : Uid
  amount : Nat
  deriving DecidableEq

/-- The votes a voter currently gives (`CCandidateReceivedVote`). -/
abbrev Entries := List (Uid × Nat)

structure St where
  mem : Mem
  /-- `regId2VoteCache`, by voter -/
  votes : Ref → Entries
  /-- accounts that have a registration id -/
  registered : Ref → Bool
  /-- `voteRegIdCache`: (votes, account) -/
  index : List (Nat × Ref)

/-- The comparison in `find_if` (account.cpp 398-414). -/
def sameCand (t : Table) (voteId stored : Uid) : Bool :=
  match voteId, stored with
  | .reg n, .reg m => n == m
  | .pk k, .pk l => k == l
  | .reg n, .pk l => match t.acct (.reg n) with
    | none => false
    | some a => t.owner a == some l
  | .pk k, .reg m => match t.acct (.reg m) with
    | none => false
    | some a => t.owner a == some k

/-- Adding votes for `u`: first matching entry is increased, else a new one is appended. -/
def addVote (t : Table) (p : Params) (u : Uid) (v : Nat) (all : Nat) : Entries → Option Entries
  | [] => if all = p.maxCand then none else some [(u, v)]
  | (x, c) :: es =>
    if sameCand t u x then
      if v > p.maxMoney then none
      else if wadd c v > p.maxMoney then none
      else some ((x, wadd c v) :: es)
    else match addVote t p u v all es with
      | none => none
      | some es' => some ((x, c) :: es')

/-- Taking votes back from `u`. -/
def subVote (t : Table) (p : Params) (u : Uid) (v : Nat) : Entries → Option Entries
  | [] => none
  | (x, c) :: es =>
    if sameCand t u x then
      if v > p.maxMoney then none
      else if c < v then none
      else if c - v = 0 then some es
      else some ((x, c - v) :: es)
    else match subVote t p u v es with
      | none => none
      | some es' => some ((x, c) :: es')

/-- One vote of `ProcessCandidateVotes` (account.cpp 395-453). -/
def applyVote (t : Table) (p : Params) (es : Entries) (v : Vote) : Option Entries :=
  match v.kind with
  | .add => addVote t p v.cand v.amount es.length es
  | .minus => subVote t p v.cand v.amount es

def applyVotes (t : Table) (p : Params) : Entries → List Vote → Option Entries
  | es, [] => some es
  | es, v :: vs => match applyVote t p es v with
    | none => none
    | some es' => applyVotes t p es' vs

def insertDesc (e : Uid × Nat) : Entries → Entries
  | [] => [e]
  | x :: es => if e.2 ≥ x.2 then e :: x :: es else x :: insertDesc e es

/-- Sorting by votes, largest first (455-459). -/
def sortDesc : Entries → Entries
  | [] => []
  | e :: es => insertDesc e (sortDesc es)

/-- `newTotalVotes` (461-471): the sum since the second fork, the largest vote before. -/
def newTotal (r2 : Bool) (es : Entries) : Nat :=
  if r2 then es.foldl (fun t e => wadd t e.2) 0 else match es with | [] => 0 | e :: _ => e.2

/-- `ProcessCandidateVotes`: new entries and memory. -/
def processVotes (t : Table) (p : Params) (r2 : Bool) (interest : Nat) (m : Mem) (voter : Ref) (es : Entries)
    (vs : List Vote) : Option (Entries × Mem) :=
  match applyVotes t p es vs with
  | none => none
  | some es1 =>
    let es2 := sortDesc es1
    let last := bal m voter "WICC" .voted
    let new := newTotal r2 es2
    match (if new > last then opBal m ⟨voter, "WICC", .vote, new - last, none⟩
           else if new < last then opBal m ⟨voter, "WICC", .unvote, last - new, none⟩
           else some m) with
    | none => none
    | some m1 =>
      match (if r2 then (if interest > 0 then opBal m1 ⟨voter, "WGRT", .addFree, interest, none⟩ else some m1)
             else (if interest > p.maxMoney then none else opBal m1 ⟨voter, "WICC", .addFree, interest, none⟩)) with
      | none => none
      | some m2 => some (es2, m2)

def setReceived (m : Mem) (a : Ref) (v : Nat) : Mem := fun r => if r = a then { m r with receivedVotes := v } else m r

/-- `StakeVoteBcoins`: the new number of received votes. -/
def stake (p : Params) (k : Kind) (v old : Nat) : Option Nat :=
  match k with
  | .add => if wadd old v > p.maxMoney then none else some (wadd old v)
  | .minus => if old < v then none else some (old - v)

/-- `SetDelegateVotes` / `EraseDelegateVotes`: ignored for accounts without registration id. -/
def setIndex (s : St) (a : Ref) (v : Nat) : List (Nat × Ref) :=
  if s.registered a then (if (v, a) ∈ s.index then s.index else (v, a) :: s.index) else s.index

def eraseIndex (registered : Bool) (index : List (Nat × Ref)) (a : Ref) (v : Nat) : List (Nat × Ref) :=
  if registered then index.filter (fun x => decide (x ≠ (v, a))) else index

/-- The candidate side of one vote (delegatetx.cpp 73-99). -/
def creditVote (t : Table) (p : Params) (s : St) (v : Vote) : Option St :=
  match t.acct v.cand with
  | none => none
  | some a =>
    let old := (s.mem a).receivedVotes
    match stake p v.kind v.amount old with
    | none => none
    | some new =>
      some { s with
        mem := setReceived s.mem a new
        index := eraseIndex (s.registered a) (setIndex s a new) a old }

def creditVotes (t : Table) (p : Params) : St → List Vote → Option St
  | s, [] => some s
  | s, v :: vs => match creditVote t p s v with
    | none => none
    | some s' => creditVotes t p s' vs

/-- Fork state at the height of a vote transaction. -/
structure Ver where
  r2 : Bool
  r35 : Bool
  deriving DecidableEq

/-- `CDelegateVoteTx::CheckTx`. -/
def checkVotes (t : Table) (p : Params) (ver : Ver) (s : St) (vs : List Vote) : Bool :=
  decide (vs ≠ [] ∧ vs.length ≤ p.maxCand) && vs.all fun v =>
    decide (0 < v.amount ∧ v.amount ≤ p.maxMoney) &&
    match t.acct v.cand with
    | none => false
    | some a => !(ver.r35 && decide (v.kind = .add)) && (!ver.r2 || s.registered a)

/-- A vote transaction. -/
def voteTx (t : Table) (p : Params) (ver : Ver) (interest : Nat) (s : St) (voter : Ref) (vs : List Vote) : Option St :=
  if checkVotes t p ver s vs = false then none
  else match processVotes t p ver.r2 interest s.mem voter (s.votes voter) vs with
    | none => none
    | some (es, m) =>
      creditVotes t p { s with mem := m, votes := fun r => if r = voter then es else s.votes r } vs

/-- Revocation for one voter: all entries but the first (main.cpp 894-918). -/
def revocations (es : Entries) : List Vote := es.tail.map fun e => ⟨.minus, e.1, e.2⟩

/-- One voter in the run before the second fork (922-976); the rules of the first version apply. -/
def revokeOne (t : Table) (p : Params) (interest : Ref → Nat) (s : St) (voter : Ref) : Option St :=
  match processVotes t p false (interest voter) s.mem voter (s.votes voter) (revocations (s.votes voter)) with
  | none => none
  | some (es, m) =>
    creditVotes t p { s with mem := m, votes := fun r => if r = voter then es else s.votes r }
      (revocations (s.votes voter))

def revokeAll (t : Table) (p : Params) (interest : Ref → Nat) : St → List Ref → Option St
  | s, [] => some s
  | s, v :: vs => match revokeOne t p interest s v with
    | none => none
    | some s' => revokeAll t p interest s' vs

/-! ## The list of top delegates (delegatedb.cpp 31-58) -/

/-- Lexicographic order of byte strings. -/
def lexLt : List Nat → List Nat → Bool
  | [], [] => false
  | [], _ :: _ => true
  | _ :: _, [] => false
  | a :: as, b :: bs => if a < b then true else if a = b then lexLt as bs else false

/-- Key order of the index: `MAX - votes`, then raw registration id. -/
def keyLt (t : Table) (x y : Nat × Ref) : Bool :=
  if x.1 > y.1 then true else if x.1 = y.1 then lexLt (t.raw x.2) (t.raw y.2) else false

def insertKey (t : Table) (e : Nat × Ref) : List (Nat × Ref) → List (Nat × Ref)
  | [] => [e]
  | x :: xs => if keyLt t x e then x :: insertKey t e xs else e :: x :: xs

/-- The iteration order of the index. -/
def iterate (t : Table) : List (Nat × Ref) → List (Nat × Ref)
  | [] => []
  | e :: es => insertKey t e (iterate t es)

/-- The loop of `GetTopVoteDelegates`. -/
def takeTop (num minVote : Nat) (r3 : Bool) : List (Nat × Ref) → Nat → List (Nat × Ref)
  | [], _ => []
  | x :: xs, k =>
    if k < num then
      if r3 && decide (x.1 < minVote) then [] else x :: takeTop num minVote r3 xs (k + 1)
    else []

def getTop (t : Table) (index : List (Nat × Ref)) (num minVote : Nat) (r3 : Bool) : List (Nat × Ref) :=
  takeTop num minVote r3 (iterate t index) 0

end Verif.Vote
