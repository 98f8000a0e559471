import Verif.Util.U64
import Verif.Util.SMap

/-!
# On-chain governance: proposals, approvals and the parameters they set

Models (all under src/)

* `CheckIsGovernor`, `GetGovernorApprovalMinCount`, `CProposalRequestTx`, `CProposalApprovalTx` (tx/proposaltx.cpp),
* the governor list, proposals and approvals (persistence/sysgoverndb.h 57-134),
* the parameter tables and their ranges (config/sysparams.h 21-147, config/scoin.h 50-136),
* the parameter store, the block-producer count and the history of interest parameters (persistence/sysparamdb.h 60-281),
* `CheckProposal` and `ExecuteProposal` of the system parameter, governor list, block-producer count, miner fee and CDP
  parameter proposals (entities/proposal.cpp 24-195, 341-432),
* the days charged by `ComputeCDPInterest` (tx/cdptx.cpp 124-169).

Conventions

* A regid is a number; a proposal id is the hash of the request transaction, a number.
* A failed transaction changes nothing (property of block execution), so a failing step leaves the state as it was.
* Every other kind of proposal is a tag; what it checks and does to the rest of the state (`σ`) is an arbitrary function in
  the context of the transaction that runs it.
* A stored value that is empty reads as missing (the key-value caches, area KV); a `CVarIntValue` is empty when it is zero
  (commons/serialize.h 437), which is `present` below.
* `State.log` records the calls of `ExecuteProposal` that succeeded. The code has no such field; nothing reads it.
-/
namespace Verif.Gov

abbrev RegId := Nat
abbrev Pair := String × String

/-- `2^32`. -/
def U32 : Nat := 4294967296

/-! ## Tables -/

def COIN : Nat := 100000000

/-- `kSysParamTable` (config/sysparams.h 76-101): type and default. -/
def sysTable : List (Nat × Nat) :=
  [(1, 11), (2, 210000 * COIN), (3, 10), (6, 7200), (19, 550 * COIN), (21, 1100 * COIN), (22, 110 * COIN), (23, 1200),
   (24, 2), (25, 0), (26, 4000), (27, 4000), (28, 20), (50, 21000 * COIN), (29, 8), (51, 0), (101, 0), (102, 20000000)]

/-- `sysParamRangeTable` (104-129). -/
def sysRange : List (Nat × (Nat × Nat)) :=
  [(1, (1, 1000)), (2, (0, 0)), (3, (0, 0)), (6, (0, 0)), (19, (0, 0)), (21, (0, 0)), (22, (0, 0)),
   (23, (100, 18446744073709551615)), (24, (0, 5000)), (25, (0, 5000)), (26, (0, 10000)), (27, (0, 10000)),
   (28, (0, 1000)), (50, (0, 0)), (29, (0, 0)), (51, (0, 0)), (101, (0, 0)), (102, (0, 0))]

/-- `kCdpParamTable` (config/scoin.h 86-99): type and default. -/
def cdpTable : List (Nat × Nat) :=
  [(2, 52500000), (3, 8000), (4, 19000), (5, 15000), (6, 11300), (7, 10400), (8, 9700), (9, 90000000), (10, 2), (11, 1),
   (13, 30)]

/-- `kCdpParamRangeTable` (101-113). -/
def cdpRange : List (Nat × (Nat × Nat)) :=
  [(2, (0, 210000000)), (3, (0, 1000000)), (4, (10000, 1000000)), (5, (10000, 100000)), (6, (10000, 100000)),
   (7, (0, 20000)), (8, (0, 10000)), (9, (0, 0)), (10, (0, 0)), (11, (1, 100000000)), (13, (0, 3650))]

/-- `CheckSysParamValue` (config/sysparams.h 132-147) and `CheckCdpParamValue` (config/scoin.h 115-136). -/
def inRange (t : List (Nat × (Nat × Nat))) (k v : Nat) : Bool :=
  match find t k with
  | none => false
  | some (lo, hi) => (lo == 0 && hi == 0) || !(decide (v < lo) || decide (v > hi))

/-! ## State -/

/-- What a proposal asks for. `bpmc` carries the operation byte (1 enable, 2 disable); `other` carries whether the active
delegates decide it (coin transfer) and whether it is a cross-chain swap proposal (longer life). -/
inductive Kind
  | sysParam (ps : List (Nat × Nat))
  | bpmc (r : RegId) (op : Nat)
  | bpSize (size eff : Nat)
  | minerFee (tx : Nat) (sym : String) (amount : Nat)
  | cdpParam (pair : Pair) (ps : List (Nat × Nat))
  | other (byDelegates axc : Bool) (tag : Nat)
  deriving DecidableEq

structure Proposal where
  kind : Kind
  expiry : Nat
  minCount : Nat
  deriving DecidableEq

/-- A successful call of `ExecuteProposal`. -/
structure Done where
  id : Nat
  height : Nat
  kind : Kind
  deriving DecidableEq

/-- Interest parameters A and B. -/
structure Params where
  a : Nat
  b : Nat
  deriving DecidableEq

structure State (σ : Type) where
  /-- `sys_param_chache` -/
  sys : Nat → Option Nat
  /-- `cdp_param_cache` -/
  cdp : Pair → Nat → Option Nat
  /-- `miner_fee_cache` -/
  fee : Nat → String → Option Nat
  /-- `cdp_interest_param_changes_cache`: by height -/
  changes : Pair → List (Nat × Params)
  /-- `current_total_bps_size_cache` -/
  bpCur : Option Nat
  /-- `new_total_bps_size_cache`: effective height and count -/
  bpNew : Option (Nat × Nat)
  /-- `governors_cache` -/
  govs : List RegId
  /-- `GetActiveDelegates`; the empty list reads as missing -/
  delegates : List RegId
  proposals : Nat → Option Proposal
  approvals : Nat → List RegId
  rest : σ
  log : List Done

/-- The node's configuration. -/
structure Cfg where
  /-- the governor used while the list is empty (sysgoverndb.h 107-113) -/
  defGov : RegId
  /-- `GetTotalDelegateNum` -/
  bps : Nat
  /-- blocks a change of the producer count must lie ahead: 3600, on regtest 50 (proposal.cpp 131-133) -/
  wait : Nat
  /-- `kTxTypeInfoTable`: is the type known, and can its fee be changed (the sixth entry) -/
  txInfo : Nat → Option Bool

/-- The context a transaction runs in. -/
structure Ctx (σ : Type) where
  height : Nat
  /-- feature fork version at least R3.5 -/
  r35 : Bool
  /-- the regid of this number is not empty and has an account -/
  acct : Nat → Bool
  mature : RegId → Bool
  /-- `CheckProposal` of the other kinds when requested -/
  otherRequest : Nat → σ → Option σ
  /-- `CheckProposal` and `ExecuteProposal` of the other kinds when approved -/
  otherRun : Nat → σ → Option σ

variable {σ : Type}

/-- A stored value as `GetData` sees it. -/
def present : Option Nat → Option Nat
  | some v => if v = 0 then none else some v
  | none => none

/-- `GetParam` (sysparamdb.h 60-73). -/
def getParam (st : State σ) (k : Nat) : Option Nat :=
  match find sysTable k with
  | none => none
  | some d => some ((present (st.sys k)).getD d)

/-- `GetCdpParam` (75-89). -/
def getCdp (st : State σ) (p : Pair) (k : Nat) : Option Nat :=
  match find cdpTable k with
  | none => none
  | some d => some ((present (st.cdp p k)).getD d)

/-- `GetMinerFee` (226-235) followed by the built-in fee `GetTxMinFee` falls back to (tx.cpp 50-76), `builtin`. -/
def getFee (st : State σ) (builtin : Option Nat) (tx : Nat) (s : String) : Option Nat :=
  match present (st.fee tx s) with
  | some v => some v
  | none => builtin

/-- `GetTotalBpsSize` (266-281). The pair is empty only when both parts are zero. -/
def totalBps (cfg : Cfg) (st : State σ) (h : Nat) : Nat :=
  match st.bpNew with
  | some (eff, n) =>
    if eff = 0 ∧ n = 0 then (present st.bpCur).getD cfg.bps
    else if h ≥ eff then n else (present st.bpCur).getD cfg.bps
  | none => (present st.bpCur).getD cfg.bps

/-- `GetGovernors` (sysgoverndb.h 107-113). -/
def governors (cfg : Cfg) (st : State σ) : List RegId :=
  if st.govs = [] then [cfg.defGov] else st.govs

/-- The kinds decided by the active delegates (proposaltx.cpp 14-16, 35-37). -/
def byDelegates : Kind → Bool
  | .bpmc _ _ => true
  | .bpSize _ _ => true
  | .other d _ _ => d
  | _ => false

/-- The list that decides about a kind. -/
def council (cfg : Cfg) (st : State σ) (k : Kind) : List RegId :=
  if byDelegates k then st.delegates else governors cfg st

/-- `CheckIsGovernor` (12-31). -/
def isGovernor (cfg : Cfg) (st : State σ) (k : Kind) (r : RegId) : Bool :=
  (council cfg st k).contains r

/-- `GetGovernorApprovalMinCount` (33-49, sysgoverndb.h 57-65): returned as `uint8_t`. -/
def minCount (cfg : Cfg) (st : State σ) (k : Kind) : Nat :=
  if byDelegates k then
    if st.delegates = [] then 8
    else (st.delegates.length - st.delegates.length / 3) % 256
  else ((governors cfg st).length - (governors cfg st).length / 3) % 256

/-! ## Checks -/

/-- One entry of a system parameter proposal (proposal.cpp 33-58). -/
def sysEntryOk (ctx : Ctx σ) (e : Nat × Nat) : Bool :=
  (find sysTable e.1).isSome
  && !(!ctx.r35 && (e.1 == 101 || e.1 == 102))
  && inRange sysRange e.1 e.2
  && !((e.1 == 29 || e.1 == 51 || e.1 == 101) && !ctx.acct e.2)

/-- `RATIO_BOOST` -/
def BOOST : Nat := 10000

/-- The four related ratios of a pair with one of them replaced (361-391). -/
def ratioWith (st : State σ) (p : Pair) (e : Nat × Nat) (k : Nat) : Option Nat :=
  if e.1 = k then some e.2 else getCdp st p k

/-- The relation test (393-404). -/
def ratiosOk (start liq force disc : Nat) : Bool :=
  !(decide (start ≤ liq) || decide (liq ≤ force) || decide (start ≤ force))
  && !decide (wmul force disc < BOOST * BOOST)

/-- One entry of a CDP parameter proposal (346-407). -/
def cdpEntryOk (st : State σ) (p : Pair) (e : Nat × Nat) : Bool :=
  (find cdpTable e.1).isSome
  && inRange cdpRange e.1 e.2
  && (if e.1 = 4 ∨ e.1 = 5 ∨ e.1 = 7 ∨ e.1 = 8 then
        match ratioWith st p e 4, ratioWith st p e 5, ratioWith st p e 7, ratioWith st p e 8 with
        | some a, some b, some c, some d => ratiosOk a b c d
        | _, _, _, _ => false
      else true)

/-- `CheckProposal`. `req`: called by the request, not by an approval. -/
def check (cfg : Cfg) (ctx : Ctx σ) (st : State σ) (req : Bool) : Kind → Bool
  | .sysParam ps => decide (0 < ps.length) && decide (ps.length ≤ 50) && ps.all (sysEntryOk ctx)
  | .bpmc r op =>
    (op == 1 || op == 2) && ctx.mature r && ctx.acct r
    && !(op == 2 && !(governors cfg st).contains r)
    && !(op == 1 && (governors cfg st).contains r)
  | .bpSize n eff => decide (n ≠ 0) && !(req && decide (eff < (ctx.height + cfg.wait) % U32))
  | .minerFee tx s v =>
    (s == "WICC" || s == "WUSD") && (cfg.txInfo tx == some true) && decide (v ≠ 0)
  | .cdpParam p ps => decide (0 < ps.length) && decide (ps.length ≤ 50) && ps.all (cdpEntryOk st p)
  | .other _ _ _ => true

/-! ## Effects -/

/-- `SetParam` for each entry (63-79). -/
def setSys (st : State σ) : List (Nat × Nat) → State σ
  | [] => st
  | (k, v) :: r => setSys { st with sys := fun q => if q = k then some v else st.sys q } r

/-- `SetCdpInterestParam` (sysparamdb.h 145-168). -/
def setInterest (st : State σ) (p : Pair) (k h v : Nat) : State σ :=
  let new : Option Params :=
    if k = 10 then (getCdp st p 11).map (fun b => ⟨v, b⟩)
    else if k = 11 then (getCdp st p 10).map (fun a => ⟨a, v⟩)
    else none
  match new with
  | none => st
  | some q =>
    { st with changes := fun p' =>
        if p' = p then put (fun a b => decide (a < b)) (st.changes p) h q else st.changes p' }

/-- `SetCdpParam` for each entry, with the interest history (413-432). -/
def setCdp (h : Nat) (p : Pair) (st : State σ) : List (Nat × Nat) → State σ
  | [] => st
  | (k, v) :: r =>
    let st1 := { st with cdp := fun p' q => if p' = p ∧ q = k then some v else st.cdp p' q }
    let st2 := if k = 10 ∨ k = 11 then setInterest st1 p k h v else st1
    setCdp h p st2 r

/-- `AddGovernor` (sysgoverndb.h 115-120); a set. -/
def addGov (l : List RegId) (r : RegId) : List RegId := if l.contains r then l else l ++ [r]

/-- `EraseGovernor` (122-127). -/
def eraseGov (l : List RegId) (r : RegId) : List RegId := l.filter (fun x => decide (x ≠ r))

/-- `ExecuteProposal`. -/
def exec (cfg : Cfg) (ctx : Ctx σ) (st : State σ) : Kind → Option (State σ)
  | .sysParam ps => some (setSys st ps)
  | .bpmc r op =>
    if op = 2 then some { st with govs := eraseGov st.govs r }
    else if op = 1 then some { st with govs := addGov st.govs r }
    else none
  | .bpSize n eff =>
    some { st with bpCur := some (totalBps cfg st ctx.height), bpNew := some (eff, n) }
  | .minerFee tx s v => some { st with fee := fun t q => if t = tx ∧ q = s then some v else st.fee t q }
  | .cdpParam p ps => some (setCdp ctx.height p st ps)
  | .other _ _ tag => (ctx.otherRun tag st.rest).map (fun r => { st with rest := r })

/-! ## Transactions -/

/-- Number of blocks a proposal lives (proposaltx.cpp 71-81). -/
def lifeOf (st : State σ) (k : Kind) : Option Nat :=
  match k with
  | .other _ true _ => some (7 * 24 * 1200)
  | _ => getParam st 23

/-- What `CheckProposal` of a request does to the rest of the state (a coin transfer proposal creates its target account). -/
def requestRest (ctx : Ctx σ) (st : State σ) : Kind → Option σ
  | .other _ _ tag => ctx.otherRequest tag st.rest
  | _ => some st.rest

/-- `CProposalRequestTx` (64-104). The sum is computed in `uint64_t` and stored in `uint32_t`. -/
def request (cfg : Cfg) (ctx : Ctx σ) (st : State σ) (id : Nat) (k : Kind) : Option (State σ) :=
  if check cfg ctx st true k then
    match requestRest ctx st k, lifeOf st k with
    | some s, some n =>
      some { st with rest := s, proposals := fun q =>
        if q = id then some ⟨k, wadd ctx.height n % U32, minCount cfg st k⟩ else st.proposals q }
    | _, _ => none
  else none

/-- `SetApproval` (sysgoverndb.h 88-100). -/
def setApproval (st : State σ) (id : Nat) (r : RegId) : Option (State σ) :=
  if (st.approvals id).contains r then none
  else some { st with approvals := fun q => if q = id then st.approvals id ++ [r] else st.approvals q }

/-- `CProposalApprovalTx` (121-187). The signatures collected for a swap-out are not modelled. -/
def approve (cfg : Cfg) (ctx : Ctx σ) (st : State σ) (id : Nat) (r : RegId) : Option (State σ) :=
  match st.proposals id with
  | none => none
  | some p =>
    if !isGovernor cfg st p.kind r then none
    else if (st.approvals id).length ≥ p.minCount then none
    else if p.expiry < ctx.height % U32 then none
    else match setApproval st id r with
      | none => none
      | some st1 =>
        if (st.approvals id).length + 1 = p.minCount then
          if check cfg ctx st1 false p.kind then
            (exec cfg ctx st1 p.kind).map (fun s => { s with log := s.log ++ [⟨id, ctx.height, p.kind⟩] })
          else none
        else some st1

/-- What can happen to the governance state. -/
inductive Ev (σ : Type)
  | request (ctx : Ctx σ) (id : Nat) (k : Kind)
  | approve (ctx : Ctx σ) (id : Nat) (r : RegId)
  /-- the delegates change -/
  | elect (l : List RegId)
  /-- any other transaction -/
  | outside (s : σ)

def step (cfg : Cfg) (st : State σ) : Ev σ → State σ
  | .request ctx id k => (request cfg ctx st id k).getD st
  | .approve ctx id r => (approve cfg ctx st id r).getD st
  | .elect l => { st with delegates := l }
  | .outside s => { st with rest := s }

def run (cfg : Cfg) (st : State σ) (evs : List (Ev σ)) : State σ := evs.foldl (step cfg) st

/-- Nothing proposed, nothing set. -/
def genesis (delegates : List RegId) (s : σ) : State σ where
  sys _ := none
  cdp _ _ := none
  fee _ _ := none
  changes _ := []
  bpCur := none
  bpNew := none
  govs := []
  delegates := delegates
  proposals _ := none
  approvals _ := []
  rest := s
  log := []

/-! ## Interest periods -/

structure Seg where
  lo : Nat
  hi : Nat
  p : Params
  deriving DecidableEq

/-- Find the change the first height belongs to (sysparamdb.h 177-186). -/
def scan (b : Nat) : List (Nat × Params) → Option Params → Option Params × List (Nat × Params)
  | [], acc => (acc, [])
  | (h, p) :: r, acc => if h > b then (acc, (h, p) :: r) else scan b r (some p)

/-- The second loop (205-218). -/
def cut (e : Nat) : Nat → Params → List (Nat × Params) → List Seg
  | b, p, [] => [⟨b, e, p⟩]
  | b, p, (h, q) :: r => if h > e then [⟨b, e, p⟩] else ⟨b, h - 1, p⟩ :: cut e h q r

/-- The defaults of A and B. -/
def defParams : Params := ⟨2, 1⟩

/-- `GetCdpInterestParamChanges` (170-224). -/
def segments (l : List (Nat × Params)) (b e : Nat) : List Seg :=
  match scan b l none with
  | (none, r) => cut e b defParams r
  | (some p, r) => cut e b p r

/-- The days `ComputeCDPInterest` charges for one segment (cdptx.cpp 127-128): the quotient is rounded up, the division
in `double` is exact enough for heights below `2^31`. -/
def days (perDay : Nat) (s : Seg) : Nat := max 1 ((s.hi - s.lo + perDay - 1) / perDay)

/-! ## The order of coin pairs -/

/-- `operator<` of `CCdpCoinPair` (config/scoin.h 180-182). -/
def pairLt (a b : Pair) : Bool := decide (a.1 < b.1) || decide (a.2 < b.2)

/-- `std::pair<CCdpCoinPair, uint8_t>::operator<`, the order of the keys of `cdp_param_cache`. -/
def keyLt (a b : Pair × Nat) : Bool := pairLt a.1 b.1 || (!pairLt b.1 a.1 && decide (a.2 < b.2))

/-- A search tree, as `std::map` keeps it. Up to two nodes no rebalancing takes place. -/
inductive Tree (K V : Type)
  | leaf
  | node (l : Tree K V) (k : K) (v : V) (r : Tree K V)

variable {K V : Type}

/-- `lower_bound`: the last node passed on the way that is not less than the key. -/
def Tree.lower (lt : K → K → Bool) : Tree K V → K → Option (K × V) → Option (K × V)
  | .leaf, _, best => best
  | .node l k v r, q, best => if lt k q then r.lower lt q best else l.lower lt q (some (k, v))

/-- `find`. -/
def Tree.find (lt : K → K → Bool) (t : Tree K V) (q : K) : Option V :=
  match t.lower lt q none with
  | some (k, v) => if lt q k then none else some v
  | none => none

/-- `emplace` (libstdc++ `_M_get_insert_unique_pos`): walk down comparing the new key with each node; the key counts as
already there unless the last node passed on the left (`pred`) is less than it. `none`: not inserted. -/
def Tree.emplace (lt : K → K → Bool) (q : K) (v : V) : Tree K V → Option K → Option (Tree K V)
  | .leaf, none => some (.node .leaf q v .leaf)
  | .leaf, some j => if lt j q then some (.node .leaf q v .leaf) else none
  | .node l k w r, pred =>
    if lt q k then (l.emplace lt q v pred).map (fun l' => .node l' k w r)
    else (r.emplace lt q v (some k)).map (fun r' => .node l k w r')

/-- Assign through the iterator `find` returned. -/
def Tree.assign (lt : K → K → Bool) (q : K) (v : V) : Tree K V → Tree K V
  | .leaf => .leaf
  | .node l k w r =>
    if lt k q then .node l k w (r.assign lt q v)
    else if lt q k then .node (l.assign lt q v) k w r
    else .node l k v r

/-- `SetData` of a cache with nothing below it (persistence/dbaccess.h 407-421, 545-551): overwrite what `find` finds, else
`emplace`, which throws when the key counts as present. `none`: the exception. -/
def Tree.setData (lt : K → K → Bool) (t : Tree K V) (q : K) (v : V) : Option (Tree K V) :=
  match t.find lt q with
  | some _ => some (t.assign lt q v)
  | none => t.emplace lt q v none

end Verif.Gov
