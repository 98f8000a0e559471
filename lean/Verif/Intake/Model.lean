import Mathlib.Data.List.Basic

/-!
# Intake of blocks: index, choice of the chain, side branches and orphans

Models `ProcessBlock` (src/main.cpp 2106-2208), `AcceptBlock` (1882-1985), `ProcessForkedChain` (1700-1817), `AddToBlockIndex`
(1590-1647), `ActivateBestChain` and `ConnectBlockOnFinChain` (1481-1588), `FindMostWorkChain` (1430-1479), `ConnectTip` and
`DisconnectTip` (1344-1425), `InvalidBlockFound` (519-542), `PruneOrphanBlocks` (373-399), `COrphanBlockComparator` (86-97) and
`CBlockIndexWorkComparator` (src/persistence/block.h 308-326).

* A block hash is a number, 0 is the null hash. `body` stands for all that the hash does not determine for the node: the
  transactions and, above all, the block signature, which is not hashed (`CBlockHeader::ComputeSignatureHash`,
  src/persistence/block.cpp 21-25).
* A block index entry keeps the block as stored on disk and its chain of predecessors; `pprev` never changes once set. A
  chain is a list of blocks, newest first. An entry is identified by its hash, the key of `mapBlockIndex`.
* A chain state is named by the chain that led to it: connecting pushes a block, disconnecting takes it off (that undoing is
  exact is the subject of other areas). The verdicts of `CheckBlock`, `VerifyRewardTx`, the rest of `ConnectBlock` and the
  fuel rate rule are arbitrary functions of the block and the chain below it; the clock test of `CheckBlock` is taken to
  stay passed once passed.
* `nStatus` is reduced to the failure flag (`BLOCK_FAILED_VALID` or `BLOCK_FAILED_CHILD`). `ConnectBlock` reports a failed
  `CheckBlock` with `corruptionPossible` false again (main.cpp 996-997), so `InvalidBlockFound` always sets the flag.
* Errors of the disk and the database and restarts are not modelled; for `invalidateblock` and `reconsiderblock` see `Intake/Operator`.
* `none` means that the node stops: a failed assertion, a null dereference, an endless loop, or the shutdown that `AcceptBlock`
  orders after an exception (1948-1951).
-/
namespace Verif.Intake

/-- A block as delivered. `byReg`: its first transaction names the producer by registration id. -/
structure Blk where
  hash : Nat
  prev : Nat
  height : Nat
  time : Nat
  byReg : Bool
  body : Nat
deriving DecidableEq, Repr

/-- The rules that judge blocks, and the parameters of the node. -/
structure Env where
  genesis : Blk
  check : Blk → Bool
  interval : Nat → Nat
  fuelOk : List Blk → Blk → Bool
  reward : List Blk → Blk → Bool
  exec : List Blk → Blk → Bool
  maxFork : Nat → Nat

/-- `MAX_ORPHAN_BLOCKS` (src/config/const.h 161). -/
def maxOrphans : Nat := 750

/-- `ConnectBlock` (main.cpp 989-1272): `CheckBlock`, `VerifyRewardTx`, then the transactions. -/
def connect (e : Env) (chain : List Blk) (b : Blk) : Bool := e.check b && e.reward chain b && e.exec chain b

/-- `CBlockIndex`, with its membership in `setBlockIndexValid` (`cand`). -/
structure Node where
  blk : Blk
  anc : List Blk
  failed : Bool
  cand : Bool
deriving DecidableEq, Repr

/-- The chain ending in an entry. -/
def Node.path (n : Node) : List Blk := n.blk :: n.anc

/-- `idx`: `mapBlockIndex`, newest entry first. `forks`: `mapForkCache`, a hash and the chain whose state is kept.
`orphans`, `byPrev`, `oset`: `mapOrphanBlocks`, `mapOrphanBlocksByPrev`, `setOrphanBlock` (greatest first). -/
structure St where
  idx : List Node
  active : List Blk
  most : List Blk
  forks : List (Nat × List Blk)
  orphans : List Blk
  byPrev : List Blk
  oset : List Blk
deriving DecidableEq, Repr

/-- What happens during one event apart from the block itself: whether accepting a block writes the state to disk
(`WriteChainState` clears `mapForkCache`, 1295-1304) and which blocks may not be disconnected at that time
(`pbftMan.GetLocalFinIndex` unless timed out, `GetGlobalFinBlockHash`). -/
structure Inputs where
  flush : Nat → Bool
  prot : Nat → List Nat

/-! ## The index -/

/-- `mapBlockIndex.find`. -/
def find (idx : List Node) (h : Nat) : Option Node := idx.find? (fun n => n.blk.hash == h)

/-- `mapBlockIndex.count`. -/
def has (idx : List Node) (h : Nat) : Bool := (find idx h).isSome

/-- Change the entry with hash `h`. -/
def upd (idx : List Node) (h : Nat) (f : Node → Node) : List Node := idx.map fun n => if n.blk.hash = h then f n else n

/-- `nStatus & BLOCK_FAILED_MASK`. -/
def isFailed (idx : List Node) (h : Nat) : Bool := idx.any fun n => n.blk.hash == h && n.failed

/-- `setBlockIndexValid.erase`. -/
def uncand (idx : List Node) (h : Nat) : List Node := upd idx h fun n => { n with cand := false }

/-- Set the failure flag and erase from `setBlockIndexValid`. -/
def mark (idx : List Node) (h : Nat) : List Node := upd idx h fun n => { n with failed := true, cand := false }

/-- Clear the failure flag (main.cpp 1794-1797; the condition there is always true). -/
def revive (idx : List Node) (h : Nat) : List Node := upd idx h fun n => { n with failed := false }

/-- `CChain::Contains`. -/
def inChain (c : List Blk) (h : Nat) : Bool := c.any fun b => b.hash == h

/-- `nSequenceId`: entries are numbered in the order of arrival. -/
def seqOf : List Node → Nat → Nat
  | [], _ => 0
  | n :: r, h => if n.blk.hash = h then r.length else seqOf r h

/-- `CBlockIndexWorkComparator` for entries with `ha` and `hb` predecessors. -/
def less (idx : List Node) (ha a hb b : Nat) : Bool := ha < hb || (ha == hb && seqOf idx b < seqOf idx a)

/-- `*setBlockIndexValid.rbegin()`. -/
def best : List Node → Option Node
  | [] => none
  | n :: r =>
    match best r with
    | none => if n.cand then some n else none
    | some m => if n.cand && m.anc.length < n.anc.length then some n else some m

/-! ## Choice of the chain -/

/-- First loop of `FindMostWorkChain` (1433-1437). -/
def popMost (idx : List Node) : List Blk → List Node × List Blk
  | [] => (idx, [])
  | b :: r => if isFailed idx b.hash then popMost (uncand idx b.hash) r else (idx, b :: r)

/-- Mark a list of blocks. -/
def markAll (idx : List Node) (bs : List Blk) : List Node := bs.foldl (fun i b => mark i b.hash) idx

/-- Second loop of `FindMostWorkChain` (1439-1470). -/
def pick (active : List Blk) : Nat → List Node → Option (List Node × Option Node)
  | 0, _ => none
  | fuel + 1, idx =>
    match best idx with
    | none => some (idx, none)
    | some n =>
      let off := n.path.takeWhile fun b => !inChain active b.hash
      if off.any fun b => isFailed idx b.hash then
        pick active fuel (markAll idx (off.takeWhile fun b => !isFailed idx b.hash))
      else some (idx, some n)

/-- `FindMostWorkChain`. -/
def findMost (st : St) : Option St :=
  let (idx, most) := popMost st.idx st.most
  match pick st.active (idx.length + 1) idx with
  | none => none
  | some (idx, none) => some { st with idx := idx, most := most }
  | some (idx, some n) =>
    match most with
    | [] => some { st with idx := idx, most := n.path }
    | t :: r =>
      if less idx r.length t.hash n.anc.length n.blk.hash then some { st with idx := idx, most := n.path }
      else some { st with idx := idx, most := t :: r }

/-- `chain[h]` together with its predecessors. -/
def upTo (c : List Blk) (h : Nat) : List Blk := if h < c.length then c.drop (c.length - (h + 1)) else []

/-- The hash of the tip. -/
def tipHash (c : List Blk) : Option Nat := c.head?.map (·.hash)

/-- The connecting loop of `ActivateBestChain` (1549-1569); `false`: a block was refused. -/
def connectAll (e : Env) : Nat → St → Option (St × Bool)
  | 0, _ => none
  | fuel + 1, st =>
    match st.most with
    | [] => none
    | t :: _ =>
      if inChain st.active t.hash then some (st, true)
      else
        match upTo st.most st.active.length with
        | [] => none
        | b :: anc =>
          if tipHash anc ≠ tipHash st.active then none
          else if connect e st.active b then connectAll e fuel { st with active := b :: st.active }
          else some ({ st with idx := mark st.idx b.hash }, false)

/-- `ConnectBlockOnFinChain`; without a block when called by a command of the operator. -/
def onFinal (e : Env) (b : Option Blk) (st : St) : St :=
  match b with
  | none => st
  | some b =>
    if tipHash st.active = some b.prev then
      if connect e st.active b then { st with active := b :: st.active } else { st with idx := mark st.idx b.hash }
    else st

/-- `ActivateBestChain`. -/
def activate (e : Env) (prot : List Nat) (b : Option Blk) : Nat → St → Option St
  | 0, _ => none
  | fuel + 1, st =>
    match findMost st with
    | none => none
    | some st =>
      if st.most = [] then some st
      else if (st.active.takeWhile fun x => !inChain st.most x.hash).any fun x => prot.contains x.hash then some (onFinal e b st)
      else
        match connectAll e (st.most.length + 1) { st with active := st.active.dropWhile fun x => !inChain st.most x.hash } with
        | none => none
        | some (st, true) => some st
        | some (st, false) => activate e prot b fuel st

/-! ## Side branches -/

/-- `mapForkCache.find`. -/
def cached (forks : List (Nat × List Blk)) (h : Nat) : Option (List Blk) := (forks.find? fun p => p.1 == h).map (·.2)

/-- `mapForkCache.erase`. -/
def uncache (forks : List (Nat × List Blk)) (h : Nat) : List (Nat × List Blk) := forks.filter fun p => p.1 != h

/-- `mapForkCache[h] = c`. -/
def cache (forks : List (Nat × List Blk)) (h : Nat) (c : List Blk) : List (Nat × List Blk) := (h, c) :: uncache forks h

/-- Result of the walk down to the active chain. -/
inductive Walk
  | stop
  | refused
  | found (p : List Blk) (tip : Option Nat) (pre : List Blk)

/-- First loop of `ProcessForkedChain` (1707-1733): `tip` and `pre` are `forkChainTipBlockHash` and `vPreBlocks`. -/
def walk (st : St) (limit : Nat) : Option Nat → List Blk → List Blk → Walk
  | _, _, [] => .stop
  | tip, pre, b :: r =>
    if inChain st.active b.hash then .found (b :: r) tip pre
    else
      let tip' := if tip = none && (cached st.forks b.hash).isSome then some b.hash else tip
      let pre' := if tip' = none then pre ++ [b] else pre
      match r with
      | [] => .stop
      | q :: _ =>
        if limit < st.active.length - r.length then .refused
        else if !has st.idx q.hash then .refused
        else walk st limit tip' pre' r

/-- Connecting the blocks of the branch, oldest first (1783-1798). -/
def connectPre (e : Env) : List Node → List Blk → List Blk → Option (List Node × Option (List Blk))
  | idx, chain, [] => some (idx, some chain)
  | idx, chain, b :: bs =>
    if tipHash chain ≠ some b.prev then none
    else if connect e chain b then connectPre e (revive idx b.hash) (b :: chain) bs
    else some (idx, none)

/-- The state to start from (1742-1776): a kept one or the active chain rolled back to the fork point `hp`. -/
def forkState (st : St) (key hp : Nat) : List Blk × List (Nat × List Blk) :=
  match cached st.forks key with
  | some c => (c, st.forks)
  | none => (st.active.dropWhile fun x => x.hash != hp, cache st.forks hp (st.active.dropWhile fun x => x.hash != hp))

/-- `ProcessForkedChain` for a block `b` on top of the chain `p0`. -/
def forked (e : Env) (st : St) (b : Blk) (p0 : List Blk) : Option (St × Bool) :=
  match walk st (e.maxFork b.height) none [] p0 with
  | .stop => none
  | .refused => some (st, false)
  | .found p tip pre =>
    if e.maxFork b.height < st.active.length - p.length then some (st, false)
    else
      match tipHash p with
      | none => none
      | some hp =>
        let (chain, forks) := forkState st (tip.getD hp) hp
        match tipHash chain with
        | none => none
        | some t =>
          if !has st.idx t then none
          else
            match pre with
            | [] => some ({ st with forks := forks }, e.reward chain b)
            | top :: _ =>
              match connectPre e st.idx chain pre.reverse with
              | none => none
              | some (idx, none) => some ({ st with idx := idx, forks := forks }, false)
              | some (idx, some chain') =>
                some ({ st with idx := idx, forks := cache (uncache forks (tip.getD hp)) top.hash chain' }, e.reward chain' b)

/-! ## Accepting a block -/

/-- `AddToBlockIndex` with the block on top of the chain `anc`. -/
def addIndex (e : Env) (inp : Inputs) (st : St) (b : Blk) (anc : List Blk) : Option St :=
  if b.height ≠ 0 ∧ b.byReg = false then none
  else
    let idx := { blk := b, anc := anc, failed := false, cand := true } :: st.idx
    match activate e (inp.prot b.hash) (some b) (idx.length + 1) { st with idx := idx } with
    | none => none
    | some st => some (if inp.flush b.hash then { st with forks := [] } else st)

/-- `AcceptBlock`; the second component is its result. -/
def accept (e : Env) (inp : Inputs) (st : St) (b : Blk) : Option (St × Bool) :=
  if has st.idx b.hash then some (st, false)
  else if b.height ≠ 0 ∧ has st.idx b.prev = false then none
  else
    match find st.idx b.prev with
    | none => if b.hash = e.genesis.hash then (addIndex e inp st b []).map fun s => (s, true) else some (st, false)
    | some p =>
      if b.height ≠ 0 ∧ e.fuelOk p.path b = false then some (st, false)
      else if b.height ≠ p.anc.length + 1 then some (st, false)
      else if b.time ≤ p.blk.time ∨ b.time - p.blk.time < e.interval b.height then some (st, false)
      else if tipHash st.active = some p.blk.hash then (addIndex e inp st b p.path).map fun s => (s, true)
      else
        match forked e st b p.path with
        | none => none
        | some (s, false) => some (s, false)
        | some (s, true) => (addIndex e inp s b p.path).map fun s => (s, true)

/-! ## Orphans -/

/-- `COrphanBlock::height`, an `int32_t` assigned from a `uint32_t`. -/
def i32 (h : Nat) : Int := if h < 2 ^ 31 then h else (h : Int) - 2 ^ 32

/-- `setOrphanBlock.insert`: nothing happens if an orphan of the same height is there. -/
def oins (b : Blk) : List Blk → List Blk
  | [] => [b]
  | x :: r => if i32 x.height < i32 b.height then b :: x :: r else if i32 x.height = i32 b.height then x :: r else x :: oins b r

/-- `setOrphanBlock.erase`: the comparator knows heights only. -/
def oerase (b : Blk) (s : List Blk) : List Blk := s.filter fun x => i32 x.height != i32 b.height

/-- `PruneOrphanBlocks`. -/
def prune (st : St) (height : Nat) : Option (St × Bool) :=
  if st.byPrev.length ≤ maxOrphans then some (st, true)
  else
    match st.oset with
    | [] => none
    | t :: _ =>
      if i32 t.height ≤ i32 height then some (st, false)
      else
        some ({ st with
          oset := oerase t st.oset
          byPrev := st.byPrev.eraseP fun x => x.prev == t.prev && x.hash == t.hash
          orphans := st.orphans.filter fun x => x.hash != t.hash }, true)

/-- Keep an orphan (2139-2151). -/
def keep (st : St) (b : Blk) : Option St :=
  match prune st b.height with
  | none => none
  | some (st, false) => some st
  | some (st, true) => some { st with orphans := st.orphans ++ [b], byPrev := st.byPrev ++ [b], oset := oins b st.oset }

/-- The orphans waiting for one block (2180-2199); the hashes of those accepted. -/
def kids (e : Env) (inp : Inputs) : St → List Blk → Option (St × List Nat)
  | st, [] => some (st, [])
  | st, k :: ks =>
    match accept e inp st k with
    | none => none
    | some (s, ok) =>
      match kids e inp { s with oset := oerase k s.oset, orphans := s.orphans.filter fun x => x.hash != k.hash } ks with
      | none => none
      | some (s', hs) => some (s', if ok then k.hash :: hs else hs)

/-- The work queue (2176-2201). -/
def resolve (e : Env) (inp : Inputs) : Nat → St → List Nat → Option St
  | _, st, [] => some st
  | 0, _, _ :: _ => none
  | fuel + 1, st, h :: q =>
    match kids e inp st (st.byPrev.filter fun x => x.prev == h) with
    | none => none
    | some (s, hs) => resolve e inp fuel { s with byPrev := s.byPrev.filter fun x => x.prev != h } (q ++ hs)

/-- `ProcessBlock`; `peer`: the block comes from a peer. -/
def process (e : Env) (inp : Inputs) (peer : Bool) (st : St) (b : Blk) : Option (St × Bool) :=
  if has st.idx b.hash then some (st, false)
  else if inChain st.orphans b.hash then some (st, false)
  else if e.check b = false then some (st, false)
  else if b.prev ≠ 0 ∧ has st.idx b.prev = false then
    if peer then (keep st b).map fun s => (s, true) else some (st, true)
  else
    match accept e inp st b with
    | none => none
    | some (s, false) => some (s, false)
    | some (s, true) => (resolve e inp (s.byPrev.length + 1) s [b.hash]).map fun s => (s, true)

/-- The node after start with the genesis block. -/
def init (e : Env) : St :=
  { idx := [{ blk := e.genesis, anc := [], failed := false, cand := true }], active := [e.genesis], most := [e.genesis],
    forks := [], orphans := [], byPrev := [], oset := [] }

/-- One delivered block. -/
structure Event where
  inp : Inputs
  peer : Bool
  blk : Blk

/-- A history of delivered blocks. -/
def run (e : Env) : List Event → St → Option St
  | [], st => some st
  | v :: vs, st =>
    match process e v.inp v.peer st v.blk with
    | none => none
    | some (s, _) => run e vs s

end Verif.Intake
