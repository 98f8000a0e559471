import Verif.Intake.Process

/-!
# The commands `invalidateblock` and `reconsiderblock`

Models `InvalidateBlock`, `ReconsiderBlock` and their helpers (src/main.cpp 544-619) and the two commands (src/rpc/rpcblockchain.cpp
339-415), which look the block up, change the index and then call `ActivateBestChain` without a new block.
-/
namespace Verif.Intake

/-- The loop of `InvalidateBlock` (562-571): while the block is in the active chain, mark and disconnect the tip. The genesis block
has no undo data, so disconnecting it fails (main.cpp 635-637) and the loop ends. -/
def disconnectFrom (h : Nat) : List Node → List Blk → List Node × List Blk
  | idx, [] => (idx, [])
  | idx, b :: r =>
    if inChain (b :: r) h then
      if r = [] then (mark idx b.hash, [b]) else disconnectFrom h (mark idx b.hash) r
    else (idx, b :: r)

/-- `InvalidateBlock` for the entry with hash `h`; `flush`: a disconnection writes the state to disk, which clears the kept states. -/
def invalidate (st : St) (h : Nat) (flush : Bool) : St :=
  { st with
    idx := (disconnectFrom h (mark st.idx h) st.active).1
    active := (disconnectFrom h (mark st.idx h) st.active).2
    forks := if flush then [] else st.forks }

/-- `invalidateblock`; a hash that is not known is refused. -/
def invalidateCmd (e : Env) (prot : List Nat) (st : St) (h : Nat) (flush : Bool) : Option St :=
  if has st.idx h then activate e prot none (st.idx.length + 1) (invalidate st h flush) else some st

/-- Whether `ReconsiderBlock` clears the flag of an entry: descendants (600-609) and ancestors (612-619), `p` the chain of the block. -/
def cleared (p : List Blk) (h : Nat) (children : Bool) (n : Node) : Bool :=
  n.failed && ((children && inChain n.path h) || inChain p n.blk.hash)

/-- `ReconsiderBlock` for the entry with chain `p` and hash `h`. -/
def reconsider (st : St) (p : List Blk) (h : Nat) (children : Bool) : St :=
  { st with idx := st.idx.map fun n => if cleared p h children n then { n with failed := false, cand := true } else n }

/-- `reconsiderblock`. -/
def reconsiderCmd (e : Env) (prot : List Nat) (st : St) (h : Nat) (children : Bool) : Option St :=
  match find st.idx h with
  | none => some st
  | some n => activate e prot none (st.idx.length + 1) (reconsider st n.path h children)

end Verif.Intake
