import Verif.Intake.Model

/-!
# Intake of blocks: specification

What a chain has to satisfy, independent of how the node chooses it.
-/
namespace Verif.Intake

/-- Every block passes the context-free checks, the check of its producer and execution on top of the chain below it. -/
def Sound (e : Env) : List Blk → Prop
  | [] => False
  | [g] => g = e.genesis
  | b :: p :: r => (e.check b = true ∧ e.reward (p :: r) b = true ∧ e.exec (p :: r) b = true) ∧ Sound e (p :: r)

/-- A chain from genesis: every block names its predecessor, states its true height, keeps the block interval and the fuel
rate rule, passes the context-free checks and names its producer by registration id. -/
def Linked (e : Env) : List Blk → Prop
  | [] => False
  | [g] => g = e.genesis
  | b :: p :: r =>
    (b.prev = p.hash ∧ b.height = r.length + 1 ∧ p.time < b.time ∧ p.time + e.interval b.height ≤ b.time ∧
      e.fuelOk (p :: r) b = true ∧ b.byReg = true) ∧ Linked e (p :: r)

/-- The chain `p` is known: it ends in an entry of the index. -/
def Known (st : St) (p : List Blk) : Prop := ∃ n ∈ st.idx, n.path = p

/-- Chain `q` is preferred to `p`: it is longer, or as long with a tip that arrived earlier. -/
def Prefer (st : St) (q p : List Blk) : Prop :=
  p.length < q.length ∨ (p.length = q.length ∧ ∃ x y, tipHash p = some x ∧ tipHash q = some y ∧ seqOf st.idx y < seqOf st.idx x)

end Verif.Intake
