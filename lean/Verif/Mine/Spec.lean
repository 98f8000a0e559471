import Verif.Mine.Model

/-!
# What the pool and the producer of blocks are required to do

Stated with the transactions alone; none of the loops of the model is used.
-/
namespace Verif.Mine.Spec
open Verif.Mine

/-! ## Order of packing -/

/-- The three groups: ordinary transactions, the price median, price feeds. -/
def group (prio : Nat) : Nat := if prio ≤ 1000 then 0 else if prio ≤ 10000 then 1 else 2

/-- `a` comes after `b` in a block: lower group, or lower fee rate, or lower id. -/
def after {V : Type} (a b : Item V) : Prop :=
  group a.prio < group b.prio ∨
    (group a.prio = group b.prio ∧ (a.fee < b.fee ∨ (a.fee = b.fee ∧ a.id < b.id)))

/-- Priorities that occur. -/
def legal (prio : Nat) : Prop := prio ≤ 1000 ∨ prio = 10000 ∨ prio = 20000

/-! ## The pool -/

/-- Execute transactions one after another, each at its own index. -/
inductive Follows {V : Type} (c : Nat → Ctx) : V → List (Nat × Tx V) → V → Prop
  | nil (v : V) : Follows c v [] v
  | cons (v w u : V) (i fuel : Nat) (t : Tx V) (r : List (Nat × Tx V)) :
      t.exec (c i) v = some (w, fuel) → Follows c w r u → Follows c v ((i, t) :: r) u

/-- Heights at which an ordinary transaction may be in a block. -/
def inRange {V : Type} (t : Tx V) (height : Int) : Prop := height - 250 ≤ t.validHeight ∧ t.validHeight ≤ height + 250

/-- The pool holds only distinct, relayable, unconfirmed transactions valid at the next height. -/
def Clean {V : Type} (n : Node V) : Prop :=
  n.pool.Pairwise (fun a b => a.id < b.id) ∧
    ∀ t ∈ n.pool, (t.kind = .feed ∨ t.kind = .other) ∧ n.conf t.id = false ∧ inRange t (n.tip + 1)

/-- All of the pool can be executed one after another on the tip, and the pool's state is the result. -/
def Runs {V : Type} (e : Env) (n : Node V) : Prop :=
  ∃ s : List (Nat × Tx V),
    (s.map (·.2)).Perm n.pool ∧
      Follows (fun i => { height := n.tip + 1, index := i, rate := e.rate, time := e.time, prev := e.prev, bp := e.bp }) n.base s n.view

/-- Nodes that can arise: the pool starts empty; transactions are offered, blocks are connected, branches are switched. The context of
execution is that of the tip and only changes with it. -/
inductive Reach {V : Type} : Env → Node V → Prop
  | start (e : Env) (tip : Nat) (base : V) (conf : Nat → Bool) : Reach e ⟨tip, base, conf, [], base⟩
  | accept (e : Env) (n m : Node V) (t : Tx V) : Reach e n → Mine.accept e n t = some m → Reach e m
  | newTip (e e' : Env) (n : Node V) (base : V) (conf : Nat → Bool) (ids : List Nat) :
      Reach e n → Reach e' (Mine.newTip e' n base conf ids)
  | reorg (e e' : Env) (n : Node V) (tip : Nat) (base stale : V) (conf : Nat → Bool) (txs : List (Tx V)) :
      Reach e n → Reach e' (Mine.reorg e' n tip base stale conf txs)

/-! ## Blocks -/

/-- The candidates in the order in which the producer goes through them. -/
def Order {V : Type} (feeRate : Tx V → Nat) (n : Node V) (medianId : Nat) (settle : Option (Tx V)) (order : List (Cand V)) : Prop :=
  ∃ t : Tree V, Built (items feeRate n medianId settle) t ∧ order = t.flat.reverse.map (·.cand)

/-- What is known about the two transactions the producer adds itself. -/
structure Own {V : Type} (cfg : Cfg V) (n : Node V) (settle : Option (Tx V)) (rewardId : Nat) : Prop where
  median : ∀ c v, (cfg.median c v).kind = .median ∧ n.conf (cfg.median c v).id = false ∧ (cfg.median c v).id ≠ rewardId ∧
    ∀ t ∈ n.pool, t.id ≠ (cfg.median c v).id
  settle : ∀ t, settle = some t → t.kind = .settle ∧ n.conf t.id = false ∧ t.id ≠ rewardId ∧ t.validHeight = n.tip + 1 ∧
    (∀ x ∈ n.pool, x.id ≠ t.id) ∧ ∀ c v, (cfg.median c v).id ≠ t.id
  reward : ∀ t ∈ n.pool, t.id ≠ rewardId

end Verif.Mine.Spec
