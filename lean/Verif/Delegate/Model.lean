import Verif.Util.U64

/-!
# Block producers: shuffling, slots and the hand-over of delegates

Models `GetShuffleOriginSeed` (src/miner/miner.cpp 155-162), `ShuffleDelegates` (164-185), `GetCurrentDelegate` (113-122),
`GenPendingDelegates` (src/chain/blockdelegates.cpp 22-56) and the delegate part of `ProcessBlockDelegates` (69-143; the
inflated reward counter at 75-88 touches nothing here).

* A delegate is any value (`α`); the hash function is an arbitrary function from the seed number and the round of the loop
  to the four 64-bit words of the hash (`words`).
* An index outside the vector and a division by zero are the outcome `none`, a crash.
* Heights and times are natural numbers; a block time is a `uint32_t`, a height is below `2^31`.
* Everything votes do to the delegate hand-over enters through `In`: the list `GetTopVoteDelegates` returns (the empty
  list stands for failure, delegatedb.cpp 49-50), the height of the last vote and the wanted number of delegates.
* `GetParam` always finds a value or the built-in default, so it does not fail.
-/
namespace Verif.Delegate

variable {α : Type}

/-! ## Shuffling -/

/-- The number the shuffle is derived from (155-162). -/
def originSeed (v3 height time interval count : Nat) : Nat :=
  if height < v3 then height else time / interval / count

/-- The number printed into the hash (169): `ori / n`, rounded up. -/
def seedNumber (ori n : Nat) : Nat := ori / n + if ori % n > 0 then 1 else 0

/-- Exchange of two elements through a copy (178-180). -/
def exchange (l : List α) (j i : Nat) : Option (List α) :=
  match l[j]?, l[i]? with
  | some d, some e => some ((l.set j e).set i d)
  | _, _ => none

/-- The inner loop (175-181): `x` words used so far, `fuel = 4 - x`. -/
def inner (w : Nat → Nat) (n : Nat) : Nat → Nat → Nat → List α → Option (List α × Nat)
  | 0, _, i, l => some (l, i)
  | fuel + 1, x, i, l =>
    if i < n then
      match exchange l (w x % n) i with
      | none => none
      | some l' => inner w n fuel (x + 1) (i + 1) l'
    else some (l, i)

/-- The outer loop (174-184). -/
def outer (w : Nat → Nat → Nat) (n : Nat) : Nat → Nat → Nat → List α → Option (List α)
  | 0, _, _, l => some l
  | fuel + 1, k, i, l =>
    if i < n then
      match inner (w k) n 4 0 i l with
      | none => none
      | some (l', i') => outer w n fuel (k + 1) (i' + 1) l'
    else some l

/-- `ShuffleDelegates`. -/
def shuffle (words : Nat → Nat → Nat → Nat) (ori : Nat) (l : List α) : Option (List α) :=
  if l.length = 0 then none else outer (words (seedNumber ori l.length)) l.length l.length 0 0 l

/-! ## Slots -/

/-- Slot number of a time (116). -/
def slotOf (time interval count : Nat) : Nat := time / interval / count % 4294967296

/-- `GetCurrentDelegate` (117-118) for a slot. -/
def currentDelegate (slot : Nat) (l : List α) : Option α := if l.length = 0 then none else l[slot % l.length]?

/-- The producer required at a height and time (196-198). -/
def producer (words : Nat → Nat → Nat → Nat) (v3 height time interval count : Nat) (active : List α) : Option α :=
  match shuffle words (originSeed v3 height time interval count) active with
  | none => none
  | some l => currentDelegate (slotOf time interval count) l

/-! ## Hand-over -/

inductive PState | none | pending | activated
  deriving DecidableEq

structure Pending (α : Type) where
  state : PState
  counted : Nat
  top : List α

structure St (α : Type) where
  pending : Pending α
  active : Option (List α)

/-- What the votes give at a height. -/
structure In (α : Type) where
  top : List α
  lastVote : Nat
  num : Nat

variable [DecidableEq α]

/-- `GenPendingDelegates`. -/
def genPending (height : Nat) (i : In α) (active : List α) (p : Pending α) : Pending α :=
  if i.top = [] then { p with counted := height }
  else if active ≠ [] ∧ i.top = active then { p with counted := height, top := i.top }
  else ⟨.pending, height, i.top⟩

/-- 32-bit difference of heights. -/
def hdiff (a b : Nat) : Nat := (a + 4294967296 - b) % 4294967296

/-- `ProcessBlockDelegates`; `none` is the assertion of `GetActiveDelegates`. -/
def process (v3 height : Nat) (i : In α) (s : St α) : Option (St α) :=
  let interval := if v3 ≤ height then 100 else 0
  let delay := if v3 ≤ height then 100 else 0
  let counted : Option (Pending α) :=
    if s.pending.state ≠ .pending ∧ (interval = 0 ∨ height % interval = 0) then
      if s.active = some [] then none
      else
        let active := s.active.getD []
        if s.pending.counted = 0 ∨ s.pending.counted < i.lastVote ∨ active.length ≠ i.num then
          some (genPending height i active s.pending)
        else some s.pending
    else some s.pending
  match counted with
  | none => none
  | some p =>
    if p.state ≠ .activated ∧ delay ≤ hdiff height p.counted then
      some ⟨{ p with state := .activated }, some p.top⟩
    else some ⟨p, s.active⟩

/-- State after the block of each height, starting from an empty database. -/
def stateAt (v3 : Nat) (ins : Nat → In α) : Nat → Option (St α)
  | 0 => process v3 0 (ins 0) ⟨⟨.none, 0, []⟩, none⟩
  | h + 1 => match stateAt v3 ins h with
    | none => none
    | some s => process v3 (h + 1) (ins (h + 1)) s

end Verif.Delegate
