import Mathlib.Data.List.Basic

/-!
# Block tree and chain views

Models `CBlockIndex::GetAncestor`, `BuildSkip`, `GetSkipHeight` (src/main.cpp 2015-2057), the places that build skip links
(`AddToBlockIndex` 1590-1618, `LoadBlockIndexDB` 2231-2248), `CChain` (src/chain/chain.cpp 11-104) and `CChainActive::SetTip`
(107-116) with its callers (`UpdateTip` main.cpp 1309-1310, `DisconnectTip` 1344-1377, `ConnectTip` 1392-1425,
`LoadBlockIndexDB` 2270-2280).

* A `CBlockIndex*` is a number, the null pointer is `none`. Block hashes identify blocks, so a locator is a list of blocks.
* Following a null pointer is the outcome `none` of a function returning `Option`.
* Heights are natural numbers (they stay below 2^31).
-/
namespace Verif.Chain

abbrev Ptr := Nat

/-- The fields of all `CBlockIndex` objects: `pprev`, `height`, `pskip`. -/
structure Tree where
  prev : Ptr → Option Ptr
  height : Ptr → Nat
  skip : Ptr → Option Ptr

/-- `InvertLowestOne`. -/
def invLow (n : Nat) : Nat := n &&& (n - 1)

/-- `GetSkipHeight`. -/
def skipHeight (h : Nat) : Nat :=
  if h < 2 then 0 else if h % 2 = 1 then invLow (invLow (h - 1)) + 1 else invLow h

/-- The loop of `GetAncestor` (2034-2045). -/
def walk (t : Tree) (target : Nat) : Nat → Ptr → Nat → Option Ptr
  | 0, _, _ => none
  | fuel + 1, p, h =>
    if h > target then
      let hs := skipHeight h
      let hp := skipHeight (h - 1)
      if hs = target ∨ (hs > target ∧ ¬ (hp + 2 < hs ∧ hp ≥ target)) then
        match t.skip p with
        | none => none
        | some q => walk t target fuel q hs
      else
        match t.prev p with
        | none => none
        | some q => walk t target fuel q (h - 1)
    else some p

/-- `GetAncestor`: `some none` is the null pointer, `none` a null dereference. -/
def getAncestor (t : Tree) (p : Ptr) (target : Nat) : Option (Option Ptr) :=
  if target > t.height p then some none
  else (walk t target (t.height p + 1) p (t.height p)).map some

/-- `BuildSkip`. -/
def buildSkip (t : Tree) (p : Ptr) : Option Tree :=
  match t.prev p with
  | none => some t
  | some q =>
    match getAncestor t q (skipHeight (t.height p)) with
    | none => none
    | some r => some { t with skip := fun x => if x = p then r else t.skip x }

/-- `AddToBlockIndex`: a new object `p` on top of the known block `q`. -/
def addIndex (t : Tree) (p q : Ptr) : Option Tree :=
  buildSkip { prev := fun x => if x = p then some q else t.prev x,
              height := fun x => if x = p then t.height q + 1 else t.height x,
              skip := fun x => if x = p then none else t.skip x } p

/-- `LoadBlockIndexDB`: skip links built in order of height. -/
def loadSkips : List Ptr → Tree → Option Tree
  | [], t => some t
  | p :: ps, t =>
    match buildSkip t p with
    | none => none
    | some t' => loadSkips ps t'

/-! ## CChain -/

/-- `vChain`. -/
abbrev View := List (Option Ptr)

/-- `operator[]`. -/
def View.at (v : View) (h : Nat) : Option Ptr := (v[h]?).join

/-- `Contains`. -/
def contains (t : Tree) (v : View) (p : Ptr) : Bool := v.at (t.height p) == some p

/-- `Genesis`, `Tip`. -/
def View.genesis (v : View) : Option Ptr := v.at 0
def View.tip (v : View) : Option Ptr := if v.length > 0 then v.at (v.length - 1) else none

/-- `Next`. -/
def next (t : Tree) (v : View) (p : Ptr) : Option Ptr := if contains t v p then v.at (t.height p + 1) else none

/-- `vector::resize`. -/
def resize (v : View) (n : Nat) : View := v.take n ++ List.replicate (n - v.length) none

/-- The loop of `SetTip` (53-56): `some (view, fork)`. -/
def setLoop (t : Tree) : Nat → View → Option Ptr → Option (View × Option Ptr)
  | 0, _, _ => none
  | fuel + 1, v, p =>
    match p with
    | none => some (v, none)
    | some x => if v.at (t.height x) = some x then some (v, some x) else setLoop t fuel (v.set (t.height x) (some x)) (t.prev x)

/-- `CChain::SetTip`. -/
def setTip (t : Tree) (v : View) : Option Ptr → Option (View × Option Ptr)
  | none => some ([], none)
  | some p => setLoop t (t.height p + 2) (resize v (t.height p + 1)) (some p)

/-- `while (!Contains(pIndex)) pIndex = pIndex->pprev` (78-79). -/
def backToChain (t : Tree) (v : View) : Nat → Ptr → Option Ptr
  | 0, _ => none
  | fuel + 1, p =>
    if contains t v p then some p
    else
      match t.prev p with
      | none => none
      | some q => backToChain t v fuel q

/-- The loop of `GetLocator` (67-87); `n` is `vHave.size()` before the round, `step` is `nStep`. -/
def locLoop (t : Tree) (v : View) : Nat → Nat → Nat → Ptr → Option (List Ptr)
  | 0, _, _, _ => none
  | fuel + 1, n, step, p =>
    if t.height p = 0 then some [p]
    else
      let h := t.height p - step
      let a := if t.height p > h then getAncestor t p h else some (some p)
      match a with
      | none => none
      | some none => none
      | some (some q) =>
        match backToChain t v (t.height q + 1) q with
        | none => none
        | some r =>
          let r' := if t.height r > h then v.at h else some r
          match r' with
          | none => some [p]
          | some s =>
            match locLoop t v fuel (n + 1) (if n + 1 > 10 then step * 2 else step) s with
            | none => none
            | some l => some (p :: l)

/-- `GetLocator`. -/
def getLocator (t : Tree) (v : View) (p : Option Ptr) : Option (List Ptr) :=
  match (match p with | none => v.tip | some x => some x) with
  | none => some []
  | some x => locLoop t v (t.height x + 1) 0 1 x

/-- `FindFork`; `known` tells which blocks are in `mapBlockIndex`. -/
def findFork (t : Tree) (v : View) (known : Ptr → Bool) : List Ptr → Option Ptr
  | [] => v.genesis
  | p :: l => if known p && contains t v p then some p else findFork t v known l

/-! ## CChainActive -/

/-- The active chain and the block kept beside it; `none` is a default constructed `CBlock`. -/
structure Active where
  view : View
  tipBlock : Option Ptr

/-- `CChainActive::SetTip`. -/
def activeSetTip (t : Tree) (a : Active) (p : Option Ptr) (block : Ptr) : Option Active :=
  match setTip t a.view p with
  | none => none
  | some (v, ret) => some ⟨v, if ret.isSome then some block else none⟩

inductive Step
  | load (tip : Ptr)      -- LoadBlockIndexDB on an empty chain
  | connect (p : Ptr)     -- ConnectTip
  | disconnect            -- DisconnectTip

/-- The chain view operations with the block each of them passes. -/
def step (t : Tree) (a : Active) : Step → Option Active
  | .load tip => activeSetTip t a (some tip) tip
  | .connect p => if t.prev p = a.view.tip then activeSetTip t a (some p) p else none
  | .disconnect =>
    match a.view.tip with
    | none => none
    | some d => activeSetTip t a (t.prev d) d

def run (t : Tree) : List Step → Active → Option Active
  | [], a => some a
  | s :: ss, a =>
    match step t a s with
    | none => none
    | some a' => run t ss a'

end Verif.Chain
