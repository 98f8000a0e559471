import Mathlib.Data.List.Basic

/-!
# Merkle trees

Models `CBlock::BuildMerkleTree`, `GetMerkleBranch`, `CheckMerkleBranch` (src/persistence/block.cpp 27-69) on the flat array
`vMerkleTree`, and `CPartialMerkleTree` with its serialization (src/chain/merkletree.cpp 11-125, merkletree.h 47-105).

* Hashes are values of any type `α`, `h a b` is the hash of the concatenation of two hashes, `zero` is `uint256()`.
* Reading outside an array is the outcome `none`.
* Sizes are natural numbers: a block has at most `MAX_BLOCK_SIZE` transactions (main.cpp 1820), so no 32-bit size wraps, and
  `1 << height` stays below `2^23`.
-/
namespace Verif.Merkle

variable {α : Type}

/-! ## The flat tree -/

/-- One level (34-38): for `i = 0, 2, 4, … < n` append the hash of elements `j+i` and `j+min(i+1, n-1)`. -/
def pushLevel (h : α → α → α) (j n : Nat) : Nat → Nat → List α → Option (List α)
  | 0, _, tree => some tree
  | fuel + 1, i, tree =>
    if i < n then
      match tree[j + i]?, tree[j + min (i + 1) (n - 1)]? with
      | some a, some b => pushLevel h j n fuel (i + 2) (tree ++ [h a b])
      | _, _ => none
    else some tree

/-- The loop over levels (33-40). -/
def levels (h : α → α → α) : Nat → Nat → Nat → List α → Option (List α)
  | 0, _, _, tree => some tree
  | fuel + 1, j, n, tree =>
    if n > 1 then
      match pushLevel h j n n 0 tree with
      | none => none
      | some tree' => levels h fuel (j + n) ((n + 1) / 2) tree'
    else some tree

/-- `vMerkleTree` after `BuildMerkleTree`. -/
def buildTree (h : α → α → α) (txids : List α) : Option (List α) := levels h txids.length 0 txids.length txids

/-- The returned root. -/
def merkleRoot (h : α → α → α) (zero : α) (txids : List α) : Option α :=
  match buildTree h txids with
  | none => none
  | some tree => some (tree.getLast?.getD zero)

/-- `index ^ 1`. -/
def xor1 (i : Nat) : Nat := if i % 2 = 0 then i + 1 else i - 1

/-- The loop of `GetMerkleBranch` (49-54). -/
def branchLoop (tree : List α) : Nat → Nat → Nat → Nat → Option (List α)
  | 0, _, _, _ => some []
  | fuel + 1, j, n, index =>
    if n > 1 then
      match tree[j + min (xor1 index) (n - 1)]?, branchLoop tree fuel (j + n) ((n + 1) / 2) (index / 2) with
      | some x, some rest => some (x :: rest)
      | _, _ => none
    else some []

/-- `GetMerkleBranch`. -/
def getBranch (h : α → α → α) (txids : List α) (index : Nat) : Option (List α) :=
  match buildTree h txids with
  | none => none
  | some tree => branchLoop tree txids.length 0 txids.length index

/-- `CheckMerkleBranch` for `index ≥ 0`. -/
def checkBranch (h : α → α → α) (x : α) : List α → Nat → α
  | [], _ => x
  | o :: rest, index => checkBranch h (if index % 2 = 1 then h o x else h x o) rest (index / 2)

/-! ## Partial trees -/

/-- `CalcTreeWidth`. -/
def width (n height : Nat) : Nat := (n + 2 ^ height - 1) / 2 ^ height

/-- `CalcHash`. -/
def calcHash (h : α → α → α) (txids : List α) : Nat → Nat → Option α
  | 0, pos => txids[pos]?
  | height + 1, pos =>
    match calcHash h txids height (pos * 2) with
    | none => none
    | some left =>
      if pos * 2 + 1 < width txids.length height then
        match calcHash h txids height (pos * 2 + 1) with
        | none => none
        | some right => some (h left right)
      else some (h left left)

/-- Is a matched transaction below the node (TraverseAndBuild 30-32)? -/
def parentOfMatch (mtch : List Bool) (n height pos : Nat) : Bool :=
  (List.range' (pos * 2 ^ height) (2 ^ height)).any fun p => decide (p < n) && mtch.getD p false

/-- `TraverseAndBuild`: the bits and hashes appended. -/
def build (h : α → α → α) (txids : List α) (mtch : List Bool) : Nat → Nat → Option (List Bool × List α)
  | 0, pos =>
    match calcHash h txids 0 pos with
    | none => none
    | some x => some ([parentOfMatch mtch txids.length 0 pos], [x])
  | height + 1, pos =>
    if parentOfMatch mtch txids.length (height + 1) pos then
      match build h txids mtch height (pos * 2) with
      | none => none
      | some (b1, h1) =>
        if pos * 2 + 1 < width txids.length height then
          match build h txids mtch height (pos * 2 + 1) with
          | none => none
          | some (b2, h2) => some (true :: b1 ++ b2, h1 ++ h2)
        else some (true :: b1, h1)
    else
      match calcHash h txids (height + 1) pos with
      | none => none
      | some x => some ([false], [x])

/-- The height of the tree (88-91): least `height` with at most one node; `fuel` bounds the search. -/
def treeHeight (n : Nat) : Nat → Nat → Nat
  | 0, height => height
  | fuel + 1, height => if width n height > 1 then treeHeight n fuel (height + 1) else height

structure Partial (α : Type) where
  n : Nat
  bits : List Bool
  hashes : List α
  bad : Bool

/-- The constructor. -/
def mkPartial (h : α → α → α) (txids : List α) (mtch : List Bool) : Option (Partial α) :=
  match build h txids mtch (treeHeight txids.length txids.length 0) 0 with
  | none => none
  | some (b, hs) => some ⟨txids.length, b, hs, false⟩

/-- State threaded through `TraverseAndExtract`. -/
structure Ext (α : Type) where
  bitsUsed : Nat
  hashUsed : Nat
  matched : List α
  bad : Bool

/-- `TraverseAndExtract`. -/
def extract (h : α → α → α) (zero : α) (t : Partial α) : Nat → Nat → Ext α → α × Ext α
  | 0, _, e =>
    match t.bits[e.bitsUsed]? with
    | none => (zero, { e with bad := true })
    | some b =>
      match t.hashes[e.hashUsed]? with
      | none => (zero, { e with bitsUsed := e.bitsUsed + 1, bad := true })
      | some x => (x, { e with bitsUsed := e.bitsUsed + 1, hashUsed := e.hashUsed + 1,
                               matched := if b then e.matched ++ [x] else e.matched })
  | height + 1, pos, e =>
    match t.bits[e.bitsUsed]? with
    | none => (zero, { e with bad := true })
    | some b =>
      if b then
        let (left, e1) := extract h zero t height (pos * 2) { e with bitsUsed := e.bitsUsed + 1 }
        if pos * 2 + 1 < width t.n height then
          let (right, e2) := extract h zero t height (pos * 2 + 1) e1
          (h left right, e2)
        else (h left left, e1)
      else
        match t.hashes[e.hashUsed]? with
        | none => (zero, { e with bitsUsed := e.bitsUsed + 1, bad := true })
        | some x => (x, { e with bitsUsed := e.bitsUsed + 1, hashUsed := e.hashUsed + 1 })

/-- `ExtractMatches`: root and matches; `none` for the root stands for the failure value `uint256()`. -/
def extractMatches (h : α → α → α) (zero : α) (maxTx : Nat) (t : Partial α) : Option α × List α :=
  if t.n = 0 ∨ t.n > maxTx ∨ t.hashes.length > t.n ∨ t.bits.length < t.hashes.length then (none, [])
  else
    let (root, e) := extract h zero t (treeHeight t.n t.n 0) 0 ⟨0, 0, [], t.bad⟩
    if e.bad ∨ (e.bitsUsed + 7) / 8 ≠ (t.bits.length + 7) / 8 ∨ e.hashUsed ≠ t.hashes.length then (none, e.matched)
    else (some root, e.matched)

/-! ### Serialization of the flag bits -/

/-- Bits of one byte as a number, least significant bit first. -/
def byteOf : List Bool → Nat
  | [] => 0
  | b :: bs => b.toNat + 2 * byteOf bs

/-- Writing: `(size+7)/8` bytes, unused bits zero. -/
def packBits : Nat → List Bool → List Nat
  | 0, _ => []
  | fuel + 1, bs => if bs = [] then [] else byteOf (bs.take 8) :: packBits fuel (bs.drop 8)

/-- Reading: eight bits per byte. -/
def bitsOf (x : Nat) : List Bool := (List.range 8).map fun p => x / 2 ^ p % 2 == 1

def unpackBits (bytes : List Nat) : List Bool := bytes.flatMap bitsOf

/-- A partial tree written and read again. -/
def roundTrip (t : Partial α) : Partial α :=
  { t with bits := unpackBits (packBits t.bits.length t.bits), bad := false }

end Verif.Merkle
