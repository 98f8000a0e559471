/-!
# Saving and loading the address manager

Models the body of `IMPLEMENT_SERIALIZE` of `CAddrMan` (src/p2p/addrman.h 250-383): which entries and indices are written, and how the reader puts them
back into buckets. The bytes are those of the general serialisation and are not modelled here; an entry stands for the saved fields of a `CAddrInfo`.
`mapInfo` is a list in the order of the ids. The number of buckets in the file is the expected one (256).
-/
namespace Verif.Addr.Save

/-- An entry of `mapInfo`: what is saved of it, and whether it is in the new or in the tried table -/
structure Entry (α : Type) where
  id : Nat
  body : α
  tried : Bool

/-- What is written: the new entries, the tried entries, and the indices in each new bucket -/
structure File (α : Type) where
  new : List α
  tried : List α
  buckets : List (List Nat)

/-- The first loop of the writer: entries written, and `mapUnkIds`; `k` is `nIds`. -/
def writeNew {α : Type} (nNew : Nat) : Nat → List (Entry α) → List α × List (Nat × Nat)
  | _, [] => ([], [])
  | k, e :: rest =>
    if k = nNew then ([], [])
    else if e.tried then ((writeNew nNew k rest).1, (e.id, k) :: (writeNew nNew k rest).2)
    else (e.body :: (writeNew nNew (k + 1) rest).1, (e.id, k) :: (writeNew nNew (k + 1) rest).2)

/-- The second loop of the writer -/
def writeTried {α : Type} (nTried : Nat) : Nat → List (Entry α) → List α
  | _, [] => []
  | k, e :: rest =>
    if k = nTried then []
    else if e.tried then e.body :: writeTried nTried (k + 1) rest
    else writeTried nTried k rest

/-- `mapUnkIds[id]` -/
def index (m : List (Nat × Nat)) (id : Nat) : Nat := ((m.find? (fun p => p.1 == id)).map (·.2)).getD 0

def write {α : Type} (nNew nTried : Nat) (infos : List (Entry α)) (vvNew : List (List Nat)) : File α :=
  let w := writeNew nNew 0 infos
  ⟨w.1, writeTried nTried 0 infos, vvNew.map (fun b => b.map (index w.2))⟩

/-- The reader's loop over the tried entries: buckets, and the entries kept -/
def readTried {α : Type} (bucket : α → Nat) : (Nat → List α) → List α → Nat → (Nat → List α) × Nat
  | b, [], lost => (b, lost)
  | b, e :: rest, lost =>
    if (b (bucket e)).length < 64 then readTried bucket (fun k => if k = bucket e then b k ++ [e] else b k) rest lost
    else readTried bucket b rest (lost + 1)

/-- One bucket of new entries: `seen` are the references counted so far. -/
def readBucket : List Nat → List Nat → List Nat × List Nat
  | seen, [] => (seen, [])
  | seen, i :: rest =>
    if seen.count i < 4 then ((readBucket (i :: seen) rest).1, i :: (readBucket (i :: seen) rest).2)
    else readBucket seen rest

/-- The loop over the buckets -/
def readBuckets : List Nat → List (List Nat) → List (List Nat)
  | _, [] => []
  | seen, b :: rest => (readBucket seen b).2 :: readBuckets (readBucket seen b).1 rest

/-- The new buckets after reading, each with the saved fields of its entries -/
def readNew {α : Type} (f : File α) : List (List (Option α)) := (readBuckets [] f.buckets).map (fun b => b.map (fun i => f.new[i]?))

end Verif.Addr.Save
