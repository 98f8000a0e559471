import Mathlib.Data.List.Basic

/-!
# Block files and undo files

Code modelled (all under /repo/src):

* `FindBlockPos` (main.cpp 1648-1698), `FindUndoPos` (main.cpp 711-747), `FlushBlockFile` (main.cpp 689-709), the writing parts of `AcceptBlock`
  (main.cpp 1937-1951) and `ConnectBlock` (main.cpp 1206-1242), the reading of the last file at start (main.cpp 2249-2253), `AddToBlockIndex`
  (main.cpp 1609-1612);
* `WriteBlockToDisk`, `ReadBlockFromDisk` (persistence/block.cpp 136-186), `CBlockUndo::WriteToDisk`, `ReadFromDisk`
  (persistence/blockundo.cpp 43-100), `OpenDiskFile` (persistence/disk.cpp 43-64);
* `AllocateFileRange`, `TruncateFile` (commons/util/util.cpp 751-820, the Linux version);
* `LoadExternalBlockFile` (main.cpp 2489-2560) and `ThreadImport` (init.cpp 344-366) for `-reindex`;
* constants (config/const.h 151-174).

Conventions

* A file is the list of its bytes. Writing beyond the end fills up with zeros.
* The records of the block index are kept in the order of their creation. A record holds, besides the position, the block itself: this part is
  not in the code, it only serves to state what should be found at the position. Blocks are their serialized bytes; blocks have the same hash
  exactly if they are equal.
* Statistics of block files (number of blocks, heights, times) are left out. Database writes and opening of files succeed; running out of disk
  space is modelled.
* Sizes are 32-bit numbers in the code; `nUndoSize` wraps here too, `nSize` cannot (it stays below 2^27 plus one block).
* `restart` stands for a stop or crash at any time between two operations, `storeLost` for one between the writing of a block and of its index
  record.
-/
namespace Verif.Files

/-- `MAX_BLOCKFILE_SIZE`, `BLOCKFILE_CHUNK_SIZE`, `UNDOFILE_CHUNK_SIZE`; and the start bytes of the network -/
structure Params where
  maxFile : Nat
  chunk : Nat
  undoChunk : Nat
  magic : List Nat

/-- The constants of the code; the main network's start bytes (config/configuration.cpp 240) -/
def mainnet : Params := ⟨0x8000000, 0x1000000, 0x100000, [0xff, 0x42, 0x1d, 0x1a]⟩

def MAX_BLOCK_SIZE : Nat := 4000000

/-- `CBlockFileInfo`: `nSize`, `nUndoSize` -/
structure Info where
  size : Nat
  undo : Nat
  deriving DecidableEq

def Info.null : Info := ⟨0, 0⟩

/-- A record of the block index: `nFile`, `nDataPos`, `nUndoPos` if there are undo data; and, for the statements, what was stored. -/
structure Entry where
  file : Nat
  pos : Nat
  blk : List Nat
  undo : Option (Nat × List Nat)
  deriving DecidableEq

structure St where
  blkF : Nat → List Nat
  revF : Nat → List Nat
  /-- file infos in the database, latest first -/
  db : List (Nat × Info)
  /-- `nLastBlockFile`, `infoLastBlockFile` -/
  last : Nat
  info : Info
  /-- the last block file in the cache and in the database under it -/
  cached : Nat
  flushed : Nat
  index : List Entry

def zeros (n : Nat) : List Nat := List.replicate n 0

/-- `ftruncate` -/
def trunc (l : List Nat) (n : Nat) : List Nat := l.take n ++ zeros (n - l.length)

/-- `posix_fallocate` -/
def pad (l : List Nat) (n : Nat) : List Nat := l ++ zeros (n - l.length)

/-- Seek and write -/
def put (l : List Nat) (off : Nat) (bs : List Nat) : List Nat := l.take off ++ zeros (off - l.length) ++ bs ++ l.drop (off + bs.length)

def read (l : List Nat) (off n : Nat) : List Nat := (l.drop off).take n

def upd {α : Type} (f : Nat → α) (i : Nat) (a : α) : Nat → α := fun j => if j = i then a else f j

def dbInfo (db : List (Nat × Info)) (f : Nat) : Info := (db.lookup f).getD .null

/-- Bytes of the chunks that hold `n` bytes -/
def chunkEnd (n chunk : Nat) : Nat := (n + chunk - 1) / chunk * chunk

/-- `nNewChunks > nOldChunks` -/
def grows (old new chunk : Nat) : Bool := decide ((new + chunk - 1) / chunk > (old + chunk - 1) / chunk)

/-- `FlushBlockFile(true)` and the step to the next file -/
def leave (s : St) : St :=
  { s with
    blkF := upd s.blkF s.last (trunc (s.blkF s.last) s.info.size)
    revF := upd s.revF s.last (trunc (s.revF s.last) s.info.undo)
    last := s.last + 1
    info := dbInfo s.db (s.last + 1) }

/-- The loop of `FindBlockPos`. It ends after the last file known to the database at the latest. -/
def seek (P : Params) (add : Nat) : Nat → St → St
  | 0, s => s
  | k + 1, s => if s.info.size + add ≥ P.maxFile then seek P add k (leave s) else s

def fuel (s : St) : Nat := (s.db.map Prod.fst).foldr max 0 + 2

/-- `FindBlockPos` without known position. `none`: out of disk space -/
def findBlockPos (P : Params) (s : St) (add : Nat) (space : Bool) : St × Option (Nat × Nat) :=
  let s1 := seek P add (fuel s) s
  let pos := s1.info.size
  let i : Info := ⟨pos + add, s1.info.undo⟩
  if grows pos (pos + add) P.chunk && !space then ({ s1 with info := i }, none)
  else
    ({ s1 with
        info := i
        blkF := if grows pos (pos + add) P.chunk then
            upd s1.blkF s1.last (pad (s1.blkF s1.last) (chunkEnd (pos + add) P.chunk))
          else s1.blkF
        db := (s1.last, i) :: s1.db
        cached := if s1.last ≠ s.last then s1.last else s1.cached }, some (s1.last, pos))

/-- Four bytes, lowest first -/
def le4 (n : Nat) : List Nat := [n % 256, n / 256 % 256, n / 65536 % 256, n / 16777216 % 256]

def ofLe4 (l : List Nat) : Nat := match l with
  | [a, b, c, d] => a + 256 * b + 65536 * c + 16777216 * d
  | _ => 0

/-- What `WriteBlockToDisk` writes -/
def record (magic : List Nat) (b : List Nat) : List Nat := magic ++ le4 b.length ++ b

/-- `AcceptBlock` of a new block; `lost`: the program ends before the index record is written -/
def store (P : Params) (s : St) (b : List Nat) (space lost : Bool) : St :=
  match findBlockPos P s (b.length + 8) space with
  | (s1, none) => s1
  | (s1, some (f, pos)) =>
    let s2 := { s1 with blkF := upd s1.blkF f (put (s1.blkF f) pos (record P.magic b)) }
    if lost then s2 else { s2 with index := s2.index ++ [⟨f, pos + 8, b, none⟩] }

/-- `FindUndoPos`. First the outcome: 0 found, 1 out of disk space, 2 no file info -/
def findUndoPos (P : Params) (s : St) (f add : Nat) (space : Bool) : St × Nat × Nat :=
  let r : Option (St × Nat × Nat) :=
    if f = s.last then
      let n := (s.info.undo + add) % 2 ^ 32
      let i : Info := ⟨s.info.size, n⟩
      some ({ s with info := i, db := (f, i) :: s.db }, s.info.undo, n)
    else match s.db.lookup f with
      | none => none
      | some i0 =>
        let n := (i0.undo + add) % 2 ^ 32
        some ({ s with db := (f, ⟨i0.size, n⟩) :: s.db }, i0.undo, n)
  match r with
  | none => (s, 2, 0)
  | some (s1, pos, n) =>
    if grows pos n P.undoChunk then
      if space then
        ({ s1 with revF := upd s1.revF f (pad (s1.revF f) (chunkEnd n P.undoChunk)) }, 0, pos)
      else (s1, 1, 0)
    else (s1, 0, pos)

/-- Undo data of the block with number `i` in the index: `ConnectBlock`. Only blocks without undo data get some. -/
def writeUndo (P : Params) (ck : List Nat → List Nat) (s : St) (i : Nat) (u : List Nat) (space : Bool) : St :=
  match s.index[i]? with
  | none => s
  | some e =>
    if e.undo.isSome then s
    else
      let r := findUndoPos P s e.file (u.length + 40) space
      if r.2.1 ≠ 0 then r.1
      else
        { r.1 with
          revF := upd r.1.revF e.file (put (r.1.revF e.file) r.2.2 (P.magic ++ le4 u.length ++ u ++ ck u))
          index := r.1.index.set i { e with undo := some (r.2.2 + 8, u) } }

/-- The cache is written down. -/
def flush (s : St) : St := { s with flushed := s.cached }

/-- The program starts again. -/
def restart (s : St) : St := { s with last := s.flushed, cached := s.flushed, info := dbInfo s.db s.flushed }

/-- `ReadBlockFromDisk`: the bytes at the position of the record -/
def readBlock (s : St) (e : Entry) : List Nat := read (s.blkF e.file) e.pos e.blk.length

/-- `CBlockUndo::ReadFromDisk`: data and checksum -/
def readUndo (s : St) (e : Entry) : Option (List Nat) := e.undo.map fun p => read (s.revF e.file) p.1 (p.2.length + 32)

inductive Op
  | store (b : List Nat) (space lost : Bool)
  | undo (i : Nat) (u : List Nat) (space : Bool)
  | flush
  | restart

def step (P : Params) (ck : List Nat → List Nat) (s : St) : Op → St
  | .store b space lost => store P s b space lost
  | .undo i u space => writeUndo P ck s i u space
  | .flush => flush s
  | .restart => restart s

def run (P : Params) (ck : List Nat → List Nat) (s : St) (ops : List Op) : St := ops.foldl (step P ck) s

/-- Empty directory and database -/
def init : St := ⟨fun _ => [], fun _ => [], [], 0, .null, 0, 0, []⟩

/-! ## `-reindex` -/

/-- Databases are emptied, files stay. -/
def wipe (s : St) : St := { s with db := [], last := 0, info := .null, cached := 0, flushed := 0, index := [] }

/-- The loop of `LoadExternalBlockFile` from byte `pos`: positions and bytes of the blocks found -/
def scan (magic : List Nat) : Nat → Nat → List Nat → List (Nat × List Nat)
  | 0, _, _ => []
  | _ + 1, _, [] => []
  | k + 1, pos, c :: l =>
    let n := ofLe4 (((c :: l).drop 4).take 4)
    if (c :: l).take 4 = magic ∧ 80 ≤ n ∧ n ≤ MAX_BLOCK_SIZE ∧ 8 + n ≤ (c :: l).length then
      (pos + 8, ((c :: l).drop 8).take n) :: scan magic k (pos + 8 + n) ((c :: l).drop (8 + n))
    else scan magic k (pos + 1) l

/-- `FindBlockPos` and the index record for a block at a known position -/
def known (s : St) (f pos : Nat) (b : List Nat) : St :=
  let s1 := if s.last ≠ f then { s with last := f, info := dbInfo s.db f, cached := f } else s
  let i : Info := ⟨s1.info.size + (b.length + 8), s1.info.undo⟩
  { s1 with info := i, db := (f, i) :: s1.db, index := s1.index ++ [⟨f, pos, b, none⟩] }

/-- The blocks of one file: a block already in the index, or not valid, is passed over. -/
def loadFile (good : List Nat → Bool) (f : Nat) : St → List (Nat × List Nat) → St
  | s, [] => s
  | s, (pos, b) :: rs => if s.index.any (fun e => e.blk == b) || !good b then loadFile good f s rs else loadFile good f (known s f pos b) rs

/-- All files, until one does not exist (is empty). `n` bounds their number. -/
def loadFiles (magic : List Nat) (good : List Nat → Bool) : Nat → Nat → St → St
  | 0, _, s => s
  | n + 1, f, s =>
    if s.blkF f = [] then s
    else loadFiles magic good n (f + 1) (loadFile good f s (scan magic (s.blkF f).length 0 (s.blkF f)))

def reindex (magic : List Nat) (good : List Nat → Bool) (n : Nat) (s : St) : St := loadFiles magic good n 0 (wipe s)

end Verif.Files
