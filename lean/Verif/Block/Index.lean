import Mathlib.Data.List.Nodup
import Verif.Util.U64

/-!
# C62: the block index after a restart

Models the header fields that make up the block hash (src/persistence/block.cpp 21-25), the index entry made
for an accepted block (`CBlockIndex(const CBlock&)` src/persistence/block.h 230-242, `AddToBlockIndex`
src/main.cpp 1590-1621, `CDiskBlockIndex` block.h 350-412), how it is stored (`WriteBlockIndex`,
src/persistence/blockdb.cpp, keyed by `GetBlockHash()` of the entry) and `LoadBlockIndexes` /
`InsertBlockIndex` (blockdb.cpp 31-101).

Simplifications: hashes are numbers, the null hash is 0; file positions, status bits and the producer id are left out
(they are stored and loaded unchanged and do not enter the hash). `H` is SHA256 over the serialized fields.
-/
namespace Verif.Block.Index

structure Header where
  version : Nat
  prev : Nat
  merkle : Nat
  time : Nat
  nonce : Nat
  height : Nat
  fuelFee : Nat
  fuelRate : Nat
  deriving DecidableEq

/-- `CBlockHeader::GetFuelFee()`: block.h 117, `uint32_t`. -/
def Header.getFuelFee (h : Header) : Nat := h.fuelFee % 2 ^ 32

/-- A stored index entry: the fields of `CDiskBlockIndex` that enter its hash. -/
abbrev Entry := Header

/-- The entry made for an accepted block: `nFuelFee = block.GetFuelFee()`; the height is that of the
parent plus one, which `AcceptBlock` (main.cpp 1903-1910) has checked to be the block's. -/
def entryOf (b : Header) : Entry := { b with fuelFee := b.getFuelFee }

/-- What a loaded `CBlockIndex` holds. -/
structure Idx where
  prev : Option Nat
  height : Nat
  time : Nat
  fuelFee : Nat
  fuelRate : Nat
  version : Nat
  deriving DecidableEq

/-- A default constructed `CBlockIndex`. -/
def blank : Idx := ⟨none, 0, 0, 0, 0, 0⟩

/-- `mapBlockIndex` -/
abbrev IndexMap := Nat → Option Idx

/-- `InsertBlockIndex`: blockdb.cpp 84-101. -/
def insertBlank (m : IndexMap) (h : Nat) : IndexMap :=
  fun x => if h ≠ 0 ∧ x = h ∧ m h = none then some blank else m x

/-- One turn of the loop of `LoadBlockIndexes`. -/
def loadOne (H : Header → Nat) (m : IndexMap) (e : Entry) : IndexMap :=
  let m1 := insertBlank (insertBlank m (H e)) e.prev
  fun x => if x = H e then
      some ⟨if e.prev = 0 then none else some e.prev, e.height, e.time, e.fuelFee, e.fuelRate, e.version⟩
    else m1 x

def load (H : Header → Nat) (es : List Entry) : IndexMap := es.foldl (loadOne H) (fun _ => none)

/-- The block index database: entries keyed by the hash of the entry (a later write with the same key
replaces the earlier one). -/
def store (H : Header → Nat) (es : List Entry) : List Entry → List Entry
  | [] => es
  | b :: bs => store H ((es.filter (fun e => decide (H e ≠ H (entryOf b)))) ++ [entryOf b]) bs

/-- The index after accepting blocks `bs` and restarting. -/
def restart (H : Header → Nat) (bs : List Header) : IndexMap := load H (store H [] bs)

/-! ## Specification and proofs -/

/-- What the index should say about a block. -/
def idxOf (b : Header) : Idx :=
  ⟨if b.prev = 0 then none else some b.prev, b.height, b.time, b.fuelFee, b.fuelRate, b.version⟩

theorem entryOf_small {b : Header} (h : b.fuelFee < 2 ^ 32) : entryOf b = b := by
  unfold entryOf Header.getFuelFee; rw [Nat.mod_eq_of_lt h]

theorem insertBlank_keep {m : IndexMap} {h x : Nat} {i : Idx} (hx : m x = some i) : insertBlank m h x = some i := by
  unfold insertBlank
  rw [if_neg]
  · exact hx
  · rintro ⟨_, rfl, hn⟩
    rw [hx] at hn; cases hn

theorem load_keeps (H : Header → Nat) (es : List Entry) (m : IndexMap) (x : Nat) (i : Idx) (hx : m x = some i)
    (hne : ∀ e ∈ es, H e ≠ x) : es.foldl (loadOne H) m x = some i := by
  induction es generalizing m with
  | nil => exact hx
  | cons e es ih =>
    simp only [List.foldl_cons]
    apply ih
    · unfold loadOne
      rw [if_neg (fun h => hne e (by simp) h.symm)]
      exact insertBlank_keep (insertBlank_keep hx)
    · exact fun e' h' => hne e' (by simp [h'])

theorem load_finds (H : Header → Nat) (es : List Entry) (hnd : (es.map H).Nodup) (m : IndexMap) (e : Entry) (he : e ∈ es) :
    es.foldl (loadOne H) m (H e) = some (idxOf e) := by
  induction es generalizing m with
  | nil => simp at he
  | cons a es ih =>
    simp only [List.map_cons, List.nodup_cons] at hnd
    simp only [List.foldl_cons]
    rcases List.mem_cons.mp he with rfl | he
    · apply load_keeps
      · unfold loadOne; simp [idxOf]
      · intro e' he' h
        exact hnd.1 (by rw [← h]; exact List.mem_map_of_mem he')
    · exact ih hnd.2 _ he

theorem store_eq (H : Header → Nat) (bs es : List Header) (hs : ∀ b ∈ bs, b.fuelFee < 2 ^ 32)
    (hnd : ((es ++ bs).map H).Nodup) : store H es bs = es ++ bs := by
  induction bs generalizing es with
  | nil => simp [store]
  | cons b bs ih =>
    simp only [store, entryOf_small (hs b (by simp))]
    have hf : es.filter (fun e => decide (H e ≠ H b)) = es := by
      rw [List.filter_eq_self]
      intro e he
      rw [List.map_append, List.nodup_append] at hnd
      simp only [decide_eq_true_eq]
      exact hnd.2.2 _ (List.mem_map_of_mem he) _ (by simp)
    rw [hf, ih]
    · simp
    · exact fun b' h' => hs b' (by simp [h'])
    · simpa using hnd

/-- After a restart every accepted block is found under its own hash with its own parent, height, time, fuel fee
and fuel rate, provided the header fuel fees are below 2^32 (what `ConnectBlock` checks is only the
low 32 bits). `hnd`: accepted blocks have different hashes (`AddToBlockIndex` refuses a hash it has). -/
theorem index_restored_partial (H : Header → Nat) (bs : List Header) (hs : ∀ b ∈ bs, b.fuelFee < 2 ^ 32)
    (hnd : (bs.map H).Nodup) (b : Header) (hb : b ∈ bs) : restart H bs (H b) = some (idxOf b) := by
  unfold restart load
  rw [store_eq H bs [] hs (by simpa using hnd), List.nil_append]
  exact load_finds H bs hnd _ b hb

/-- With a header fuel fee of 2^32 or more the entry has another hash than the block (for any
collision-free hash): after a restart the block is not in the index under its hash. -/
theorem index_restored_violated (H : Header → Nat) (hH : ∀ a b, H a = H b → a = b) (b : Header)
    (hbig : 2 ^ 32 ≤ b.fuelFee) (hp : b.prev ≠ H b) : restart H [b] (H b) = none := by
  have hne : H b ≠ H (entryOf b) := by
    intro h
    have := congrArg Header.fuelFee (hH _ _ h)
    unfold entryOf Header.getFuelFee at this
    simp only at this
    have := Nat.mod_lt b.fuelFee (show 0 < 2 ^ 32 by decide)
    omega
  simp only [restart, store, load, List.filter_nil, List.nil_append, List.foldl_cons, List.foldl_nil]
  unfold loadOne
  rw [if_neg hne]
  have hp' : (entryOf b).prev = b.prev := rfl
  have h1 : insertBlank (fun _ => none) (H (entryOf b)) (H b) = none := by
    unfold insertBlank
    rw [if_neg (fun h => hne h.2.1)]
  unfold insertBlank at h1 ⊢
  rw [if_neg (fun h => hp (by rw [← hp']; exact h.2.1.symm))]
  exact h1

/-- Two accepted blocks that differ only above bit 31 of the fuel fee overwrite each other. -/
theorem index_collision_violated (H : Header → Nat) (b : Header) (h : b.fuelFee < 2 ^ 32) :
    store H [] [b, { b with fuelFee := b.fuelFee + 2 ^ 32 }] = [b] := by
  have e1 := entryOf_small h
  have e2 : entryOf { b with fuelFee := b.fuelFee + 2 ^ 32 } = b := by
    unfold entryOf Header.getFuelFee
    simp only [Nat.add_mod_right, Nat.mod_eq_of_lt h]
  simp [store, e1, e2]

/-- The hypotheses of the round trip on a two-block chain. -/
example : restart (fun h => h.height + 10) [⟨2, 0, 5, 100, 1, 0, 0, 100⟩, ⟨2, 10, 6, 110, 2, 1, 77, 100⟩] 11
    = some ⟨some 10, 1, 110, 77, 100, 2⟩ := by decide

end Verif.Block.Index
