import Verif.Codec.Props
import Verif.Util.SMap

/-!
# Serialization formats (src/commons/serialize.h)

A C++ type with `GetSerializeSize`, `Serialize` and `Unserialize` is modelled by a `Fmt`: the three
functions on byte lists, with the range of values the C++ type can hold after a read.

* `enc v = none` is an exception or a failed assertion while writing, `dec l = none` an exception
  (end of data, bad tag, oversized string) while reading.
* `rng` is the range of values of the C++ type that satisfy the reading limits (a vector no longer
  than `MAX_SIZE`, a string no longer than `MAX_SERIALIZE_SIZE`).
* `safe` excludes the two kinds of values that can be read but not written faithfully: a negative
  integer in a signed `VARINT`, and an invalid public key in a `CUserID`.

Simplifications: `READDATA`/`WRITEDATA` of an integer is little-endian; signed overflow in
`ReadVarInt<int32_t>` wraps (two's complement, as compiled by the usual compilers); memory exhaustion is not
modelled; `unsigned int` sizes do not wrap.
-/
namespace Verif.Wire

open Verif.Codec

/-- Formats of values of type `α`. -/
structure Fmt (α : Type) where
  enc : α → Option (List Nat)
  size : α → Nat
  dec : List Nat → Option (α × List Nat)
  rng : α → Prop
  safe : α → Prop

/-! ## Integers -/

/-- The signed reading of a `w`-bit pattern. -/
def toSigned (w n : Nat) : Int := if n < 2 ^ (w - 1) then (n : Int) else (n : Int) - 2 ^ w

/-- `VARINT` of an unsigned `w`-bit integer (serialize.h 308-352, 387-410). -/
def varU (w : Nat) : Fmt Nat where
  enc := writeVarInt w
  size := sizeVarInt
  dec := readVarInt w
  rng n := n < 2 ^ w
  safe _ := True

/-- `VARINT` of a signed `w`-bit integer.  For a negative value the loop of `WriteVarInt` stops at
once (`n <= 0x7F`) having stored `n & 0x7F`. -/
def varI (w : Nat) : Fmt Int where
  enc n := if n ≤ 127 then some [(n % 128).toNat] else writeVarInt w n.toNat
  size n := if n ≤ 127 then 1 else sizeVarInt n.toNat
  dec l := (readVarInt w l).map (fun p => (toSigned w p.1, p.2))
  rng n := -(2 ^ (w - 1) : Int) ≤ n ∧ n < 2 ^ (w - 1)
  safe n := 0 ≤ n

/-- `READDATA`/`WRITEDATA` of an unsigned integer of `k` bytes (serialize.h 151-195). -/
def raw (k : Nat) : Fmt Nat where
  enc n := some (leBytes k n)
  size _ := k
  dec := readLE k
  rng n := n < 256 ^ k
  safe _ := True

/-- The same for a signed integer. -/
def rawI (k : Nat) : Fmt Int where
  enc n := some (leBytes k (n % 256 ^ k).toNat)
  size _ := k
  dec l := (readLE k l).map (fun p => (toSigned (8 * k) p.1, p.2))
  rng n := -(2 ^ (8 * k - 1) : Int) ≤ n ∧ n < 2 ^ (8 * k - 1)
  safe _ := True

/-- `bool` (serialize.h 197-199): any byte other than zero reads as true. -/
def bool : Fmt Bool where
  enc b := some [if b then 1 else 0]
  size _ := 1
  dec
    | [] => none
    | c :: r => some (c != 0, r)
  rng _ := True
  safe _ := True

/-! ## Byte strings -/

/-- `MAX_SERIALIZE_SIZE` (serialize.h 36, config/const.h 151). -/
abbrev MAX_STRING : Nat := 4000000

/-- `std::string` (serialize.h 563-589). -/
def str : Fmt (List Nat) where
  enc s := some (writeCompactSize s.length ++ s)
  size s := sizeCompactSize s.length + s.length
  dec l := (readCompactSize l).bind (fun p => if p.1 > MAX_STRING then none else readN p.1 p.2)
  rng s := s.length ≤ MAX_STRING ∧ Bytes s
  safe _ := True

/-- `std::vector<unsigned char>` (serialize.h 594-665, the `true_type` variants). -/
def bytes : Fmt (List Nat) where
  enc s := some (writeCompactSize s.length ++ s)
  size s := sizeCompactSize s.length + s.length
  dec l := (readCompactSize l).bind (fun p => readN p.1 p.2)
  rng s := s.length ≤ MAX_SIZE ∧ Bytes s
  safe _ := True

/-- Fixed-size data (`uint256`, `uint160`: commons/uint256.h, `s.write((char*)data, sizeof(data))`). -/
def blob (k : Nat) : Fmt (List Nat) where
  enc s := some s
  size _ := k
  dec := readN k
  rng s := s.length = k ∧ Bytes s
  safe _ := True

/-! ## Identifiers (entities/id.h) -/

def regid : Fmt RegId where
  enc := writeRegId
  size := sizeRegId
  dec := readRegId
  rng := RegId.Ok
  safe _ := True

/-- `CUserID::GetSerializeSize` (id.h 235-257). -/
def sizeUserId : UserId → Nat
  | .reg r => 1 + sizeRegId r
  | .key k => 1 + k.length
  | .pub (.valid l) => l.length + 1
  | .pub .invalid => 1
  | .null => 1

/-- Values a `CUserID` can hold, the invalid public key included. -/
def userRange : UserId → Prop
  | .pub .invalid => True
  | u => u.Ok

def userid : Fmt UserId where
  enc := writeUserId
  size := sizeUserId
  dec := readUserId
  rng := userRange
  safe u := u ≠ .pub .invalid

/-! ## Combinators -/

/-- Two members one after the other (also `std::pair`, serialize.h 690-712). -/
def pair {α β : Type} (f : Fmt α) (g : Fmt β) : Fmt (α × β) where
  enc v := (f.enc v.1).bind (fun a => (g.enc v.2).map (fun b => a ++ b))
  size v := f.size v.1 + g.size v.2
  dec l := (f.dec l).bind (fun p => (g.dec p.2).map (fun q => ((p.1, q.1), q.2)))
  rng v := f.rng v.1 ∧ g.rng v.2
  safe v := f.safe v.1 ∧ g.safe v.2

infixr:60 " ⊗ " => pair

/-- The members of `β` are those of `α`, in the order of serialization. -/
def conv {α β : Type} (f : Fmt α) (to : β → α) (of : α → β) : Fmt β where
  enc v := f.enc (to v)
  size v := f.size (to v)
  dec l := (f.dec l).map (fun p => (of p.1, p.2))
  rng v := f.rng (to v)
  safe v := f.safe (to v)

/-- A member written by a constant byte and skipped on reading. -/
def mark (b : Nat) : Fmt Unit where
  enc _ := some [b]
  size _ := 1
  dec
    | [] => none
    | _ :: r => some ((), r)
  rng _ := True
  safe _ := True

/-- Write the elements one after the other. -/
def encAll {α : Type} (f : Fmt α) : List α → Option (List Nat)
  | [] => some []
  | v :: t => (f.enc v).bind (fun a => (encAll f t).map (fun b => a ++ b))

/-- Read `n` elements. -/
def decAll {α : Type} (f : Fmt α) : Nat → List Nat → Option (List α × List Nat)
  | 0, l => some ([], l)
  | n + 1, l => (f.dec l).bind (fun p => (decAll f n p.2).map (fun q => (p.1 :: q.1, q.2)))

/-- Sizes of the elements. -/
def sizeAll {α : Type} (f : Fmt α) (l : List α) : Nat := (l.map f.size).sum

/-- `std::vector<T>` for a class `T` (serialize.h 602-681, the `false_type` variants). -/
def list {α : Type} (f : Fmt α) : Fmt (List α) where
  enc v := (encAll f v).map (fun b => writeCompactSize v.length ++ b)
  size v := sizeCompactSize v.length + sizeAll f v
  dec l := (readCompactSize l).bind (fun p => decAll f p.1 p.2)
  rng v := v.length ≤ MAX_SIZE ∧ ∀ x ∈ v, f.rng x
  safe v := ∀ x ∈ v, f.safe x

/-- `std::map::insert`: an entry already present stays (serialize.h 847). -/
def insertNew {K V : Type} [DecidableEq K] (lt : K → K → Bool) (m : List (K × V)) (e : K × V) : List (K × V) :=
  match find m e.1 with
  | some _ => m
  | none => put lt m e.1 e.2

/-- `std::map<K, V>` (serialize.h 816-850): the entries in key order. -/
def map {K V : Type} [DecidableEq K] (lt : K → K → Bool) (f : Fmt (K × V)) : Fmt (List (K × V)) where
  enc := (list f).enc
  size := (list f).size
  dec l := ((list f).dec l).map (fun p => (p.1.foldl (insertNew lt) [], p.2))
  rng m := (list f).rng m ∧ SortedBy lt m
  safe := (list f).safe

/-- `CMapSerializer` (tx/blockpricemediantx.h 15-60): the same bytes, but a repeated key is an error. -/
def strictMap {K V : Type} [DecidableEq K] (lt : K → K → Bool) (f : Fmt (K × V)) : Fmt (List (K × V)) where
  enc := (list f).enc
  size := (list f).size
  dec l := ((list f).dec l).bind (fun p =>
    if (p.1.map Prod.fst).Nodup then some (p.1.foldl (insertNew lt) [], p.2) else none)
  rng m := (list f).rng m ∧ SortedBy lt m
  safe := (list f).safe

/-- `std::optional<T>` (serialize.h 895-930): a flag byte, then the value. -/
def opt {α : Type} (f : Fmt α) : Fmt (Option α) where
  enc
    | none => some [0]
    | some v => (f.enc v).map (fun b => 1 :: b)
  size
    | none => 1
    | some v => 1 + f.size v
  dec
    | [] => none
    | c :: r => if c = 0 then some (none, r) else (f.dec r).map (fun p => (some p.1, p.2))
  rng
    | none => True
    | some v => f.rng v
  safe
    | none => True
    | some v => f.safe v

/-- A byte choosing the type of what follows; bytes that `ofCode` rejects throw. -/
def tagged {ι : Type} (code : ι → Nat) (ofCode : Nat → Option ι) (P : ι → Type) (f : ∀ i, Fmt (P i)) :
    Fmt (Sigma P) where
  enc v := ((f v.1).enc v.2).map (fun b => code v.1 :: b)
  size v := 1 + (f v.1).size v.2
  dec
    | [] => none
    | c :: r => (ofCode c).bind (fun i => ((f i).dec r).map (fun p => (⟨i, p.1⟩, p.2)))
  rng v := (f v.1).rng v.2
  safe v := (f v.1).safe v.2

/-! ## Laws -/

/-- What a correct format satisfies: writing a safe value succeeds, gives as many bytes as announced,
and reading them back, whatever follows, gives the value and leaves what follows; and what is read is in
the range of the type. -/
class Lawful {α : Type} (f : Fmt α) : Prop where
  good : ∀ v, f.rng v → f.safe v → ∃ bs, f.enc v = some bs ∧ Bytes bs ∧ bs.length = f.size v ∧
    ∀ r, f.dec (bs ++ r) = some (v, r)
  sound : ∀ l v r, Bytes l → f.dec l = some (v, r) → f.rng v ∧ Bytes r

theorem _root_.Verif.Codec.Bytes.append {a b : List Nat} (ha : Bytes a) (hb : Bytes b) : Bytes (a ++ b) := by
  intro x hx
  rcases List.mem_append.1 hx with h | h
  · exact ha x h
  · exact hb x h

theorem _root_.Verif.Codec.Bytes.tail {a : Nat} {l : List Nat} (h : Bytes (a :: l)) : Bytes l := fun x hx =>
  h x (List.mem_cons_of_mem _ hx)

theorem _root_.Verif.Codec.Bytes.cons {a : Nat} {l : List Nat} (ha : a < 256) (h : Bytes l) : Bytes (a :: l) := by
  intro x hx
  rcases List.mem_cons.1 hx with rfl | hx
  · exact ha
  · exact h x hx

theorem _root_.Verif.Codec.Bytes.nil : Bytes [] := by intro x hx; simp at hx

theorem _root_.Verif.Codec.Bytes.right {a b : List Nat} (h : Bytes (a ++ b)) : Bytes b := fun x hx =>
  h x (List.mem_append_right _ hx)

theorem _root_.Verif.Codec.Bytes.left {a b : List Nat} (h : Bytes (a ++ b)) : Bytes a := fun x hx =>
  h x (List.mem_append_left _ hx)

/-- Encodings of a lawful format determine the value and the rest. -/
theorem Lawful.inj {α : Type} {f : Fmt α} [Lawful f] {u v : α} (hu : f.rng u) (su : f.safe u) (hv : f.rng v)
    (sv : f.safe v) {a b x y : List Nat} (ha : f.enc u = some a) (hb : f.enc v = some b) (h : a ++ x = b ++ y) :
    u = v ∧ x = y := by
  obtain ⟨a', ea, _, _, ra⟩ := Lawful.good (f := f) u hu su
  obtain ⟨b', eb, _, _, rb⟩ := Lawful.good (f := f) v hv sv
  rw [ha] at ea; cases ea
  rw [hb] at eb; cases eb
  have e := ra x
  rw [h, rb y] at e
  simp only [Option.some.injEq, Prod.mk.injEq] at e
  exact ⟨e.1.symm, e.2.symm⟩

theorem readVarIntLoop_sound (w n : Nat) (l : List Nat) (m : Nat) (r : List Nat) (hb : Bytes l)
    (h : readVarIntLoop w n l = some (m, r)) : m < 2 ^ w ∧ Bytes r := by
  induction l generalizing n with
  | nil => simp [readVarIntLoop] at h
  | cons c t ih =>
    simp only [readVarIntLoop] at h
    split at h
    · exact ih _ hb.tail h
    · simp only [Option.some.injEq, Prod.mk.injEq] at h
      obtain ⟨rfl, rfl⟩ := h
      exact ⟨Nat.mod_lt _ (Nat.two_pow_pos w), hb.tail⟩

theorem readVarInt_sound {w : Nat} {l : List Nat} {m : Nat} {r : List Nat} (hb : Bytes l)
    (h : readVarInt w l = some (m, r)) : m < 2 ^ w ∧ Bytes r := readVarIntLoop_sound w 0 l m r hb h

theorem varU_lawful (w : Nat) (hw : 0 < w) : Lawful (varU w) where
  good n h _ := by
    obtain ⟨bs, e, hl, _, hb⟩ := varint_write_fits w n hw h
    exact ⟨bs, e, hb, hl, fun r => varint_roundtrip w n h bs e r⟩
  sound l v r hb h := readVarInt_sound hb h

instance : Lawful (varU 8) := varU_lawful 8 (by decide)
instance : Lawful (varU 16) := varU_lawful 16 (by decide)
instance : Lawful (varU 32) := varU_lawful 32 (by decide)
instance : Lawful (varU 64) := varU_lawful 64 (by decide)

theorem toSigned_range (w n : Nat) (hw : 0 < w) (h : n < 2 ^ w) :
    -(2 ^ (w - 1) : Int) ≤ toSigned w n ∧ toSigned w n < 2 ^ (w - 1) := by
  obtain ⟨k, rfl⟩ : ∃ k, w = k + 1 := ⟨w - 1, by omega⟩
  have e : (2 : Int) ^ (k + 1) = 2 * 2 ^ k := by rw [Int.pow_succ]; omega
  have e' : (2 : Nat) ^ (k + 1) = 2 * 2 ^ k := by rw [Nat.pow_succ]; omega
  have c : ((2 ^ k : Nat) : Int) = (2 : Int) ^ k := by simp
  simp only [toSigned, Nat.add_sub_cancel]
  split <;> omega

theorem sizeVarInt_small {n : Nat} (h : n ≤ 127) : sizeVarInt n = 1 := by
  rw [sizeVarInt, if_pos h]

theorem varI_lawful (w : Nat) (hw : 8 ≤ w) : Lawful (varI w) where
  good n h s := by
    have s : 0 ≤ n := s
    have h : _ ∧ n < 2 ^ (w - 1) := h
    obtain ⟨k, rfl⟩ : ∃ k : Nat, n = (k : Int) := ⟨n.toNat, by omega⟩
    have c : ((2 ^ (w - 1) : Nat) : Int) = (2 : Int) ^ (w - 1) := by simp
    have hk : k < 2 ^ (w - 1) := by omega
    have hp : 2 ^ (w - 1) ≤ 2 ^ w := Nat.pow_le_pow_right (by decide) (by omega)
    have ht : toSigned w k = (k : Int) := by simp [toSigned, hk]
    obtain ⟨bs, e, hl, _, hb⟩ := varint_write_fits w k (by omega) (by omega)
    have hr : ∀ r, (varI w).dec (bs ++ r) = some ((k : Int), r) := by
      intro r
      have := varint_roundtrip w k (by omega) bs e r
      show (readVarInt w (bs ++ r)).map _ = _
      rw [this]; simp [ht]
    by_cases hs : (k : Int) ≤ 127
    · have hs' : k ≤ 127 := by omega
      have e' : writeVarInt w k = some [k] := by
        unfold writeVarInt writeVarIntLoop
        rw [if_pos (by simp; omega)]
        simp [hs']; omega
      rw [e] at e'; cases e'
      refine ⟨[k], ?_, hb, ?_, hr⟩
      · show (if _ then _ else _) = _
        rw [if_pos hs]
        have : ((k : Int) % 128).toNat = k := by omega
        rw [this]
      · show _ = if _ then _ else _
        rw [if_pos hs]; rfl
    · refine ⟨bs, ?_, hb, ?_, hr⟩
      · show (if _ then _ else _) = _
        rw [if_neg hs]; simpa using e
      · show _ = if _ then _ else _
        rw [if_neg hs]; simpa using hl
  sound l v r hb h := by
    have h : (readVarInt w l).map _ = _ := h
    cases hr : readVarInt w l with
    | none => rw [hr] at h; simp at h
    | some p =>
      rw [hr] at h
      simp only [Option.map_some, Option.some.injEq, Prod.mk.injEq] at h
      obtain ⟨h1, h2⟩ := readVarInt_sound hb hr
      rw [← h.1, ← h.2]
      exact ⟨toSigned_range w p.1 (by omega) h1, h2⟩

instance : Lawful (varI 32) := varI_lawful 32 (by decide)
instance : Lawful (varI 64) := varI_lawful 64 (by decide)

theorem leBytes_bytes : ∀ k n, Bytes (leBytes k n)
  | 0, _ => Bytes.nil
  | k + 1, n => Bytes.cons (Nat.mod_lt _ (by decide)) (leBytes_bytes k (n / 256))

theorem readLE_sound : ∀ k l n r, Bytes l → readLE k l = some (n, r) → n < 256 ^ k ∧ Bytes r
  | 0, l, n, r, hb, h => by
    simp only [readLE, Option.some.injEq, Prod.mk.injEq] at h
    rw [← h.1, ← h.2]; exact ⟨by simp, hb⟩
  | k + 1, [], n, r, hb, h => by simp [readLE] at h
  | k + 1, b :: t, n, r, hb, h => by
    simp only [readLE] at h
    cases hr : readLE k t with
    | none => rw [hr] at h; simp at h
    | some p =>
      rw [hr] at h
      simp only [Option.map_some, Option.some.injEq, Prod.mk.injEq] at h
      obtain ⟨h1, h2⟩ := readLE_sound k t p.1 p.2 hb.tail hr
      rw [← h.1, ← h.2, Nat.pow_succ]
      have := hb b List.mem_cons_self
      exact ⟨by omega, h2⟩

instance (k : Nat) : Lawful (raw k) where
  good n h _ := ⟨leBytes k n, rfl, leBytes_bytes k n, leBytes_length k n, fun r => readLE_leBytes k n r h⟩
  sound l v r hb h := readLE_sound k l v r hb h

theorem rawI_lawful (k : Nat) (hk : 0 < k) : Lawful (rawI k) where
  good n h _ := by
    have h : -(2 ^ (8 * k - 1) : Int) ≤ n ∧ n < 2 ^ (8 * k - 1) := h
    obtain ⟨j, hj⟩ : ∃ j, 8 * k = j + 1 := ⟨8 * k - 1, by omega⟩
    have e256 : (256 : Int) ^ k = 2 * 2 ^ j := by
      have : (256 : Int) = 2 ^ 8 := by decide
      rw [this, ← Int.pow_mul, hj, Int.pow_succ]; omega
    have e256' : (256 : Nat) ^ k = 2 * 2 ^ j := by
      have : (256 : Nat) = 2 ^ 8 := by decide
      rw [this, ← Nat.pow_mul, hj, Nat.pow_succ]; omega
    have c : ((2 ^ j : Nat) : Int) = (2 : Int) ^ j := by simp
    have hp := Nat.two_pow_pos j
    simp only [hj, Nat.add_sub_cancel] at h
    have hm0 : 0 ≤ n % 256 ^ k := Int.emod_nonneg _ (by omega)
    have hm1 : n % 256 ^ k < 256 ^ k := Int.emod_lt_of_pos _ (by omega)
    have hlt : (n % 256 ^ k).toNat < 256 ^ k := by omega
    refine ⟨_, rfl, leBytes_bytes _ _, leBytes_length _ _, fun r => ?_⟩
    show (readLE k (leBytes k (n % 256 ^ k).toNat ++ r)).map _ = _
    rw [readLE_leBytes _ _ _ hlt]
    simp only [Option.map_some, Option.some.injEq, Prod.mk.injEq, and_true]
    have hval : n % 256 ^ k = if 0 ≤ n then n else n + 256 ^ k := by
      split
      · exact Int.emod_eq_of_lt (by omega) (by omega)
      · have := Int.add_emod_right n (256 ^ k)
        rw [← this]; exact Int.emod_eq_of_lt (by omega) (by omega)
    have e2 : (2 : Int) ^ (j + 1) = 2 * 2 ^ j := by rw [Int.pow_succ]; omega
    simp only [toSigned, hj, Nat.add_sub_cancel]
    rw [hval, e2]
    split <;> split <;> omega
  sound l v r hb h := by
    have h : (readLE k l).map _ = _ := h
    cases hr : readLE k l with
    | none => rw [hr] at h; simp at h
    | some p =>
      rw [hr] at h
      simp only [Option.map_some, Option.some.injEq, Prod.mk.injEq] at h
      obtain ⟨h1, h2⟩ := readLE_sound k l p.1 p.2 hb hr
      rw [← h.1, ← h.2]
      have e256' : (256 : Nat) ^ k = 2 ^ (8 * k) := by
        have : (256 : Nat) = 2 ^ 8 := by decide
        rw [this, ← Nat.pow_mul]
      exact ⟨toSigned_range _ p.1 (by omega) (by omega), h2⟩

instance : Lawful (rawI 4) := rawI_lawful 4 (by decide)
instance : Lawful (rawI 8) := rawI_lawful 8 (by decide)

instance : Lawful bool where
  good b _ _ := ⟨[if b then 1 else 0], rfl, by cases b <;> (intro x hx; simp at hx; omega), rfl,
    fun r => by cases b <;> rfl⟩
  sound l v r hb h := by
    cases l with
    | nil => simp [bool] at h
    | cons c t =>
      simp only [bool, Option.some.injEq, Prod.mk.injEq] at h
      rw [← h.2]; exact ⟨trivial, hb.tail⟩

theorem readN_append (s r : List Nat) : readN s.length (s ++ r) = some (s, r) := by
  simp [readN]

theorem readN_sound {k : Nat} {l s r : List Nat} (hb : Bytes l) (h : readN k l = some (s, r)) :
    s.length = k ∧ Bytes s ∧ Bytes r := by
  unfold readN at h
  split at h
  · cases h
  · simp only [Option.some.injEq, Prod.mk.injEq] at h
    rw [← h.1, ← h.2]
    refine ⟨by simp; omega, fun x hx => hb x (List.mem_of_mem_take hx), fun x hx => hb x (List.mem_of_mem_drop hx)⟩

theorem compact_bytes (n : Nat) (h : n ≤ MAX_SIZE) : Bytes (writeCompactSize n) ∧
    (writeCompactSize n).length = sizeCompactSize n ∧
    ∀ r, readCompactSize (writeCompactSize n ++ r) = some (n, r) := by
  have hM : MAX_SIZE = 33554432 := rfl
  have h64 : n < 2 ^ 64 := by omega
  refine ⟨(compact_size_roundtrip n h64 []).2.1, (compact_size_roundtrip n h64 []).1, fun r => ?_⟩
  rw [(compact_size_roundtrip n h64 r).2.2, if_pos (by omega)]

theorem compact_sound {l r : List Nat} {n : Nat} (hb : Bytes l) (h : readCompactSize l = some (n, r)) :
    n ≤ MAX_SIZE ∧ Bytes r := by
  obtain ⟨h1, h2⟩ := compact_size_canonical l r n hb h
  exact ⟨h1, (h2 ▸ hb).right⟩

instance : Lawful str where
  good s h _ := by
    obtain ⟨hl, hs⟩ := h
    obtain ⟨b, e, rt⟩ := compact_bytes s.length (by show _ ≤ 33554432; simp [MAX_STRING] at hl; omega)
    refine ⟨_, rfl, b.append hs, by rw [List.length_append, e]; rfl, fun r => ?_⟩
    show (readCompactSize _).bind _ = _
    rw [List.append_assoc, rt]
    simp only [Option.bind_some]
    rw [if_neg (by omega), readN_append]
  sound l v r hb h := by
    have h : (readCompactSize l).bind _ = _ := h
    cases hr : readCompactSize l with
    | none => rw [hr] at h; cases h
    | some p =>
      rw [hr] at h
      simp only [Option.bind_some] at h
      split at h
      · cases h
      · obtain ⟨_, b2⟩ := compact_sound hb hr
        obtain ⟨h1, h2, h3⟩ := readN_sound b2 h
        exact ⟨⟨by omega, h2⟩, h3⟩

instance : Lawful bytes where
  good s h _ := by
    obtain ⟨hl, hs⟩ := h
    obtain ⟨b, e, rt⟩ := compact_bytes s.length hl
    refine ⟨_, rfl, b.append hs, by rw [List.length_append, e]; rfl, fun r => ?_⟩
    show (readCompactSize _).bind _ = _
    rw [List.append_assoc, rt]
    simp only [Option.bind_some]
    rw [readN_append]
  sound l v r hb h := by
    have h : (readCompactSize l).bind _ = _ := h
    cases hr : readCompactSize l with
    | none => rw [hr] at h; cases h
    | some p =>
      rw [hr] at h
      simp only [Option.bind_some] at h
      obtain ⟨b1, b2⟩ := compact_sound hb hr
      obtain ⟨h1, h2, h3⟩ := readN_sound b2 h
      exact ⟨⟨by omega, h2⟩, h3⟩

instance (k : Nat) : Lawful (blob k) where
  good s h _ := ⟨s, rfl, h.2, h.1, fun r => by
    show readN k _ = _
    rw [← h.1]; exact readN_append s r⟩
  sound l v r hb h := by
    obtain ⟨h1, h2, h3⟩ := readN_sound hb h
    exact ⟨⟨h1, h2⟩, h3⟩

theorem readRegId_sound {l r : List Nat} {x : RegId} (hb : Bytes l) (h : readRegId l = some (x, r)) :
    x.Ok ∧ Bytes r := by
  unfold readRegId at h
  cases h1 : readVarInt 32 l with
  | none => rw [h1] at h; cases h
  | some p =>
    rw [h1] at h
    simp only [Option.bind_some] at h
    obtain ⟨a1, a2⟩ := readVarInt_sound hb h1
    cases h2 : readVarInt 16 p.2 with
    | none => rw [h2] at h; cases h
    | some q =>
      rw [h2] at h
      simp only [Option.map_some, Option.some.injEq, Prod.mk.injEq] at h
      obtain ⟨b1, b2⟩ := readVarInt_sound a2 h2
      rw [← h.1, ← h.2]; exact ⟨⟨a1, b1⟩, b2⟩

theorem writeRegId_bytes {x : RegId} (h : x.Ok) : ∃ bs, writeRegId x = some bs ∧ Bytes bs := by
  obtain ⟨a, ha, _, _, ba⟩ := varint_write_fits 32 x.height (by omega) h.1
  obtain ⟨b, hb, _, _, bb⟩ := varint_write_fits 16 x.index (by omega) h.2
  exact ⟨a ++ b, by simp [writeRegId, ha, hb], ba.append bb⟩

instance : Lawful regid where
  good x h _ := by
    obtain ⟨bs, e, hl, _, _, hr⟩ := regid_roundtrip x h
    obtain ⟨bs', e', hb⟩ := writeRegId_bytes h
    rw [e] at e'; cases e'
    exact ⟨bs, e, hb, hl, hr⟩
  sound l v r hb h := readRegId_sound hb h

instance : Lawful userid where
  good u h s := by
    have hs : u ≠ .pub .invalid := s
    have hu : u.Ok := by
      have h : userRange u := h
      unfold userRange at h
      split at h
      · exact absurd rfl hs
      · exact h
    obtain ⟨bs, e, hr⟩ := userid_roundtrip u hu
    refine ⟨bs, e, ?_, ?_, hr⟩
    · cases u with
      | null => cases e; exact Bytes.cons (by decide) Bytes.nil
      | reg x =>
        obtain ⟨c, ec, hl, h2, h8, _⟩ := regid_roundtrip x hu
        obtain ⟨c', ec', hc⟩ := writeRegId_bytes hu
        rw [ec] at ec'; cases ec'
        simp only [writeUserId] at e
        rw [if_pos (by omega), ec] at e
        cases e
        exact Bytes.cons (by omega) hc
      | key k =>
        simp only [writeUserId] at e
        rw [if_pos hu.1] at e; cases e
        exact Bytes.cons (by decide) hu.2
      | pub p =>
        cases p with
        | invalid => exact absurd rfl hs
        | valid l =>
          obtain ⟨hl, hb, _⟩ := hu
          simp only [writeUserId] at e
          rw [if_pos (by omega)] at e; cases e
          exact Bytes.cons (by omega) hb
    · cases u with
      | null => cases e; rfl
      | reg x =>
        obtain ⟨c, ec, hl, h2, h8, _⟩ := regid_roundtrip x hu
        simp only [writeUserId] at e
        rw [if_pos (by omega), ec] at e
        cases e
        show _ = 1 + sizeRegId x
        simp [hl]; omega
      | key k =>
        simp only [writeUserId] at e
        rw [if_pos hu.1] at e; cases e
        show _ = 1 + k.length
        simp; omega
      | pub p =>
        cases p with
        | invalid => exact absurd rfl hs
        | valid l =>
          obtain ⟨hl, hb, _⟩ := hu
          simp only [writeUserId] at e
          rw [if_pos (by omega)] at e; cases e
          rfl
  sound l v r hb h := by
    have h : readUserId l = some (v, r) := h
    unfold readUserId at h
    cases hr : readCompactSize l with
    | none => rw [hr] at h; cases h
    | some p =>
      rw [hr] at h
      simp only [Option.bind_some] at h
      obtain ⟨_, b2⟩ := compact_sound hb hr
      split at h
      · cases hq : readRegId p.2 with
        | none => rw [hq] at h; cases h
        | some q =>
          rw [hq] at h
          simp only [Option.map_some, Option.some.injEq, Prod.mk.injEq] at h
          rw [← h.1, ← h.2]
          exact readRegId_sound b2 hq
      split at h
      · cases hq : readN 20 p.2 with
        | none => rw [hq] at h; cases h
        | some q =>
          rw [hq] at h
          simp only [Option.map_some, Option.some.injEq, Prod.mk.injEq] at h
          rw [← h.1, ← h.2]
          obtain ⟨h1, h2, h3⟩ := readN_sound b2 hq
          exact ⟨⟨h1, h2⟩, h3⟩
      split at h
      · cases hq : readN 33 p.2 with
        | none => rw [hq] at h; cases h
        | some q =>
          rw [hq] at h
          simp only [Option.map_some, Option.some.injEq, Prod.mk.injEq] at h
          rw [← h.1, ← h.2]
          obtain ⟨h1, h2, h3⟩ := readN_sound b2 hq
          refine ⟨?_, h3⟩
          generalize q.1 = s at *
          cases s with
          | nil => simp at h1
          | cons c t =>
            show userRange (.pub (if (c = 2 ∨ c = 3) ∧ (c :: t).length = 33 then PubKey.valid (c :: t) else .invalid))
            split
            · rename_i hc
              exact ⟨h1, h2, by simpa using hc.1⟩
            · trivial
      split at h
      · simp only [Option.some.injEq, Prod.mk.injEq] at h
        rw [← h.1, ← h.2]; exact ⟨trivial, b2⟩
      · cases h

instance {α β : Type} (f : Fmt α) (g : Fmt β) [Lawful f] [Lawful g] : Lawful (pair f g) where
  good v h s := by
    obtain ⟨a, ea, ba, la, ra⟩ := Lawful.good (f := f) v.1 h.1 s.1
    obtain ⟨b, eb, bb, lb, rb⟩ := Lawful.good (f := g) v.2 h.2 s.2
    refine ⟨a ++ b, by simp [pair, ea, eb], ba.append bb, by simp [pair, la, lb], fun r => ?_⟩
    show (f.dec _).bind _ = _
    rw [List.append_assoc, ra]
    simp [rb]
  sound l v r hb h := by
    have h : (f.dec l).bind _ = _ := h
    cases h1 : f.dec l with
    | none => rw [h1] at h; cases h
    | some p =>
      rw [h1] at h
      simp only [Option.bind_some] at h
      obtain ⟨a1, a2⟩ := Lawful.sound (f := f) l p.1 p.2 hb h1
      cases h2 : g.dec p.2 with
      | none => rw [h2] at h; cases h
      | some q =>
        rw [h2] at h
        simp only [Option.map_some, Option.some.injEq, Prod.mk.injEq] at h
        obtain ⟨b1, b2⟩ := Lawful.sound (f := g) p.2 q.1 q.2 a2 h2
        rw [← h.1, ← h.2]
        exact ⟨⟨a1, b1⟩, b2⟩

theorem conv_lawful {α β : Type} (f : Fmt α) (to : β → α) (of : α → β) [Lawful f] (h1 : ∀ v, of (to v) = v)
    (h2 : ∀ v, to (of v) = v) : Lawful (conv f to of) where
  good v h s := by
    obtain ⟨a, ea, ba, la, ra⟩ := Lawful.good (f := f) (to v) h s
    refine ⟨a, ea, ba, la, fun r => ?_⟩
    show (f.dec _).map _ = _
    rw [ra]; simp [h1]
  sound l v r hb h := by
    have h : (f.dec l).map _ = _ := h
    cases hq : f.dec l with
    | none => rw [hq] at h; cases h
    | some p =>
      rw [hq] at h
      simp only [Option.map_some, Option.some.injEq, Prod.mk.injEq] at h
      obtain ⟨a1, a2⟩ := Lawful.sound (f := f) l p.1 p.2 hb hq
      rw [← h.1, ← h.2]
      exact ⟨by show f.rng (to (of p.1)); rw [h2]; exact a1, a2⟩

theorem mark_lawful (b : Nat) (hb : b < 256) : Lawful (mark b) where
  good v _ _ := ⟨[b], rfl, Bytes.cons hb Bytes.nil, rfl, fun r => rfl⟩
  sound l v r hb h := by
    cases l with
    | nil => simp [mark] at h
    | cons c t =>
      simp only [mark, Option.some.injEq, Prod.mk.injEq, true_and] at h
      rw [← h]; exact ⟨trivial, hb.tail⟩

theorem encAll_good {α : Type} (f : Fmt α) [Lawful f] (v : List α) (h : ∀ x ∈ v, f.rng x)
    (s : ∀ x ∈ v, f.safe x) : ∃ bs, encAll f v = some bs ∧ Bytes bs ∧ bs.length = sizeAll f v ∧
    ∀ r, decAll f v.length (bs ++ r) = some (v, r) := by
  induction v with
  | nil => exact ⟨[], rfl, Bytes.nil, rfl, fun r => rfl⟩
  | cons x t ih =>
    obtain ⟨a, ea, ba, la, ra⟩ := Lawful.good (f := f) x (h x List.mem_cons_self) (s x List.mem_cons_self)
    obtain ⟨b, eb, bb, lb, rb⟩ := ih (fun y hy => h y (List.mem_cons_of_mem _ hy))
      (fun y hy => s y (List.mem_cons_of_mem _ hy))
    refine ⟨a ++ b, by simp [encAll, ea, eb], ba.append bb, by simp [sizeAll] at lb ⊢; omega, fun r => ?_⟩
    simp only [List.length_cons, decAll]
    rw [List.append_assoc, ra]
    simp [rb]

theorem decAll_sound {α : Type} (f : Fmt α) [Lawful f] (n : Nat) (l : List Nat) (v : List α) (r : List Nat)
    (hb : Bytes l) (h : decAll f n l = some (v, r)) : v.length = n ∧ (∀ x ∈ v, f.rng x) ∧ Bytes r := by
  induction n generalizing l v with
  | zero =>
    simp only [decAll, Option.some.injEq, Prod.mk.injEq] at h
    rw [← h.1, ← h.2]; exact ⟨rfl, by simp, hb⟩
  | succ n ih =>
    simp only [decAll] at h
    cases h1 : f.dec l with
    | none => rw [h1] at h; cases h
    | some p =>
      rw [h1] at h
      simp only [Option.bind_some] at h
      obtain ⟨a1, a2⟩ := Lawful.sound (f := f) l p.1 p.2 hb h1
      cases h2 : decAll f n p.2 with
      | none => rw [h2] at h; cases h
      | some q =>
        rw [h2] at h
        simp only [Option.map_some, Option.some.injEq, Prod.mk.injEq] at h
        obtain ⟨b1, b2, b3⟩ := ih p.2 q.1 a2 (by rw [h2, ← h.2])
        rw [← h.1]
        refine ⟨by simp [b1], fun x hx => ?_, b3⟩
        rcases List.mem_cons.1 hx with rfl | hx
        · exact a1
        · exact b2 x hx

instance {α : Type} (f : Fmt α) [Lawful f] : Lawful (list f) where
  good v h s := by
    obtain ⟨bs, e, hb, hl, hr⟩ := encAll_good f v h.2 s
    obtain ⟨cb, cl, cr⟩ := compact_bytes v.length h.1
    refine ⟨writeCompactSize v.length ++ bs, by simp [list, e], cb.append hb, by simp [list, cl, hl], fun r => ?_⟩
    show (readCompactSize _).bind _ = _
    rw [List.append_assoc, cr]
    simp [hr]
  sound l v r hb h := by
    have h : (readCompactSize l).bind _ = _ := h
    cases hr : readCompactSize l with
    | none => rw [hr] at h; cases h
    | some p =>
      rw [hr] at h
      simp only [Option.bind_some] at h
      obtain ⟨b1, b2⟩ := compact_sound hb hr
      obtain ⟨h1, h2, h3⟩ := decAll_sound f p.1 p.2 v r b2 h
      exact ⟨⟨by omega, h2⟩, h3⟩

section MapLaws
variable {K V : Type} [DecidableEq K]

theorem put_last (lt : K → K → Bool) (ho : StrictTotal lt) (m : List (K × V)) (k : K) (v : V)
    (h : ∀ p ∈ m, lt p.1 k = true) : put lt m k v = m ++ [(k, v)] ∧ find m k = none := by
  induction m with
  | nil => exact ⟨rfl, rfl⟩
  | cons p t ih =>
    obtain ⟨i1, i2⟩ := ih (fun q hq => h q (List.mem_cons_of_mem _ hq))
    have hp := h p List.mem_cons_self
    have hne : ¬ k = p.1 := by
      rintro rfl
      have := ho.irrefl p.1
      rw [hp] at this; cases this
    have hlt : lt k p.1 = false := by
      cases hc : lt k p.1 with
      | false => rfl
      | true =>
        have := ho.trans _ _ _ hp hc
        rw [ho.irrefl] at this; cases this
    obtain ⟨k', v'⟩ := p
    simp only at hne hlt
    have hne' : ¬ k' = k := fun e => hne e.symm
    constructor
    · simp [put, hne, hne', hlt, i1]
    · simp [find, hne, hne', i2]

theorem insert_sorted (lt : K → K → Bool) (ho : StrictTotal lt) (a b : List (K × V))
    (h : SortedBy lt (a ++ b)) : b.foldl (insertNew lt) a = a ++ b := by
  induction b generalizing a with
  | nil => simp
  | cons p t ih =>
    have hlast : ∀ q ∈ a, lt q.1 p.1 = true := by
      intro q hq
      unfold SortedBy at h
      rw [List.pairwise_append] at h
      exact h.2.2 q hq p List.mem_cons_self
    obtain ⟨e1, e2⟩ := put_last lt ho a p.1 p.2 hlast
    simp only [List.foldl_cons]
    have : insertNew lt a p = a ++ [p] := by
      unfold insertNew
      rw [e2]; simpa using e1
    rw [this, ih (a ++ [p]) (by simpa using h)]
    simp

theorem insertNew_sorted (lt : K → K → Bool) (ho : StrictTotal lt) (m : List (K × V)) (e : K × V)
    (h : SortedBy lt m) : SortedBy lt (insertNew lt m e) := by
  unfold insertNew
  split
  · exact h
  · exact sorted_put ho h _ _

theorem insertNew_mem (lt : K → K → Bool) (m : List (K × V)) (e p : K × V) (h : p ∈ insertNew lt m e) :
    p = e ∨ p ∈ m := by
  unfold insertNew at h
  split at h
  · exact Or.inr h
  · rcases mem_put h with h | h
    · exact Or.inl h
    · exact Or.inr h

theorem put_length (lt : K → K → Bool) (m : List (K × V)) (k : K) (v : V) :
    (put lt m k v).length ≤ m.length + 1 := by
  induction m with
  | nil => simp [put]
  | cons p t ih =>
    obtain ⟨k', v'⟩ := p
    simp only [put]
    split
    · simp
    · split
      · simp
      · simp; omega

theorem insertNew_length (lt : K → K → Bool) (m : List (K × V)) (e : K × V) :
    (insertNew lt m e).length ≤ m.length + 1 := by
  unfold insertNew
  split
  · omega
  · exact put_length lt m e.1 e.2

theorem fold_sound (lt : K → K → Bool) (ho : StrictTotal lt) (P : K × V → Prop) (a b : List (K × V))
    (ha : SortedBy lt a) (pa : ∀ x ∈ a, P x) (pb : ∀ x ∈ b, P x) :
    SortedBy lt (b.foldl (insertNew lt) a) ∧ (∀ x ∈ b.foldl (insertNew lt) a, P x) ∧
    (b.foldl (insertNew lt) a).length ≤ a.length + b.length := by
  induction b generalizing a with
  | nil => exact ⟨ha, pa, by simp⟩
  | cons p t ih =>
    have hl := insertNew_length lt a p
    obtain ⟨i1, i2, i3⟩ := ih (insertNew lt a p) (insertNew_sorted lt ho a p ha)
      (fun x hx => by
        rcases insertNew_mem lt a p x hx with rfl | hx
        · exact pb _ List.mem_cons_self
        · exact pa x hx)
      (fun x hx => pb x (List.mem_cons_of_mem _ hx))
    refine ⟨i1, i2, ?_⟩
    simp only [List.foldl_cons, List.length_cons] at i3 ⊢
    omega

theorem map_lawful (lt : K → K → Bool) (ho : StrictTotal lt) (f : Fmt (K × V)) [Lawful f] :
    Lawful (map lt f) where
  good v h s := by
    obtain ⟨bs, e, hb, hl, hr⟩ := Lawful.good (f := list f) v h.1 s
    refine ⟨bs, e, hb, hl, fun r => ?_⟩
    show ((list f).dec _).map _ = _
    rw [hr]
    simp only [Option.map_some]
    rw [insert_sorted lt ho [] v (by simpa using h.2)]
    rfl
  sound l v r hb h := by
    have h : ((list f).dec l).map _ = _ := h
    cases hq : (list f).dec l with
    | none => rw [hq] at h; cases h
    | some p =>
      rw [hq] at h
      simp only [Option.map_some, Option.some.injEq, Prod.mk.injEq] at h
      obtain ⟨⟨a1, a2⟩, a3⟩ := Lawful.sound (f := list f) l p.1 p.2 hb hq
      obtain ⟨b1, b2, b3⟩ := fold_sound lt ho f.rng [] p.1 (by simp [SortedBy]) (by simp) a2
      rw [← h.1, ← h.2]
      exact ⟨⟨⟨by simp at b3; omega, b2⟩, b1⟩, a3⟩

theorem sorted_keys_nodup (lt : K → K → Bool) (ho : StrictTotal lt) (m : List (K × V))
    (h : SortedBy lt m) : (m.map Prod.fst).Nodup := by
  unfold SortedBy at h
  rw [List.nodup_iff_pairwise_ne, List.pairwise_map]
  exact h.imp (fun {a b} hab e => by rw [e, ho.irrefl] at hab; cases hab)

theorem strictMap_lawful (lt : K → K → Bool) (ho : StrictTotal lt) (f : Fmt (K × V)) [Lawful f] :
    Lawful (strictMap lt f) where
  good v h s := by
    obtain ⟨bs, e, hb, hl, hr⟩ := Lawful.good (f := list f) v h.1 s
    refine ⟨bs, e, hb, hl, fun r => ?_⟩
    show ((list f).dec _).bind _ = _
    rw [hr]
    simp only [Option.bind_some]
    rw [if_pos (sorted_keys_nodup lt ho v h.2), insert_sorted lt ho [] v (by simpa using h.2)]
    rfl
  sound l v r hb h := by
    have h : ((list f).dec l).bind _ = _ := h
    cases hq : (list f).dec l with
    | none => rw [hq] at h; cases h
    | some p =>
      rw [hq] at h
      simp only [Option.bind_some] at h
      split at h
      · simp only [Option.some.injEq, Prod.mk.injEq] at h
        obtain ⟨⟨a1, a2⟩, a3⟩ := Lawful.sound (f := list f) l p.1 p.2 hb hq
        obtain ⟨b1, b2, b3⟩ := fold_sound lt ho f.rng [] p.1 (by simp [SortedBy]) (by simp) a2
        rw [← h.1, ← h.2]
        exact ⟨⟨⟨by simp at b3; omega, b2⟩, b1⟩, a3⟩
      · cases h

end MapLaws

instance {α : Type} (f : Fmt α) [Lawful f] : Lawful (opt f) where
  good v h s := by
    cases v with
    | none => exact ⟨[0], rfl, Bytes.cons (by decide) Bytes.nil, rfl, fun r => rfl⟩
    | some x =>
      obtain ⟨a, ea, ba, la, ra⟩ := Lawful.good (f := f) x h s
      refine ⟨1 :: a, by simp [opt, ea], Bytes.cons (by decide) ba, by simp [opt, la]; omega, fun r => ?_⟩
      simp [opt, ra]
  sound l v r hb h := by
    cases l with
    | nil => simp [opt] at h
    | cons c t =>
      simp only [opt] at h
      split at h
      · simp only [Option.some.injEq, Prod.mk.injEq] at h
        rw [← h.1, ← h.2]; exact ⟨trivial, hb.tail⟩
      · cases hq : f.dec t with
        | none => rw [hq] at h; cases h
        | some p =>
          rw [hq] at h
          simp only [Option.map_some, Option.some.injEq, Prod.mk.injEq] at h
          obtain ⟨a1, a2⟩ := Lawful.sound (f := f) t p.1 p.2 hb.tail hq
          rw [← h.1, ← h.2]; exact ⟨a1, a2⟩

theorem tagged_lawful {ι : Type} (code : ι → Nat) (ofCode : Nat → Option ι) (P : ι → Type) (f : ∀ i, Fmt (P i))
    (hc : ∀ i, code i < 256) (ho : ∀ i, ofCode (code i) = some i) (hf : ∀ i, Lawful (f i)) :
    Lawful (tagged code ofCode P f) where
  good v h s := by
    obtain ⟨i, x⟩ := v
    have := hf i
    obtain ⟨a, ea, ba, la, ra⟩ := Lawful.good (f := f i) x h s
    refine ⟨code i :: a, by simp [tagged, ea], Bytes.cons (hc i) ba, by simp [tagged, la]; omega, fun r => ?_⟩
    simp [tagged, ho, ra]
  sound l v r hb h := by
    cases l with
    | nil => simp [tagged] at h
    | cons c t =>
      simp only [tagged] at h
      cases hi : ofCode c with
      | none => rw [hi] at h; cases h
      | some i =>
        rw [hi] at h
        simp only [Option.bind_some] at h
        have := hf i
        cases hq : (f i).dec t with
        | none => rw [hq] at h; cases h
        | some p =>
          rw [hq] at h
          simp only [Option.map_some, Option.some.injEq, Prod.mk.injEq] at h
          obtain ⟨a1, a2⟩ := Lawful.sound (f := f i) t p.1 p.2 hb.tail hq
          rw [← h.1, ← h.2]; exact ⟨a1, a2⟩

end Verif.Wire
