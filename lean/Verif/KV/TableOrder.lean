import Verif.KV.IterProps
import Verif.Codec.Props
/-!
# C09 for the real tables

The iteration theorems of `IterProps.lean` assume that the map order of the keys is a strict total
order that agrees with the database byte order.  Here the assumption is discharged for every table
whose key shape is `ordered` (see `Codec.key_shapes_table`): accounts, registration ids, votes,
contracts and their data, CDPs by id, DEX orders, proposals, UTXOs, receipts, ...
-/
namespace Verif.KV
open Verif.Codec

/-- Keys of a table: values the C++ key type can hold. -/
abbrev TKey (k : KT) := { v : k.Val // k.Ok v }

/-- Decidable equality of key values (structural, as `operator==`). -/
instance decVal : (k : KT) → DecidableEq k.Val
  | .blob _ => inferInstanceAs (DecidableEq (List Nat))
  | .u8 => inferInstanceAs (DecidableEq Nat)
  | .leb _ => inferInstanceAs (DecidableEq Nat)
  | .str => inferInstanceAs (DecidableEq (List Nat))
  | .vec _ => inferInstanceAs (DecidableEq (List Nat))
  | .tail => inferInstanceAs (DecidableEq (List Nat))
  | .optVar _ => inferInstanceAs (DecidableEq Nat)
  | .pair a b =>
    have := decVal a
    have := decVal b
    inferInstanceAs (DecidableEq (a.Val × b.Val))

/-- The cache configuration of table `t` with key shape `k`: `std::map` uses the C++ order of the key,
LevelDB the byte order of `GenDbKey`. -/
def tableCfg {V : Type} (t : Table) (k : KT) (kEmpty : TKey k → Bool) (vEmpty : V → Bool) (empty : V)
    (h : vEmpty empty = true) : Cfg (TKey k) V where
  kEmpty := kEmpty
  vEmpty := vEmpty
  empty := empty
  empty_ok := h
  lt a b := k.lt a.1 b.1
  dbLt a b := Codec.bytesLt (genDbKey t k a.1) (genDbKey t k b.1)

theorem bytesLt_total : ∀ x y : List Nat, Codec.bytesLt x y = false → Codec.bytesLt y x = false → x = y
  | [], [], _, _ => rfl
  | [], _ :: _, h, _ => by simp [Codec.bytesLt] at h
  | _ :: _, [], _, h => by simp [Codec.bytesLt] at h
  | a :: x, b :: y, h1, h2 => by
    simp only [Codec.bytesLt] at h1 h2
    by_cases c1 : a < b
    · simp [c1] at h1
    · by_cases c2 : b < a
      · simp [c2] at h2
      · simp only [c1, c2, if_false] at h1 h2
        rw [bytesLt_total x y h1 h2, show a = b by omega]

theorem bytesLt_trans : ∀ x y z : List Nat, Codec.bytesLt x y = true → Codec.bytesLt y z = true →
    Codec.bytesLt x z = true
  | [], [], _, h, _ => by simp [Codec.bytesLt] at h
  | [], _ :: _, [], _, h => by simp [Codec.bytesLt] at h
  | [], _ :: _, _ :: _, _, _ => rfl
  | _ :: _, [], _, h, _ => by simp [Codec.bytesLt] at h
  | _ :: _, _ :: _, [], _, h => by simp [Codec.bytesLt] at h
  | a :: x, b :: y, c :: z, h1, h2 => by
    simp only [Codec.bytesLt] at h1 h2 ⊢
    by_cases c1 : a < b
    · by_cases c2 : b < c
      · simp [show a < c by omega]
      · by_cases c3 : c < b
        · simp [c2, c3] at h2
        · simp [show a < c by omega]
    · by_cases c1' : b < a
      · simp [c1, c1'] at h1
      · simp only [c1, c1', if_false] at h1
        by_cases c2 : b < c
        · simp [show a < c by omega]
        · by_cases c3 : c < b
          · simp [c2, c3] at h2
          · simp only [c2, c3, if_false] at h2
            simp only [show ¬ a < c by omega, show ¬ c < a by omega, if_false]
            exact bytesLt_trans x y z h1 h2

section
variable {V : Type} (t : Table) (k : KT) (kEmpty : TKey k → Bool) (vEmpty : V → Bool) (empty : V)
  (h : vEmpty empty = true)

theorem table_order_agrees (hw : k.wf = true) (ho : k.ordered = true) (a b : TKey k) :
    (tableCfg t k kEmpty vEmpty empty h).dbLt a b = (tableCfg t k kEmpty vEmpty empty h).lt a b :=
  db_key_order_agrees t k hw ho a.1 b.1 a.2 b.2

theorem table_strictTotal (hw : k.wf = true) (ho : k.ordered = true) :
    StrictTotal (tableCfg t k kEmpty vEmpty empty h).lt := by
  have e := table_order_agrees t k kEmpty vEmpty empty h hw ho
  refine ⟨fun a => ?_, fun a b d h1 h2 => ?_, fun a b h1 h2 => ?_⟩
  · rw [← e]; exact bytesLt_irrefl _
  · rw [← e] at h1 h2 ⊢; exact bytesLt_trans _ _ _ h1 h2
  · rw [← e] at h1 h2
    have := bytesLt_total _ _ h1 h2
    exact Subtype.ext ((db_keys_never_collide t t k hw a.1 b.1 a.2 b.2 k b.1).2 this)

/-- **C09 for every table with an ordered key shape**, without further hypotheses on orders: after any
sequence of operations on a stack of caches over a table stored in key order without empty keys,
iterating lists exactly the entries a point read returns, in strictly increasing key order. -/
theorem ordered_table_iterates (hw : k.wf = true) (ho : k.ordered = true) (d : List (TKey k × V))
    (hd : SortedBy (tableCfg t k kEmpty vEmpty empty h).dbLt d)
    (hk : NoEmptyKey (tableCfg t k kEmpty vEmpty empty h) d) (os : List (Op (TKey k) V)) :
    let c := tableCfg t k kEmpty vEmpty empty h
    let s := (run c (.root [] d) os).2
    SortedBy c.lt (listAll c s) ∧ ∀ key v, ((key, v) ∈ listAll c s ↔ (getData c s key).1 = some v) := by
  intro c s
  have hst := table_strictTotal t k kEmpty vEmpty empty h hw ho
  have hag := table_order_agrees t k kEmpty vEmpty empty h hw ho
  have hst' : StrictTotal c.dbLt := by
    have : c.dbLt = c.lt := by funext a b; exact hag a b
    rw [this]; exact hst
  refine iteration_lists_live_partial c hst hag s (reachable_wfi c hst hst' os _ ?_)
  exact ⟨List.Pairwise.nil, hd, by intro p hp; simp at hp, hk⟩

end

/-- The vote table (`VOTE`, prefix `vote`) is one of them. -/
example : ("VOTE", KT.pair (.leb 64) (.vec 6)) ∈ keyShapes ∧ (KT.pair (.leb 64) (.vec 6)).wf = true ∧
    (KT.pair (.leb 64) (.vec 6)).ordered = true := by decide

end Verif.KV
