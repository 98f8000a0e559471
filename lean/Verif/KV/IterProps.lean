import Verif.KV.IterLemmas
import Verif.KV.Props
/-!
# Property C09: iterating a cached table

The full claim — for every table, iteration through a stack of caches lists exactly the live
entries, once each, in key order — holds when the C++ order of the keys (`std::map`) is the byte
order of their database encoding.  It is proved under that hypothesis (`..._partial`), and refuted
without it (`..._violated`): tables keyed by token symbols (`ASSET`, `CDP_RATIO_INDEX`,
`CDP_HEIGHT_INDEX`, `USER_CDP`) encode a string with its length in front, so the database orders
symbols by length first while `std::map` orders them alphabetically.
-/
namespace Verif.KV

variable {K V : Type} [DecidableEq K] (c : Cfg K V)

/-- Every stack reached from an ordered database table by any operations satisfies the hypothesis
`WFI` of the theorems below. -/
theorem reachable_wfi (ho : StrictTotal c.lt) (ho' : StrictTotal c.dbLt) (os : List (Op K V)) :
    ∀ s : Cache K V, WFI c s → WFI c (run c s os).2 := by
  induction os with
  | nil => intro s h; exact h
  | cons o os ih => intro s h; exact ih _ (wfi_step c ho ho' s o h)

/-- `live` spelled out. -/
theorem live_iff (s : Cache K V) (hw : WFI c s) (k : K) (v : V) :
    live c s k = some v ↔ c.vEmpty v = false ∧ raw s k = some v := by
  rw [live_eq]
  by_cases hk : c.kEmpty k = true
  · simp [hk, raw_noEmpty c s hw k hk]
  simp only [hk, Bool.false_eq_true, if_false]
  cases raw s k with
  | none => simp [vis]
  | some w =>
    by_cases hw : c.vEmpty w = true
    · simp only [vis, hw, if_true]
      constructor
      · intro h; simp at h
      · rintro ⟨h1, h2⟩; simp only [Option.some.injEq] at h2; subst h2; simp [hw] at h1
    · simp only [vis, hw, Bool.false_eq_true, if_false, Option.some.injEq]
      constructor
      · rintro h; subst h; exact ⟨by simpa using hw, rfl⟩
      · rintro ⟨_, h⟩; exact h

/-- **C09**, whole table: the loop `for (it.First(); it.IsValid(); it.Next())` produces the entries
whose point read succeeds, with the value the point read returns, in strictly increasing key
order (hence each once).  Missing from the full claim: the hypothesis `hord` that map order and
database byte order agree (see `iteration_violated`). -/
theorem iteration_lists_live_partial (ho : StrictTotal c.lt) (hord : ∀ a b, c.dbLt a b = c.lt a b)
    (s : Cache K V) (hw : WFI c s) :
    SortedBy c.lt (listAll c s) ∧
    ∀ k v, ((k, v) ∈ listAll c s ↔ (getData c s k).1 = some v) := by
  obtain ⟨L, hy, hlen, hs, hmem⟩ := yields_iterOf c ho hord .first s hw
  have e : listAll c s = L := collect_yields _ L _ _ hy (by omega)
  rw [e]
  refine ⟨hs, fun k v => ?_⟩
  rw [hmem, getData_returns_live, live_iff c s hw k v]
  simp [inPos]

/-- **C09**, from a key: `Seek` starts at the first live entry not less than the key. -/
theorem seek_lists_live_partial (ho : StrictTotal c.lt) (hord : ∀ a b, c.dbLt a b = c.lt a b)
    (s : Cache K V) (hw : WFI c s) (k0 : K) (hk0 : c.kEmpty k0 = false) :
    SortedBy c.lt (listFrom c s k0) ∧
    ∀ k v,
      ((k, v) ∈ listFrom c s k0 ↔ c.lt k k0 = false ∧ (getData c s k).1 = some v) := by
  obtain ⟨L, hy, hlen, hs, hmem⟩ := yields_iterOf c ho hord (.seek k0) s hw
  have e : listFrom c s k0 = L := collect_yields _ L _ _ hy (by omega)
  rw [e]
  refine ⟨hs, fun k v => ?_⟩
  rw [hmem, getData_returns_live, live_iff c s hw k v]
  simp [inPos, hk0]

/-- **C09**, after a key: `SeekUpper` starts at the first live entry greater than the key. -/
theorem seekUpper_lists_live_partial (ho : StrictTotal c.lt) (hord : ∀ a b, c.dbLt a b = c.lt a b)
    (s : Cache K V) (hw : WFI c s) (k0 : K) (hk0 : c.kEmpty k0 = false) :
    SortedBy c.lt (listAfter c s k0) ∧
    ∀ k v,
      ((k, v) ∈ listAfter c s k0 ↔ c.lt k0 k = true ∧ (getData c s k).1 = some v) := by
  obtain ⟨L, hy, hlen, hs, hmem⟩ := yields_iterOf c ho hord (.after k0) s hw
  have e : listAfter c s k0 = L := collect_yields _ L _ _ hy (by omega)
  rw [e]
  refine ⟨hs, fun k v => ?_⟩
  rw [hmem, getData_returns_live, live_iff c s hw k v]
  simp [inPos, hk0]

/-- Taking the initial segment of an ordered list that satisfies a downward-closed (among the
listed keys) predicate is filtering. -/
theorem mem_takeWhile_sorted {lt : K → K → Bool} (f : K → Bool) : ∀ (L : List (K × V)),
    SortedBy lt L → (∀ a ∈ L, ∀ b ∈ L, lt a.1 b.1 = true → f b.1 = true → f a.1 = true) →
    ∀ p, p ∈ L.takeWhile (fun q => f q.1) ↔ p ∈ L ∧ f p.1 = true
  | [], _, _, p => by simp
  | x :: L, hs, hd, p => by
    have hs' := List.pairwise_cons.1 hs
    have ih := mem_takeWhile_sorted f L hs'.2
      (fun a ha b hb => hd a (List.mem_cons_of_mem _ ha) b (List.mem_cons_of_mem _ hb)) p
    simp only [List.takeWhile_cons]
    by_cases hx : f x.1 = true
    · simp only [hx, if_true, List.mem_cons, ih]
      constructor
      · rintro (h | h)
        · exact ⟨Or.inl h, by rw [h]; exact hx⟩
        · exact ⟨Or.inr h.1, h.2⟩
      · rintro ⟨h | h, h2⟩
        · exact Or.inl h
        · exact Or.inr ⟨h, h2⟩
    · simp only [hx, Bool.false_eq_true, if_false, List.not_mem_nil, false_iff, List.mem_cons]
      rintro ⟨h | h, h2⟩
      · rw [h] at h2; exact hx h2
      · exact hx (hd x (List.mem_cons_self) p (List.mem_cons_of_mem _ h) (hs'.1 p h) h2)

/-- **C09**, prefix iteration: if the keys matching the prefix form an interval starting at the
seek key, a prefix iteration lists exactly the live entries matching the prefix, in order. -/
theorem prefix_iteration_lists_live_partial (ho : StrictTotal c.lt)
    (hord : ∀ a b, c.dbLt a b = c.lt a b) (s : Cache K V) (hw : WFI c s)
    (k0 : K) (hk0 : c.kEmpty k0 = false) (f : K → Bool)
    (hlow : ∀ k, f k = true → c.lt k k0 = false)
    (hint : ∀ a b, c.lt a k0 = false → c.lt a b = true → f b = true → f a = true) :
    SortedBy c.lt (listPrefix c s k0 f) ∧
    ∀ k v,
      ((k, v) ∈ listPrefix c s k0 f ↔ f k = true ∧ (getData c s k).1 = some v) := by
  obtain ⟨hs, hmem⟩ := seek_lists_live_partial c ho hord s hw k0 hk0
  have hlowL : ∀ p ∈ listFrom c s k0, c.lt p.1 k0 = false := by
    intro p hp
    exact ((hmem p.1 p.2).1 hp).1
  refine ⟨List.Pairwise.sublist (List.takeWhile_sublist _) hs, fun k v => ?_⟩
  unfold listPrefix
  rw [mem_takeWhile_sorted f _ hs (fun a ha b _ h1 h2 => hint a.1 b.1 (hlowL a ha) h1 h2),
    hmem k v]
  constructor
  · rintro ⟨⟨_, h⟩, h2⟩; exact ⟨h2, h⟩
  · rintro ⟨h, h2⟩; exact ⟨⟨hlow k h, h2⟩, h⟩

/-! ## Where the orders disagree -/

/-- `memcmp`/`std::string` comparison of byte strings. -/
def bytesLt : List Nat → List Nat → Bool
  | [], [] => false
  | [], _ :: _ => true
  | _ :: _, [] => false
  | a :: as, b :: bs => if a < b then true else if b < a then false else bytesLt as bs

/-- A token symbol as bytes. -/
def sym (s : String) : List Nat := s.toList.map Char.toNat

/-- `DbAssetCache` (assetdb.h 65): key `TokenSymbol` (`std::string`), serialized as length byte and
characters.  Values are abstracted to a number (0 = empty). -/
def assetCfg : Cfg (List Nat) Nat where
  kEmpty k := k.isEmpty
  vEmpty v := v == 0
  empty := 0
  empty_ok := rfl
  lt := bytesLt
  dbLt a b := bytesLt (a.length :: a) (b.length :: b)

/-- The asset table on disk holds `ZZZZZZ` and `ABCDEFG` (in database order). -/
def assetDisk : List (List Nat × Nat) := [(sym "ZZZZZZ", 1), (sym "ABCDEFG", 2)]

/-- **C09 fails for the asset table.** With assets `ZZZZZZ` and `ABCDEFG` on disk, updating
`ABCDEFG` through the cache makes the iteration list `ABCDEFG` twice, the second time with the
stale value that a point read no longer returns. -/
theorem iteration_violated :
    let s := (run assetCfg (.root [] assetDisk) [.set (sym "ABCDEFG") 3]).2
    SortedBy assetCfg.dbLt assetDisk ∧
    (getData assetCfg s (sym "ABCDEFG")).1 = some 3 ∧
    listAll assetCfg s = [(sym "ABCDEFG", 3), (sym "ZZZZZZ", 1), (sym "ABCDEFG", 2)] := by
  refine ⟨?_, ?_, ?_⟩
  · simp only [assetDisk, SortedBy, List.pairwise_cons]; decide +kernel
  · decide +kernel
  · decide +kernel

/-- `CCdpRatioIndexCache`/`CCdpHeightIndexCache` (cdpdb.h 26-29) keyed by the collateral symbol
(the stable coin being the same everywhere) and a number standing for the fixed-width rest. -/
def cdpIndexCfg : Cfg (List Nat × Nat) Nat where
  kEmpty k := k.1.isEmpty && k.2 == 0
  vEmpty v := v == 0
  empty := 0
  empty_ok := rfl
  lt a b := if a.1 = b.1 then decide (a.2 < b.2) else bytesLt a.1 b.1
  dbLt a b := if a.1 = b.1 then decide (a.2 < b.2) else bytesLt (a.1.length :: a.1) (b.1.length :: b.1)

/-- **C09 fails for the CDP indexes.** The database holds a CDP of collateral `BTCBTC`; a CDP of
collateral `WICC` is created in the cache.  The prefix iteration over the `WICC` CDPs — the one
force liquidation and interest settlement use — finds nothing; after flushing the cache to
the database it finds the CDP.  So the outcome depends on when a node flushed. -/
theorem prefix_iteration_violated :
    let s := (run cdpIndexCfg (.root [] [((sym "BTCBTC", 5), 7)]) [.set (sym "WICC", 4) 9]).2
    let f := fun k : List Nat × Nat => decide (k.1 = sym "WICC")
    (getData cdpIndexCfg s (sym "WICC", 4)).1 = some 9 ∧
    listPrefix cdpIndexCfg s (sym "WICC", 0) f = [] ∧
    listPrefix cdpIndexCfg (flush cdpIndexCfg s) (sym "WICC", 0) f = [((sym "WICC", 4), 9)] := by
  refine ⟨?_, ?_, ?_⟩ <;> decide +kernel

/-! ## Concrete instances of the hypotheses -/

example : WFI natCfg (.over [(1, 5), (3, 0)] (.over [(2, 0), (3, 9)] (.root [] [(2, 7), (4, 8)]))) ∧
    listAll natCfg (.over [(1, 5), (3, 0)] (.over [(2, 0), (3, 9)] (.root [] [(2, 7), (4, 8)])))
      = [(1, 5), (4, 8)] ∧
    listAfter natCfg (.over [(1, 5), (3, 0)] (.over [(2, 0), (3, 9)] (.root [] [(2, 7), (4, 8)]))) 1
      = [(4, 8)] := by
  refine ⟨?_, ?_, ?_⟩
  · simp [WFI, SortedBy, NoEmptyKey, natCfg]
  · decide
  · decide

/-- Pair keys in lexicographic order, iterated by first component as `MakeKeyByPrefix`
(dbiterator.h 356-359) does: the interval hypotheses hold for the prefix `p`. -/
example (p : Nat) :
    let lt : Nat × Nat → Nat × Nat → Bool := fun a b => decide (a.1 < b.1 ∨ (a.1 = b.1 ∧ a.2 < b.2))
    let f : Nat × Nat → Bool := fun k => decide (k.1 = p)
    (∀ k, f k = true → lt k (p, 0) = false) ∧
    (∀ a b, lt a (p, 0) = false → lt a b = true → f b = true → f a = true) := by
  simp only [decide_eq_true_eq, decide_eq_false_iff_not]
  constructor
  · intro k hk; omega
  · intro a b h1 h2 h3; omega

end Verif.KV
