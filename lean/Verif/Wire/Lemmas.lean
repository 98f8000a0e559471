import Verif.Wire.Model

/-! # Every structure and every transaction has a lawful format -/
namespace Verif.Wire

open Verif.Codec

theorem strLt_total : StrictTotal strLt where
  irrefl a := by simp [strLt, List.lt_irrefl]
  trans a b c h1 h2 := by
    simp only [strLt, decide_eq_true_eq] at *
    exact List.lt_trans h1 h2
  total a b h1 h2 := by
    simp only [strLt, decide_eq_false_iff_not] at *
    exact List.le_antisymm (List.not_lt.1 h2) (List.not_lt.1 h1)

theorem strPairLt_total : StrictTotal strPairLt where
  irrefl a := by simp [strPairLt, strLt_total.irrefl]
  trans a b c h1 h2 := by
    simp only [strPairLt, Bool.or_eq_true, Bool.and_eq_true, decide_eq_true_eq] at *
    rcases h1 with h1 | ⟨e1, h1⟩
    · rcases h2 with h2 | ⟨e2, h2⟩
      · exact Or.inl (strLt_total.trans _ _ _ h1 h2)
      · rw [e2] at h1; exact Or.inl h1
    · rcases h2 with h2 | ⟨e2, h2⟩
      · rw [← e1] at h2; exact Or.inl h2
      · exact Or.inr ⟨e1.trans e2, strLt_total.trans _ _ _ h1 h2⟩
  total a b h1 h2 := by
    simp only [strPairLt, Bool.or_eq_false_iff, Bool.and_eq_false_iff, decide_eq_false_iff_not] at *
    have e := strLt_total.total _ _ h1.1 h2.1
    have h1' := h1.2.resolve_left (fun h => h e)
    have h2' := h2.2.resolve_left (fun h => h e.symm)
    exact Prod.ext e (strLt_total.total _ _ h1' h2')

instance : Lawful nothing where
  good v _ _ := ⟨[], rfl, Bytes.nil, rfl, fun r => rfl⟩
  sound l v r hb h := by
    simp only [nothing, Option.some.injEq, Prod.mk.injEq] at h
    rw [← h.2]; exact ⟨trivial, hb⟩

instance (i : AssetField) : Lawful i.fmt := by
  cases i <;> (dsimp only [AssetField.fmt]; infer_instance)

instance : Lawful assetUpdate :=
  tagged_lawful _ _ _ _ (by intro i; cases i <;> decide) (by intro i; cases i <;> rfl)
    (fun i => inferInstance)

instance (i : DexField) : Lawful i.fmt := by
  cases i <;> (dsimp only [DexField.fmt]; infer_instance)

instance : Lawful dexOperatorUpdate :=
  have : Lawful (tagged DexField.code DexField.ofCode _ DexField.fmt) :=
    tagged_lawful _ _ _ _ (by intro i; cases i <;> decide) (by intro i; cases i <;> rfl) (fun i => inferInstance)
  inferInstanceAs (Lawful (_ ⊗ _))

instance : Lawful (mark 11) := mark_lawful 11 (by decide)
instance : Lawful (mark 12) := mark_lawful 12 (by decide)
instance : Lawful (mark 13) := mark_lawful 13 (by decide)
instance : Lawful (mark 111) := mark_lawful 111 (by decide)
instance : Lawful (mark 112) := mark_lawful 112 (by decide)
instance : Lawful (mark 113) := mark_lawful 113 (by decide)
instance : Lawful (mark 114) := mark_lawful 114 (by decide)
instance : Lawful (mark 115) := mark_lawful 115 (by decide)

instance (i : CondTag) : Lawful i.fmt := by
  cases i <;> (dsimp only [CondTag.fmt]; infer_instance)

instance : Lawful utxoCond :=
  tagged_lawful _ _ _ _ (by intro i; cases i <;> decide) (by intro i; cases i <;> rfl)
    (fun i => inferInstance)

instance (i : PropTag) : Lawful i.own := by
  cases i <;> (dsimp only [PropTag.own]; infer_instance)

instance (i : PropTag) : Lawful i.fmt := by
  cases i <;> (dsimp only [PropTag.fmt, PropTag.own]; infer_instance)

instance : Lawful proposalBean :=
  tagged_lawful _ _ _ _ (by intro i; cases i <;> decide) (by intro i; cases i <;> rfl)
    (fun i => inferInstance)

instance : Lawful priceMapNew := strictMap_lawful _ strPairLt_total _
instance : Lawful priceMapOld := strictMap_lawful _ strPairLt_total _
instance : Lawful stakeMap := map_lawful _ strLt_total _
instance : Lawful rewardMap := map_lawful _ strLt_total _

theorem sizeCompact_le (n : Nat) : sizeCompactSize n ≤ 9 := by
  unfold sizeCompactSize
  repeat' split
  all_goals omega

instance : Lawful luaContract where
  good v h s := by
    obtain ⟨bs, e, hb, hl, hr⟩ := Lawful.good (f := str ⊗ str) v h s
    have hsz : (str ⊗ str).size v ≤ MAX_SIZE := by
      have h : (v.1.length ≤ MAX_STRING ∧ _) ∧ (v.2.length ≤ MAX_STRING ∧ _) := h
      show (sizeCompactSize v.1.length + v.1.length) + (sizeCompactSize v.2.length + v.2.length) ≤ 33554432
      have a1 := sizeCompact_le v.1.length
      have a2 := sizeCompact_le v.2.length
      have b1 := h.1.1
      have b2 := h.2.1
      simp only [MAX_STRING] at b1 b2
      omega
    obtain ⟨cb, cl, cr⟩ := compact_bytes _ hsz
    refine ⟨_, by simp only [luaContract, e, Option.map_some], cb.append hb, by
      simp only [luaContract, List.length_append, cl, hl], fun r => ?_⟩
    simp only [luaContract, List.append_assoc, cr, Option.bind_some, hr, ne_eq, not_true_eq_false, if_false]
  sound l v r hb h := by
    simp only [luaContract] at h
    cases h1 : readCompactSize l with
    | none => rw [h1] at h; cases h
    | some p =>
      rw [h1, Option.bind_some] at h
      cases h2 : (str ⊗ str).dec p.2 with
      | none => rw [h2] at h; cases h
      | some q =>
        rw [h2, Option.bind_some] at h
        split at h
        · cases h
        · cases h
          exact Lawful.sound (f := str ⊗ str) p.2 v r (compact_sound hb h1).2 h2

instance (r3 : Int → Bool) (h : Int) (f : Field) : Lawful (f.fmt r3 h) := by
  cases f
  case medianPrices =>
    simp only [Field.fmt]
    split
    · exact inferInstanceAs (Lawful priceMapNew)
    · exact inferInstanceAs (Lawful priceMapOld)
  all_goals (dsimp only [Field.fmt]; infer_instance)

/-! ## Reading and writing lists of members -/

/-- Only the price map depends on the height. -/
theorem fmt_height (r3 : Int → Bool) (h h' : Int) (f : Field) (hf : f ≠ .medianPrices) : f.fmt r3 h = f.fmt r3 h' := by
  cases f <;> first | rfl | exact absurd rfl hf

theorem Rec.set_same (r : Rec) (f : Field) (v : f.V) : r.set f v f = v := by simp [Rec.set]
theorem Rec.set_other (r : Rec) (f g : Field) (v : f.V) (h : g ≠ f) : r.set f v g = r g := by simp [Rec.set, h]

/-- No member twice, and the height is read before the price map. -/
def Ordered : List Field → Prop
  | [] => True
  | f :: t => f ∉ t ∧ (f = .medianPrices → Field.validHeight ∉ t) ∧ Ordered t

instance : ∀ l, Decidable (Ordered l)
  | [] => isTrue trivial
  | f :: t => by
    have := instDecidableOrdered t
    unfold Ordered; infer_instance

theorem wire_ordered (ty : TxType) : Ordered (wireFields ty) := by cases ty <;> decide
theorem wire_height (ty : TxType) : Field.validHeight ∈ wireFields ty := by cases ty <;> decide

theorem fields_good (r3 : Int → Bool) (v : Rec) (l : List Field) (ho : Ordered l)
    (hr : ∀ f ∈ l, (f.fmt r3 (v .validHeight)).rng (v f)) (hs : ∀ f ∈ l, (f.fmt r3 (v .validHeight)).safe (v f)) :
    ∃ bs, encFields r3 v l = some bs ∧ Bytes bs ∧ bs.length = sizeFields r3 v l ∧
      ∀ r0 : Rec, (Field.validHeight ∉ l → r0 .validHeight = v .validHeight) → ∀ rest,
        decFields r3 l r0 (bs ++ rest) = some (fun g => if g ∈ l then v g else r0 g, rest) := by
  induction l with
  | nil => exact ⟨[], rfl, Bytes.nil, rfl, fun r0 _ rest => by simp [decFields]⟩
  | cons f t ih =>
    obtain ⟨hn, hm, ht⟩ := ho
    obtain ⟨bs, e, hb, hl, hd⟩ := ih ht (fun g hg => hr g (List.mem_cons_of_mem _ hg))
      (fun g hg => hs g (List.mem_cons_of_mem _ hg))
    obtain ⟨a, ea, ba, la, ra⟩ := Lawful.good (f := f.fmt r3 (v .validHeight)) (v f) (hr f List.mem_cons_self)
      (hs f List.mem_cons_self)
    refine ⟨a ++ bs, by simp [encFields, ea, e], ba.append hb, by simp [sizeFields, la, hl], fun r0 h0 rest => ?_⟩
    have hfmt : f.fmt r3 (r0 .validHeight) = f.fmt r3 (v .validHeight) := by
      by_cases hf : f = .medianPrices
      · rw [h0]
        intro hc
        rcases List.mem_cons.1 hc with hc | hc
        · rw [← hc] at hf; cases hf
        · exact hm hf hc
      · exact fmt_height _ _ _ _ hf
    simp only [decFields, hfmt, List.append_assoc, ra, Option.bind_some]
    rw [hd]
    · congr 2
      funext g
      by_cases hg : g = f
      · subst hg
        simp [hn, Rec.set_same]
      · simp [hg, Rec.set_other]
    · intro hv
      by_cases hf : f = .validHeight
      · subst hf; exact Rec.set_same _ _ _
      · rw [Rec.set_other _ _ _ _ (Ne.symm hf)]
        exact h0 (by simp [hv, Ne.symm hf])

theorem fields_sound (r3 : Int → Bool) (l : List Field) (ho : Ordered l) (r0 v : Rec) (bs rest : List Nat)
    (hb : Bytes bs) (h : decFields r3 l r0 bs = some (v, rest)) :
    (∀ f ∈ l, (f.fmt r3 (v .validHeight)).rng (v f)) ∧ (∀ f, f ∉ l → v f = r0 f) ∧ Bytes rest := by
  induction l generalizing r0 bs with
  | nil =>
    simp only [decFields, Option.some.injEq, Prod.mk.injEq] at h
    rw [← h.1, ← h.2]
    exact ⟨fun f hf => by simp at hf, fun _ _ => rfl, hb⟩
  | cons f t ih =>
    obtain ⟨hn, hm, ht⟩ := ho
    simp only [decFields] at h
    cases h1 : (f.fmt r3 (r0 .validHeight)).dec bs with
    | none => rw [h1] at h; cases h
    | some p =>
      rw [h1, Option.bind_some] at h
      obtain ⟨s1, s2⟩ := Lawful.sound bs p.1 p.2 hb h1
      obtain ⟨i1, i2, i3⟩ := ih ht _ _ s2 h
      have hf : v f = p.1 := by rw [i2 f hn, Rec.set_same]
      refine ⟨fun g hg => ?_, fun g hg => ?_, i3⟩
      · rcases List.mem_cons.1 hg with rfl | hg
        · rw [hf]
          by_cases hgm : g = .medianPrices
          · have hv : v .validHeight = r0 .validHeight := by
              rw [i2 _ (hm hgm), Rec.set_other]
              intro hc; rw [← hc] at hgm; cases hgm
            rw [hv]; exact s1
          · rw [fmt_height r3 _ (r0 .validHeight) g hgm]; exact s1
        · exact i1 g hg
      · have hgf : g ≠ f := fun hc => hg (hc ▸ List.mem_cons_self)
        rw [i2 g (fun hc => hg (List.mem_cons_of_mem _ hc)), Rec.set_other _ _ _ _ hgf]

theorem type_code (ty : TxType) : ty.code < 256 ∧ TxType.ofCode ty.code = some ty := by
  cases ty <;> exact ⟨by decide, rfl⟩

instance (r3 : Int → Bool) : Lawful (txFmt r3) where
  good t h s := by
    obtain ⟨bs, e, hb, hl, hd⟩ := fields_good r3 t.val _ (wire_ordered t.type) h.1 s
    refine ⟨t.type.code :: bs, by simp [txFmt, writeTx, e], Bytes.cons (type_code _).1 hb,
      by simp [txFmt, sizeTx, hl]; omega, fun r => ?_⟩
    show readTx r3 (t.type.code :: (bs ++ r)) = _
    simp only [readTx, (type_code _).2, Option.bind_some]
    rw [hd _ (fun hc => absurd (wire_height _) hc)]
    simp only [Option.map_some]
    congr 2
    obtain ⟨ty, v⟩ := t
    congr 1
    funext g
    split
    · rfl
    · rename_i hg
      exact (h.2 g hg).symm
  sound l t r hb h := by
    cases l with
    | nil => simp [txFmt, readTx] at h
    | cons c l =>
      have h : readTx r3 (c :: l) = _ := h
      simp only [readTx] at h
      cases ht : TxType.ofCode c with
      | none => rw [ht] at h; cases h
      | some ty =>
        rw [ht, Option.bind_some] at h
        cases hq : decFields r3 (wireFields ty) Field.init l with
        | none => rw [hq] at h; cases h
        | some p =>
          rw [hq] at h
          simp only [Option.map_some, Option.some.injEq, Prod.mk.injEq] at h
          obtain ⟨a1, a2, a3⟩ := fields_sound r3 _ (wire_ordered ty) _ p.1 l p.2 hb.tail hq
          rw [← h.1, ← h.2]
          exact ⟨⟨a1, a2⟩, a3⟩

instance : Lawful headerFmt := conv_lawful _ _ _ (fun v => rfl) (fun v => rfl)

instance (r3 : Int → Bool) : Lawful (blockFmt r3) := inferInstanceAs (Lawful (_ ⊗ _))

end Verif.Wire
