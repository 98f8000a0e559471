import Verif.Vm.Spec
import Verif.Vm.Table

/-! Proofs about the compiled multi-way branch. -/

namespace Verif.Vm

theorem lands_det {code : List BI} {i pc k k' : Nat} {ps ps' : List Nat} (h : Lands code i pc k ps)
    (h' : Lands code i pc k' ps') : k = k' ∧ ps = ps' := by
  induction h generalizing k' ps' with
  | jmp e => cases h' with
    | jmp e' => rw [e] at e'; cases e'; exact ⟨rfl, rfl⟩
    | direct e' _ => rw [e] at e'; cases e'
    | goto e' _ _ => rw [e] at e'; cases e'
    | skip e' _ _ => rw [e] at e'; cases e'
    | pop e' _ => rw [e] at e'; cases e'
  | direct e hm => cases h' with
    | jmp e' => rw [e] at e'; cases e'
    | direct e' _ => rw [e] at e'; cases e'; exact ⟨rfl, rfl⟩
    | goto e' _ _ => rw [e] at e'; cases e'
    | skip e' _ _ => rw [e] at e'; cases e'; omega
    | pop e' _ => rw [e] at e'; cases e'
  | goto e hm _ ih => cases h' with
    | jmp e' => rw [e] at e'; cases e'
    | direct e' _ => rw [e] at e'; cases e'
    | goto e' _ h => rw [e] at e'; cases e'; exact ih h
    | skip e' _ _ => rw [e] at e'; cases e'; omega
    | pop e' _ => rw [e] at e'; cases e'
  | skip e hm _ ih => cases h' with
    | jmp e' => rw [e] at e'; cases e'
    | direct e' _ => rw [e] at e'; cases e'; omega
    | goto e' _ h => rw [e] at e'; cases e'; omega
    | skip e' _ h => rw [e] at e'; cases e'; exact ih h
    | pop e' _ => rw [e] at e'; cases e'
  | pop e _ ih => cases h' with
    | jmp e' => rw [e] at e'; cases e'
    | direct e' _ => rw [e] at e'; cases e'
    | goto e' _ h => rw [e] at e'; cases e'
    | skip e' _ h => rw [e] at e'; cases e'
    | pop e' h => rw [e] at e'; cases e'; obtain ⟨rfl, rfl⟩ := ih h; exact ⟨rfl, rfl⟩

/-- the code can only have grown: targets set, instructions appended -/
def Ext (code code' : List BI) : Prop :=
  ∀ (q : Nat) (x : BI), code[q]? = some x →
    code'[q]? = some x ∨ ∃ m t, x = .jae m .unset ∧ code'[q]? = some (.jae m t)

inductive Reach (code : List BI) (i : Nat) : Nat → Nat → Prop
  | refl (pc) : Reach code i pc pc
  | goto {pc mid p q} : code[pc]? = some (.jae mid (.pos p)) → mid ≤ i → Reach code i p q → Reach code i pc q
  | skip {pc mid t q} : code[pc]? = some (.jae mid t) → i < mid → Reach code i (pc + 1) q → Reach code i pc q

theorem Reach.ext {code code' : List BI} (he : Ext code code') {i a b : Nat} (h : Reach code i a b) :
    Reach code' i a b := by
  induction h with
  | refl pc => exact .refl pc
  | goto e hm _ ih =>
    rcases he _ _ e with e' | ⟨m, t, e1, _⟩
    · exact .goto e' hm ih
    · cases e1
  | skip e hm _ ih =>
    rcases he _ _ e with e' | ⟨m, t, e1, e2⟩
    · exact .skip e' hm ih
    · cases e1; exact .skip e2 hm ih

theorem Lands.ext {code code' : List BI} (he : Ext code code') {i a k : Nat} {ps : List Nat}
    (h : Lands code i a k ps) : Lands code' i a k ps := by
  induction h with
  | jmp e =>
    rcases he _ _ e with e' | ⟨m, t, e1, _⟩
    · exact .jmp e'
    · cases e1
  | direct e hm =>
    rcases he _ _ e with e' | ⟨m, t, e1, _⟩
    · exact .direct e' hm
    · cases e1
  | goto e hm _ ih =>
    rcases he _ _ e with e' | ⟨m, t, e1, _⟩
    · exact .goto e' hm ih
    · cases e1
  | skip e hm _ ih =>
    rcases he _ _ e with e' | ⟨m, t, e1, e2⟩
    · exact .skip e' hm ih
    · cases e1; exact .skip e2 hm ih
  | pop e _ ih =>
    rcases he _ _ e with e' | ⟨m, t, e1, _⟩
    · exact .pop e' ih
    · cases e1

theorem Reach.trans {code : List BI} {i a b c : Nat} (h : Reach code i a b) (h' : Reach code i b c) :
    Reach code i a c := by
  induction h with
  | refl => exact h'
  | goto e hm _ ih => exact .goto e hm (ih h')
  | skip e hm _ ih => exact .skip e hm (ih h')

theorem Reach.lands {code : List BI} {i a b k : Nat} {ps : List Nat} (h : Reach code i a b)
    (h' : Lands code i b k ps) : Lands code i a k ps := by
  induction h with
  | refl => exact h'
  | goto e hm _ ih => exact .goto e hm (ih h')
  | skip e hm _ ih => exact .skip e hm (ih h')

theorem ext_append (code l : List BI) : Ext code (code ++ l) := by
  intro q x h
  left
  rw [List.getElem?_append_left]
  · exact h
  · exact (List.getElem?_eq_some_iff.1 h).1

theorem patch_get (code : List BI) (p q : Nat) (t : Tgt) :
    (patch code p t)[q]? = if p = q then code[q]?.map (BI.setTgt t) else code[q]? := by
  unfold patch
  rw [List.getElem?_modify]
  split <;> simp

theorem ext_patch {code : List BI} {p m : Nat} (h : code[p]? = some (.jae m .unset)) (t : Tgt) :
    Ext code (patch code p t) := by
  intro q x hx
  rw [patch_get]
  by_cases e : p = q
  · subst e
    rw [h] at hx
    cases hx
    right
    exact ⟨m, t, rfl, by rw [if_pos rfl, h]; rfl⟩
  · left; rw [if_neg e, hx]

theorem patch_length (code : List BI) (p : Nat) (t : Tgt) : (patch code p t).length = code.length := by
  simp [patch]

theorem patch_twice (code : List BI) (p : Nat) (t t' : Tgt) : patch (patch code p t) p t' = patch code p t' := by
  apply List.ext_getElem?
  intro q
  simp only [patch_get]
  by_cases e : p = q
  · subst e
    simp only [if_true]
    cases code[p]? with
    | none => rfl
    | some x => cases x <;> rfl
  · simp only [e, if_false]

/-- the ranges follow each other from `nxt` to `n` -/
def Chain (n : Nat) : Nat → List Range → Prop
  | nxt, [] => nxt = n
  | nxt, r :: st => r.min = nxt ∧ r.min < r.max ∧ Chain n r.max st

theorem chain_min {n nxt : Nat} {st : List Range} (h : Chain n nxt st) :
    (∀ r ∈ st, nxt ≤ r.min ∧ r.min < r.max ∧ r.max ≤ n) ∧ nxt ≤ n := by
  induction st generalizing nxt with
  | nil => exact ⟨by simp, Nat.le_of_eq h⟩
  | cons r st ih =>
    obtain ⟨h1, h2, h3⟩ := h
    obtain ⟨i1, i2⟩ := ih h3
    refine ⟨fun x hx => ?_, by omega⟩
    rcases List.mem_cons.1 hx with rfl | hx
    · omega
    · have := i1 x hx; omega

/-- the range is waiting behind the branch at its label -/
def Waits (n : Nat) (code : List BI) (r : Range) : Prop :=
  ∃ p, r.label = some p ∧ code[p]? = some (.jae r.min .unset) ∧
    ∀ i, r.min ≤ min i (n - 1) → min i (n - 1) < r.max → Reach code i 0 p

/-- pops of case `k` -/
def pops (ds : List Nat) (k : Nat) : List Nat := if noPop (ds.getD k 0) then [] else [ds.getD k 0]

structure TInv (ds : List Nat) (code : List BI) (nxt : Nat) (st : List Range) : Prop where
  chain : Chain ds.length nxt st
  done : ∀ i, min i (ds.length - 1) < nxt → Lands code i 0 (min i (ds.length - 1)) (pops ds (min i (ds.length - 1)))
  waits : ∀ r ∈ st.tail, Waits ds.length code r

/-- the head of the ranges: behind its label, or at the end of the code -/
def Head (n : Nat) (code : List BI) (r : Range) : Prop :=
  Waits n code r ∨ (r.label = none ∧ ∀ i, r.min ≤ min i (n - 1) → min i (n - 1) < r.max → Reach code i 0 code.length)

theorem Waits.ext {n : Nat} {code code' : List BI} {r : Range} (h : Waits n code r) (he : Ext code code')
    (hk : ∀ p, r.label = some p → code[p]? = some (.jae r.min .unset) → code'[p]? = some (.jae r.min .unset)) :
    Waits n code' r := by
  obtain ⟨p, h1, h2, h3⟩ := h
  exact ⟨p, h1, hk p h1 h2, fun i a b => (h3 i a b).ext he⟩

theorem emitFrom_ok (ds : List Nat) (k d : Nat) (hd : ds[k]? = some d) (fuel : Nat) (code : List BI) (r : Range)
    (st : List Range) (hf : r.max - r.min ≤ fuel) (hi : TInv ds code k (r :: st)) (hh : Head ds.length code r) :
    ∃ code' st', emitFrom k d code r.min r.max r.label st = (code', st') ∧ TInv ds code' (k + 1) st' ∧
      ∀ r', st'.head? = some r' → Waits ds.length code' r' := by
  induction fuel generalizing code r st with
  | zero => have := hi.chain.2.1; omega
  | succ fuel ih =>
    obtain ⟨c1, c2, c3⟩ := hi.chain
    obtain ⟨cm, cn⟩ := chain_min c3
    -- the code after the label of the range has been fixed
    obtain ⟨code1, hcode1⟩ : ∃ c, c = fixLabel code r.label :=
      ⟨_, rfl⟩
    have hlen : code1.length = code.length := by
      rw [hcode1]
      cases r.label
      · rfl
      · exact patch_length _ _ _
    have hext : Ext code code1 := by
      rcases hh with ⟨p, h1, h2, h3⟩ | ⟨h1, h2⟩
      · rw [hcode1, h1, fixLabel]; exact ext_patch h2 _
      · rw [hcode1, h1, fixLabel]; exact fun q x h => .inl h
    have hreach : ∀ i, r.min ≤ min i (ds.length - 1) → min i (ds.length - 1) < r.max → Reach code1 i 0 code1.length := by
      intro i a b
      rcases hh with ⟨p, h1, h2, h3⟩ | ⟨h1, h2⟩
      · refine ((h3 i a b).ext hext).trans (.goto (mid := r.min) (p := code1.length) ?_ (by omega) (.refl _))
        rw [hcode1, h1, fixLabel, patch_get, if_pos rfl, h2, patch_length]; rfl
      · have := h2 i a b
        rw [hlen]; exact this.ext hext
    have hother : ∀ s ∈ st, ∀ p, s.label = some p → code[p]? = some (.jae s.min .unset) → code1[p]? = some (.jae s.min .unset) := by
      intro s hs p hp hq
      have := cm s hs
      rcases hh with ⟨p', h1, h2, h3⟩ | ⟨h1, h2⟩
      · rw [hcode1, h1, fixLabel, patch_get, if_neg, hq]
        rintro rfl
        rw [h2] at hq
        injection hq with hq
        injection hq with hq _
        omega
      · rw [hcode1, h1, fixLabel]; exact hq
    have hwaits : ∀ s ∈ st, Waits ds.length code1 s := fun s hs =>
      (hi.waits s hs).ext hext (hother s hs)
    rw [emitFrom.eq_def]
    simp only [← hcode1]
    by_cases hsplit : r.max - r.min > 1
    · rw [if_pos hsplit]
      have hmid : r.min < r.min + (r.max - r.min) / 2 ∧ r.min + (r.max - r.min) / 2 < r.max := by omega
      obtain ⟨mid, hmide⟩ : ∃ m, m = r.min + (r.max - r.min) / 2 := ⟨_, rfl⟩
      rw [← hmide] at hmid ⊢
      have happ := ext_append code1 [.jae mid .unset]
      have hat : (code1 ++ [BI.jae mid .unset])[code1.length]? = some (.jae mid .unset) := by simp
      refine ih _ ⟨r.min, mid, none⟩ _ ?_ ?_ ?_
      · simp only; omega
      · refine ⟨⟨c1, hmid.1, rfl, hmid.2, c3⟩, fun i hx => ((hi.done i hx).ext hext).ext happ, ?_⟩
        intro s hs
        rcases List.mem_cons.1 hs with rfl | hs
        · refine ⟨code1.length, rfl, hat, fun i a b => ?_⟩
          simp only at a b
          exact (hreach i (by omega) b).ext happ
        · refine (hwaits s hs).ext happ (fun p _ hq => ?_)
          rw [List.getElem?_append_left (List.getElem?_eq_some_iff.1 hq).1, hq]
      · right
        refine ⟨rfl, fun i a b => ?_⟩
        simp only at a b
        have hle : i < mid := by omega
        refine ((hreach i a (by omega)).ext happ).trans (.skip hat hle ?_)
        have : (code1 ++ [BI.jae mid .unset]).length = code1.length + 1 := by simp
        rw [this]; exact .refl _
    · rw [if_neg hsplit]
      have hmax : r.max = k + 1 := by omega
      have hget : ds.getD k 0 = d := by simp [List.getD, hd]
      -- what is left to show for the final code
      have fin : ∀ code', Ext code1 code' →
          (∀ s ∈ st, ∀ p, s.label = some p → code1[p]? = some (.jae s.min .unset) → code'[p]? = some (.jae s.min .unset)) →
          (∀ i, min i (ds.length - 1) = k → Lands code' i 0 k (pops ds k)) →
          TInv ds code' (k + 1) st ∧ ∀ r', st.head? = some r' → Waits ds.length code' r' := by
        intro code' he ho hl
        have hw : ∀ s ∈ st, Waits ds.length code' s := fun s hs => (hwaits s hs).ext he (ho s hs)
        refine ⟨⟨hmax ▸ c3, fun i hx => ?_, fun s hs => hw s (List.mem_of_mem_tail hs)⟩, fun r' hr => hw r' ?_⟩
        · by_cases hk : min i (ds.length - 1) = k
          · rw [hk]; exact hl i hk
          · exact ((hi.done i (by omega)).ext hext).ext he
        · exact List.mem_of_mem_head? hr
      have hkeep : ∀ l, ∀ s ∈ st, ∀ p, s.label = some p → code1[p]? = some (.jae s.min .unset) →
          (code1 ++ l)[p]? = some (.jae s.min .unset) := by
        intro l s _ p _ hq
        rw [List.getElem?_append_left (List.getElem?_eq_some_iff.1 hq).1, hq]
      by_cases hp : noPop d = true
      · have hpops : pops ds k = [] := by rw [pops, hget, if_pos hp]
        rw [if_pos hp]
        rcases hh with ⟨p, h1, h2, h3⟩ | ⟨h1, h2⟩
        · rw [h1]
          simp only
          have hc : patch code1 p (.case k) = patch code p (.case k) := by
            rw [hcode1, h1, fixLabel]; exact patch_twice _ _ _ _
          rw [hc]
          refine ⟨_, _, rfl, ?_⟩
          have hx : Ext code (patch code p (.case k)) := ext_patch h2 _
          have hw : ∀ s ∈ st, Waits ds.length (patch code p (.case k)) s := fun s hs =>
            (hi.waits s hs).ext hx (fun q hq hq' => by
              rw [patch_get, if_neg, hq']
              rintro rfl
              have := cm s hs
              rw [h2] at hq'
              injection hq' with hq'
              injection hq' with hq' _
              omega)
          refine ⟨⟨hmax ▸ c3, fun i hxi => ?_, fun s hs => hw s (List.mem_of_mem_tail hs)⟩, fun r' hr => hw r' (List.mem_of_mem_head? hr)⟩
          by_cases hk : min i (ds.length - 1) = k
          · rw [hk, hpops]
            refine ((h3 i (by omega) (by omega)).ext hx).lands (.direct (mid := r.min) ?_ (by omega))
            rw [patch_get, if_pos rfl, h2]; rfl
          · exact (hi.done i (by omega)).ext hx
        · rw [h1]
          refine ⟨_, _, rfl, fin _ (ext_append _ _) (hkeep _) (fun i hk => ?_)⟩
          rw [hpops]
          exact ((hreach i (by omega) (by omega)).ext (ext_append _ _)).lands (.jmp (by simp))
      · have hpops : pops ds k = [d] := by rw [pops, hget, if_neg hp]
        rw [if_neg hp]
        refine ⟨_, _, rfl, fin _ (ext_append _ _) (hkeep _) (fun i hk => ?_)⟩
        rw [hpops]
        refine ((hreach i (by omega) (by omega)).ext (ext_append _ _)).lands (.pop (by simp) (.jmp ?_))
        simp

theorem emitAll_ok (ds : List Nat) (k : Nat) (rest tail : List Nat) (hr : ds.drop k = rest ++ tail) (code : List BI)
    (st : List Range) (hi : TInv ds code k st) (hh : ∀ r, st.head? = some r → Head ds.length code r) :
    ∃ code' st', emitAll k rest code st = some (code', st') ∧ TInv ds code' (k + rest.length) st' := by
  induction rest generalizing k code st with
  | nil => exact ⟨code, st, rfl, hi⟩
  | cons d rest ih =>
    have hd : ds[k]? = some d := by
      have := congrArg List.head? hr
      simpa [List.head?_drop] using this
    have hk : k < ds.length := (List.getElem?_eq_some_iff.1 hd).1
    cases st with
    | nil => have : k = ds.length := hi.chain; omega
    | cons r st =>
      obtain ⟨code', st', e, i', h'⟩ := emitFrom_ok ds k d hd _ code r st (Nat.le_refl _) hi (hh r rfl)
      rw [emitAll, emitCase, e]
      obtain ⟨c, s, e1, e2⟩ := ih (k + 1) (by rw [← List.drop_drop, hr]; rfl) code' st' i' (fun r hr => .inl (h' r hr))
      refine ⟨c, s, e1, ?_⟩
      rw [List.length_cons, show k + (rest.length + 1) = k + 1 + rest.length by omega]
      exact e2

theorem table_start (ds : List Nat) (h : 0 < ds.length) : TInv ds [] 0 [⟨0, ds.length, none⟩] ∧
    ∀ r, [(⟨0, ds.length, none⟩ : Range)].head? = some r → Head ds.length [] r :=
  ⟨⟨⟨rfl, h, rfl⟩, fun i hi => absurd hi (by omega), by simp⟩,
    fun r hr => .inr (by cases hr; exact ⟨rfl, fun i _ _ => .refl 0⟩)⟩

theorem compileTable_ok (size : Nat) (ds : List Nat) (hs : size + 1 < 2 ^ 32) (h : size + 1 ≤ ds.length) :
    ∃ code, compileTable size ds = .ok code ∧
      ∀ i, Lands code i 0 (min i size) (pops ds (min i size)) := by
  have hl : (ds.take (size + 1)).length = size + 1 := by rw [List.length_take]; omega
  obtain ⟨s1, s2⟩ := table_start (ds.take (size + 1)) (by omega)
  obtain ⟨code, st, e, i⟩ := emitAll_ok (ds.take (size + 1)) 0 (ds.take (size + 1)) [] (by simp) [] _ s1 s2
  rw [hl] at e
  refine ⟨code, ?_, fun j => ?_⟩
  · rw [compileTable, Nat.mod_eq_of_lt hs, e]
    simp only
    rw [if_neg (by omega)]
  · have := i.done j (by omega)
    rw [hl] at this
    simp only [Nat.add_sub_cancel] at this
    have hp : pops (ds.take (size + 1)) (min j size) = pops ds (min j size) := by
      have : (ds.take (size + 1)).getD (min j size) 0 = ds.getD (min j size) 0 := by
        simp only [List.getD]
        rw [List.getElem?_take_of_lt (by omega)]
      rw [pops, pops, this]
    rw [← hp]
    exact this

theorem compileTable_short (size : Nat) (ds : List Nat) (hs : size + 1 < 2 ^ 32) (h : ds.length < size + 1) :
    compileTable size ds = .reject := by
  obtain ⟨ds', hds⟩ : ∃ l, l = ds ++ List.replicate (size + 1 - ds.length) 0 := ⟨_, rfl⟩
  have hl : ds'.length = size + 1 := by rw [hds, List.length_append, List.length_replicate]; omega
  obtain ⟨s1, s2⟩ := table_start ds' (by omega)
  obtain ⟨code, st, e, i⟩ := emitAll_ok ds' 0 ds (List.replicate (size + 1 - ds.length) 0) (by rw [hds]; rfl) [] _ s1 s2
  rw [hl] at e
  rw [compileTable, Nat.mod_eq_of_lt hs, List.take_of_length_le (by omega), e]
  simp only
  rw [if_pos h]

/-- the size whose successor does not fit 32 bits ends the node at the second label -/
theorem compileTable_crash (d d' : Nat) (ds : List Nat) : compileTable (2 ^ 32 - 1) (d :: d' :: ds) = .crash := by
  have : ∃ c, emitFrom 0 d [] 0 0 none [] = (c, []) := by
    rw [emitFrom]
    simp only [Nat.sub_self, show ¬ (0 > 1) by omega, if_false]
    split
    · exact ⟨_, rfl⟩
    · exact ⟨_, rfl⟩
  obtain ⟨c, hc⟩ := this
  rw [compileTable]
  have ht : (d :: d' :: ds).take (2 ^ 32 - 1 + 1) = d :: d' :: ds.take (2 ^ 32 - 2) := rfl
  rw [ht, show (2 ^ 32 - 1 + 1) % 2 ^ 32 = 0 from rfl, emitAll, emitCase]
  simp only [hc, emitAll, emitCase]

/-- the two ways to drop operands do the same -/
theorem multipop_eq {α : Type} (r : Bool) (n : Nat) (st : List α) (hn : n < 2 ^ 28) (hr : r = true → 0 < n)
    (hl : n ≤ st.length) (h0 : ¬ noPop (n + if r then 2 ^ 31 else 0) = true) :
    multipop (n + if r then 2 ^ 31 else 0) st = some ((if r then st.take 1 else []) ++ st.drop n) := by
  have hb : (BitVec.ofNat 32 (n + if r then 2 ^ 31 else 0) &&& 0x70000000#32) = 0#32 := by
    apply BitVec.eq_of_getLsbD_eq
    intro j hj
    rw [BitVec.getLsbD_and, BitVec.getLsbD_ofNat]
    have h28 : ∀ j, 28 ≤ j → j < 31 → (n + if r then 2 ^ 31 else 0).testBit j = false := by
      intro j h1 h2
      have hnj : n.testBit j = false := Nat.testBit_lt_two_pow (Nat.lt_of_lt_of_le hn (Nat.pow_le_pow_right (by decide) h1))
      cases r
      · simpa using hnj
      · simp only [if_true]
        rw [Nat.add_comm, Nat.testBit_two_pow_add_gt h2, hnj]
    by_cases h1 : 28 ≤ j ∧ j < 31
    · rw [h28 j h1.1 h1.2]; simp
    · have : ∀ j : Fin 32, ¬ (28 ≤ j.val ∧ j.val < 31) → (0x70000000#32).getLsbD j.val = false := by decide +kernel
      rw [this ⟨j, hj⟩ h1]; simp
  have hm : (BitVec.ofNat 32 (n + if r then 2 ^ 31 else 0) * 8#32).toNat / 8 = n := by
    rw [BitVec.toNat_mul, BitVec.toNat_ofNat]
    cases r <;> simp <;> omega
  have ht : (n + if r then 2 ^ 31 else 0).testBit 31 = r := by
    cases r
    · simpa using Nat.testBit_lt_two_pow (Nat.lt_trans hn (by decide))
    · simp only [if_true]
      rw [Nat.add_comm, Nat.testBit_two_pow_add_eq, Nat.testBit_lt_two_pow (Nat.lt_trans hn (by decide))]
      rfl
  have h0' : ¬ ((n + if r then 2 ^ 31 else 0) = 0 ∨ (n + if r then 2 ^ 31 else 0) = 0x80000001) := by
    intro h; apply h0; unfold noPop; rcases h with h | h <;> rw [h] <;> decide
  rw [multipop, if_neg h0', if_neg (by rw [hb]; simp), hm, ht]
  cases r
  · simp
  · have := hr rfl
    cases st with
    | nil => simp only [List.length_nil] at hl; omega
    | cons v st => simp

theorem jump_eq {α : Type} (r : Bool) (n : Nat) (st : List α) (hn : n < 2 ^ 28) (hr : r = true → 0 < n)
    (hl : n ≤ st.length) :
    jump (n + if r then 2 ^ 31 else 0) st = some ((if r then st.take 1 else []) ++ st.drop n) := by
  have ht : (n + if r then 2 ^ 31 else 0).testBit 31 = r := by
    cases r
    · simpa using Nat.testBit_lt_two_pow (Nat.lt_trans hn (by decide))
    · simp only [if_true]
      rw [Nat.add_comm, Nat.testBit_two_pow_add_eq, Nat.testBit_lt_two_pow (Nat.lt_trans hn (by decide))]
      rfl
  rw [jump.eq_def, ht]
  cases r
  · simp only [Bool.false_eq_true, if_false, Nat.add_zero]
    rw [if_neg (by omega)]; rfl
  · have h1 := hr rfl
    cases st with
    | nil => simp only [List.length_nil] at hl; omega
    | cons v st =>
      have hmod : (n + 2 ^ 31) % 2 ^ 31 = n := by omega
      simp only [if_true, hmod]
      simp only [List.length_cons] at hl
      rw [if_neg (by omega)]
      obtain ⟨m, rfl⟩ : ∃ m, n = m + 1 := ⟨n - 1, by omega⟩
      simp

theorem popAll_pops {α : Type} (ds : List Nat) (k : Nat) (r : Bool) (n : Nat) (st : List α) (hn : n < 2 ^ 28)
    (hr : r = true → 0 < n) (hl : n ≤ st.length) (hd : ds.getD k 0 = n + if r then 2 ^ 31 else 0) :
    popAll (pops ds k) st = some ((if r then st.take 1 else []) ++ st.drop n) := by
  rw [pops, hd]
  by_cases h0 : noPop (n + if r then 2 ^ 31 else 0) = true
  · rw [if_pos h0, popAll]
    cases r
    · have : n = 0 := by
        simp only [noPop, Bool.or_eq_true, decide_eq_true_eq, Bool.false_eq_true, if_false] at h0
        omega
      subst this; simp
    · have : n = 1 := by
        simp only [noPop, Bool.or_eq_true, decide_eq_true_eq, if_true] at h0
        omega
      subst this
      cases st with
      | nil => simp at hl
      | cons v st => simp
  · rw [if_neg h0, popAll, multipop_eq r n st hn hr hl h0]
    rfl

theorem tableSpec_at {α : Type} (cases : List Br) (dflt : Br) (i : Nat) (st : List α) :
    ∃ b, (cases ++ [dflt])[min i cases.length]? = some b ∧
      tableSpec cases dflt i st = (min i cases.length, b.unwind st) := by
  unfold tableSpec
  by_cases h : i < cases.length
  · refine ⟨cases[i], ?_, ?_⟩
    · rw [Nat.min_eq_left (by omega), List.getElem?_append_left h, List.getElem?_eq_getElem h]
    · rw [List.getElem?_eq_getElem h, Nat.min_eq_left (by omega)]
  · refine ⟨dflt, ?_, ?_⟩
    · rw [Nat.min_eq_right (by omega)]; simp
    · rw [List.getElem?_eq_none (by omega), Nat.min_eq_right (by omega)]

end Verif.Vm
