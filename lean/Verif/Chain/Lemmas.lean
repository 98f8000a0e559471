import Verif.Chain.Model
import Mathlib.Data.Nat.Bitwise

/-!
# Ancestors, views and locators: facts
-/
namespace Verif.Chain

/-! ## Specification of ancestry -/

/-- `k` steps back. -/
def up (t : Tree) : Nat → Ptr → Option Ptr
  | 0, p => some p
  | k + 1, p => (t.prev p).bind (up t k)

/-- `b` is `p` or one of its predecessors. -/
def Anc (t : Tree) (b p : Ptr) : Prop := ∃ k, up t k p = some b

/-- The ancestor of `p` at height `h`. -/
def ancestorAt (t : Tree) (p : Ptr) (h : Nat) : Option Ptr := if h ≤ t.height p then up t (t.height p - h) p else none

/-- The chain from genesis to `p`. -/
def chainOf (t : Tree) (p : Ptr) : View := (List.range (t.height p + 1)).map fun h => up t (t.height p - h) p

/-- The view of a chain with or without a tip. -/
def viewOf (t : Tree) : Option Ptr → View
  | none => []
  | some p => chainOf t p

/-- Heights count predecessors, for the known blocks. -/
structure WF (t : Tree) (K : Ptr → Prop) : Prop where
  prev_known : ∀ p q, K p → t.prev p = some q → K q
  height_succ : ∀ p q, K p → t.prev p = some q → t.height p = t.height q + 1
  root : ∀ p, K p → t.prev p = none → t.height p = 0

/-- Skip links of the known blocks lead to the ancestor at the skip height. -/
def SkipOK (t : Tree) (K : Ptr → Prop) : Prop := ∀ p, K p → t.prev p ≠ none → t.skip p = ancestorAt t p (skipHeight (t.height p))

theorem up_add (t : Tree) (j k : Nat) (p : Ptr) : up t (j + k) p = (up t j p).bind (up t k) := by
  induction j generalizing p with
  | zero => simp [up]
  | succ j ih =>
    rw [Nat.add_right_comm]
    simp only [up]
    cases t.prev p with
    | none => rfl
    | some q => exact ih q

theorem up_ok {t : Tree} {K : Ptr → Prop} (wf : WF t K) {p : Ptr} (hp : K p) {k : Nat} (hk : k ≤ t.height p) :
    ∃ q, up t k p = some q ∧ K q ∧ t.height q + k = t.height p := by
  induction k generalizing p with
  | zero => exact ⟨p, rfl, hp, by omega⟩
  | succ k ih =>
    cases hq : t.prev p with
    | none => have := wf.root p hp hq; omega
    | some q =>
      have h1 := wf.height_succ p q hp hq
      obtain ⟨r, e, kr, hr⟩ := ih (wf.prev_known p q hp hq) (by omega)
      exact ⟨r, by simp [up, hq, e], kr, by omega⟩

theorem up_some {t : Tree} {K : Ptr → Prop} (wf : WF t K) {p q : Ptr} (hp : K p) {k : Nat} (h : up t k p = some q) :
    K q ∧ t.height q + k = t.height p := by
  induction k generalizing p with
  | zero => simp only [up, Option.some.injEq] at h; subst h; exact ⟨hp, by omega⟩
  | succ k ih =>
    simp only [up] at h
    cases hq : t.prev p with
    | none => simp [hq] at h
    | some r =>
      rw [hq] at h
      have h1 := wf.height_succ p r hp hq
      obtain ⟨a, b⟩ := ih (wf.prev_known p r hp hq) h
      exact ⟨a, by omega⟩

theorem anc_at {t : Tree} {K : Ptr → Prop} (wf : WF t K) {p b : Ptr} (hp : K p) : Anc t b p ↔ ancestorAt t p (t.height b) = some b := by
  unfold ancestorAt
  constructor
  · rintro ⟨k, hk⟩
    have := (up_some wf hp hk).2
    rw [if_pos (by omega), show t.height p - t.height b = k by omega, hk]
  · intro h
    split at h
    · exact ⟨_, h⟩
    · simp at h

theorem anc_trans {t : Tree} {a b c : Ptr} (h1 : Anc t a b) (h2 : Anc t b c) : Anc t a c := by
  obtain ⟨j, hj⟩ := h1
  obtain ⟨k, hk⟩ := h2
  exact ⟨k + j, by rw [up_add, hk]; exact hj⟩

theorem anc_refl (t : Tree) (p : Ptr) : Anc t p p := ⟨0, rfl⟩

/-! ## Skip heights -/

theorem invLow_le (n : Nat) : invLow n ≤ n - 1 := Nat.and_le_right

theorem skipHeight_lt {h : Nat} (hh : 1 ≤ h) : skipHeight h < h := by
  unfold skipHeight
  have h1 := invLow_le (h - 1)
  have h2 := invLow_le (invLow (h - 1))
  have h3 := invLow_le h
  split
  · omega
  · split <;> omega

theorem walk_spec {t : Tree} {K : Ptr → Prop} (wf : WF t K) (sk : SkipOK t K) {target fuel : Nat} {p : Ptr} (hp : K p)
    (ht : target ≤ t.height p) (hf : t.height p - target < fuel) :
    walk t target fuel p (t.height p) = up t (t.height p - target) p := by
  induction fuel generalizing p with
  | zero => omega
  | succ fuel ih =>
    simp only [walk]
    by_cases hgt : t.height p > target
    · rw [if_pos hgt]
      cases hq : t.prev p with
      | none => have := wf.root p hp hq; omega
      | some q =>
        have hs := wf.height_succ p q hp hq
        have kq := wf.prev_known p q hp hq
        split
        · rename_i hc
          have hlt := skipHeight_lt (h := t.height p) (by omega)
          have hsk := sk p hp (by simp [hq])
          obtain ⟨r, e1, kr, hr⟩ := up_ok wf hp (k := t.height p - skipHeight (t.height p)) (by omega)
          have hsk' : t.skip p = some r := by
            rw [hsk, ancestorAt, if_pos (by omega), e1]
          have hrh : t.height r = skipHeight (t.height p) := by omega
          rw [hsk']
          simp only
          rw [← hrh, ih kr (by rcases hc with hc | hc <;> omega) (by omega)]
          rw [show t.height p - target = (t.height p - skipHeight (t.height p)) + (t.height r - target) by
            rcases hc with hc | hc <;> omega]
          rw [up_add, e1]
          rfl
        · simp only
          have : t.height p - 1 = t.height q := by omega
          rw [this, ih kq (by omega) (by omega), show t.height p - target = (t.height q - target) + 1 by omega]
          simp [up, hq]
    · rw [if_neg hgt, show t.height p - target = 0 by omega]
      rfl

theorem getAncestor_eq {t : Tree} {K : Ptr → Prop} (wf : WF t K) (sk : SkipOK t K) {p : Ptr} (hp : K p) (h : Nat) :
    getAncestor t p h = some (ancestorAt t p h) := by
  unfold getAncestor ancestorAt
  by_cases hh : h > t.height p
  · rw [if_pos hh, if_neg (by omega)]
  · rw [if_neg hh, if_pos (by omega), walk_spec wf sk hp (by omega) (by omega)]
    obtain ⟨r, e, -, -⟩ := up_ok wf hp (k := t.height p - h) (by omega)
    rw [e]; rfl

/-! ## Views -/

theorem chainOf_length (t : Tree) (p : Ptr) : (chainOf t p).length = t.height p + 1 := by simp [chainOf]

theorem chainOf_get (t : Tree) (p : Ptr) (h : Nat) : (chainOf t p)[h]? = if h ≤ t.height p then some (up t (t.height p - h) p) else none := by
  unfold chainOf
  rw [List.getElem?_map]
  by_cases hh : h ≤ t.height p
  · rw [List.getElem?_range (by omega), if_pos hh]; rfl
  · rw [List.getElem?_eq_none (by simp; omega), if_neg hh]; rfl

theorem chainOf_at (t : Tree) (p : Ptr) (h : Nat) : (chainOf t p).at h = ancestorAt t p h := by
  unfold View.at ancestorAt
  rw [chainOf_get]
  split <;> rfl

theorem chainOf_tip (t : Tree) (p : Ptr) : (chainOf t p).tip = some p := by
  unfold View.tip
  rw [chainOf_length, if_pos (by omega), Nat.add_sub_cancel, chainOf_at, ancestorAt, if_pos (Nat.le_refl _), Nat.sub_self]
  rfl

theorem contains_iff {t : Tree} {K : Ptr → Prop} (wf : WF t K) {p b : Ptr} (hp : K p) : contains t (chainOf t p) b = true ↔ Anc t b p := by
  rw [anc_at wf hp]
  simp [contains, chainOf_at]

theorem next_spec {t : Tree} {K : Ptr → Prop} (wf : WF t K) {p b : Ptr} (hp : K p) (c : Ptr) :
    next t (chainOf t p) b = some c ↔ Anc t c p ∧ t.prev c = some b := by
  unfold next
  rw [chainOf_at]
  constructor
  · intro h
    split at h
    · rename_i hb
      rw [contains_iff wf hp, anc_at wf hp] at hb
      unfold ancestorAt at h hb
      split at h
      · rename_i hle
        rw [if_pos (by omega)] at hb
        refine ⟨⟨_, h⟩, ?_⟩
        rw [show t.height p - t.height b = (t.height p - (t.height b + 1)) + 1 by omega, up_add, h] at hb
        simp only [Option.bind_some, up] at hb
        cases hc : t.prev c with
        | none => simp [hc] at hb
        | some x => simpa [hc] using hb
      · simp at h
    · simp at h
  · rintro ⟨hc, hb⟩
    have kc : K c := by obtain ⟨k, hk⟩ := hc; exact (up_some wf hp hk).1
    have hbp : Anc t b p := anc_trans ⟨1, by simp [up, hb]⟩ hc
    have hh := wf.height_succ c b kc hb
    rw [if_pos ((contains_iff wf hp).2 hbp), ← hh]
    exact (anc_at wf hp).1 hc

/-! ## SetTip -/

/-- `f` is the last common block of the chains ending in `p` and `old`. -/
def LastCommon (t : Tree) (p : Ptr) (old : Option Ptr) : Option Ptr → Prop
  | none => ∀ o, old = some o → ∀ b, Anc t b p → ¬ Anc t b o
  | some f => ∃ o, old = some o ∧ Anc t f p ∧ Anc t f o ∧ ∀ b, Anc t b p → Anc t b o → Anc t b f

theorem resize_get (v : View) (n h : Nat) (hh : h < n) : (resize v n).at h = v.at h := by
  unfold resize View.at
  by_cases hv : h < v.length
  · rw [List.getElem?_append_left (by simp; omega), List.getElem?_take, if_pos hh]
  · rw [List.getElem?_append_right (by simp; omega), List.getElem?_replicate, List.getElem?_eq_none (by omega)]
    split <;> rfl

theorem resize_length (v : View) (n : Nat) : (resize v n).length = n := by
  unfold resize; simp; omega

theorem anc_of_anc {t : Tree} {K : Ptr → Prop} (wf : WF t K) {p b c : Ptr} (hp : K p) (hb : Anc t b p) (hc : Anc t c p)
    (h : t.height b ≤ t.height c) : Anc t b c := by
  obtain ⟨i, hi⟩ := hb
  obtain ⟨j, hj⟩ := hc
  have h1 := (up_some wf hp hi).2
  have h2 := (up_some wf hp hj).2
  refine ⟨i - j, ?_⟩
  rw [show i = j + (i - j) by omega, up_add, hj] at hi
  exact hi

theorem viewOf_at (t : Tree) (old : Option Ptr) (h : Nat) (b : Ptr) :
    (viewOf t old).at h = some b ↔ ∃ o, old = some o ∧ ancestorAt t o h = some b := by
  cases old with
  | none => simp [viewOf, View.at]
  | some o => simp [viewOf, chainOf_at]

theorem view_ext {v w : View} (hl : v.length = w.length) (hn : ∀ h < v.length, v.at h = w.at h) : v = w := by
  apply List.ext_getElem? fun i => ?_
  by_cases hi : i < v.length
  · have := hn i hi
    unfold View.at at this
    rw [List.getElem?_eq_getElem hi, List.getElem?_eq_getElem (hl ▸ hi)] at this ⊢
    simpa using this
  · rw [List.getElem?_eq_none (by omega), List.getElem?_eq_none (by omega)]

theorem set_at (v : View) (i h : Nat) (x : Option Ptr) (hi : i < v.length) : View.at (v.set i x) h = if h = i then x else v.at h := by
  unfold View.at
  rw [List.getElem?_set]
  by_cases he : i = h
  · subst he; simp [hi]
  · rw [if_neg he, if_neg (fun h => he h.symm)]

theorem setLoop_spec {t : Tree} {K : Ptr → Prop} (wf : WF t K) {p : Ptr} (hp : K p) {old : Option Ptr} (ho : ∀ o, old = some o → K o)
    {fuel k : Nat} {v : View} (hf : t.height p + 2 ≤ fuel + k) (hk : k ≤ t.height p + 1) (hl : v.length = t.height p + 1)
    (hset : ∀ h, h ≤ t.height p → t.height p < h + k → v.at h = ancestorAt t p h)
    (hkeep : ∀ h, h + k ≤ t.height p → v.at h = (viewOf t old).at h)
    (hno : ∀ b, Anc t b p → t.height p < t.height b + k → ∀ o, old = some o → ¬ Anc t b o) :
    ∃ f, setLoop t fuel v (up t k p) = some (chainOf t p, f) ∧ LastCommon t p old f := by
  induction fuel generalizing k v with
  | zero => omega
  | succ fuel ih =>
    by_cases hkk : k ≤ t.height p
    · obtain ⟨x, e, kx, hx⟩ := up_ok wf hp hkk
      have hxa : Anc t x p := ⟨k, e⟩
      have hxk := hkeep (t.height x) (by omega)
      simp only [setLoop, e]
      by_cases hc : v.at (t.height x) = some x
      · rw [if_pos hc]
        rw [hxk, viewOf_at] at hc
        obtain ⟨o, rfl, hox⟩ := hc
        have hxo : Anc t x o := (anc_at wf (ho o rfl)).2 hox
        refine ⟨some x, ?_, o, rfl, hxa, hxo, ?_⟩
        · congr 2
          apply view_ext
          · rw [hl, chainOf_length]
          · intro h hh
            rw [chainOf_at]
            by_cases hlow : h + k ≤ t.height p
            · rw [hkeep h hlow]
              show (chainOf t o).at h = _
              rw [chainOf_at]
              obtain ⟨j, hj⟩ := hxo
              have hjo := (up_some wf (ho o rfl) hj).2
              unfold ancestorAt
              rw [if_pos (by omega), if_pos (by omega), show t.height o - h = j + (t.height x - h) by omega, up_add, hj,
                show t.height p - h = k + (t.height x - h) by omega, up_add, e]
            · exact hset h (by omega) (by omega)
        · intro b hbp hbo
          by_cases hbx : t.height b ≤ t.height x
          · exact anc_of_anc wf hp hbp hxa hbx
          · exact absurd hbo (hno b hbp (by omega) o rfl)
      · rw [if_neg hc]
        have hup : t.prev x = up t (k + 1) p := by
          rw [up_add, e]; simp only [Option.bind_some, up]; cases t.prev x <;> rfl
        rw [hup]
        refine ih (by omega) (by omega) (by simp [hl]) ?_ ?_ ?_
        · intro h h1 h2
          rw [set_at _ _ _ _ (by omega)]
          by_cases hh : h = t.height x
          · subst hh
            rw [if_pos rfl]
            exact ((anc_at wf hp).1 hxa).symm
          · rw [if_neg hh]; exact hset h h1 (by omega)
        · intro h h1
          rw [set_at _ _ _ _ (by omega), if_neg (by omega)]
          exact hkeep h (by omega)
        · intro b hb h1 o hoo
          by_cases hh : t.height b = t.height x
          · have : b = x := by
              have h2 := (anc_at wf hp).1 hb
              have h3 := (anc_at wf hp).1 hxa
              rw [hh, h3] at h2
              simpa using h2.symm
            subst this
            intro hbo
            apply hc
            rw [hxk, viewOf_at]
            exact ⟨o, hoo, (anc_at wf (ho o hoo)).1 hbo⟩
          · exact hno b hb (by omega) o hoo
    · have hk1 : k = t.height p + 1 := by omega
      have e : up t k p = none := by
        cases hu : up t k p with
        | none => rfl
        | some q => have := (up_some wf hp hu).2; omega
      simp only [setLoop, e]
      refine ⟨none, ?_, ?_⟩
      · congr 2
        apply view_ext
        · rw [hl, chainOf_length]
        · intro h hh
          rw [chainOf_at]
          exact hset h (by omega) (by omega)
      · intro o hoo b hb
        exact hno b hb (by omega) o hoo

theorem setTip_spec {t : Tree} {K : Ptr → Prop} (wf : WF t K) {p : Ptr} (hp : K p) {old : Option Ptr} (ho : ∀ o, old = some o → K o) :
    ∃ f, setTip t (viewOf t old) (some p) = some (chainOf t p, f) ∧ LastCommon t p old f := by
  have := setLoop_spec wf hp ho (fuel := t.height p + 2) (k := 0) (v := resize (viewOf t old) (t.height p + 1)) (by omega) (by omega)
    (resize_length _ _) (by intro h h1 h2; omega) (by intro h h1; exact resize_get _ _ _ (by omega))
    (by
      intro b hb h1
      obtain ⟨k, hk⟩ := hb
      have := (up_some wf hp hk).2
      omega)
  exact this

end Verif.Chain
