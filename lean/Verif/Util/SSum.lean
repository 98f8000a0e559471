import Verif.Util.SMap

/-! Sums over ordered association lists. -/
namespace Verif

variable {K V : Type}

def ssum (f : K → V → Int) : List (K × V) → Int
  | [] => 0
  | (k, v) :: r => f k v + ssum f r

section
variable [DecidableEq K]

/-- The value at a key, zero without entry. -/
def at0 (f : K → V → Int) (l : List (K × V)) (k : K) : Int :=
  match find l k with
  | some v => f k v
  | none => 0

theorem at0_some {f : K → V → Int} {l : List (K × V)} {k : K} {v : V} (h : find l k = some v) : at0 f l k = f k v := by
  simp [at0, h]

theorem at0_none {f : K → V → Int} {l : List (K × V)} {k : K} (h : find l k = none) : at0 f l k = 0 := by
  simp [at0, h]

theorem sorted_find_none {lt : K → K → Bool} (ho : StrictTotal lt) {l : List (K × V)} {k k' : K} {v : V}
    (hs : SortedBy lt ((k', v) :: l)) (h : k = k' ∨ lt k k' = true) : find l k = none := by
  cases hf : find l k with
  | none => rfl
  | some w =>
    exfalso
    have h1 := (List.pairwise_cons.1 hs).1 _ (find_mem hf)
    dsimp only at h1
    rcases h with rfl | h
    · have := ho.irrefl k
      rw [this] at h1; cases h1
    · have := ho.trans _ _ _ h1 h
      rw [ho.irrefl] at this; cases this

theorem ssum_put {lt : K → K → Bool} (ho : StrictTotal lt) (f : K → V → Int) {l : List (K × V)} (hs : SortedBy lt l) (k : K) (v : V) :
    ssum f (put lt l k v) = ssum f l - at0 f l k + f k v := by
  induction l with
  | nil => simp [put, ssum, at0]
  | cons p m ih =>
    obtain ⟨k', v'⟩ := p
    have hs' := List.pairwise_cons.1 hs
    by_cases h1 : k = k'
    · subst h1
      simp [put, ssum, at0, find]; omega
    · by_cases h2 : lt k k' = true
      · have hn := sorted_find_none ho hs (Or.inr h2)
        simp [put, h1, h2, ssum, at0, find, hn]; omega
      · have hp : put lt ((k', v') :: m) k v = (k', v') :: put lt m k v := by simp [put, h1, h2]
        have ha : at0 f ((k', v') :: m) k = at0 f m k := by simp [at0, find, h1]
        rw [hp, ha]
        simp only [ssum, ih hs'.2]; omega

theorem ssum_del {lt : K → K → Bool} (ho : StrictTotal lt) (f : K → V → Int) {l : List (K × V)} (hs : SortedBy lt l) (k : K) :
    ssum f (del l k) = ssum f l - at0 f l k := by
  induction l with
  | nil => simp [del, ssum, at0]
  | cons p m ih =>
    obtain ⟨k', v'⟩ := p
    have hs' := List.pairwise_cons.1 hs
    by_cases h1 : k = k'
    · subst h1
      have hn := sorted_find_none ho hs (Or.inl rfl)
      have : at0 f m k = 0 := at0_none hn
      simp [del, ssum, at0_some (show find ((k, v') :: m) k = some v' by simp [find]), ih hs'.2, this]; omega
    · have ha : at0 f ((k', v') :: m) k = at0 f m k := by simp [at0, find, h1]
      rw [ha]
      simp only [del, h1, if_false, ssum, ih hs'.2]; omega

theorem ssum_nonneg {f : K → V → Int} (hf : ∀ k v, 0 ≤ f k v) : ∀ l : List (K × V), 0 ≤ ssum f l
  | [] => Int.le_refl _
  | (k, v) :: r => by
    have := ssum_nonneg hf r
    have := hf k v
    simp only [ssum]; omega

theorem le_ssum {lt : K → K → Bool} (ho : StrictTotal lt) {f : K → V → Int} (hf : ∀ k v, 0 ≤ f k v) {l : List (K × V)}
    (hs : SortedBy lt l) {k : K} {v : V} (h : find l k = some v) : f k v ≤ ssum f l := by
  have h1 := ssum_del ho f hs k
  have h2 := ssum_nonneg hf (del l k)
  rw [at0_some h] at h1
  omega

theorem le_ssum_two {lt : K → K → Bool} (ho : StrictTotal lt) {f : K → V → Int} (hf : ∀ k v, 0 ≤ f k v) {l : List (K × V)}
    (hs : SortedBy lt l) {k k' : K} {v v' : V} (hne : k' ≠ k) (h : find l k = some v) (h' : find l k' = some v') :
    f k v + f k' v' ≤ ssum f l := by
  have h1 := ssum_del ho f hs k
  have h2 := le_ssum ho hf (sorted_del hs k) (k := k') (v := v') (by rw [find_del, if_neg hne]; exact h')
  rw [at0_some h] at h1
  omega

end

theorem ssum_congr {f g : K → V → Int} : ∀ {l : List (K × V)}, (∀ p ∈ l, f p.1 p.2 = g p.1 p.2) → ssum f l = ssum g l
  | [], _ => rfl
  | (k, v) :: r, h => by
    simp only [ssum, ssum_congr (l := r) (fun p hp => h p (List.mem_cons_of_mem _ hp)), h (k, v) (List.mem_cons_self ..)]

theorem natLt_total : StrictTotal (fun a b : Nat => decide (a < b)) :=
  ⟨fun a => by simp, fun a b c h1 h2 => by simp only [decide_eq_true_eq] at *; omega,
   fun a b h1 h2 => by simp only [decide_eq_false_iff_not] at *; omega⟩

end Verif
