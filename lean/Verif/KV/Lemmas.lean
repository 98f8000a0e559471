import Verif.KV.Model
/-! Helper lemmas about the cache model. -/
namespace Verif.KV

variable {K V : Type} [DecidableEq K] (c : Cfg K V)

/-- The entry a lookup finds, without the copying side effect. -/
def raw : Cache K V → K → Option V
  | .root m d, k => match find m k with | some v => some v | none => find d k
  | .over m b, k => match find m k with | some v => some v | none => raw b k

/-- Value a reader gets for `k` (tombstones and empty keys read as absent). -/
def live (s : Cache K V) (k : K) : Option V :=
  if c.kEmpty k then none
  else match raw s k with
    | some v => if c.vEmpty v then none else some v
    | none => none

/-- All maps of a stack are ordered by the map order. -/
def WF : Cache K V → Prop
  | .root m _ => SortedBy c.lt m
  | .over m b => SortedBy c.lt m ∧ WF b

/-- Same number of layers and every layer reads the same. -/
def Same : Cache K V → Cache K V → Prop
  | .root m d, .root m' d' => ∀ k, raw (.root m d) k = raw (.root m' d') k
  | .over m b, .over m' b' => (∀ k, raw (.over m b) k = raw (.over m' b') k) ∧ Same b b'
  | _, _ => False

theorem same_refl : ∀ s : Cache K V, Same s s
  | .root _ _ => fun _ => rfl
  | .over _ b => ⟨fun _ => rfl, same_refl b⟩

theorem Same.raw_eq {s s' : Cache K V} (h : Same s s') (k : K) : raw s k = raw s' k := by
  cases s <;> cases s' <;> simp only [Same] at h
  · exact h k
  · exact h.1 k

theorem Same.trans : ∀ {s s' s'' : Cache K V}, Same s s' → Same s' s'' → Same s s''
  | .root _ _, .root _ _, .root _ _, h, h' => fun k => (h k).trans (h' k)
  | .over _ _, .over _ _, .over _ _, h, h' => ⟨fun k => (h.1 k).trans (h'.1 k), h.2.trans h'.2⟩

theorem raw_over (m : List (K × V)) (b : Cache K V) (k : K) :
    raw (.over m b) k = match find m k with | some v => some v | none => raw b k := rfl

theorem getIt_spec : ∀ (s : Cache K V) (k : K),
    (getIt c s k).1 = raw s k ∧ Same (getIt c s k).2 s
  | .root m d, k => by
    simp only [getIt, raw]
    cases h : find m k with
    | some v => exact ⟨rfl, same_refl _⟩
    | none =>
      cases h2 : find d k with
      | none => exact ⟨rfl, same_refl _⟩
      | some v =>
        refine ⟨rfl, ?_⟩
        intro q
        simp only [raw, find_put]
        by_cases hq : q = k
        · subst hq; simp [h, h2]
        · simp [hq]
  | .over m b, k => by
    have ih := getIt_spec b k
    simp only [getIt, raw]
    cases h : find m k with
    | some v => exact ⟨rfl, same_refl _⟩
    | none =>
      rcases hr : getIt c b k with ⟨r1, r2⟩
      rw [hr] at ih
      simp only at ih
      cases r1 with
      | none =>
        refine ⟨ih.1, ?_, ih.2⟩
        intro q
        simp only [raw]
        cases find m q with
        | some v => rfl
        | none => exact ih.2.raw_eq q
      | some v =>
        refine ⟨ih.1, ?_, ih.2⟩
        intro q
        simp only [raw, find_put]
        by_cases hq : q = k
        · subst hq; simp [h, ← ih.1]
        · simp only [hq, if_false]
          cases find m q with
          | some v => rfl
          | none => exact ih.2.raw_eq q

theorem raw_setSelf (s : Cache K V) (k : K) (v : V) (q : K) :
    raw (setSelf c s k v) q = if q = k then some v else raw s q := by
  cases s <;> simp only [setSelf, raw, find_put] <;> by_cases h : q = k <;> simp [h]

theorem wf_getIt (ho : StrictTotal c.lt) : ∀ (s : Cache K V) (k : K), WF c s → WF c (getIt c s k).2
  | .root m d, k, h => by
    simp only [getIt]
    cases find m k with
    | some v => exact h
    | none =>
      cases find d k with
      | none => exact h
      | some v => exact sorted_put ho h _ _
  | .over m b, k, h => by
    have ih := wf_getIt ho b k h.2
    simp only [getIt]
    cases find m k with
    | some v => exact h
    | none =>
      rcases hr : getIt c b k with ⟨r1, r2⟩
      rw [hr] at ih
      cases r1 with
      | none => exact ⟨h.1, ih⟩
      | some v => exact ⟨sorted_put ho h.1 _ _, ih⟩

theorem wf_setSelf (ho : StrictTotal c.lt) (s : Cache K V) (k : K) (v : V) (h : WF c s) :
    WF c (setSelf c s k v) := by
  cases s with
  | root m d => exact sorted_put ho h _ _
  | over m b => exact ⟨sorted_put ho h.1 _ _, h.2⟩

/-- keys of a strictly ordered list do not repeat -/
theorem sorted_head_notin {lt : K → K → Bool} (ho : StrictTotal lt) {k : K} {v : V}
    {r : List (K × V)} (h : SortedBy lt ((k, v) :: r)) : find r k = none := by
  cases hf : find r k with
  | none => rfl
  | some w =>
    have := (List.pairwise_cons.1 h).1 _ (find_mem hf)
    simp [ho.irrefl] at this

theorem raw_flushInto (ho : StrictTotal c.lt) : ∀ (l : List (K × V)) (b : Cache K V) (q : K),
    SortedBy c.lt l →
    raw (flushInto c b l) q = match find l q with | some v => some v | none => raw b q
  | [], b, q, _ => rfl
  | (k, v) :: r, b, q, h => by
    have hr := sorted_head_notin ho h
    simp only [flushInto]
    rw [raw_flushInto ho r _ q (List.pairwise_cons.1 h).2, raw_setSelf]
    simp only [find]
    by_cases hq : q = k
    · subst hq; simp [hr]
    · simp [hq]

theorem wf_flushInto (ho : StrictTotal c.lt) : ∀ (l : List (K × V)) (b : Cache K V),
    WF c b → WF c (flushInto c b l)
  | [], _, h => h
  | (k, v) :: r, b, h => wf_flushInto ho r _ (wf_setSelf c ho b k v h)

/-- The layers below a cache. -/
def below : Cache K V → List (Cache K V)
  | .root _ _ => []
  | .over _ b => b :: below b

theorem below_setSelf (s : Cache K V) (k : K) (v : V) : below (setSelf c s k v) = below s := by
  cases s <;> rfl

theorem below_flushInto : ∀ (l : List (K × V)) (b : Cache K V), below (flushInto c b l) = below b
  | [], _ => rfl
  | (k, v) :: r, b => by
    simp only [flushInto]; rw [below_flushInto r, below_setSelf]

theorem find_flushDisk (ho : StrictTotal c.lt) : ∀ (l d : List (K × V)) (q : K),
    SortedBy c.lt l →
    find (flushDisk c d l) q =
      match find l q with
      | some v => if c.vEmpty v then none else some v
      | none => find d q
  | [], d, q, _ => rfl
  | (k, v) :: r, d, q, h => by
    have hr := sorted_head_notin ho h
    simp only [flushDisk]
    rw [find_flushDisk ho r _ q (List.pairwise_cons.1 h).2]
    simp only [find]
    by_cases hq : q = k
    · subst hq
      by_cases hv : c.vEmpty v
      · simp [hr, hv, find_del]
      · simp [hr, hv, find_put]
    · by_cases hv : c.vEmpty v
      · simp [hq, hv, find_del]
      · simp [hq, hv, find_put]

/-- The stored value as a reader sees it. -/
def vis : Option V → Option V
  | some v => if c.vEmpty v then none else some v
  | none => none

theorem live_eq (s : Cache K V) (k : K) : live c s k = if c.kEmpty k then none else vis c (raw s k) := by
  unfold live vis; rfl

theorem getData_spec (s : Cache K V) (k : K) :
    (getData c s k).1 = live c s k ∧ Same (getData c s k).2 s := by
  have hg := getIt_spec c s k
  unfold getData live
  by_cases hk : c.kEmpty k
  · simp [hk, same_refl]
  · simp only [hk, Bool.false_eq_true, if_false]
    rcases hr : getIt c s k with ⟨r1, r2⟩
    rw [hr] at hg
    cases r1 <;> simp only at hg ⊢ <;> simp [← hg.1, hg.2]

theorem hasData_spec (s : Cache K V) (k : K) :
    (hasData c s k).1 = (live c s k).isSome ∧ Same (hasData c s k).2 s := by
  have hg := getIt_spec c s k
  unfold hasData live
  by_cases hk : c.kEmpty k
  · simp [hk, same_refl]
  · simp only [hk, Bool.false_eq_true, if_false]
    rcases hr : getIt c s k with ⟨r1, r2⟩
    rw [hr] at hg
    cases r1 with
    | none => simp only at hg ⊢; simp [← hg.1, hg.2]
    | some v => simp only at hg ⊢; by_cases hv : c.vEmpty v <;> simp [← hg.1, hg.2, hv]

/-- old value as logged -/
def logged (s : Cache K V) (k : K) : V := (raw s k).getD c.empty

theorem setData_spec (s : Cache K V) (k : K) (v : V) (hk : c.kEmpty k = false) :
    ∃ s', Same s' s ∧ s' = (getIt c s k).2 ∧
      setData c s k v = (true, setSelf c s' k v, [(k, logged c s k)]) := by
  have hg := getIt_spec c s k
  refine ⟨(getIt c s k).2, hg.2, rfl, ?_⟩
  unfold setData logged
  simp only [hk, Bool.false_eq_true, if_false]
  rcases hr : getIt c s k with ⟨r1, r2⟩
  rw [hr] at hg
  cases r1 <;> simp only at hg ⊢ <;> simp [← hg.1]

theorem eraseData_spec (s : Cache K V) (k : K) (hk : c.kEmpty k = false) :
    ∃ s', Same s' s ∧ s' = (getIt c s k).2 ∧
      ((live c s k = none ∧ eraseData c s k = (true, s', [])) ∨
       (∃ v, raw s k = some v ∧ c.vEmpty v = false ∧
          eraseData c s k = (true, setSelf c s' k c.empty, [(k, v)]))) := by
  have hg := getIt_spec c s k
  refine ⟨(getIt c s k).2, hg.2, rfl, ?_⟩
  unfold eraseData live
  simp only [hk, Bool.false_eq_true, if_false]
  rcases hr : getIt c s k with ⟨r1, r2⟩
  rw [hr] at hg
  cases r1 with
  | none => left; simp only at hg ⊢; simp [← hg.1]
  | some v =>
    simp only at hg ⊢
    by_cases hv : c.vEmpty v
    · left; simp [← hg.1, hv]
    · right; exact ⟨v, by simp [← hg.1], by simpa using hv, by simp [hv]⟩

theorem same_below_setSelf {s s' : Cache K V} (h : Same s s') (k : K) (v : V) :
    Same (setSelf c s k v) (setSelf c s' k v) := by
  cases s <;> cases s' <;> simp only [Same] at h
  · intro q
    have := h q
    simp only [raw, find_put]
    by_cases hq : q = k
    · simp [hq]
    · simpa [hq, raw] using this
  · refine ⟨?_, h.2⟩
    intro q
    have := h.1 q
    simp only [raw, find_put]
    by_cases hq : q = k
    · simp [hq]
    · simpa [hq, raw] using this

/-- Undoing entry by entry. -/
theorem raw_undoList_cons (s : Cache K V) (k : K) (v : V) (r : OpLog K V) (q : K) :
    raw (undoList c s ((k, v) :: r)) q = if q = k then some v else raw (undoList c s r) q := by
  simp only [undoList, raw_setSelf]

/-- What a reader sees after an undo list depends only on what it saw before it and on the
first entry for the key. -/
theorem live_undoList (s : Cache K V) : ∀ (l : OpLog K V) (q : K), c.kEmpty q = false →
    live c (undoList c s l) q =
      match find l q with | some v => vis c (some v) | none => live c s q
  | [], q, _ => rfl
  | (k, v) :: r, q, hk => by
    rw [live_eq, raw_undoList_cons]
    simp only [find, hk, Bool.false_eq_true, if_false]
    by_cases hq : q = k
    · simp [hq]
    · have := live_undoList s r q hk
      simp only [hq, if_false]
      rw [← this, live_eq]; simp [hk]

theorem find_append (l l' : List (K × V)) (q : K) :
    find (l ++ l') q = match find l q with | some v => some v | none => find l' q := by
  induction l with
  | nil => rfl
  | cons p r ih =>
    obtain ⟨k, v⟩ := p
    simp only [List.cons_append, find]
    by_cases h : q = k <;> simp [h, ih]

end Verif.KV
