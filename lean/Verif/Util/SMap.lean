/-
Ordered association lists: the model of `std::map` and of a key-ordered
database table.  Keys are compared with an explicit `lt`, because the C++ code
uses two different orders for the same keys (the C++ `operator<` for maps, the
byte order of the serialized key for the database).
-/
namespace Verif

variable {K V : Type}

/-- Value stored under `k` (`std::map::find`). -/
def find [DecidableEq K] : List (K × V) → K → Option V
  | [], _ => none
  | (k', v) :: r, k => if k = k' then some v else find r k

/-- Insert or overwrite, keeping the list ordered by `lt` (`std::map::operator[]`). -/
def put [DecidableEq K] (lt : K → K → Bool) : List (K × V) → K → V → List (K × V)
  | [], k, v => [(k, v)]
  | (k', v') :: r, k, v =>
    if k = k' then (k, v) :: r
    else if lt k k' then (k, v) :: (k', v') :: r
    else (k', v') :: put lt r k v

/-- Remove a key (`std::map::erase(key)`). -/
def del [DecidableEq K] : List (K × V) → K → List (K × V)
  | [], _ => []
  | (k', v') :: r, k => if k = k' then del r k else (k', v') :: del r k

/-- `lt` is a strict total order. -/
structure StrictTotal (lt : K → K → Bool) : Prop where
  irrefl : ∀ a, lt a a = false
  trans : ∀ a b c, lt a b = true → lt b c = true → lt a c = true
  total : ∀ a b, lt a b = false → lt b a = false → a = b

/-- Strictly increasing keys. -/
def SortedBy (lt : K → K → Bool) (l : List (K × V)) : Prop :=
  l.Pairwise (fun a b => lt a.1 b.1 = true)

section
variable [DecidableEq K]

@[simp] theorem find_nil (k : K) : find ([] : List (K × V)) k = none := rfl

theorem find_put (lt : K → K → Bool) (l : List (K × V)) (k : K) (v : V) (q : K) :
    find (put lt l k v) q = if q = k then some v else find l q := by
  induction l with
  | nil => simp [put, find]
  | cons p r ih =>
    obtain ⟨k', v'⟩ := p
    by_cases h1 : k = k'
    · subst h1
      by_cases h2 : q = k <;> simp [put, find, h2]
    · by_cases h3 : lt k k' = true
      · simp [put, find, h1, h3]
      · have hp : put lt ((k', v') :: r) k v = (k', v') :: put lt r k v := by simp [put, h1, h3]
        rw [hp]
        by_cases h4 : q = k'
        · subst h4
          have : q ≠ k := fun h => h1 h.symm
          simp [this, find]
        · simp [h4, find, ih]

theorem find_del (l : List (K × V)) (k q : K) :
    find (del l k) q = if q = k then none else find l q := by
  induction l with
  | nil => simp [del]
  | cons p r ih =>
    obtain ⟨k', v'⟩ := p
    by_cases h1 : k = k'
    · subst h1
      simp only [del, if_true, ih, find]
      by_cases h2 : q = k <;> simp [h2]
    · simp only [del, h1, if_false, find, ih]
      by_cases h4 : q = k'
      · subst h4
        have : q ≠ k := fun h => h1 h.symm
        simp [this]
      · simp [h4]

theorem find_mem {l : List (K × V)} {k : K} {v : V} (h : find l k = some v) : (k, v) ∈ l := by
  induction l with
  | nil => simp at h
  | cons p r ih =>
    obtain ⟨k', v'⟩ := p
    simp only [find] at h
    by_cases h1 : k = k'
    · simp [h1] at h; simp [h1, h]
    · simp [h1] at h; simp [ih h]

theorem find_none_not_mem {l : List (K × V)} {k : K} (h : find l k = none) (v : V) : (k, v) ∉ l := by
  induction l with
  | nil => simp
  | cons p r ih =>
    obtain ⟨k', v'⟩ := p
    simp only [find] at h
    by_cases h1 : k = k'
    · simp [h1] at h
    · simp [h1] at h
      simp [h1, ih h]

theorem mem_put {lt : K → K → Bool} {l : List (K × V)} {k : K} {v : V} {p : K × V}
    (h : p ∈ put lt l k v) : p = (k, v) ∨ p ∈ l := by
  induction l with
  | nil => simpa [put] using h
  | cons a r ih =>
    obtain ⟨k', v'⟩ := a
    simp only [put] at h
    split at h
    · rcases List.mem_cons.1 h with h | h
      · exact Or.inl h
      · exact Or.inr (List.mem_cons_of_mem _ h)
    · split at h
      · rcases List.mem_cons.1 h with h | h
        · exact Or.inl h
        · exact Or.inr h
      · rcases List.mem_cons.1 h with h | h
        · exact Or.inr (by simp [h])
        · rcases ih h with h | h
          · exact Or.inl h
          · exact Or.inr (List.mem_cons_of_mem _ h)

theorem mem_del {l : List (K × V)} {k : K} {p : K × V} (h : p ∈ del l k) : p ∈ l := by
  induction l with
  | nil => simp [del] at h
  | cons a r ih =>
    obtain ⟨k', v'⟩ := a
    simp only [del] at h
    split at h
    · exact List.mem_cons_of_mem _ (ih h)
    · rcases List.mem_cons.1 h with h | h
      · simp [h]
      · exact List.mem_cons_of_mem _ (ih h)

theorem sorted_put {lt : K → K → Bool} (ho : StrictTotal lt) {l : List (K × V)}
    (hs : SortedBy lt l) (k : K) (v : V) : SortedBy lt (put lt l k v) := by
  induction l with
  | nil => simp [put, SortedBy]
  | cons a r ih =>
    obtain ⟨k', v'⟩ := a
    have hs' := List.pairwise_cons.1 hs
    simp only [put]
    split
    · rename_i h; subst h
      exact List.pairwise_cons.2 ⟨hs'.1, hs'.2⟩
    · rename_i hne
      split
      · rename_i hlt
        refine List.pairwise_cons.2 ⟨?_, hs⟩
        intro b hb
        rcases List.mem_cons.1 hb with hb | hb
        · simpa [hb] using hlt
        · exact ho.trans _ _ _ hlt (hs'.1 b hb)
      · rename_i hlt
        refine List.pairwise_cons.2 ⟨?_, ih hs'.2⟩
        intro b hb
        rcases mem_put hb with hb | hb
        · subst hb
          cases h : lt k' k
          · exact absurd (ho.total _ _ h (by simpa using hlt)).symm hne
          · rfl
        · exact hs'.1 b hb

theorem sorted_del {lt : K → K → Bool} {l : List (K × V)}
    (hs : SortedBy lt l) (k : K) : SortedBy lt (del l k) := by
  induction l with
  | nil => simp [del, SortedBy]
  | cons a r ih =>
    obtain ⟨k', v'⟩ := a
    have hs' := List.pairwise_cons.1 hs
    simp only [del]
    split
    · exact ih hs'.2
    · exact List.pairwise_cons.2 ⟨fun b hb => hs'.1 b (mem_del hb), ih hs'.2⟩

/-- In an ordered list membership and lookup coincide. -/
theorem mem_iff_find {lt : K → K → Bool} (ho : StrictTotal lt) {l : List (K × V)}
    (hs : SortedBy lt l) (k : K) (v : V) : (k, v) ∈ l ↔ find l k = some v := by
  refine ⟨fun h => ?_, find_mem⟩
  induction l with
  | nil => simp at h
  | cons a r ih =>
    obtain ⟨k', v'⟩ := a
    have hs' := List.pairwise_cons.1 hs
    rcases List.mem_cons.1 h with h | h
    · simp [find, Prod.mk.injEq] at h ⊢; simp [h]
    · have hlt := hs'.1 _ h
      have hne : k ≠ k' := by
        intro e; subst e
        have := ho.irrefl k
        simp at hlt; simp [this] at hlt
      simp [find, hne, ih hs'.2 h]

end
end Verif
