import Verif.KV.Iter
import Verif.KV.Lemmas
/-! Helper lemmas about the merging iterator. -/
namespace Verif.KV

set_option linter.unusedSectionVars false
set_option linter.unusedSimpArgs false
variable {K V : Type} [DecidableEq K] (c : Cfg K V)

/-- From state `s` the iterator produces exactly the list `L`. -/
def Yields (I : Iter K V) : List (K × V) → I.σ → Prop
  | [], s => I.cur s = none
  | e :: L, s => I.cur s = some e ∧ L.length + 1 ≤ I.size s ∧ Yields I L (I.next s)

theorem collect_yields (I : Iter K V) : ∀ (L : List (K × V)) (s : I.σ) (fuel : Nat),
    Yields I L s → L.length < fuel → collect I fuel s = L
  | [], s, 0, _, h => by simp at h
  | [], s, fuel + 1, hy, _ => by simp only [Yields] at hy; simp [collect, hy]
  | e :: L, s, 0, _, h => by simp at h
  | e :: L, s, fuel + 1, hy, h => by
    obtain ⟨h1, _, h3⟩ := hy
    simp only [collect, h1]
    rw [collect_yields I L _ fuel h3 (by simpa using h)]

theorem yields_len (I : Iter K V) (L : List (K × V)) (s : I.σ) (h : Yields I L s) :
    L.length ≤ I.size s := by
  cases L with
  | nil => simp
  | cons e L => simpa using h.2.1

theorem yields_disk (d : List (K × V)) : ∀ r : List (K × V), Yields (diskIter c d) r r
  | [] => rfl
  | e :: r => ⟨rfl, by simp [diskIter], yields_disk d r⟩

/-- Merge of map entries `m` with base entries `l`; map entries shadow base entries with the same
key, empty values are dropped. -/
def mergeL : List (K × V) → List (K × V) → List (K × V)
  | [], l => l.filter (fun p => !c.vEmpty p.2)
  | x :: m, l => go x m (mergeL m) l
where
  /-- inner recursion over the base list, `x` being the first map entry -/
  go (x : K × V) (m : List (K × V)) (rest : List (K × V) → List (K × V)) :
      List (K × V) → List (K × V)
    | [] => if c.vEmpty x.2 then rest [] else x :: rest []
    | y :: l =>
      if c.lt y.1 x.1 then (if c.vEmpty y.2 then go x m rest l else y :: go x m rest l)
      else if c.lt x.1 y.1 then (if c.vEmpty x.2 then rest (y :: l) else x :: rest (y :: l))
      else (if c.vEmpty x.2 then rest l else x :: rest l)

theorem mergeL_len : ∀ (m l : List (K × V)), (mergeL c m l).length ≤ m.length + l.length
  | [], l => by simpa [mergeL] using List.length_filter_le _ l
  | x :: m, l => by
    simp only [mergeL]
    induction l with
    | nil =>
      simp only [mergeL.go]
      have := mergeL_len m []
      split <;> simp at * <;> omega
    | cons y l ih =>
      simp only [mergeL.go]
      have h1 := mergeL_len m (y :: l)
      have h2 := mergeL_len m l
      split
      · split <;> simp at * <;> omega
      · split <;> split <;> simp at * <;> omega

variable {B : Iter K V} (m0 : List (K × V))

/-- One-step unfolding of the merge in terms of the entry chosen. -/
theorem yields_process : ∀ (n : Nat) (m L : List (K × V)) (s : MState B) (fuel : Nat),
    m.length + L.length ≤ n → s.m = m → Yields B L s.b → m.length + L.length < fuel →
    Yields (mergeIter c m0 B) (mergeL c m L) (processData c fuel s) := by
  intro n
  induction n with
  | zero =>
    intro m L s fuel hn hm hL hf
    have hm0 : m = [] := List.length_eq_zero_iff.1 (by omega)
    have hL0 : L = [] := List.length_eq_zero_iff.1 (by omega)
    subst hm0 hL0
    cases fuel with
    | zero => omega
    | succ fuel =>
      simp only [Yields] at hL
      simp [mergeL, Yields, processData, processGet, hm, hL, mergeIter]
  | succ n ih =>
    intro m L s fuel hn hm hL hf
    cases fuel with
    | zero => omega
    | succ fuel =>
    -- the chosen entry `e`, where to go on, and the shape of the merged list
    have main : ∀ (e : K × V) (s' : MState B) (m' L' : List (K × V)),
        processGet c s = s' → s'.cur = some e → msize s' = msize s →
        (internalNext s').m = m' → Yields B L' (internalNext s').b →
        m'.length + L'.length < m.length + L.length →
        mergeL c m L = (if c.vEmpty e.2 then mergeL c m' L' else e :: mergeL c m' L') →
        Yields (mergeIter c m0 B) (mergeL c m L) (processData c (fuel + 1) s) := by
      intro e s' m' L' hs' hcur hsz hm' hL' hlt hml
      have hlen : m.length + L.length ≤ msize s := by
        unfold msize; rw [hm]; have := yields_len B L s.b hL; omega
      rw [hml]
      simp only [processData, hs', hcur]
      by_cases hv : c.vEmpty e.2 = true
      · simp only [hv, if_true]
        exact ih m' L' _ fuel (by omega) hm' hL' (by omega)
      · simp only [hv, Bool.false_eq_true, if_false]
        refine ⟨hcur, ?_, ?_⟩
        · have := mergeL_len c m' L'
          simp only [mergeIter, hsz]; omega
        · simp only [mergeIter]
          refine ih m' L' _ _ (by omega) hm' hL' ?_
          have := yields_len B L' _ hL'
          unfold msize; rw [hm']; omega
    cases m with
    | nil =>
      cases L with
      | nil =>
        simp only [Yields] at hL
        simp [mergeL, Yields, processData, processGet, hm, hL, mergeIter]
      | cons y L =>
        obtain ⟨h1, _, h3⟩ := hL
        refine main y _ [] L rfl (by simp [processGet, hm, h1]) (by simp [processGet, hm, h1, msize])
          (by simp [processGet, internalNext, hm, h1]) (by simpa [processGet, internalNext, hm, h1] using h3)
          (by simp) ?_
        simp only [mergeL, List.filter_cons]
        by_cases hv : c.vEmpty y.2 = true <;> simp [hv]
    | cons x m =>
      cases L with
      | nil =>
        have h1 : B.cur s.b = none := hL
        refine main x _ m [] rfl (by simp [processGet, hm, h1]) (by simp [processGet, hm, h1, msize])
          (by simp [processGet, internalNext, hm, h1]) (by simpa [processGet, internalNext, hm, h1] using hL)
          (by simp) ?_
        simp only [mergeL, mergeL.go]
      | cons y L =>
        have hL0 := hL
        obtain ⟨h1, _, h3⟩ := hL
        by_cases hlt : c.lt y.1 x.1 = true
        · refine main y _ (x :: m) L rfl (by simp [processGet, hm, h1, hlt])
            (by simp [processGet, hm, h1, hlt, msize])
            (by simp [processGet, internalNext, hm, h1, hlt])
            (by simpa [processGet, internalNext, hm, h1, hlt] using h3) (by simp) ?_
          simp only [mergeL, mergeL.go, hlt, if_true]
        · by_cases hlt2 : c.lt x.1 y.1 = true
          · refine main x _ m (y :: L) rfl (by simp [processGet, hm, h1, hlt, hlt2])
              (by simp [processGet, hm, h1, hlt, hlt2, msize])
              (by simp [processGet, internalNext, hm, h1, hlt, hlt2])
              (by simpa [processGet, internalNext, hm, h1, hlt, hlt2] using hL0) (by simp) ?_
            simp only [mergeL, mergeL.go, hlt, hlt2, if_true, if_false]; rfl
          · refine main x _ m L rfl (by simp [processGet, hm, h1, hlt, hlt2])
              (by simp [processGet, hm, h1, hlt, hlt2, msize])
              (by simp [processGet, internalNext, hm, h1, hlt, hlt2])
              (by simpa [processGet, internalNext, hm, h1, hlt, hlt2] using h3)
              (by simp only [List.length_cons]; omega) ?_
            simp only [mergeL, mergeL.go, hlt, hlt2, if_false]; rfl

/-- Entries of the merge come from the map or the base. -/
theorem mem_mergeL_sub : ∀ (m l : List (K × V)) (p : K × V), p ∈ mergeL c m l → p ∈ m ∨ p ∈ l
  | [], l, p, h => by
    simp only [mergeL, List.mem_filter] at h; exact Or.inr h.1
  | x :: m, l, p, h => by
    simp only [mergeL] at h
    induction l with
    | nil =>
      simp only [mergeL.go] at h
      have ih := mem_mergeL_sub m [] p
      split at h
      · rcases ih h with h | h <;> simp_all
      · rcases List.mem_cons.1 h with h | h
        · simp [h]
        · rcases ih h with h | h <;> simp_all
    | cons y l ihl =>
      simp only [mergeL.go] at h
      have ih1 := mem_mergeL_sub m (y :: l) p
      have ih2 := mem_mergeL_sub m l p
      have c1 : p ∈ mergeL.go c x m (mergeL c m) l → p ∈ x :: m ∨ p ∈ y :: l := fun hh => by
        rcases ihl hh with h | h
        · exact Or.inl h
        · exact Or.inr (List.mem_cons_of_mem _ h)
      have c2 : p ∈ mergeL c m (y :: l) → p ∈ x :: m ∨ p ∈ y :: l := fun hh => by
        rcases ih1 hh with h | h
        · exact Or.inl (List.mem_cons_of_mem _ h)
        · exact Or.inr h
      have c3 : p ∈ mergeL c m l → p ∈ x :: m ∨ p ∈ y :: l := fun hh => by
        rcases ih2 hh with h | h
        · exact Or.inl (List.mem_cons_of_mem _ h)
        · exact Or.inr (List.mem_cons_of_mem _ h)
      split at h
      · split at h
        · exact c1 h
        · rcases List.mem_cons.1 h with h | h
          · right; simp [h]
          · exact c1 h
      · split at h
        · split at h
          · exact c2 h
          · rcases List.mem_cons.1 h with h | h
            · left; simp [h]
            · exact c2 h
        · split at h
          · exact c3 h
          · rcases List.mem_cons.1 h with h | h
            · left; simp [h]
            · exact c3 h

theorem lt_of_not {lt : K → K → Bool} (ho : StrictTotal lt) {a b : K} (h : ¬ lt a b = true)
    (h' : ¬ lt b a = true) : a = b := ho.total a b (by simpa using h) (by simpa using h')

/-- Merging ordered lists: the result is ordered and lists exactly the visible entries. -/
theorem mergeL_spec (ho : StrictTotal c.lt) : ∀ (m l : List (K × V)), SortedBy c.lt m →
    SortedBy c.lt l → SortedBy c.lt (mergeL c m l) ∧
      ∀ k v, (k, v) ∈ mergeL c m l ↔
        c.vEmpty v = false ∧ (match find m k with | some w => some w | none => find l k) = some v
  | [], l, _, hl => by
    refine ⟨hl.filter _, fun k v => ?_⟩
    simp only [mergeL, List.mem_filter, find_nil, mem_iff_find ho hl]
    simp [and_comm]
  | x :: m, l, hm, hl => by
    have hm' := List.pairwise_cons.1 hm
    simp only [mergeL]
    induction l with
    | nil =>
      obtain ⟨i1, i2⟩ := mergeL_spec ho m [] hm'.2 hl
      simp only [mergeL.go]
      by_cases hv : c.vEmpty x.2 = true
      · simp only [hv, if_true]
        refine ⟨i1, fun k v => ?_⟩
        rw [i2]
        obtain ⟨xk, xv⟩ := x
        simp only [find, find_nil]
        by_cases hk : k = xk
        · subst hk
          have : find m k = none := by
            cases hf : find m k with
            | none => rfl
            | some w =>
              have := hm'.1 _ (find_mem hf); simp [ho.irrefl] at this
          simp only [this, if_true, Option.some.injEq]
          constructor
          · rintro ⟨_, h⟩; simp at h
          · rintro ⟨h1, h2⟩; subst h2; simp_all
        · simp [hk]
      · simp only [hv, if_false]
        refine ⟨List.pairwise_cons.2 ⟨?_, i1⟩, fun k v => ?_⟩
        · intro b hb
          rcases mem_mergeL_sub c m [] b hb with h | h
          · exact hm'.1 b h
          · simp at h
        · obtain ⟨xk, xv⟩ := x
          simp only [Bool.false_eq_true, if_false, List.mem_cons, Prod.mk.injEq, i2, find, find_nil]
          by_cases hk : k = xk
          · subst hk
            have : find m k = none := by
              cases hf : find m k with
              | none => rfl
              | some w =>
                have := hm'.1 _ (find_mem hf); simp [ho.irrefl] at this
            simp only [this, true_and, if_true, Option.some.injEq]
            constructor
            · rintro (h | h)
              · subst h; simp_all
              · simp at h
            · rintro ⟨_, h⟩; exact Or.inl h.symm
          · simp [hk]
    | cons y l ihl =>
      have hl' := List.pairwise_cons.1 hl
      obtain ⟨j1, j2⟩ := ihl hl'.2
      obtain ⟨xk, xv⟩ := x
      obtain ⟨yk, yv⟩ := y
      have hxm : find m xk = none := by
        cases hf : find m xk with
        | none => rfl
        | some w => have := hm'.1 _ (find_mem hf); simp [ho.irrefl] at this
      have hyl : find l yk = none := by
        cases hf : find l yk with
        | none => rfl
        | some w => have := hl'.1 _ (find_mem hf); simp [ho.irrefl] at this
      simp only [mergeL.go]
      by_cases hlt : c.lt yk xk = true
      · -- base entry first
        have hyx : find ((xk, xv) :: m) yk = none := by
          cases hf : find ((xk, xv) :: m) yk with
          | none => rfl
          | some w =>
            rcases List.mem_cons.1 (find_mem hf) with h | h
            · simp only [Prod.mk.injEq] at h
              obtain ⟨e, _⟩ := h
              subst e; simp [ho.irrefl] at hlt
            · have := ho.trans _ _ _ hlt (hm'.1 _ h)
              simp [ho.irrefl] at this
        simp only [hlt, if_true]
        by_cases hv : c.vEmpty yv = true
        · simp only [hv, if_true]
          refine ⟨j1, fun k v => ?_⟩
          rw [j2]
          by_cases hk : k = yk
          · subst hk
            rw [hyx]
            simp only [hyl, find, if_true, Option.some.injEq]
            constructor
            · rintro ⟨_, h⟩; simp at h
            · rintro ⟨h1, h2⟩; subst h2; simp_all
          · simp only [find, hk, if_false]
        · simp only [hv, if_false]
          refine ⟨List.pairwise_cons.2 ⟨?_, j1⟩, fun k v => ?_⟩
          · intro b hb
            rcases mem_mergeL_sub c ((xk, xv) :: m) l b (by simpa [mergeL] using hb) with h | h
            · rcases List.mem_cons.1 h with h | h
              · simpa [h] using hlt
              · exact ho.trans _ _ _ hlt (hm'.1 _ h)
            · exact hl'.1 b h
          · simp only [Bool.false_eq_true, if_false, List.mem_cons, Prod.mk.injEq, j2]
            by_cases hk : k = yk
            · subst hk
              rw [hyx]
              simp only [hyl, find, if_true, true_and, Option.some.injEq]
              constructor
              · rintro (h | h)
                · subst h; simp_all
                · simp at h
              · rintro ⟨_, h⟩; exact Or.inl h.symm
            · simp only [find, hk, if_false, false_and, false_or]
      · simp only [hlt, Bool.false_eq_true, if_false]
        by_cases hlt2 : c.lt xk yk = true
        · -- map entry first, base entry kept
          obtain ⟨i1, i2⟩ := mergeL_spec ho m ((yk, yv) :: l) hm'.2 hl
          have hxl : find ((yk, yv) :: l) xk = none := by
            cases hf : find ((yk, yv) :: l) xk with
            | none => rfl
            | some w =>
              rcases List.mem_cons.1 (find_mem hf) with h | h
              · simp only [Prod.mk.injEq] at h
                obtain ⟨e, _⟩ := h
                subst e; simp [ho.irrefl] at hlt2
              · have := ho.trans _ _ _ hlt2 (hl'.1 _ h)
                simp [ho.irrefl] at this
          simp only [hlt2, if_true]
          by_cases hv : c.vEmpty xv = true
          · simp only [hv, if_true]
            refine ⟨i1, fun k v => ?_⟩
            rw [i2]
            by_cases hk : k = xk
            · subst hk
              rw [hxl]
              simp only [hxm, find, if_true, Option.some.injEq]
              constructor
              · rintro ⟨_, h⟩; simp at h
              · rintro ⟨h1, h2⟩; subst h2; simp_all
            · simp only [find, hk, if_false]
          · simp only [hv, if_false]
            refine ⟨List.pairwise_cons.2 ⟨?_, i1⟩, fun k v => ?_⟩
            · intro b hb
              rcases mem_mergeL_sub c m _ b hb with h | h
              · exact hm'.1 b h
              · rcases List.mem_cons.1 h with h | h
                · simpa [h] using hlt2
                · exact ho.trans _ _ _ hlt2 (hl'.1 _ h)
            · simp only [Bool.false_eq_true, if_false, List.mem_cons, Prod.mk.injEq, i2]
              by_cases hk : k = xk
              · subst hk
                rw [hxl]
                simp only [hxm, find, if_true, true_and, Option.some.injEq]
                constructor
                · rintro (h | h)
                  · subst h; simp_all
                  · simp at h
                · rintro ⟨_, h⟩; exact Or.inl h.symm
              · simp only [find, hk, if_false, false_and, false_or]
        · -- same key
          have hxy : xk = yk := lt_of_not ho hlt2 hlt
          subst hxy
          obtain ⟨i1, i2⟩ := mergeL_spec ho m l hm'.2 hl'.2
          simp only [hlt2, Bool.false_eq_true, if_false]
          by_cases hv : c.vEmpty xv = true
          · simp only [hv, if_true]
            refine ⟨i1, fun k v => ?_⟩
            rw [i2]
            by_cases hk : k = xk
            · subst hk
              simp only [hxm, hyl, find, if_true, Option.some.injEq]
              constructor
              · rintro ⟨_, h⟩; simp at h
              · rintro ⟨h1, h2⟩; subst h2; simp_all
            · simp only [find, hk, if_false]
          · simp only [hv, Bool.false_eq_true, if_false]
            refine ⟨List.pairwise_cons.2 ⟨?_, i1⟩, fun k v => ?_⟩
            · intro b hb
              rcases mem_mergeL_sub c m _ b hb with h | h
              · exact hm'.1 b h
              · exact hl'.1 b h
            · simp only [List.mem_cons, Prod.mk.injEq, i2]
              by_cases hk : k = xk
              · subst hk
                simp only [hxm, hyl, find, if_true, true_and, Option.some.injEq]
                constructor
                · rintro (h | h)
                  · subst h; simp_all
                  · simp at h
                · rintro ⟨_, h⟩; exact Or.inl h.symm
              · simp only [find, hk, if_false, false_and, false_or]

/-- Where an iteration starts. -/
inductive Pos (K : Type) where
  | first
  | seek (k : K)
  | after (k : K)

/-- Iterator state for a start position. -/
def start (I : Iter K V) : Pos K → I.σ
  | .first => I.first
  | .seek k => I.seek k
  | .after k => I.seekUpper k

/-- Keys from the start position on (an empty key means "from the beginning"). -/
def inPos : Pos K → K → Bool
  | .first, _ => true
  | .seek k, q => c.kEmpty k || !c.lt q k
  | .after k, q => c.kEmpty k || c.lt k q

theorem find_dropWhile {lt : K → K → Bool} (f : K → Bool)
    (hmono : ∀ a b, lt a b = true → f b = true → f a = true) :
    ∀ (m : List (K × V)), SortedBy lt m → ∀ q,
      find (m.dropWhile (fun p => f p.1)) q = if f q then none else find m q
  | [], _, q => by simp
  | (k, v) :: m, hm, q => by
    have hm' := List.pairwise_cons.1 hm
    simp only [List.dropWhile_cons]
    by_cases hf : f k = true
    · simp only [hf, if_true]
      rw [find_dropWhile f hmono m hm'.2 q]
      by_cases hq : q = k
      · subst hq; simp [hf]
      · simp [find, hq]
    · simp only [hf, Bool.false_eq_true, if_false]
      by_cases hfq : f q = true
      · simp only [hfq, if_true, find]
        by_cases hq : q = k
        · subst hq; exact absurd hfq hf
        · simp only [hq, if_false]
          cases hfm : find m q with
          | none => rfl
          | some w => exact absurd (hmono _ _ (hm'.1 _ (find_mem hfm)) hfq) hf
      · simp [hfq]

theorem sorted_dropWhile {lt : K → K → Bool} {m : List (K × V)} (h : SortedBy lt m)
    (f : K × V → Bool) : SortedBy lt (m.dropWhile f) :=
  List.Pairwise.sublist (List.dropWhile_sublist f) h

/-- The map entries left after positioning. -/
def mapFrom (m : List (K × V)) : Pos K → List (K × V)
  | .first => m
  | .seek k => if c.kEmpty k then m else m.dropWhile (fun p => c.lt p.1 k)
  | .after k => if c.kEmpty k then m else m.dropWhile (fun p => !c.lt k p.1)

theorem find_mapFrom (ho : StrictTotal c.lt) {m : List (K × V)} (hm : SortedBy c.lt m) (p : Pos K)
    (q : K) : find (mapFrom c m p) q = if inPos c p q then find m q else none := by
  cases p with
  | first => simp [mapFrom, inPos]
  | seek k =>
    by_cases hk : c.kEmpty k = true
    · simp [mapFrom, inPos, hk]
    · simp only [mapFrom, inPos, hk, Bool.false_eq_true, if_false, Bool.false_or]
      rw [find_dropWhile (fun x => c.lt x k) (fun a b h1 h2 => ho.trans _ _ _ h1 h2) m hm q]
      cases c.lt q k <;> simp
  | after k =>
    by_cases hk : c.kEmpty k = true
    · simp [mapFrom, inPos, hk]
    · simp only [mapFrom, inPos, hk, Bool.false_eq_true, if_false, Bool.false_or]
      rw [find_dropWhile (fun x => !c.lt k x) ?_ m hm q]
      · cases c.lt k q <;> simp
      · intro a b h1 h2
        simp only [Bool.not_eq_true'] at h2 ⊢
        cases h : c.lt k a
        · rfl
        · have := ho.trans _ _ _ h h1; simp [this] at h2

theorem sorted_mapFrom {m : List (K × V)} (hm : SortedBy c.lt m) (p : Pos K) :
    SortedBy c.lt (mapFrom c m p) := by
  cases p <;> simp only [mapFrom]
  · exact hm
  · split
    · exact hm
    · exact sorted_dropWhile hm _
  · split
    · exact hm
    · exact sorted_dropWhile hm _

theorem mapFrom_len (m : List (K × V)) (p : Pos K) : (mapFrom c m p).length ≤ m.length := by
  cases p <;> simp only [mapFrom]
  · exact Nat.le_refl _
  · split
    · exact Nat.le_refl _
    · exact (List.dropWhile_sublist _).length_le
  · split
    · exact Nat.le_refl _
    · exact (List.dropWhile_sublist _).length_le

/-- Positioning a merge iterator positions map and base (the base is asked for `First` when the key
is empty, which its own `Seek` does as well). -/
theorem start_merge (m : List (K × V)) (B : Iter K V) (p : Pos K) (L : List (K × V))
    (hb : Yields B L (start B p)) (hfirst : ∀ k, c.kEmpty k = true → B.seek k = B.first ∧ B.seekUpper k = B.first) :
    Yields (mergeIter c m B) (mergeL c (mapFrom c m p) L) (start (mergeIter c m B) p) := by
  have key : ∀ (m' : List (K × V)) (b : B.σ), Yields B L b →
      Yields (mergeIter c m B) (mergeL c m' L)
        (processData c (msize (B := B) ⟨m', b, none, false, false⟩ + 1) ⟨m', b, none, false, false⟩) := by
    intro m' b hy
    refine yields_process c m _ m' L _ _ (Nat.le_refl _) rfl hy ?_
    have := yields_len B L b hy
    simp only [msize]; omega
  cases p with
  | first => exact key m _ hb
  | seek k =>
    by_cases hk : c.kEmpty k = true
    · simp only [start, (hfirst k hk).1] at hb
      simp only [start, mergeIter, mapFrom, hk, if_true]
      exact key m _ hb
    · simp only [start] at hb
      simp only [start, mergeIter, mapFrom, hk, Bool.false_eq_true, if_false]
      exact key _ _ hb
  | after k =>
    by_cases hk : c.kEmpty k = true
    · simp only [start, (hfirst k hk).2] at hb
      simp only [start, mergeIter, mapFrom, hk, if_true]
      exact key m _ hb
    · simp only [start] at hb
      simp only [start, mergeIter, mapFrom, hk, Bool.false_eq_true, if_false]
      exact key _ _ hb

/-- No entry has an empty key. -/
def NoEmptyKey (m : List (K × V)) : Prop := ∀ p ∈ m, c.kEmpty p.1 = false

/-- A stack with ordered maps over an ordered table, no empty keys. -/
def WFI : Cache K V → Prop
  | .root m d => SortedBy c.lt m ∧ SortedBy c.dbLt d ∧ NoEmptyKey c m ∧ NoEmptyKey c d
  | .over m b => SortedBy c.lt m ∧ WFI b ∧ NoEmptyKey c m

theorem WFI.wf : ∀ {s : Cache K V}, WFI c s → WF c s
  | .root _ _, h => h.1
  | .over _ _, h => ⟨h.1, WFI.wf h.2.1⟩

theorem noEmpty_put {lt : K → K → Bool} {m : List (K × V)} (h : NoEmptyKey c m) {k : K}
    (hk : c.kEmpty k = false) (v : V) : NoEmptyKey c (put lt m k v) := by
  intro p hp
  rcases mem_put hp with h' | h'
  · rw [h']; exact hk
  · exact h p h'

theorem wfi_getIt (ho : StrictTotal c.lt) : ∀ (s : Cache K V) (k : K), c.kEmpty k = false →
    WFI c s → WFI c (getIt c s k).2
  | .root m d, k, hk, h => by
    simp only [getIt]
    cases find m k with
    | some v => exact h
    | none =>
      cases find d k with
      | none => exact h
      | some v => exact ⟨sorted_put ho h.1 _ _, h.2.1, noEmpty_put c h.2.2.1 hk v, h.2.2.2⟩
  | .over m b, k, hk, h => by
    have ih := wfi_getIt ho b k hk h.2.1
    simp only [getIt]
    cases find m k with
    | some v => exact h
    | none =>
      rcases hr : getIt c b k with ⟨r1, r2⟩
      rw [hr] at ih
      cases r1 with
      | none => exact ⟨h.1, ih, h.2.2⟩
      | some v => exact ⟨sorted_put ho h.1 _ _, ih, noEmpty_put c h.2.2 hk v⟩

theorem wfi_setSelf (ho : StrictTotal c.lt) (s : Cache K V) (k : K) (hk : c.kEmpty k = false) (v : V)
    (h : WFI c s) : WFI c (setSelf c s k v) := by
  cases s with
  | root m d => exact ⟨sorted_put ho h.1 _ _, h.2.1, noEmpty_put c h.2.2.1 hk v, h.2.2.2⟩
  | over m b => exact ⟨sorted_put ho h.1 _ _, h.2.1, noEmpty_put c h.2.2 hk v⟩

theorem wfi_flushInto (ho : StrictTotal c.lt) : ∀ (l : List (K × V)) (b : Cache K V),
    NoEmptyKey c l → WFI c b → WFI c (flushInto c b l)
  | [], _, _, h => h
  | (k, v) :: r, b, hl, h =>
    wfi_flushInto ho r _ (fun p hp => hl p (List.mem_cons_of_mem _ hp))
      (wfi_setSelf c ho b k (hl (k, v) List.mem_cons_self) v h)

theorem flushDisk_ok (ho : StrictTotal c.dbLt) : ∀ (l d : List (K × V)),
    NoEmptyKey c l → NoEmptyKey c d → SortedBy c.dbLt d →
    SortedBy c.dbLt (flushDisk c d l) ∧ NoEmptyKey c (flushDisk c d l)
  | [], _, _, hd, h => ⟨h, hd⟩
  | (k, v) :: r, d, hl, hd, h => by
    simp only [flushDisk]
    have hl' : NoEmptyKey c r := fun p hp => hl p (List.mem_cons_of_mem _ hp)
    have hk : c.kEmpty k = false := hl (k, v) List.mem_cons_self
    split
    · exact flushDisk_ok ho r _ hl' (fun p hp => hd p (mem_del hp)) (sorted_del h k)
    · exact flushDisk_ok ho r _ hl' (noEmpty_put c hd hk v) (sorted_put ho h k v)

theorem wfi_step (ho : StrictTotal c.lt) (ho' : StrictTotal c.dbLt) (s : Cache K V) (o : Op K V)
    (h : WFI c s) : WFI c (step c s o).2 := by
  cases o with
  | get k =>
    simp only [step, getData]
    split
    · exact h
    · rename_i hk
      have := wfi_getIt c ho s k (by simpa using hk) h
      split <;> (rename_i e; rw [e] at this; exact this)
  | has k =>
    simp only [step, hasData]
    split
    · exact h
    · rename_i hk
      have := wfi_getIt c ho s k (by simpa using hk) h
      split <;> (rename_i e; rw [e] at this; exact this)
  | set k v =>
    by_cases hk : c.kEmpty k = true
    · simpa [step, setData, hk] using h
    · have hk' : c.kEmpty k = false := by simpa using hk
      obtain ⟨s', _, he, hset⟩ := setData_spec c s k v hk'
      simp only [step, hset]
      exact wfi_setSelf c ho _ k hk' v (he ▸ wfi_getIt c ho s k hk' h)
  | erase k =>
    by_cases hk : c.kEmpty k = true
    · simpa [step, eraseData, hk] using h
    · have hk' : c.kEmpty k = false := by simpa using hk
      obtain ⟨s', _, he, hset⟩ := eraseData_spec c s k hk'
      have hw' : WFI c s' := he ▸ wfi_getIt c ho s k hk' h
      rcases hset with ⟨_, hset⟩ | ⟨v, _, _, hset⟩
      · simpa only [step, hset] using hw'
      · simp only [step, hset]; exact wfi_setSelf c ho _ k hk' _ hw'
  | push => exact ⟨List.Pairwise.nil, h, by intro p hp; simp at hp⟩
  | flush =>
    cases s with
    | root m d =>
      obtain ⟨h1, h2⟩ := flushDisk_ok c ho' m d h.2.2.1 h.2.2.2 h.2.1
      exact ⟨List.Pairwise.nil, h1, by intro p hp; simp at hp, h2⟩
    | over m b =>
      exact ⟨List.Pairwise.nil, wfi_flushInto c ho m b h.2.2 h.2.1, by intro p hp; simp at hp⟩
  | drop =>
    cases s with
    | root m d => exact h
    | over m b => exact h.2.1

theorem raw_noEmpty : ∀ (s : Cache K V), WFI c s → ∀ k, c.kEmpty k = true → raw s k = none
  | .root m d, h, k, hk => by
    have e1 : find m k = none := by
      cases hf : find m k with
      | none => rfl
      | some v => have := h.2.2.1 _ (find_mem hf); simp [hk] at this
    have e2 : find d k = none := by
      cases hf : find d k with
      | none => rfl
      | some v => have := h.2.2.2 _ (find_mem hf); simp [hk] at this
    simp [raw, e1, e2]
  | .over m b, h, k, hk => by
    have e1 : find m k = none := by
      cases hf : find m k with
      | none => rfl
      | some v => have := h.2.2 _ (find_mem hf); simp [hk] at this
    simp [raw, e1, raw_noEmpty b h.2.1 k hk]

theorem seek_empty_first : ∀ (s : Cache K V) (k : K), c.kEmpty k = true →
    (iterOf c s).seek k = (iterOf c s).first ∧ (iterOf c s).seekUpper k = (iterOf c s).first
  | .root m d, k, hk => by simp [iterOf, mergeIter, hk]
  | .over m b, k, hk => by simp [iterOf, mergeIter, hk]

theorem start_disk (ho : StrictTotal c.lt) (hord : ∀ a b, c.dbLt a b = c.lt a b) (d : List (K × V))
    (p : Pos K) : start (diskIter c d) p = mapFrom c d p := by
  cases p with
  | first => rfl
  | seek k => simp [start, diskIter, mapFrom, hord]
  | after k =>
    have : (fun p : K × V => c.lt p.1 k || decide (p.1 = k)) = fun p => !c.lt k p.1 := by
      funext q
      cases h1 : c.lt q.1 k
      · cases h2 : c.lt k q.1
        · simp [ho.total _ _ h1 h2]
        · have : q.1 ≠ k := by intro e; rw [e] at h2; simp [ho.irrefl] at h2
          simp [this]
      · cases h2 : c.lt k q.1
        · simp
        · have := ho.trans _ _ _ h1 h2; simp [ho.irrefl] at this
    simp [start, diskIter, mapFrom, hord, this]

/-- What an iterator over a stack produces. -/
theorem yields_iterOf (ho : StrictTotal c.lt) (hord : ∀ a b, c.dbLt a b = c.lt a b) (p : Pos K) :
    ∀ s : Cache K V, WFI c s → ∃ L, Yields (iterOf c s) L (start (iterOf c s) p) ∧
      L.length ≤ entries s ∧ SortedBy c.lt L ∧
      ∀ k v, (k, v) ∈ L ↔ inPos c p k = true ∧ c.vEmpty v = false ∧ raw s k = some v
  | .root m d, hw => by
    have hd : SortedBy c.lt d := by
      have := hw.2.1; unfold SortedBy at *; simpa [hord] using this
    have hy : Yields (diskIter c d) (mapFrom c d p) (start (diskIter c d) p) := by
      rw [start_disk c ho hord]; exact yields_disk c d _
    have hfirst : ∀ k, c.kEmpty k = true →
        (diskIter c d).seek k = (diskIter c d).first ∧ (diskIter c d).seekUpper k = (diskIter c d).first := by
      intro k hk; simp [diskIter, hk]
    obtain ⟨h1, h2⟩ := mergeL_spec c ho (mapFrom c m p) (mapFrom c d p)
      (sorted_mapFrom c hw.1 p) (sorted_mapFrom c hd p)
    refine ⟨_, start_merge c m _ p _ hy hfirst, ?_, h1, fun k v => ?_⟩
    · have a := mergeL_len c (mapFrom c m p) (mapFrom c d p)
      have b := mapFrom_len c m p
      have e := mapFrom_len c d p
      simp only [entries]; omega
    · rw [h2, find_mapFrom c ho hw.1, find_mapFrom c ho hd]
      by_cases hp : inPos c p k = true
      · simp only [hp, if_true, true_and, raw]; exact Iff.rfl
      · simp [hp]
  | .over m b, hw => by
    obtain ⟨L, hy, hlen, hs, hmem⟩ := yields_iterOf ho hord p b hw.2.1
    obtain ⟨h1, h2⟩ := mergeL_spec c ho (mapFrom c m p) L (sorted_mapFrom c hw.1 p) hs
    refine ⟨_, start_merge c m _ p _ hy (seek_empty_first c b), ?_, h1, fun k v => ?_⟩
    · have a := mergeL_len c (mapFrom c m p) L
      have b := mapFrom_len c m p
      simp only [entries]; omega
    · rw [h2, find_mapFrom c ho hw.1]
      have hfL : ∀ v, c.vEmpty v = false → (find L k = some v ↔ inPos c p k = true ∧ raw b k = some v) := by
        intro v hv
        rw [← mem_iff_find ho hs, hmem]; simp [hv]
      by_cases hp : inPos c p k = true
      · simp only [hp, if_true, true_and, raw]
        cases find m k with
        | some w => rfl
        | none =>
          constructor
          · rintro ⟨hv, h⟩; exact ⟨hv, ((hfL v hv).1 h).2⟩
          · rintro ⟨hv, h⟩; exact ⟨hv, (hfL v hv).2 ⟨hp, h⟩⟩
      · simp only [hp, Bool.false_eq_true, if_false, false_and, iff_false]
        rintro ⟨hv, h⟩
        exact hp ((hfL v hv).1 h).1

end Verif.KV
