import Verif.Containers.Model
import Mathlib.Data.List.Sort

/-! # Lemmas for the bounded containers -/
namespace Verif.Containers

variable {T K V : Type} [DecidableEq T] [DecidableEq K]

/-! ## mruset -/

structure Mru.Inv (s : Mru T) : Prop where
  nodup : s.queue.Nodup
  snodup : s.set.Nodup
  mem : ∀ x, x ∈ s.set ↔ x ∈ s.queue
  bound : s.max ≠ 0 → s.queue.length ≤ s.max

theorem Mru.Inv.len {s : Mru T} (h : s.Inv) : s.set.length = s.queue.length :=
  ((List.perm_ext_iff_of_nodup h.snodup h.nodup).2 h.mem).length_eq

theorem Mru.insert_cases (s : Mru T) (h : s.Inv) (x : T) :
    (x ∈ s.queue ∧ s.insert x = (s, false)) ∨
    (x ∉ s.queue ∧ (s.insert x).2 = true ∧ (s.insert x).1.max = s.max ∧
      (s.insert x).1.queue =
        (if s.max ≠ 0 ∧ s.queue.length = s.max then s.queue.tail else s.queue) ++ [x] ∧
      (s.insert x).1.set =
        (if s.max ≠ 0 ∧ s.queue.length = s.max then (x :: s.set).filter (fun y => decide (some y ≠ s.queue.head?)) else x :: s.set)) := by
  by_cases hx : x ∈ s.set
  · left
    exact ⟨(h.mem x).1 hx, by simp [Mru.insert, hx]⟩
  · right
    refine ⟨fun hq => hx ((h.mem x).2 hq), ?_⟩
    simp only [Mru.insert, if_neg hx]
    by_cases hm : s.max ≠ 0 ∧ s.queue.length = s.max
    · simp only [if_pos hm]
      cases hq : s.queue with
      | nil => exfalso; rw [hq] at hm; simp at hm; omega
      | cons f q => refine ⟨?_, ?_, ?_, ?_⟩ <;> simp
    · simp only [if_neg hm]
      simp

theorem Mru.insert_inv (s : Mru T) (h : s.Inv) (x : T) : (s.insert x).1.Inv := by
  rcases s.insert_cases h x with ⟨_, he⟩ | ⟨hn, _, hmx, hq, hs⟩
  · rw [he]; exact h
  · have hxs : x ∉ s.set := fun hx => hn ((h.mem x).1 hx)
    by_cases hm : s.max ≠ 0 ∧ s.queue.length = s.max
    · rw [if_pos hm] at hq hs
      cases hqq : s.queue with
      | nil => exfalso; rw [hqq] at hm; simp at hm; omega
      | cons f q =>
        rw [hqq] at hq hs hm hn
        have hnd := h.nodup
        rw [hqq] at hnd
        obtain ⟨hfq, hqn⟩ := List.nodup_cons.1 hnd
        simp only [List.tail_cons, List.head?_cons] at hq hs
        have hxf : x ≠ f := by rintro rfl; exact hn (List.mem_cons_self ..)
        refine ⟨?_, ?_, ?_, ?_⟩
        · rw [hq]
          refine List.nodup_append.2 ⟨hqn, List.nodup_singleton x, ?_⟩
          intro a ha b hb hab
          have := List.mem_singleton.1 hb; subst this; subst hab
          exact hn (List.mem_cons_of_mem _ ha)
        · rw [hs]
          exact (List.nodup_cons.2 ⟨hxs, h.snodup⟩).filter _
        · intro y
          rw [hs, hq, List.mem_filter, List.mem_append, List.mem_singleton, List.mem_cons]
          have hy := h.mem y
          rw [hqq, List.mem_cons] at hy
          constructor
          · rintro ⟨h1, h2⟩
            have h2' : y ≠ f := by simpa using h2
            rcases h1 with h1 | h1
            · exact Or.inr h1
            · rcases hy.1 h1 with h3 | h3
              · exact absurd h3 h2'
              · exact Or.inl h3
          · rintro (h1 | h1)
            · refine ⟨Or.inr (hy.2 (Or.inr h1)), ?_⟩
              have : y ≠ f := by rintro rfl; exact hfq h1
              simpa using this
            · subst h1; exact ⟨Or.inl rfl, by simpa using hxf⟩
        · intro _
          rw [hmx, hq]
          have := hm.2
          simp at this ⊢; omega
    · rw [if_neg hm] at hq hs
      refine ⟨?_, ?_, ?_, ?_⟩
      · rw [hq]
        refine List.nodup_append.2 ⟨h.nodup, List.nodup_singleton x, ?_⟩
        intro a ha b hb hab
        have := List.mem_singleton.1 hb; subst this; subst hab
        exact hn ha
      · rw [hs]; exact List.nodup_cons.2 ⟨hxs, h.snodup⟩
      · intro y
        rw [hs, hq, List.mem_append, List.mem_singleton, List.mem_cons, h.mem y]
        exact or_comm
      · intro h0
        rw [hmx] at h0
        rw [hmx, hq, List.length_append]
        have := h.bound h0
        have h2 : s.queue.length ≠ s.max := fun he => hm ⟨h0, he⟩
        simp; omega

theorem Mru.trim_spec (n : Nat) : ∀ (set q : List T), q.Nodup → set.Nodup → (∀ x, x ∈ set ↔ x ∈ q) →
    (Mru.trim n set q).2 = q.drop (q.length - n) ∧ (Mru.trim n set q).1.Nodup ∧
    ∀ x, x ∈ (Mru.trim n set q).1 ↔ x ∈ (Mru.trim n set q).2
  | set, [], _, hs, hm => by simp only [Mru.trim]; exact ⟨by simp, hs, hm⟩
  | set, f :: q, hq, hs, hm => by
    simp only [Mru.trim]
    split
    · rename_i hl
      obtain ⟨hfq, hqn⟩ := List.nodup_cons.1 hq
      have hm' : ∀ x, x ∈ set.filter (fun y => decide (y ≠ f)) ↔ x ∈ q := by
        intro x
        rw [List.mem_filter, hm x, List.mem_cons]
        constructor
        · rintro ⟨h1 | h1, h2⟩
          · exact absurd h1 (by simpa using h2)
          · exact h1
        · intro h1
          exact ⟨Or.inr h1, by simpa using fun he : x = f => hfq (he ▸ h1)⟩
      obtain ⟨a, b, c⟩ := Mru.trim_spec n _ q hqn (hs.filter _) hm'
      refine ⟨?_, b, c⟩
      rw [a]
      simp only [List.length_cons] at hl ⊢
      have : q.length + 1 - n = (q.length - n) + 1 := by omega
      rw [this, List.drop_succ_cons]
    · rename_i hl
      refine ⟨?_, hs, hm⟩
      have : (f :: q).length - n = 0 := by omega
      rw [this, List.drop_zero]

theorem Mru.resize_inv (s : Mru T) (h : s.Inv) (n : Nat) :
    (s.resize n).Inv ∧ (s.resize n).max = n ∧ (s.resize n).queue = if n = 0 then s.queue else s.queue.drop (s.queue.length - n) := by
  by_cases hn : n = 0
  · subst hn
    simp only [Mru.resize, ne_eq, not_true, if_false, if_true]
    exact ⟨⟨h.nodup, h.snodup, h.mem, fun h0 => absurd rfl h0⟩, by trivial, by trivial⟩
  · obtain ⟨a, b, c⟩ := Mru.trim_spec n s.set s.queue h.nodup h.snodup h.mem
    simp only [Mru.resize, ne_eq, hn, not_false_eq_true, if_true, if_false]
    refine ⟨⟨?_, b, c, ?_⟩, by trivial, a⟩
    · show (Mru.trim n s.set s.queue).2.Nodup
      rw [a]; exact h.nodup.sublist (List.drop_sublist _ _)
    · intro _
      show (Mru.trim n s.set s.queue).2.length ≤ n
      rw [a, List.length_drop]; omega

theorem Mru.step_inv (s : Mru T) (h : s.Inv) (o : MruOp T) : (s.step o).Inv := by
  cases o with
  | insert x => exact s.insert_inv h x
  | clear => exact ⟨List.nodup_nil, List.nodup_nil, by intro x; simp [Mru.step, Mru.clear], by intro _; simp [Mru.step, Mru.clear]⟩
  | resize n => exact (s.resize_inv h n).1

/-! ## Maps as lists -/

theorem find_cons (e : K × V) (l : List (K × V)) (k : K) :
    find (e :: l) k = if e.1 = k then some e.2 else find l k := by
  unfold find
  by_cases h : e.1 = k <;> simp [h]

theorem find_isSome (l : List (K × V)) (k : K) : (find l k).isSome = true ↔ k ∈ l.map (·.1) := by
  induction l with
  | nil => simp [find]
  | cons e l ih =>
    rw [find_cons]
    by_cases h : e.1 = k
    · simp [h]
    · rw [if_neg h, ih]
      simp only [List.map_cons, List.mem_cons]
      constructor
      · exact Or.inr
      · rintro (h' | h')
        · exact absurd h'.symm h
        · exact h'

theorem find_del (l : List (K × V)) (j k : K) : find (del l j) k = if k = j then none else find l k := by
  induction l with
  | nil => simp [del, find]
  | cons e l ih =>
    by_cases h : e.1 = j
    · have : del (e :: l) j = del l j := by simp [del, h]
      rw [this, ih, find_cons]
      by_cases hk : k = j
      · simp [hk]
      · rw [if_neg hk, if_neg hk, if_neg]
        rintro rfl; exact hk h
    · have : del (e :: l) j = e :: del l j := by simp [del, h]
      rw [this, find_cons, find_cons, ih]
      by_cases hk : k = j
      · subst hk; simp [h]
      · simp [hk]

theorem find_setVal (l : List (K × V)) (j k : K) (v : V) :
    find (setVal l j v) k = if k = j ∧ (find l k).isSome then some v else find l k := by
  induction l with
  | nil => simp [setVal, find]
  | cons e l ih =>
    have hc : setVal (e :: l) j v = (if e.1 = j then (e.1, v) else e) :: setVal l j v := rfl
    rw [hc, find_cons, find_cons, ih]
    by_cases h : e.1 = j
    · simp only [h, if_true]
      by_cases hk : j = k
      · subst hk; simp
      · rw [if_neg hk, if_neg hk, if_neg (fun hh => hk hh.1.symm)]
    · simp only [h, if_false]
      by_cases hk : e.1 = k
      · have : k ≠ j := fun hh => h (hk.trans hh)
        simp [hk, this]
      · simp only [hk, if_false]

theorem keys_del (l : List (K × V)) (j : K) : (del l j).map (·.1) = (l.map (·.1)).filter (· ≠ j) := by
  induction l with
  | nil => rfl
  | cons e l ih =>
    by_cases h : e.1 = j
    · have : del (e :: l) j = del l j := by simp [del, h]
      rw [this, ih]; simp [h]
    · have : del (e :: l) j = e :: del l j := by simp [del, h]
      rw [this]; simp [h, ih]

theorem keys_setVal (l : List (K × V)) (j : K) (v : V) : (setVal l j v).map (·.1) = l.map (·.1) := by
  induction l with
  | nil => rfl
  | cons e l ih =>
    have hc : setVal (e :: l) j v = (if e.1 = j then (e.1, v) else e) :: setVal l j v := rfl
    rw [hc, List.map_cons, List.map_cons, ih]
    by_cases h : e.1 = j <;> simp [h]

theorem find_append (l r : List (K × V)) (k : K) : find (l ++ r) k = (find l k).or (find r k) := by
  induction l with
  | nil => simp [find]
  | cons e l ih =>
    rw [List.cons_append, find_cons, find_cons, ih]
    by_cases h : e.1 = k <;> simp [h]

/-- Lists with the same look-ups and no duplicate keys have the same length. -/
theorem len_of_find {l : List (K × V)} {r : List K} (h1 : (l.map (·.1)).Nodup) (h2 : r.Nodup)
    (h : ∀ k, (find l k).isSome = true ↔ k ∈ r) : l.length = r.length := by
  have : (l.map (·.1)).Perm r := (List.perm_ext_iff_of_nodup h1 h2).2 (fun k => by rw [← find_isSome]; exact h k)
  simpa using this.length_eq

/-! ## CFIFOLimitmap refines a queue of pairs -/

/-- The abstract queue: oldest insertion first. -/
def qInsert (n : Nat) (q : List (K × V)) (k : K) (v : V) : List (K × V) :=
  if k ∈ q.map (·.1) then q
  else
    let q' := q ++ [(k, v)]
    q'.drop (q'.length - n)

/-- Representation relation. -/
structure Fifo.Rep (s : Fifo K V) (q : List (K × V)) : Prop where
  keys : s.keys = q.map (·.1)
  nodup : s.keys.Nodup
  mnodup : (s.map.map (·.1)).Nodup
  same : ∀ k, find s.map k = find q k
  bound : q.length ≤ s.max

theorem Fifo.Rep.len {s : Fifo K V} {q : List (K × V)} (h : s.Rep q) : s.map.length = q.length := by
  have hn := h.nodup
  have := len_of_find h.mnodup hn (fun k => by rw [h.same, find_isSome, h.keys])
  rw [this, h.keys, List.length_map]

/-- Dropping the oldest pair. -/
theorem Fifo.eraseFirst_rep (s : Fifo K V) (e : K × V) (q : List (K × V)) (hk : s.keys = (e :: q).map (·.1))
    (hn : s.keys.Nodup) (hm : (s.map.map (·.1)).Nodup) (hs : ∀ k, find s.map k = find (e :: q) k) :
    ∃ s', s.eraseFirst = some s' ∧ s'.max = s.max ∧ s'.keys = q.map (·.1) ∧ s'.keys.Nodup ∧ (s'.map.map (·.1)).Nodup ∧
      ∀ k, find s'.map k = find q k := by
  refine ⟨⟨del s.map e.1, q.map (·.1), s.max⟩, ?_, rfl, rfl, ?_, ?_, ?_⟩
  · simp [Fifo.eraseFirst, hk]
  · rw [hk] at hn; exact (List.nodup_cons.1 hn).2
  · rw [keys_del]; exact hm.filter _
  · intro k
    show find (del s.map e.1) k = find q k
    rw [find_del, hs, find_cons]
    by_cases h : k = e.1
    · subst h
      rw [if_pos rfl]
      rw [hk] at hn
      have := (List.nodup_cons.1 hn).1
      cases hf : find q e.1 with
      | none => rfl
      | some x =>
        have : (find q e.1).isSome = true := by rw [hf]; rfl
        exact absurd ((find_isSome q e.1).1 this) (by assumption)
    · rw [if_neg h, if_neg (fun hh => h hh.symm)]

theorem Fifo.insert_rep (s : Fifo K V) (q : List (K × V)) (h : s.Rep q) (k : K) (v : V) :
    ∃ s', s.insert k v = some s' ∧ s'.max = s.max ∧ s'.Rep (qInsert s.max q k v) := by
  have hlen := h.len
  by_cases hk : k ∈ q.map (·.1)
  · have hf : (find s.map k).isSome = true := by rw [h.same, find_isSome]; exact hk
    refine ⟨s, ?_, rfl, ?_⟩
    · simp only [Fifo.insert, hf, if_true]
      rw [if_neg]
      have := h.bound
      omega
    · simp only [qInsert, if_pos hk]; exact h
  · have hf : ¬ (find s.map k).isSome = true := by rw [h.same, find_isSome]; exact hk
    have hk2 : k ∉ s.map.map (·.1) := by rw [← find_isSome]; exact hf
    simp only [Fifo.insert, if_neg hf]
    simp only [qInsert, if_neg hk]
    have hkeys : s.keys ++ [k] = (q ++ [(k, v)]).map (·.1) := by rw [h.keys]; simp
    have hnd : (s.keys ++ [k]).Nodup := by
      refine List.nodup_append.2 ⟨h.nodup, List.nodup_singleton k, ?_⟩
      intro a ha b hb hab
      have := List.mem_singleton.1 hb; subst this; subst hab
      exact hk (h.keys ▸ ha)
    have hmn : (((k, v) :: s.map).map (·.1)).Nodup := by
      rw [List.map_cons]; exact List.nodup_cons.2 ⟨hk2, h.mnodup⟩
    have hsame : ∀ j, find ((k, v) :: s.map) j = find (q ++ [(k, v)]) j := by
      intro j
      rw [find_cons, find_append, h.same]
      by_cases hj : k = j
      · subst hj
        have : find q k = none := by
          cases hf' : find q k with
          | none => rfl
          | some x => exact absurd ((find_isSome q k).1 (by rw [hf']; rfl)) hk
        rw [this, if_pos rfl, Option.none_or, find_cons, if_pos rfl]
      · rw [if_neg hj, find_cons, if_neg hj]; simp [find]
    by_cases hsz : s.map.length + 1 > s.max
    · have hb := h.bound
      have hqm : q.length = s.max := by omega
      rw [if_pos (by simpa using hsz)]
      have hdrop : (q ++ [(k, v)]).drop ((q ++ [(k, v)]).length - s.max) = (q ++ [(k, v)]).tail := by
        have : (q ++ [(k, v)]).length - s.max = 1 := by simp; omega
        rw [this, List.drop_one]
      rw [hdrop]
      obtain ⟨e, r, he⟩ : ∃ e r, q ++ [(k, v)] = e :: r := by
        cases q with
        | nil => exact ⟨_, _, rfl⟩
        | cons a b => exact ⟨_, _, rfl⟩
      rw [he] at hkeys hsame ⊢
      obtain ⟨s', h1, h2, h3, h4, h5, h6⟩ := Fifo.eraseFirst_rep ⟨(k, v) :: s.map, s.keys ++ [k], s.max⟩ e r hkeys hnd hmn hsame
      refine ⟨s', h1, h2, ⟨by simpa using h3, h4, h5, by simpa using h6, ?_⟩⟩
      have : (q ++ [(k, v)]).length = r.length + 1 := by rw [he]; rfl
      simp at this
      rw [h2]
      simp; omega
    · rw [if_neg (by simpa using hsz)]
      refine ⟨_, rfl, rfl, ⟨?_, hnd, hmn, ?_, ?_⟩⟩
      · have : (q ++ [(k, v)]).length - s.max = 0 := by simp; omega
        rw [this, List.drop_zero]; exact hkeys
      · have : (q ++ [(k, v)]).length - s.max = 0 := by simp; omega
        rw [this, List.drop_zero]; exact hsame
      · rw [List.length_drop]
        dsimp only; omega

theorem Fifo.update_rep (s : Fifo K V) (q : List (K × V)) (h : s.Rep q) (k : K) (v : V) :
    (s.update k v).Rep (setVal q k v) := by
  refine ⟨?_, h.nodup, ?_, ?_, ?_⟩
  · rw [keys_setVal]; exact h.keys
  · show ((setVal s.map k v).map (·.1)).Nodup
    rw [keys_setVal]; exact h.mnodup
  · intro j
    show find (setVal s.map k v) j = _
    rw [find_setVal, find_setVal, h.same]
  · show (setVal q k v).length ≤ s.max
    simp only [setVal, List.length_map]; exact h.bound

theorem Fifo.trim_rep (n : Nat) : ∀ (fuel : Nat) (s : Fifo K V) (q : List (K × V)), s.Rep q → s.map.length ≤ fuel →
    ∃ s', Fifo.trim n fuel s = some s' ∧ s'.max = s.max ∧ s'.Rep (q.drop (q.length - n))
  | 0, s, q, h, hf => by
    have := h.len
    have hq : q.length - n = 0 := by omega
    exact ⟨s, rfl, rfl, by rw [hq, List.drop_zero]; exact h⟩
  | fuel + 1, s, q, h, hf => by
    have hl := h.len
    by_cases hn : s.map.length > n
    · simp only [Fifo.trim, if_pos hn]
      cases hq : q with
      | nil => rw [hq] at hl; simp at hl; rw [hl] at hn; simp at hn
      | cons e r =>
        obtain ⟨s1, h1, h2, h3, h4, h5, h6⟩ := Fifo.eraseFirst_rep s e r (hq ▸ h.keys) h.nodup h.mnodup (hq ▸ h.same)
        have hrep : s1.Rep r := ⟨h3, h4, h5, h6, by have := h.bound; rw [hq] at this; simp at this; omega⟩
        have hl1 := hrep.len
        rw [hq] at hl
        simp only [List.length_cons] at hl
        obtain ⟨s', g1, g2, g3⟩ := Fifo.trim_rep n fuel s1 r hrep (by omega)
        refine ⟨s', by rw [h1]; exact g1, g2.trans h2, ?_⟩
        have : (e :: r).length - n = (r.length - n) + 1 := by simp only [List.length_cons]; omega
        rw [this, List.drop_succ_cons]; exact g3
    · simp only [Fifo.trim, if_neg hn]
      have hq : q.length - n = 0 := by omega
      exact ⟨s, rfl, rfl, by rw [hq, List.drop_zero]; exact h⟩

theorem Fifo.resize_rep (s : Fifo K V) (q : List (K × V)) (h : s.Rep q) (n : Nat) (hn : 0 < n) :
    ∃ s', s.resize n = some s' ∧ s'.max = n ∧ s'.Rep (q.drop (q.length - n)) := by
  obtain ⟨s', h1, _, h3⟩ := Fifo.trim_rep n s.map.length s q h (Nat.le_refl _)
  refine ⟨{ s' with max := n }, ?_, rfl, ⟨h3.keys, h3.nodup, h3.mnodup, h3.same, ?_⟩⟩
  · simp only [Fifo.resize, if_neg (by omega : ¬ n = 0), h1]; rfl
  · rw [List.length_drop]; dsimp only; omega

/-! ## limitedmap -/

theorem rput_perm (v : Int) (k : K) : ∀ l : List (Int × K), (rput v k l).Perm ((v, k) :: l)
  | [] => List.Perm.refl _
  | (w, j) :: l => by
    simp only [rput]
    split
    · exact List.Perm.refl _
    · exact ((rput_perm v k l).cons _).trans (List.Perm.swap _ _ _)

/-- Ordered by value. -/
def Sorted (l : List (Int × K)) : Prop := l.Pairwise (fun a b => a.1 ≤ b.1)

theorem rput_sorted (v : Int) (k : K) : ∀ l : List (Int × K), Sorted l → Sorted (rput v k l)
  | [], _ => by simp [rput, Sorted]
  | (w, j) :: l, h => by
    have h' := List.pairwise_cons.1 h
    simp only [rput]
    split
    · rename_i hlt
      refine List.pairwise_cons.2 ⟨?_, h⟩
      intro a ha
      rcases List.mem_cons.1 ha with ha | ha
      · subst ha; dsimp only; omega
      · have := h'.1 a ha; dsimp only at *; omega
    · rename_i hle
      refine List.pairwise_cons.2 ⟨?_, rput_sorted v k l h'.2⟩
      intro a ha
      have := (rput_perm v k l).mem_iff.1 ha
      rcases List.mem_cons.1 this with ha | ha
      · subst ha; dsimp only; omega
      · exact h'.1 a ha

structure Lim.Inv (s : Lim K) : Prop where
  mnodup : (s.map.map (·.1)).Nodup
  perm : (s.map.map (fun e => (e.2, e.1))).Perm s.rmap
  sorted : Sorted s.rmap
  bound : s.map.length ≤ s.max

theorem find_mem {l : List (K × V)} {k : K} {v : V} (h : find l k = some v) : (k, v) ∈ l := by
  induction l with
  | nil => simp [find] at h
  | cons e l ih =>
    rw [find_cons] at h
    split at h
    · rename_i he; cases h; subst he; exact List.mem_cons_self ..
    · exact List.mem_cons_of_mem _ (ih h)

theorem mem_find {l : List (K × V)} (hn : (l.map (·.1)).Nodup) {k : K} {v : V} (h : (k, v) ∈ l) : find l k = some v := by
  induction l with
  | nil => cases h
  | cons e l ih =>
    rw [List.map_cons, List.nodup_cons] at hn
    rw [find_cons]
    rcases List.mem_cons.1 h with h | h
    · subst h; simp
    · rw [if_neg, ih hn.2 h]
      intro he
      exact hn.1 (List.mem_map.2 ⟨(k, v), h, he.symm⟩)

theorem del_perm {l : List (K × Int)} (hn : (l.map (·.1)).Nodup) {k : K} {v : Int} (h : (k, v) ∈ l) :
    l.Perm ((k, v) :: del l k) := by
  induction l with
  | nil => cases h
  | cons e l ih =>
    rw [List.map_cons, List.nodup_cons] at hn
    rcases List.mem_cons.1 h with h | h
    · subst h
      have : del ((k, v) :: l) k = l := by
        have h1 : del ((k, v) :: l) k = del l k := by simp [del]
        rw [h1, del, List.filter_eq_self]
        intro a ha
        have : a.1 ≠ k := fun he => hn.1 (List.mem_map.2 ⟨a, ha, he⟩)
        simpa using this
      rw [this]
    · have hne : e.1 ≠ k := fun he => hn.1 (List.mem_map.2 ⟨(k, v), h, he.symm⟩)
      have : del (e :: l) k = e :: del l k := by simp [del, hne]
      rw [this]
      exact ((ih hn.2 h).cons e).trans (List.Perm.swap _ _ _)

theorem Lim.mem_rmap {s : Lim K} (h : s.Inv) (k : K) (v : Int) : (v, k) ∈ s.rmap ↔ find s.map k = some v := by
  rw [← h.perm.mem_iff, List.mem_map]
  constructor
  · rintro ⟨e, he, hp⟩
    cases hp
    exact mem_find h.mnodup he
  · intro hf
    exact ⟨(k, v), find_mem hf, rfl⟩

/-- Erasing the first element of the multimap, without the size bound. -/
theorem Lim.eraseLowest_spec (m : List (K × Int)) (r : List (Int × K)) (mx : Nat) (k : K) (v : Int)
    (hn : (m.map (·.1)).Nodup) (hkv : (k, v) ∈ m)
    (hp : (m.map (fun e => (e.2, e.1))).Perm ((v, k) :: r)) :
    Lim.eraseLowest ⟨m, (v, k) :: r, mx⟩ = some ⟨del m k, r, mx⟩ ∧ ((del m k).map (fun e => (e.2, e.1))).Perm r ∧
      ((del m k).map (·.1)).Nodup ∧ (del m k).length + 1 = m.length := by
  have hd := del_perm hn hkv
  refine ⟨rfl, ?_, by rw [keys_del]; exact hn.filter _, by simpa using hd.length_eq.symm⟩
  have h1 := hd.map (fun e : K × Int => (e.2, e.1))
  rw [List.map_cons] at h1
  exact (List.perm_cons _).1 (h1.symm.trans hp)

/-- Inserting a new key into a full map: the lowest of the older elements goes, and is found as `(k0, v0)`. -/
theorem Lim.insert_full (s : Lim K) (h : s.Inv) (hm : 0 < s.max) (k : K) (v : Int) (hk : find s.map k = none)
    (hfull : s.map.length = s.max) :
    ∃ k0 v0 s', s.insert k v = some s' ∧ s'.Inv ∧ s'.max = s.max ∧ find s.map k0 = some v0 ∧
      (∀ j w, find s.map j = some w → v0 ≤ w) ∧
      (∀ j, find s'.map j = if j = k then some v else if j = k0 then none else find s.map j) := by
  have hkn : k ∉ s.map.map (·.1) := by
    rw [← find_isSome, hk]; simp
  cases hr : s.rmap with
  | nil =>
    have := h.perm.length_eq
    rw [hr] at this; simp at this; rw [this] at hfull; simp at hfull; omega
  | cons e r =>
    obtain ⟨v0, k0⟩ := e
    have hf0 : find s.map k0 = some v0 := (Lim.mem_rmap h k0 v0).1 (by rw [hr]; exact List.mem_cons_self ..)
    have hk0 : k0 ≠ k := by rintro rfl; rw [hk] at hf0; cases hf0
    obtain ⟨h1, h2, h3, h4⟩ := Lim.eraseLowest_spec s.map r s.max k0 v0 h.mnodup (find_mem hf0) (hr ▸ h.perm)
    have hdc : del ((k, v) :: s.map) k0 = (k, v) :: del s.map k0 := by simp [del, hk0.symm]
    refine ⟨k0, v0, ⟨(k, v) :: del s.map k0, rput v k r, s.max⟩, ?_, ⟨?_, ?_, ?_, ?_⟩, rfl, hf0, ?_, ?_⟩
    · simp only [Lim.insert, hk, Option.isSome_none, Bool.false_eq_true, if_false, List.length_cons]
      rw [if_pos (by omega)]
      simp [Lim.eraseLowest, hr, hdc]
    · rw [List.map_cons]
      refine List.nodup_cons.2 ⟨?_, h3⟩
      rw [keys_del]
      intro hc
      exact hkn (List.mem_filter.1 hc).1
    · rw [List.map_cons]
      exact (h2.cons _).trans (rput_perm v k r).symm
    · have := h.sorted; rw [hr] at this
      exact rput_sorted v k r (List.pairwise_cons.1 this).2
    · simp only [List.length_cons]; omega
    · intro j w hj
      have hmem : (w, j) ∈ s.rmap := (Lim.mem_rmap h j w).2 hj
      have hs := h.sorted
      rw [hr] at hmem hs
      rcases List.mem_cons.1 hmem with he | he
      · cases he; exact Int.le_refl _
      · exact (List.pairwise_cons.1 hs).1 _ he
    · intro j
      show find ((k, v) :: del s.map k0) j = _
      rw [find_cons, find_del]
      by_cases hj : j = k
      · subst hj; simp
      · rw [if_neg (fun hh => hj hh.symm), if_neg hj]

theorem Lim.insert_room (s : Lim K) (h : s.Inv) (k : K) (v : Int) (hk : find s.map k = none)
    (hroom : s.map.length < s.max) :
    ∃ s', s.insert k v = some s' ∧ s'.Inv ∧ s'.max = s.max ∧
      (∀ j, find s'.map j = if j = k then some v else find s.map j) := by
  have hkn : k ∉ s.map.map (·.1) := by
    rw [← find_isSome, hk]; simp
  refine ⟨⟨(k, v) :: s.map, rput v k s.rmap, s.max⟩, ?_, ⟨?_, ?_, ?_, ?_⟩, rfl, ?_⟩
  · simp only [Lim.insert, hk, Option.isSome_none, Bool.false_eq_true, if_false, List.length_cons]
    rw [if_neg (by omega)]
    rfl
  · rw [List.map_cons]; exact List.nodup_cons.2 ⟨hkn, h.mnodup⟩
  · rw [List.map_cons]; exact (h.perm.cons _).trans (rput_perm v k s.rmap).symm
  · exact rput_sorted v k _ h.sorted
  · simp only [List.length_cons]; omega
  · intro j
    rw [find_cons]
    by_cases hj : j = k
    · subst hj; simp
    · rw [if_neg (fun hh => hj hh.symm), if_neg hj]

theorem Lim.erase_spec (s : Lim K) (h : s.Inv) (k : K) :
    ∃ s', s.erase k = some s' ∧ s'.Inv ∧ s'.max = s.max ∧ (∀ j, find s'.map j = if j = k then none else find s.map j) := by
  cases hf : find s.map k with
  | none =>
    refine ⟨s, by simp [Lim.erase, hf], h, rfl, ?_⟩
    intro j
    by_cases hj : j = k
    · subst hj; simp [hf]
    · simp [hj]
  | some v =>
    have hmem := (Lim.mem_rmap h k v).2 hf
    have hd := del_perm h.mnodup (find_mem hf)
    refine ⟨⟨del s.map k, s.rmap.erase (v, k), s.max⟩, ?_, ⟨?_, ?_, ?_, ?_⟩, rfl, fun j => find_del _ _ _⟩
    · simp [Lim.erase, hf, hmem]
    · rw [keys_del]; exact h.mnodup.filter _
    · have h1 := hd.map (fun e : K × Int => (e.2, e.1))
      rw [List.map_cons] at h1
      have h2 := (h1.symm.trans h.perm).trans (List.perm_cons_erase hmem)
      exact (List.perm_cons _).1 h2
    · exact List.Pairwise.sublist (List.erase_sublist ..) h.sorted
    · have := hd.length_eq
      have hb := h.bound
      simp at this
      dsimp only; omega

theorem setVal_del {l : List (K × Int)} (k : K) (v : Int) : del (setVal l k v) k = del l k := by
  induction l with
  | nil => rfl
  | cons e l ih =>
    have hc : setVal (e :: l) k v = (if e.1 = k then (e.1, v) else e) :: setVal l k v := rfl
    rw [hc]
    by_cases h : e.1 = k
    · have h1 : del (e :: l) k = del l k := by simp [del, h]
      rw [h1, ← ih]; simp [del, h]
    · have h1 : del (e :: l) k = e :: del l k := by simp [del, h]
      rw [h1, ← ih]; simp [del, h]

theorem Lim.update_spec (s : Lim K) (h : s.Inv) (k : K) (v : Int) :
    ∃ s', s.update k v = some s' ∧ s'.Inv ∧ s'.max = s.max ∧
      (∀ j, find s'.map j = if j = k ∧ (find s.map j).isSome then some v else find s.map j) := by
  cases hf : find s.map k with
  | none =>
    refine ⟨s, by simp [Lim.update, hf], h, rfl, ?_⟩
    intro j
    by_cases hj : j = k
    · subst hj; simp [hf]
    · simp [hj]
  | some w =>
    have hmem := (Lim.mem_rmap h k w).2 hf
    have hn' : ((setVal s.map k v).map (·.1)).Nodup := by rw [keys_setVal]; exact h.mnodup
    have hfv : find (setVal s.map k v) k = some v := by rw [find_setVal]; simp [hf]
    have hd := del_perm h.mnodup (find_mem hf)
    have hd' := del_perm hn' (find_mem hfv)
    rw [setVal_del] at hd'
    refine ⟨⟨setVal s.map k v, rput v k (s.rmap.erase (w, k)), s.max⟩, ?_, ⟨hn', ?_, ?_, ?_⟩, rfl, fun j => find_setVal _ _ _ _⟩
    · simp [Lim.update, hf, hmem]
    · have h1 := hd.map (fun e : K × Int => (e.2, e.1))
      have h1' := hd'.map (fun e : K × Int => (e.2, e.1))
      rw [List.map_cons] at h1 h1'
      have h2 := (List.perm_cons _).1 ((h1.symm.trans h.perm).trans (List.perm_cons_erase hmem))
      exact (h1'.trans (h2.cons _)).trans (rput_perm v k _).symm
    · exact rput_sorted v k _ (List.Pairwise.sublist (List.erase_sublist ..) h.sorted)
    · show (setVal s.map k v).length ≤ s.max
      simp only [setVal, List.length_map]; exact h.bound

theorem Lim.trim_spec (n : Nat) : ∀ (fuel : Nat) (s : Lim K), s.Inv → s.map.length ≤ fuel →
    ∃ s', Lim.trim n fuel s = some s' ∧ s'.Inv ∧ s'.map.length ≤ n ∧
      (∀ j w, find s'.map j = some w → find s.map j = some w) ∧
      (∀ j w j' w', find s'.map j = some w → find s.map j' = some w' → find s'.map j' = none → w' ≤ w)
  | 0, s, h, hf => ⟨s, rfl, h, by omega, fun _ _ hj => hj, fun _ _ _ _ _ h1 h2 => by rw [h1] at h2; cases h2⟩
  | fuel + 1, s, h, hf => by
    by_cases hn : s.map.length > n
    · simp only [Lim.trim, if_pos hn]
      cases hr : s.rmap with
      | nil => have := h.perm.length_eq; rw [hr] at this; simp at this; rw [this] at hn; simp at hn
      | cons e r =>
        obtain ⟨v0, k0⟩ := e
        have hf0 : find s.map k0 = some v0 := (Lim.mem_rmap h k0 v0).1 (by rw [hr]; exact List.mem_cons_self ..)
        obtain ⟨h1, h2, h3, h4⟩ := Lim.eraseLowest_spec s.map r s.max k0 v0 h.mnodup (find_mem hf0) (hr ▸ h.perm)
        have hs := h.sorted
        rw [hr] at hs
        have hb := h.bound
        obtain ⟨s', g1, g2, g3, g4, g5⟩ := Lim.trim_spec n fuel (⟨del s.map k0, r, s.max⟩ : Lim K)
          ⟨h3, h2, (List.pairwise_cons.1 hs).2, by dsimp only; omega⟩ (by dsimp only; omega)
        have he : s.eraseLowest = some ⟨del s.map k0, r, s.max⟩ := by simp [Lim.eraseLowest, hr]
        have hlow : ∀ j w, find s.map j = some w → v0 ≤ w := by
          intro j w hj
          have hmem : (w, j) ∈ s.rmap := (Lim.mem_rmap h j w).2 hj
          rw [hr] at hmem
          rcases List.mem_cons.1 hmem with he | he
          · cases he; exact Int.le_refl _
          · exact (List.pairwise_cons.1 hs).1 _ he
        refine ⟨s', by rw [he]; exact g1, g2, g3, ?_, ?_⟩
        · intro j w hj
          have := g4 j w hj
          dsimp only at this
          rw [find_del] at this
          split at this
          · cases this
          · exact this
        · intro j w j' w' hj hj' hno
          by_cases hjk : j' = k0
          · subst hjk
            rw [hf0] at hj'; cases hj'
            have := g4 j w hj
            dsimp only at this
            rw [find_del] at this
            split at this
            · cases this
            · exact hlow j w this
          · exact g5 j w j' w' hj (by dsimp only; rw [find_del, if_neg hjk]; exact hj') hno
    · simp only [Lim.trim, if_neg hn]
      exact ⟨s, rfl, h, by omega, fun _ _ hj => hj, fun _ _ _ _ _ h1 h2 => by rw [h1] at h2; cases h2⟩

end Verif.Containers
