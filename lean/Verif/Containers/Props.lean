import Verif.Containers.Lemmas

/-!
# Properties of the bounded containers (C54)

"The bounded message maps and sets used by the network and consensus code never exceed their limit, contain only inserted
elements, and evict in the documented order."

* `mruset`: proved in full, over all sequences of insertions, clearings and limit changes.
* `CFIFOLimitmap`: refines a first-in first-out queue of pairs; its documented order ("the N elements with the highest value")
  is not what it does.
* `limitedmap`: bounded, never aborts, evicts the lowest *older* element; the documented rule is violated when the new element is
  the lowest.
* `operator[]` of both maps adds elements that are never counted for eviction: limit and asserts are violated.
-/
namespace Verif.Containers

variable {T K V : Type} [DecidableEq T] [DecidableEq K]

/-! ## mruset -/

/-- The observed history of accepted insertions (those for which `insert` returned true) since the last `clear`. -/
def Mru.runLog : List (MruOp T) → Mru T × List T → Mru T × List T
  | [], p => p
  | .insert x :: os, (s, log) => Mru.runLog os ((s.insert x).1, if (s.insert x).2 then log ++ [x] else log)
  | .clear :: os, (s, _) => Mru.runLog os (s.clear, [])
  | .resize n :: os, (s, log) => Mru.runLog os (s.resize n, log)

/-- The last `n` elements. -/
def lastN (n : Nat) (l : List T) : List T := l.drop (l.length - n)

theorem Mru.runLog_inv (os : List (MruOp T)) : ∀ (s : Mru T) (log : List T), s.Inv → s.queue <:+ log →
    (Mru.runLog os (s, log)).1.Inv ∧ (Mru.runLog os (s, log)).1.queue <:+ (Mru.runLog os (s, log)).2 := by
  induction os with
  | nil => intro s log h hs; exact ⟨h, hs⟩
  | cons o os ih =>
    intro s log h hs
    cases o with
    | insert x =>
      simp only [Mru.runLog]
      apply ih _ _ (s.insert_inv h x)
      rcases s.insert_cases h x with ⟨_, he⟩ | ⟨_, hb, _, hq, _⟩
      · rw [he]; simpa using hs
      · rw [hq, hb, if_pos rfl]
        obtain ⟨t, rfl⟩ := hs
        split
        · cases hqq : s.queue with
          | nil => exact ⟨t, by simp⟩
          | cons f q => exact ⟨t ++ [f], by simp⟩
        · exact ⟨t, by simp⟩
    | clear =>
      simp only [Mru.runLog]
      exact ih _ _ (s.step_inv h .clear) (List.suffix_refl _)
    | resize n =>
      simp only [Mru.runLog]
      obtain ⟨a, _, c⟩ := s.resize_inv h n
      apply ih _ _ a
      rw [c]
      split
      · exact hs
      · exact (List.drop_suffix _ _).trans hs

theorem Mru.empty_inv (n : Nat) : (⟨[], [], n⟩ : Mru T).Inv :=
  ⟨List.nodup_nil, List.nodup_nil, fun _ => Iff.rfl, fun _ => Nat.zero_le _⟩

/-- `mruset` never exceeds its limit, and contains only elements that were inserted since the last `clear`. -/
theorem mruset_bounded (n : Nat) (os : List (MruOp T)) :
    let r := Mru.runLog os (⟨[], [], n⟩, [])
    (r.1.max ≠ 0 → r.1.set.length ≤ r.1.max) ∧ r.1.set.Nodup ∧ ∀ x ∈ r.1.set, x ∈ r.2 := by
  obtain ⟨hi, hs⟩ := Mru.runLog_inv os ⟨[], [], n⟩ [] (Mru.empty_inv n) (List.suffix_refl _)
  refine ⟨fun h => by rw [hi.len]; exact hi.bound h, hi.snodup, fun x hx => ?_⟩
  exact hs.subset ((hi.mem x).1 hx)

/-- `insert` reports true exactly when the element was not there; afterwards it is there. -/
theorem mruset_insert_reports (n : Nat) (os : List (MruOp T)) (x : T) :
    let s := (Mru.runLog os (⟨[], [], n⟩, [])).1
    ((s.insert x).2 = true ↔ x ∉ s.set) ∧ x ∈ (s.insert x).1.set := by
  obtain ⟨hi, _⟩ := Mru.runLog_inv os ⟨[], [], n⟩ [] (Mru.empty_inv n) (List.suffix_refl _)
  intro s
  rcases s.insert_cases hi x with ⟨hq, he⟩ | ⟨hn, hb, _, hq, _⟩
  · have := (hi.mem x).2 hq
    exact ⟨by rw [he]; simp [s, this], by rw [he]; exact this⟩
  · refine ⟨by rw [hb]; simp only [true_iff]; exact fun hx => hn ((hi.mem x).1 hx), ?_⟩
    rw [((s.insert_inv hi x).mem x), hq]; simp

/-- No limit change in the sequence. -/
def noResize : List (MruOp T) → Prop
  | [] => True
  | .resize _ :: _ => False
  | _ :: os => noResize os

theorem runLog_recent (n : Nat) (hn : 0 < n) (os : List (MruOp T)) : ∀ (s : Mru T) (log : List T), noResize os → s.Inv →
    s.max = n → s.queue = lastN n log →
    (Mru.runLog os (s, log)).1.queue = lastN n (Mru.runLog os (s, log)).2 := by
  induction os with
  | nil => intro s log _ _ _ h; exact h
  | cons o os ih =>
    intro s log ho h hm hq
    cases o with
    | resize _ => exact absurd ho id
    | clear =>
      simp only [Mru.runLog]
      exact ih _ _ ho (s.step_inv h .clear) hm (by simp [Mru.clear, lastN])
    | insert x =>
      simp only [Mru.runLog]
      apply ih _ _ ho (s.insert_inv h x)
      · rcases s.insert_cases h x with ⟨_, he⟩ | ⟨_, _, hmx, _, _⟩
        · rw [he]; exact hm
        · rw [hmx, hm]
      · rcases s.insert_cases h x with ⟨_, he⟩ | ⟨_, hb, _, hqq, _⟩
        · rw [he]; simpa using hq
        · rw [hqq, hb, if_pos rfl, hq]
          have hlen : (lastN n log).length = log.length - (log.length - n) := by rw [lastN, List.length_drop]
          have hne : s.max ≠ 0 := by omega
          by_cases hl : n ≤ log.length
          · have : s.max ≠ 0 ∧ (lastN n log).length = s.max := ⟨hne, by rw [hlen, hm]; omega⟩
            rw [if_pos this]
            simp only [lastN, List.length_append, List.length_singleton]
            have e : log.length + 1 - n = (log.length - n) + 1 := by omega
            rw [e, List.drop_append_of_le_length (by omega), List.tail_drop]
          · have : ¬ (s.max ≠ 0 ∧ (lastN n log).length = s.max) := by rw [hlen, hm]; omega
            rw [if_neg this]
            simp only [lastN, List.length_append, List.length_singleton]
            have e1 : log.length - n = 0 := by omega
            have e2 : log.length + 1 - n = 0 := by omega
            rw [e1, e2, List.drop_zero, List.drop_zero]

/-- `mruset` with limit `n` holds exactly the `n` most recent accepted insertions: an element is forgotten exactly when `n`
other elements have been accepted after it. -/
theorem mruset_keeps_most_recent (n : Nat) (hn : 0 < n) (os : List (MruOp T)) (ho : noResize os) (x : T) :
    let r := Mru.runLog os (⟨[], [], n⟩, [])
    x ∈ r.1.set ↔ x ∈ lastN n r.2 := by
  obtain ⟨hi, _⟩ := Mru.runLog_inv os ⟨[], [], n⟩ [] (Mru.empty_inv n) (List.suffix_refl _)
  intro r
  have := runLog_recent n hn os ⟨[], [], n⟩ [] ho (Mru.empty_inv n) rfl (by simp [lastN])
  rw [hi.mem x, this]

/-- Lowering the limit keeps the most recent ones. -/
theorem mruset_resize_keeps_recent (s : Mru T) (h : s.Inv) (n : Nat) (hn : 0 < n) (x : T) :
    (s.resize n).set.length ≤ n ∧ (x ∈ (s.resize n).set ↔ x ∈ lastN n s.queue) := by
  obtain ⟨a, b, c⟩ := s.resize_inv h n
  rw [if_neg (by omega)] at c
  constructor
  · rw [a.len, c, List.length_drop]; omega
  · rw [a.mem x, c]; rfl

/-! ## CFIFOLimitmap -/

/-- The specification: a queue of pairs, oldest first, with its limit. -/
def qStep (p : List (K × V) × Nat) : MapOp K V → List (K × V) × Nat
  | .insert k v => (qInsert p.2 p.1 k v, p.2)
  | .update k v => (setVal p.1 k v, p.2)
  | .resize n => (p.1.drop (p.1.length - n), n)
  | .erase _ => p

def Fifo.run : List (MapOp K V) → Fifo K V → Option (Fifo K V)
  | [], s => some s
  | o :: os, s => (s.step o).bind (Fifo.run os)

/-- Limits given to `max_size` are positive, as its assert demands. -/
def positive : List (MapOp K V) → Prop
  | [] => True
  | .resize n :: os => 0 < n ∧ positive os
  | _ :: os => positive os

/-- Every sequence of operations on a `CFIFOLimitmap` behaves as on the queue: it never reads `vKeys[0]` of an empty vector,
look-ups and size agree, and the limit holds. -/
theorem fifo_refines_queue (n : Nat) (os : List (MapOp K V)) (hp : positive os) :
    ∃ s, Fifo.run os ⟨[], [], n⟩ = some s ∧ s.max = (os.foldl qStep ([], n)).2 ∧
      (∀ k, find s.map k = find (os.foldl qStep ([], n)).1 k) ∧
      s.map.length = (os.foldl qStep ([], n)).1.length ∧ s.map.length ≤ s.max := by
  have key : ∀ (os : List (MapOp K V)) (s : Fifo K V) (q : List (K × V)), positive os → s.Rep q →
      ∃ s', Fifo.run os s = some s' ∧ s'.max = (os.foldl qStep (q, s.max)).2 ∧ s'.Rep (os.foldl qStep (q, s.max)).1 := by
    intro os
    induction os with
    | nil => intro s q _ h; exact ⟨s, rfl, rfl, h⟩
    | cons o os ih =>
      intro s q hp h
      cases o with
      | insert k v =>
        obtain ⟨s1, h1, h2, h3⟩ := s.insert_rep q h k v
        obtain ⟨s', g1, g2, g3⟩ := ih s1 _ hp h3
        rw [h2] at g2 g3
        exact ⟨s', by simp only [Fifo.run, Fifo.step, h1]; exact g1, g2, g3⟩
      | update k v =>
        obtain ⟨s', g1, g2, g3⟩ := ih _ _ hp (s.update_rep q h k v)
        exact ⟨s', by simp only [Fifo.run, Fifo.step]; exact g1, g2, g3⟩
      | resize m =>
        obtain ⟨s1, h1, h2, h3⟩ := s.resize_rep q h m hp.1
        obtain ⟨s', g1, g2, g3⟩ := ih s1 _ hp.2 h3
        rw [h2] at g2 g3
        exact ⟨s', by simp only [Fifo.run, Fifo.step, h1]; exact g1, g2, g3⟩
      | erase k =>
        obtain ⟨s', g1, g2, g3⟩ := ih s q hp h
        exact ⟨s', by simp only [Fifo.run, Fifo.step]; exact g1, g2, g3⟩
  obtain ⟨s, h1, h2, h3⟩ := key os ⟨[], [], n⟩ [] hp
    ⟨rfl, List.nodup_nil, List.nodup_nil, fun _ => rfl, Nat.zero_le _⟩
  exact ⟨s, h1, h2, h3.same, h3.len, by rw [h3.len]; exact h3.bound⟩

/-- The documented order of `CFIFOLimitmap` ("keeps the N elements with the highest value") is violated: with limit 1, after
inserting value 9 and then value 1 it holds the 1. -/
theorem fifo_documented_order_violated :
    ∃ s, Fifo.run [.insert 1 9, .insert 2 1] (⟨[], [], 1⟩ : Fifo Nat Nat) = some s ∧ find s.map 1 = none ∧ find s.map 2 = some 1 := by
  refine ⟨⟨[(2, 1)], [2], 1⟩, by decide, by decide, by decide⟩

/-- `operator[]` of `CFIFOLimitmap` violates the limit; a later insertion evicts itself, and lowering the limit then reads
past the end of `vKeys`. -/
theorem fifo_index_violated :
    let s := Fifo.index 0 (Fifo.index 0 (⟨[], [], 1⟩ : Fifo Nat Nat) 7) 8
    s.map.length = 2 ∧ s.max = 1 ∧ s.resize 1 = none ∧
    ∃ s', s.insert 9 5 = some s' ∧ find s'.map 9 = none := by
  refine ⟨by decide, by decide, by decide, ⟨[(8, 0), (7, 0)], [], 1⟩, by decide, by decide⟩

/-! ## limitedmap -/

def Lim.run : List (MapOp K Int) → Lim K → Option (Lim K)
  | [], s => some s
  | o :: os, s => (s.step o).bind (Lim.run os)

theorem Lim.step_ok (s : Lim K) (h : s.Inv) (hm : 0 < s.max) (o : MapOp K Int) (hp : positive [o]) :
    ∃ s', s.step o = some s' ∧ s'.Inv ∧ 0 < s'.max := by
  cases o with
  | insert k v =>
    cases hk : find s.map k with
    | some w => exact ⟨s, by simp [Lim.step, Lim.insert, hk], h, hm⟩
    | none =>
      by_cases hf : s.map.length = s.max
      · obtain ⟨_, _, s', h1, h2, h3, _⟩ := s.insert_full h hm k v hk hf
        exact ⟨s', h1, h2, by omega⟩
      · obtain ⟨s', h1, h2, h3, _⟩ := s.insert_room h k v hk (by have := h.bound; omega)
        exact ⟨s', h1, h2, by omega⟩
  | update k v =>
    obtain ⟨s', h1, h2, h3, _⟩ := s.update_spec h k v
    exact ⟨s', h1, h2, by omega⟩
  | erase k =>
    obtain ⟨s', h1, h2, h3, _⟩ := s.erase_spec h k
    exact ⟨s', h1, h2, by omega⟩
  | resize n =>
    obtain ⟨s', h1, h2, h3, _⟩ := Lim.trim_spec n s.map.length s h (Nat.le_refl _)
    have hn : 0 < n := hp.1
    refine ⟨{ s' with max := n }, ?_, ⟨h2.mnodup, h2.perm, h2.sorted, h3⟩, hn⟩
    simp only [Lim.step, Lim.resize, if_neg (by omega : ¬ n = 0), h1]; rfl

theorem Lim.run_ok : ∀ (os : List (MapOp K Int)) (s : Lim K), positive os → s.Inv → 0 < s.max →
    ∃ s', Lim.run os s = some s' ∧ s'.Inv ∧ 0 < s'.max
  | [], s, _, h, hm => ⟨s, rfl, h, hm⟩
  | o :: os, s, hp, h, hm => by
    have hpo : positive [o] ∧ positive os := by
      cases o with
      | resize n => exact ⟨⟨hp.1, trivial⟩, hp.2⟩
      | insert k v => exact ⟨trivial, hp⟩
      | update k v => exact ⟨trivial, hp⟩
      | erase k => exact ⟨trivial, hp⟩
    obtain ⟨s1, h1, h2, h3⟩ := s.step_ok h hm o hpo.1
    obtain ⟨s', g1, g2, g3⟩ := Lim.run_ok os s1 hpo.2 h2 h3
    exact ⟨s', by simp only [Lim.run, h1]; exact g1, g2, g3⟩

theorem Lim.empty_inv (n : Nat) : (⟨[], [], n⟩ : Lim K).Inv :=
  ⟨List.nodup_nil, List.Perm.refl _, List.Pairwise.nil, Nat.zero_le _⟩

/-- `limitedmap` never runs into its asserts and never exceeds its limit, over all sequences of insertions, updates, erasures
and limit changes. -/
theorem limitedmap_bounded (n : Nat) (hn : 0 < n) (os : List (MapOp K Int)) (hp : positive os) :
    ∃ s, Lim.run os ⟨[], [], n⟩ = some s ∧ s.map.length ≤ s.max ∧ (s.map.map (·.1)).Nodup := by
  obtain ⟨s, h1, h2, _⟩ := Lim.run_ok os ⟨[], [], n⟩ hp (Lim.empty_inv n) hn
  exact ⟨s, h1, h2.bound, h2.mnodup⟩

/-- What one operation does to the content of a `limitedmap` reached by any sequence: erasing and updating touch one key;
inserting a present key changes nothing; inserting a new key adds it and, when the map is full, removes one older element whose
value is the lowest of the older ones. Partial: the documented rule would compare with the new element too. -/
theorem limitedmap_content_partial (n : Nat) (hn : 0 < n) (os : List (MapOp K Int)) (hp : positive os) (s : Lim K)
    (hs : Lim.run os ⟨[], [], n⟩ = some s) (k : K) (v : Int) :
    (∃ s', s.erase k = some s' ∧ ∀ j, find s'.map j = if j = k then none else find s.map j) ∧
    (∃ s', s.update k v = some s' ∧ ∀ j, find s'.map j = if j = k ∧ (find s.map j).isSome then some v else find s.map j) ∧
    (∃ s', s.insert k v = some s' ∧
      ((find s.map k ≠ none ∧ ∀ j, find s'.map j = find s.map j) ∨
       (find s.map k = none ∧ s.map.length < s.max ∧ ∀ j, find s'.map j = if j = k then some v else find s.map j) ∨
       (find s.map k = none ∧ s.map.length = s.max ∧ ∃ k0 v0, find s.map k0 = some v0 ∧
          (∀ j w, find s.map j = some w → v0 ≤ w) ∧
          ∀ j, find s'.map j = if j = k then some v else if j = k0 then none else find s.map j))) := by
  obtain ⟨s1, h1, h2, h3⟩ := Lim.run_ok os ⟨[], [], n⟩ hp (Lim.empty_inv n) hn
  rw [hs] at h1
  cases h1
  refine ⟨?_, ?_, ?_⟩
  · obtain ⟨s', a, _, _, d⟩ := s.erase_spec h2 k
    exact ⟨s', a, d⟩
  · obtain ⟨s', a, _, _, d⟩ := s.update_spec h2 k v
    exact ⟨s', a, d⟩
  · cases hk : find s.map k with
    | some w => exact ⟨s, by simp [Lim.insert, hk], Or.inl ⟨by simp, fun _ => rfl⟩⟩
    | none =>
      by_cases hf : s.map.length = s.max
      · obtain ⟨k0, v0, s', a, _, _, b, c, d⟩ := s.insert_full h2 h3 k v hk hf
        exact ⟨s', a, Or.inr (Or.inr ⟨rfl, hf, k0, v0, b, c, d⟩)⟩
      · have hlt : s.map.length < s.max := by have := h2.bound; omega
        obtain ⟨s', a, _, _, d⟩ := s.insert_room h2 k v hk hlt
        exact ⟨s', a, Or.inr (Or.inl ⟨rfl, hlt, d⟩)⟩

/-- Lowering the limit of a `limitedmap` keeps elements with the highest values. -/
theorem limitedmap_resize_keeps_highest (s : Lim K) (h : s.Inv) (n : Nat) (hn : 0 < n) :
    ∃ s', s.resize n = some s' ∧ s'.max = n ∧ s'.map.length ≤ n ∧
      (∀ j w, find s'.map j = some w → find s.map j = some w) ∧
      (∀ j w j' w', find s'.map j = some w → find s.map j' = some w' → find s'.map j' = none → w' ≤ w) := by
  obtain ⟨s', h1, h2, h3, h4, h5⟩ := Lim.trim_spec n s.map.length s h (Nat.le_refl _)
  refine ⟨{ s' with max := n }, ?_, rfl, h3, h4, h5⟩
  simp only [Lim.resize, if_neg (by omega : ¬ n = 0), h1]; rfl

/-- The documented rule of `limitedmap` ("only keeps the N elements with the highest value") is violated: with limit 2, after
5 and 6, inserting 1 drops the 5 and keeps the 1. -/
theorem limitedmap_keeps_highest_violated :
    ∃ s, Lim.run [.insert 1 5, .insert 2 6, .insert 3 1] (⟨[], [], 2⟩ : Lim Nat) = some s ∧
      find s.map 1 = none ∧ find s.map 3 = some 1 := by
  refine ⟨⟨[(3, 1), (2, 6)], [(1, 3), (6, 2)], 2⟩, by decide, by decide, by decide⟩

/-- `operator[]` of `limitedmap` violates the limit, and erasing or updating what it added runs into `assert(0)`. -/
theorem limitedmap_index_violated :
    let s := Lim.index (Lim.index (⟨[], [], 1⟩ : Lim Nat) 7) 8
    s.map.length = 2 ∧ s.max = 1 ∧ s.erase 7 = none ∧ s.update 7 3 = none ∧ s.insert 9 1 = none := by
  decide

/-! ## Examples -/

/-- Re-inserting a present element does not refresh it; the oldest accepted one leaves. -/
example : (Mru.runLog [.insert 1, .insert 2, .insert 1, .insert 3] ((⟨[], [], 2⟩ : Mru Nat), [])).1.queue = [2, 3] ∧
    (Mru.runLog [.insert 1, .insert 2, .insert 1, .insert 3] ((⟨[], [], 2⟩ : Mru Nat), [])).2 = [1, 2, 3] := by decide

example : noResize ([.insert 1, .insert 2, .clear, .insert 3] : List (MruOp Nat)) := trivial

example : ∃ s, Fifo.run [.insert 1 5, .insert 2 6, .update 1 7, .insert 3 8, .resize 1] (⟨[], [], 2⟩ : Fifo Nat Nat) = some s ∧
    s.map = [(3, 8)] ∧ positive ([.insert 1 5, .insert 2 6, .update 1 7, .insert 3 8, .resize 1] : List (MapOp Nat Nat)) := by
  refine ⟨⟨[(3, 8)], [3], 1⟩, by decide, by decide, Nat.one_pos, trivial⟩

example : ∃ s, Lim.run [.insert 1 5, .insert 2 6, .update 1 9, .erase 2, .insert 4 7, .insert 5 8] (⟨[], [], 2⟩ : Lim Nat) = some s ∧
    s.map = [(5, 8), (1, 9)] := by
  refine ⟨⟨[(5, 8), (1, 9)], [(8, 5), (9, 1)], 2⟩, by decide, by decide⟩

end Verif.Containers
