import Verif.Addr.Save
import Verif.Addr.Props
import Mathlib.Data.List.Basic

namespace Verif.Addr.Save

variable {α : Type}

def news (l : List (Entry α)) : List α := (l.filter (fun e => !e.tried)).map (·.body)
def trieds (l : List (Entry α)) : List α := (l.filter (fun e => e.tried)).map (·.body)

theorem writeNew_all : ∀ (l : List (Entry α)) (k n : Nat), n = k + (news l).length → (writeNew n k l).1 = news l
  | [], k, n, h => rfl
  | e :: l, k, n, h => by
    unfold writeNew
    by_cases t : e.tried = true
    · have e1 : news (e :: l) = news l := by simp [news, t]
      rw [e1] at h ⊢
      by_cases z : k = n
      · rw [if_pos z]
        exact (List.length_eq_zero_iff.mp (by omega)).symm
      · rw [if_neg z, if_pos t]
        exact writeNew_all l k n h
    · have e1 : news (e :: l) = e.body :: news l := by simp [news, t]
      rw [e1] at h ⊢
      rw [List.length_cons] at h
      rw [if_neg (by omega), if_neg t]
      simp only
      rw [writeNew_all l (k + 1) n (by omega)]

theorem writeTried_all : ∀ (l : List (Entry α)) (k n : Nat), n = k + (trieds l).length → writeTried n k l = trieds l
  | [], k, n, h => rfl
  | e :: l, k, n, h => by
    unfold writeTried
    by_cases t : e.tried = true
    · have e1 : trieds (e :: l) = e.body :: trieds l := by simp [trieds, t]
      rw [e1] at h ⊢
      rw [List.length_cons] at h
      rw [if_neg (by omega), if_pos t, writeTried_all l (k + 1) n (by omega)]
    · have e1 : trieds (e :: l) = trieds l := by simp [trieds, t]
      rw [e1] at h ⊢
      by_cases z : k = n
      · rw [if_pos z]
        exact (List.length_eq_zero_iff.mp (by omega)).symm
      · rw [if_neg z, if_neg t]
        exact writeTried_all l k n h

theorem index_cons (m : List (Nat × Nat)) (i k id : Nat) : index ((i, k) :: m) id = if i = id then k else index m id := by
  unfold index
  by_cases h : i = id
  · simp [h]
  · rw [List.find?_cons_of_neg (by simpa using h), if_neg h]

/-- The index written for a new entry is its place among the new entries. -/
theorem index_spec : ∀ (l : List (Entry α)) (k n : Nat), n = k + (news l).length → (l.map (·.id)).Nodup → ∀ e ∈ l, e.tried = false →
    ∃ j, index (writeNew n k l).2 e.id = k + j ∧ (news l)[j]? = some e.body
  | [], k, n, h, hd, e, he, ht => by cases he
  | x :: l, k, n, h, hd, e, he, ht => by
    have hd' := List.nodup_cons.mp hd
    have ne : ∀ y ∈ l, x.id ≠ y.id := fun y hy k => hd'.1 (List.mem_map.mpr ⟨y, hy, k.symm⟩)
    unfold writeNew
    by_cases t : x.tried = true
    · have e1 : news (x :: l) = news l := by simp [news, t]
      rw [e1] at h ⊢
      have he' : e ∈ l := by
        rcases List.mem_cons.mp he with rfl | he'
        · rw [t] at ht; cases ht
        · exact he'
      have pos : 0 < (news l).length := by
        apply List.length_pos_of_mem (a := e.body)
        exact List.mem_map_of_mem (List.mem_filter.mpr ⟨he', by simp [ht]⟩)
      rw [if_neg (by omega), if_pos t]
      simp only
      rw [index_cons, if_neg (ne e he')]
      exact index_spec l k n h hd'.2 e he' ht
    · have e1 : news (x :: l) = x.body :: news l := by simp [news, t]
      rw [e1] at h ⊢
      rw [List.length_cons] at h
      rw [if_neg (by omega), if_neg t]
      simp only
      rw [index_cons]
      rcases List.mem_cons.mp he with rfl | he'
      · exact ⟨0, by rw [if_pos rfl]; rfl, rfl⟩
      · rw [if_neg (ne e he')]
        obtain ⟨j, h1, h2⟩ := index_spec l (k + 1) n (by omega) hd'.2 e he' ht
        exact ⟨j + 1, by omega, by simpa using h2⟩

theorem readBucket_all : ∀ (b seen : List Nat), (∀ i, seen.count i + b.count i ≤ 4) → (readBucket seen b).2 = b ∧
    ∀ i, (readBucket seen b).1.count i = seen.count i + b.count i
  | [], seen, h => ⟨rfl, fun i => by simp [readBucket]⟩
  | x :: b, seen, h => by
    have hx := h x
    rw [List.count_cons_self] at hx
    unfold readBucket
    rw [if_pos (by omega)]
    have ih := readBucket_all b (x :: seen) (by intro i; have := h i; simp only [List.count_cons] at this ⊢; omega)
    refine ⟨by simp only [ih.1], fun i => ?_⟩
    simp only
    rw [ih.2 i]
    simp only [List.count_cons]
    omega

theorem readBuckets_all : ∀ (bs : List (List Nat)) (seen : List Nat), (∀ i, seen.count i + bs.flatten.count i ≤ 4) → readBuckets seen bs = bs
  | [], seen, h => rfl
  | b :: bs, seen, h => by
    have h' : ∀ i, seen.count i + b.count i + bs.flatten.count i ≤ 4 := by
      intro i; have := h i; rw [List.flatten_cons, List.count_append] at this; omega
    have k := readBucket_all b seen (by intro i; have := h' i; omega)
    unfold readBuckets
    rw [k.1, readBuckets_all bs _ (by intro i; rw [k.2 i]; exact h' i)]

/-- Different new entries have different indices. -/
theorem index_inj : ∀ (l : List (Entry α)) (k n : Nat), n = k + (news l).length → (l.map (·.id)).Nodup → ∀ d ∈ l, ∀ e ∈ l, d.tried = false →
    e.tried = false → index (writeNew n k l).2 d.id = index (writeNew n k l).2 e.id → d.id = e.id
  | [], k, n, h, hd, d, h1, e, h2, t1, t2, hi => by cases h1
  | x :: l, k, n, h, hd, d, h1, e, h2, t1, t2, hi => by
    have hd' := List.nodup_cons.mp hd
    have ne : ∀ y ∈ l, x.id ≠ y.id := fun y hy k => hd'.1 (List.mem_map.mpr ⟨y, hy, k.symm⟩)
    unfold writeNew at hi
    by_cases t : x.tried = true
    · have e1 : news (x :: l) = news l := by simp [news, t]
      rw [e1] at h
      have sub : ∀ y ∈ x :: l, y.tried = false → y ∈ l := by
        intro y hy ht
        rcases List.mem_cons.mp hy with rfl | hy'
        · rw [t] at ht; cases ht
        · exact hy'
      have pos : 0 < (news l).length := by
        apply List.length_pos_of_mem (a := e.body)
        exact List.mem_map_of_mem (List.mem_filter.mpr ⟨sub e h2 t2, by simp [t2]⟩)
      rw [if_neg (by omega), if_pos t] at hi
      simp only at hi
      rw [index_cons, index_cons, if_neg (ne d (sub d h1 t1)), if_neg (ne e (sub e h2 t2))] at hi
      exact index_inj l k n h hd'.2 d (sub d h1 t1) e (sub e h2 t2) t1 t2 hi
    · have e1 : news (x :: l) = x.body :: news l := by simp [news, t]
      rw [e1, List.length_cons] at h
      rw [if_neg (by omega), if_neg t] at hi
      simp only at hi
      rw [index_cons, index_cons] at hi
      have big : ∀ y ∈ l, y.tried = false → ∃ j, index (writeNew n (k + 1) l).2 y.id = k + 1 + j := by
        intro y hy ty
        obtain ⟨j, hj, -⟩ := index_spec l (k + 1) n (by omega) hd'.2 y hy ty
        exact ⟨j, hj⟩
      rcases List.mem_cons.mp h1 with rfl | h1' <;> rcases List.mem_cons.mp h2 with rfl | h2'
      · rfl
      · rw [if_pos rfl, if_neg (ne e h2')] at hi
        obtain ⟨j, hj⟩ := big e h2' t2
        omega
      · rw [if_pos rfl, if_neg (ne d h1')] at hi
        obtain ⟨j, hj⟩ := big d h1' t1
        omega
      · rw [if_neg (ne d h1'), if_neg (ne e h2')] at hi
        exact index_inj l (k + 1) n (by omega) hd'.2 d h1' e h2' t1 t2 hi

/-- What is known about the tables that are saved (C153) -/
structure Good (infos : List (Entry α)) (nNew nTried : Nat) (vvNew : List (List Nat)) : Prop where
  once : (infos.map (·.id)).Nodup
  nNew : nNew = (news infos).length
  nTried : nTried = (trieds infos).length
  new : ∀ b ∈ vvNew, ∀ i ∈ b, ∃ e ∈ infos, e.id = i ∧ e.tried = false
  four : ∀ i, vvNew.flatten.count i ≤ 4

/-- The saved fields of the entry with an id -/
def body (infos : List (Entry α)) (i : Nat) : Option α := (infos.find? (fun e => e.id == i)).map (·.body)

theorem body_eq : ∀ {l : List (Entry α)}, (l.map (·.id)).Nodup → ∀ e ∈ l, body l e.id = some e.body
  | [], _, e, he => by cases he
  | x :: l, hd, e, he => by
    have hd' := List.nodup_cons.mp hd
    unfold body
    rcases List.mem_cons.mp he with rfl | he'
    · simp
    · rw [List.find?_cons_of_neg (by
        intro k
        exact hd'.1 (List.mem_map.mpr ⟨e, he', (beq_iff_eq.mp k).symm⟩))]
      exact body_eq hd'.2 e he'

/-- All new entries are saved and read, and every new bucket has the same entries in the same order as before. -/
theorem save_new {infos : List (Entry α)} {nNew nTried : Nat} {vvNew : List (List Nat)} (g : Good infos nNew nTried vvNew) :
    (write nNew nTried infos vvNew).new = news infos ∧ readNew (write nNew nTried infos vvNew) = vvNew.map (fun b => b.map (body infos)) := by
  have w : (writeNew nNew 0 infos).1 = news infos := writeNew_all infos 0 nNew (by have := g.nNew; omega)
  refine ⟨w, ?_⟩
  have small : ∀ j, (vvNew.map (fun b => b.map (index (writeNew nNew 0 infos).2))).flatten.count j ≤ 4 := by
    intro j
    rw [← List.map_flatten, List.count, List.countP_map]
    by_cases m : ∃ a ∈ vvNew.flatten, index (writeNew nNew 0 infos).2 a = j
    · obtain ⟨a, ha, rfl⟩ := m
      refine Nat.le_trans (Nat.le_of_eq ?_) (g.four a)
      rw [List.count]
      apply List.countP_congr
      intro x hx
      simp only [Function.comp, beq_iff_eq]
      constructor
      · intro k
        obtain ⟨bx, hbx, hx'⟩ := List.mem_flatten.mp hx
        obtain ⟨ba, hba, ha'⟩ := List.mem_flatten.mp ha
        obtain ⟨d, d1, rfl, d3⟩ := g.new bx hbx x hx'
        obtain ⟨e, e1, rfl, e3⟩ := g.new ba hba a ha'
        exact index_inj infos 0 nNew (by have := g.nNew; omega) g.once d d1 e e1 d3 e3 k
      · intro k; rw [k]
    · rw [List.countP_eq_zero.mpr]
      · omega
      · intro x hx k
        exact m ⟨x, hx, by simpa using k⟩
  have rb : readBuckets [] (write nNew nTried infos vvNew).buckets = (write nNew nTried infos vvNew).buckets := by
    apply readBuckets_all
    intro j
    have := small j
    simpa [write] using this
  unfold readNew
  rw [rb]
  simp only [write, w, List.map_map]
  apply List.map_congr_left
  intro b hb
  simp only [Function.comp, List.map_map]
  apply List.map_congr_left
  intro i hi
  obtain ⟨e, e1, rfl, e3⟩ := g.new b hb i hi
  obtain ⟨j, j1, j2⟩ := index_spec infos 0 nNew (by have := g.nNew; omega) g.once e e1 e3
  simp only [Function.comp, j1, Nat.zero_add, j2, body_eq g.once e e1]

theorem readTried_all (bucket : α → Nat) : ∀ (l : List α) (b : Nat → List α) (lost : Nat),
    (∀ k, (b k).length + l.countP (fun e => decide (bucket e = k)) ≤ 64) →
    readTried bucket b l lost = (fun k => b k ++ l.filter (fun e => decide (bucket e = k)), lost)
  | [], b, lost, h => by simp [readTried]
  | e :: l, b, lost, h => by
    have he := h (bucket e)
    rw [List.countP_cons_of_pos (by simp)] at he
    unfold readTried
    rw [if_pos (by omega), readTried_all bucket l]
    · congr 1
      funext k
      by_cases c : k = bucket e
      · subst c; simp
      · rw [if_neg c, List.filter_cons_of_neg (by simp; omega)]
    · intro k
      have hk := h k
      by_cases c : k = bucket e
      · subst c
        rw [if_pos rfl, List.length_append, List.length_singleton]
        omega
      · rw [if_neg c]
        rw [List.countP_cons_of_neg (by simp; omega)] at hk
        exact hk

/-- All tried entries are saved and read back into their buckets; none is lost. -/
theorem save_tried {infos : List (Entry α)} {nNew nTried : Nat} {vvNew : List (List Nat)} (g : Good infos nNew nTried vvNew) (bucket : α → Nat)
    (room : ∀ k, (trieds infos).countP (fun e => decide (bucket e = k)) ≤ 64) :
    readTried bucket (fun _ => []) (write nNew nTried infos vvNew).tried 0 =
      (fun k => (trieds infos).filter (fun e => decide (bucket e = k)), 0) := by
  have w : (write nNew nTried infos vvNew).tried = trieds infos := writeTried_all infos 0 nTried (by have := g.nTried; omega)
  rw [w, readTried_all bucket _ _ _ (by intro k; simpa using room k)]
  simp

/-- A table with a gap in the ids, one tried entry between new ones, and an entry in two buckets -/
def demo : List (Entry Nat) := [⟨2, 70, false⟩, ⟨5, 71, true⟩, ⟨6, 72, false⟩]

example : Good demo 2 1 [[6], [], [2, 6]] where
  once := by decide
  nNew := rfl
  nTried := rfl
  new := by
    intro b hb i hi
    simp only [List.mem_cons, List.not_mem_nil, or_false] at hb
    rcases hb with rfl | rfl | rfl
    · rw [List.mem_singleton.mp hi]; exact ⟨⟨6, 72, false⟩, by simp [demo], rfl, rfl⟩
    · cases hi
    · simp only [List.mem_cons, List.not_mem_nil, or_false] at hi
      rcases hi with rfl | rfl
      · exact ⟨⟨2, 70, false⟩, by simp [demo], rfl, rfl⟩
      · exact ⟨⟨6, 72, false⟩, by simp [demo], rfl, rfl⟩
  four := by
    intro i
    refine Nat.le_trans List.count_le_length (by decide)
example : readNew (write 2 1 demo [[6], [], [2, 6]]) = [[some 72], [], [some 70, some 72]] := by decide

/-! ## The states of the address manager -/

/-- What is saved of an entry: address, port, time, source, last success and attempts -/
structure Saved where
  ip : Ip
  port : Nat
  time : Int
  src : Ip
  lastSuccess : Int
  attempts : Int

def saved (i : Info) : Saved := ⟨i.ip, i.port, i.time, i.src, i.lastSuccess, i.attempts⟩

def entryOf (s : St) (n : Nat) : Option (Entry Saved) := (s.info n).map (fun i => ⟨n, saved i, i.tried⟩)

/-- `mapInfo` in the order of the ids -/
def entries (s : St) : List (Entry Saved) := (List.range s.next).filterMap (entryOf s)

/-- `vvNew` -/
def buckets (s : St) : List (List Nat) := (List.range 256).map s.new

theorem ids_sublist (s : St) : ∀ l : List Nat, ((l.filterMap (entryOf s)).map (·.id)).Sublist l
  | [] => List.Sublist.refl _
  | n :: l => by
    cases h : s.info n with
    | none => rw [List.filterMap_cons_none (by simp [entryOf, h])]; exact (ids_sublist s l).cons n
    | some i =>
      rw [List.filterMap_cons_some (b := ⟨n, saved i, i.tried⟩) (by simp [entryOf, h]), List.map_cons]
      exact (ids_sublist s l).cons_cons n

theorem news_length (s : St) : ∀ l : List Nat, (news (l.filterMap (entryOf s))).length = l.countP (isKind s.info false)
  | [] => rfl
  | n :: l => by
    cases h : s.info n with
    | none => rw [List.filterMap_cons_none (by simp [entryOf, h]), List.countP_cons_of_neg (by simp [isKind, h])]; exact news_length s l
    | some i =>
      rw [List.filterMap_cons_some (b := ⟨n, saved i, i.tried⟩) (by simp [entryOf, h])]
      have ih := news_length s l
      unfold news at ih ⊢
      cases t : i.tried
      · rw [List.filter_cons_of_pos (by simp), List.countP_cons_of_pos (by simp [isKind, h, t]), List.map_cons, List.length_cons, ih]
      · rw [List.filter_cons_of_neg (by simp), List.countP_cons_of_neg (by simp [isKind, h, t]), ih]

theorem trieds_length (s : St) : ∀ l : List Nat, (trieds (l.filterMap (entryOf s))).length = l.countP (isKind s.info true)
  | [] => rfl
  | n :: l => by
    cases h : s.info n with
    | none => rw [List.filterMap_cons_none (by simp [entryOf, h]), List.countP_cons_of_neg (by simp [isKind, h])]; exact trieds_length s l
    | some i =>
      rw [List.filterMap_cons_some (b := ⟨n, saved i, i.tried⟩) (by simp [entryOf, h])]
      have ih := trieds_length s l
      unfold trieds at ih ⊢
      cases t : i.tried
      · rw [List.filter_cons_of_neg (by simp), List.countP_cons_of_neg (by simp [isKind, h, t]), ih]
      · rw [List.filter_cons_of_pos (by simp), List.countP_cons_of_pos (by simp [isKind, h, t]), List.map_cons, List.length_cons, ih]

def bucketOf (H : Hashes) (e : Saved) : Nat := triedBucket H e.ip e.port

theorem trieds_bucket {H : Hashes} {s : St} (hs : Inv H s none) (k : Nat) : ∀ l : List Nat,
    (trieds (l.filterMap (entryOf s))).countP (fun e => decide (bucketOf H e = k)) ≤ (l.filter (fun n => decide (n ∈ s.tried k))).length
  | [] => Nat.le_refl _
  | n :: l => by
    have ih := trieds_bucket hs k l
    have mono : (l.filter (fun n => decide (n ∈ s.tried k))).length ≤ ((n :: l).filter (fun n => decide (n ∈ s.tried k))).length := by
      rw [List.filter_cons]; split <;> simp
    cases h : s.info n with
    | none => rw [List.filterMap_cons_none (by simp [entryOf, h])]; omega
    | some i =>
      rw [List.filterMap_cons_some (b := ⟨n, saved i, i.tried⟩) (by simp [entryOf, h])]
      unfold trieds at ih ⊢
      cases t : i.tried
      · rw [List.filter_cons_of_neg (by simp)]; omega
      · rw [List.filter_cons_of_pos (by simp), List.map_cons]
        by_cases c : triedBucket H i.ip i.port = k
        · have m := (hs.bk.t1 n i h t).2
          rw [c] at m
          rw [List.countP_cons_of_pos (p := fun e => decide (bucketOf H e = k)) (a := saved i) (decide_eq_true c), List.filter_cons_of_pos (by simpa using m), List.length_cons]
          omega
        · rw [List.countP_cons_of_neg (p := fun e => decide (bucketOf H e = k)) (a := saved i) (fun d => c (of_decide_eq_true d))]
          omega

theorem mem_entries {H : Hashes} {s : St} (hs : Inv H s none) {n : Nat} {i : Info} (h : s.info n = some i) :
    (⟨n, saved i, i.tried⟩ : Entry Saved) ∈ entries s :=
  List.mem_filterMap.mpr ⟨n, List.mem_range.mpr (hs.core.lt n i h), by simp [entryOf, h]⟩

theorem count_flat (f : Nat → List Nat) (hf : ∀ b, (f b).Nodup) (i : Nat) : ∀ l : List Nat,
    (l.map f).flatten.count i = l.countP (fun b => decide (i ∈ f b))
  | [] => rfl
  | b :: l => by
    rw [List.map_cons, List.flatten_cons, List.count_append, count_flat f hf i l]
    by_cases h : i ∈ f b
    · rw [List.countP_cons_of_pos (by simpa using h), List.count_eq_one_of_mem (hf b) h]; omega
    · rw [List.countP_cons_of_neg (by simpa using h), List.count_eq_zero_of_not_mem h]; omega

theorem good_state {H : Hashes} {s : St} (hs : Inv H s none) : Good (entries s) s.nNew.toNat s.nTried.toNat (buckets s) where
  once := (ids_sublist s _).nodup List.nodup_range
  nNew := by rw [entries, news_length, hs.ct.c2]; rfl
  nTried := by rw [entries, trieds_length, hs.ct.c1]; rfl
  new := by
    intro b hb n hn
    obtain ⟨k, -, rfl⟩ := List.mem_map.mp hb
    obtain ⟨-, i, hi, ht⟩ := hs.bk.n2 k n hn
    exact ⟨_, mem_entries hs hi, rfl, ht⟩
  four := by
    intro n
    rw [buckets, count_flat s.new (fun b => nodup_of_lt (hs.bk.n3 b))]
    by_cases e : ∃ b, n ∈ s.new b
    · obtain ⟨b, hb⟩ := e
      obtain ⟨-, i, hi, ht⟩ := hs.bk.n2 b n hb
      have k := hs.bk.n1 n i hi ht
      have r : refs s.new n = (List.range 256).countP (fun b => decide (n ∈ s.new b)) := rfl
      simp at k
      omega
    · rw [List.countP_eq_zero.mpr]
      · omega
      · intro b _ k
        exact e ⟨b, by simpa using k⟩

/-- The writer asks for the counter of references, which tells the same as the flag. -/
theorem ref_new {H : Hashes} {ops : List Op} {s : St} (h : run H ops = some s) {n : Nat} {i : Info} (hi : s.info n = some i) :
    i.ref ≠ 0 ↔ i.tried = false := by
  have hs := run_inv h
  cases t : i.tried
  · have := (hs.bk.n1 n i hi t).1
    simp; omega
  · have := (hs.bk.t1 n i hi t).1
    simp [this]

/-- **C175**: after saving and loading every new bucket has the same addresses with the same saved fields. -/
theorem saved_new {H : Hashes} {ops : List Op} {s : St} (h : run H ops = some s) :
    readNew (write s.nNew.toNat s.nTried.toNat (entries s) (buckets s)) =
      (List.range 256).map (fun b => (s.new b).map (fun n => (s.info n).map saved)) := by
  have hs := run_inv h
  rw [(save_new (good_state hs)).2, buckets, List.map_map]
  apply List.map_congr_left
  intro b _
  apply List.map_congr_left
  intro n hn
  obtain ⟨-, i, hi, -⟩ := hs.bk.n2 b n hn
  have := body_eq (good_state hs).once _ (mem_entries hs hi)
  rw [hi]
  exact this

/-- **C175**: and every tried bucket has the same addresses; none is lost. -/
theorem saved_tried {H : Hashes} {ops : List Op} {s : St} (h : run H ops = some s) :
    ∃ t, readTried (bucketOf H) (fun _ => []) (write s.nNew.toNat s.nTried.toNat (entries s) (buckets s)).tried 0 = (t, 0) ∧
      ∀ k e, e ∈ t k ↔ ∃ n ∈ s.tried k, (s.info n).map saved = some e := by
  have hs := run_inv h
  refine ⟨_, save_tried (good_state hs) (bucketOf H) ?_, ?_⟩
  · intro k
    refine Nat.le_trans (trieds_bucket hs k _) ?_
    refine Nat.le_trans ?_ (hs.bk.t4 k)
    refine List.Nodup.length_le_of_subset (List.nodup_range.filter _) ?_
    intro x hx
    simpa using (List.mem_filter.mp hx).2
  · intro k e
    simp only [List.mem_filter, trieds, List.mem_map, decide_eq_true_eq, entries, List.mem_filterMap, entryOf, Option.map_eq_some_iff]
    constructor
    · rintro ⟨⟨x, ⟨⟨n, -, i, hi, rfl⟩, ht⟩, rfl⟩, hk⟩
      have m := (hs.bk.t1 n i hi ht).2
      rw [show triedBucket H i.ip i.port = k from hk] at m
      exact ⟨n, m, i, hi, rfl⟩
    · rintro ⟨n, hn, i, hi, rfl⟩
      obtain ⟨j, hj, tj, bj⟩ := hs.bk.t2 k n hn
      rw [hi] at hj
      injection hj with hj
      subst hj
      exact ⟨⟨_, ⟨⟨n, List.mem_range.mpr (hs.core.lt n i hi), i, hi, rfl⟩, tj⟩, rfl⟩, bj⟩

/-- Two new addresses and a tried one. -/
example : ((run zeroHash Verif.Addr.demo).map (fun s => ((write s.nNew.toNat s.nTried.toNat (entries s) (buckets s)).new.length,
    (write s.nNew.toNat s.nTried.toNat (entries s) (buckets s)).tried.length,
    (write s.nNew.toNat s.nTried.toNat (entries s) (buckets s)).buckets.take 2))) = some (2, 1, [[0, 1], []]) := by decide +kernel

end Verif.Addr.Save
