import Verif.Price.Model
import Mathlib.Data.List.Sort

/-!
# Lemmas about medians and price layers
-/
namespace Verif.Price

/-! ## Sorting -/

theorem insort_perm (x : Nat) (l : List Nat) : (insort x l).Perm (x :: l) := by
  induction l with
  | nil => exact List.Perm.refl _
  | cons y ys ih =>
    unfold insort
    split
    · exact List.Perm.refl _
    · exact (List.Perm.cons y ih).trans (List.Perm.swap x y ys)

theorem sort_perm (l : List Nat) : (sort l).Perm l := by
  induction l with
  | nil => exact List.Perm.refl _
  | cons x xs ih => exact (insort_perm x _).trans (List.Perm.cons x ih)

theorem insort_sorted (x : Nat) {l : List Nat} (h : l.Pairwise (· ≤ ·)) : (insort x l).Pairwise (· ≤ ·) := by
  induction l with
  | nil => simp [insort]
  | cons y ys ih =>
    rw [List.pairwise_cons] at h
    unfold insort
    split
    · rename_i hxy
      rw [List.pairwise_cons]
      refine ⟨fun z hz => ?_, List.pairwise_cons.2 h⟩
      rcases List.mem_cons.1 hz with rfl | hz
      · exact hxy
      · exact le_trans hxy (h.1 z hz)
    · rename_i hxy
      rw [List.pairwise_cons]
      refine ⟨fun z hz => ?_, ih h.2⟩
      rcases List.mem_cons.1 ((insort_perm x ys).mem_iff.1 hz) with rfl | hz
      · omega
      · exact h.1 z hz

theorem sort_sorted (l : List Nat) : (sort l).Pairwise (· ≤ ·) := by
  induction l with
  | nil => simp [sort]
  | cons x xs ih => exact insort_sorted x ih

theorem sort_length (l : List Nat) : (sort l).length = l.length := (sort_perm l).length_eq

theorem sort_congr {l l' : List Nat} (h : l.Perm l') : sort l = sort l' :=
  List.Perm.eq_of_pairwise (le := (· ≤ ·)) (fun _ _ _ _ h1 h2 => Nat.le_antisymm h1 h2) (sort_sorted l) (sort_sorted l')
    ((sort_perm l).trans (h.trans (sort_perm l').symm))

/-! ## Layers -/

/-- The prices a layer holds; no entry and an empty entry alike. -/
def usr (l : Layer) (p : Pair) (k : Nat) : Users := (l.users p k).getD []

theorem put_perm {l : Users} {k v : Nat} (h : find l k = none) : (put natLt l k v).Perm ((k, v) :: l) := by
  induction l with
  | nil => exact List.Perm.refl _
  | cons q r ih =>
    obtain ⟨k', v'⟩ := q
    unfold find at h
    by_cases e : k = k'
    · rw [if_pos e] at h; cases h
    · rw [if_neg e] at h
      unfold put
      rw [if_neg e]
      split
      · exact List.Perm.refl _
      · exact (List.Perm.cons _ (ih h)).trans (List.Perm.swap _ _ _)

theorem find_none_iff {l : Users} {k : Nat} : find l k = none ↔ k ∉ l.map (·.1) := by
  induction l with
  | nil => simp
  | cons q r ih =>
    obtain ⟨k', v'⟩ := q
    unfold find
    by_cases e : k = k'
    · simp [e]
    · rw [if_neg e, ih]; simp [e]

theorem find_isSome_iff {l : Users} {k : Nat} : (find l k).isSome = true ↔ k ∈ l.map (·.1) := by
  have := find_none_iff (l := l) (k := k)
  cases h : find l k with
  | none => simpa using this.1 h
  | some v =>
    simp only [Option.isSome_some, true_iff]
    by_cases hm : k ∈ l.map (·.1)
    · exact hm
    · rw [this.2 hm] at h; cases h

theorem users_set (l : Layer) (p : Pair) (h : Nat) (u : Users) (q : Pair) (k : Nat) :
    (l.set p h u).users q k = if q = p ∧ k = h then some u else l.users q k := by
  unfold Layer.set
  by_cases e : q = p
  · subst e
    by_cases e' : k = h <;> simp [Layer.users, e']
  · simp [Layer.users, e]

theorem users_add (l : Layer) (p : Pair) (h r v : Nat) (q : Pair) (k : Nat) :
    (l.add p h r v).users q k = if q = p ∧ k = h then some (put natLt (usr l p h) r v) else l.users q k := users_set ..

theorem exist_iff (ls : List Layer) (p : Pair) (h r : Nat) :
    exist ls p h r = true ↔ ∃ l ∈ ls, r ∈ (usr l p h).map (·.1) := by
  induction ls with
  | nil => simp [exist]
  | cons l ls ih =>
    unfold exist
    cases e : l.users p h with
    | none => simp [ih, usr, e]
    | some u => simp only [Bool.or_eq_true, find_isSome_iff, ih]; simp [usr, e]

/-- The prices a transaction feeds for a pair. -/
def feedsOf (p : Pair) : Tx → List (Nat × Nat)
  | .feed r pts => (pts.filter (fun x => x.1 = p)).map (fun x => (r, x.2))
  | _ => []

/-- The prices a block feeds for a pair: who and what. -/
def fed (b : List Tx) (p : Pair) : List (Nat × Nat) := b.flatMap (feedsOf p)

/-- Nobody feeds a pair twice. -/
def Distinct (b : List Tx) : Prop := ∀ p, ((fed b p).map (·.1)).Nodup

theorem fed_cons (t : Tx) (b : List Tx) (p : Pair) : fed (t :: b) p = feedsOf p t ++ fed b p := rfl

theorem fed_append (a b : List Tx) (p : Pair) : fed (a ++ b) p = fed a p ++ fed b p := by simp [fed]

theorem feedsOf_cons (r : Nat) (q : Pair) (v : Nat) (pts : List (Pair × Nat)) (p : Pair) :
    feedsOf p (.feed r ((q, v) :: pts)) = (if p = q then [(r, v)] else []) ++ feedsOf p (.feed r pts) := by
  unfold feedsOf
  by_cases e : q = p
  · subst e; simp
  · have : ¬ p = q := fun h => e h.symm
    simp [e, this]

/-- `AddPrice` succeeds if and only if nobody is counted twice; it then adds exactly the points. -/
theorem addPrice_spec (rest : List Layer) (h r : Nat) (pts : List (Pair × Nat)) (top : Layer)
    (hrest : ∀ l ∈ rest, ∀ p, usr l p h = []) :
    (∀ p k, k ≠ h → (addPrice top rest h r pts).1.users p k = top.users p k) ∧
    ((∀ p, ((usr top p h).map (·.1)).Nodup) →
      ((addPrice top rest h r pts).2 = true ↔ ∀ p, ((usr top p h ++ feedsOf p (.feed r pts)).map (·.1)).Nodup)) ∧
    ((addPrice top rest h r pts).2 = true → ∀ p, (usr (addPrice top rest h r pts).1 p h).Perm (usr top p h ++ feedsOf p (.feed r pts)))
    := by
  induction pts generalizing top with
  | nil => exact ⟨fun _ _ _ => rfl, fun hn => by simp only [addPrice, true_iff]; intro p; simpa [feedsOf] using hn p,
      fun _ p => by simp [feedsOf, addPrice]⟩
  | cons x pts ih =>
    obtain ⟨q, v⟩ := x
    unfold addPrice
    have hex := exist_iff (top :: rest) q h r
    have hex' : exist (top :: rest) q h r = true ↔ r ∈ (usr top q h).map (·.1) := by
      rw [hex]
      constructor
      · rintro ⟨l, hl, hm⟩
        rcases List.mem_cons.1 hl with rfl | hl
        · exact hm
        · rw [hrest l hl] at hm; simp at hm
      · intro hm; exact ⟨top, by simp, hm⟩
    by_cases hx : exist (top :: rest) q h r = true
    · rw [if_pos hx]
      refine ⟨fun _ _ _ => rfl, fun hn => ⟨fun h => (by cases h), fun hd => ?_⟩, fun h => (by cases h)⟩
      have := hd q
      rw [feedsOf_cons, if_pos rfl, List.map_append, List.nodup_append'] at this
      exact absurd (by simp) (this.2.2 (hex'.1 hx))
    · rw [if_neg hx]
      have hnot : r ∉ (usr top q h).map (·.1) := fun hm => hx (hex'.2 hm)
      have hput := put_perm (v := v) (find_none_iff.2 hnot)
      have husr : ∀ p, (usr (top.add q h r v) p h).Perm (usr top p h ++ (if p = q then [(r, v)] else [])) := by
        intro p
        unfold usr
        rw [users_add]
        by_cases e : p = q
        · subst e
          simp only [and_self, if_true, Option.getD_some]
          exact hput.trans (List.perm_append_singleton (r, v) _).symm
        · simp [e]
      obtain ⟨i1, i2, i3⟩ := ih (top.add q h r v)
      have hstep : ∀ p, (usr (top.add q h r v) p h ++ feedsOf p (.feed r pts)).Perm
          (usr top p h ++ feedsOf p (.feed r ((q, v) :: pts))) := by
        intro p
        rw [feedsOf_cons, ← List.append_assoc]
        exact List.Perm.append_right _ (husr p)
      refine ⟨fun p k hk => ?_, fun hn => ?_, fun hs p => ?_⟩
      · rw [i1 p k hk, users_add, if_neg (fun h => hk h.2)]
      · rw [i2 (fun p => ?_)]
        · exact forall_congr' (fun p => ((hstep p).map _).nodup_iff)
        · rw [((husr p).map _).nodup_iff]
          by_cases e : p = q
          · subst e
            simp only [if_true]
            rw [(List.Perm.map _ (List.perm_append_singleton (r, v) (usr top p h))).nodup_iff]
            exact List.nodup_cons.2 ⟨hnot, hn p⟩
          · simpa [e] using hn p
      · exact (i3 hs p).trans (hstep p)

theorem fed_nodup_left {t : Tx} {b : List Tx} {acc : Pair → Users} (h : ∀ p, ((acc p ++ fed (t :: b) p).map (·.1)).Nodup) (p : Pair) :
    ((acc p ++ feedsOf p t).map (·.1)).Nodup := by
  have := h p
  rw [fed_cons, ← List.append_assoc, List.map_append] at this
  exact (List.nodup_append'.1 this).1

/-- `AddPriceByBlock` adds the leading feeds of the block. -/
theorem addFeeds_spec (rest : List Layer) (h : Nat) (b : List Tx) (top : Layer) (hrest : ∀ l ∈ rest, ∀ p, usr l p h = [])
    (hd : ∀ p, ((usr top p h ++ fed (b.takeWhile Tx.isFeed) p).map (·.1)).Nodup) :
    (∀ p k, k ≠ h → (addFeeds top rest h b).users p k = top.users p k) ∧
    (∀ p, (usr (addFeeds top rest h b) p h).Perm (usr top p h ++ fed (b.takeWhile Tx.isFeed) p)) := by
  induction b generalizing top with
  | nil => exact ⟨fun _ _ _ => rfl, fun p => by simp [fed, addFeeds]⟩
  | cons t b ih =>
    cases t with
    | feed r pts =>
      simp only [addFeeds, List.takeWhile, Tx.isFeed] at hd ⊢
      obtain ⟨a1, a2, a3⟩ := addPrice_spec rest h r pts top hrest
      have hn : ∀ p, ((usr top p h).map (·.1)).Nodup := fun p => by
        have := hd p; rw [List.map_append] at this; exact (List.nodup_append'.1 this).1
      have hs := (a2 hn).2 (fed_nodup_left hd)
      have hp : ∀ p, (usr (addPrice top rest h r pts).1 p h ++ fed (b.takeWhile Tx.isFeed) p).Perm
          (usr top p h ++ fed (.feed r pts :: b.takeWhile Tx.isFeed) p) := by
        intro p
        rw [fed_cons, ← List.append_assoc]
        exact List.Perm.append_right _ (a3 hs p)
      obtain ⟨i1, i2⟩ := ih (addPrice top rest h r pts).1 (fun p => by rw [((hp p).map _).nodup_iff]; exact hd p)
      exact ⟨fun p k hk => (i1 p k hk).trans (a1 p k hk), fun p => (i2 p).trans (hp p)⟩
    | median c => exact ⟨fun _ _ _ => rfl, fun p => by simp [fed, addFeeds, Tx.isFeed]⟩
    | other => exact ⟨fun _ _ _ => rfl, fun p => by simp [fed, addFeeds, Tx.isFeed]⟩

/-- Feeds come first. -/
def Ordered (b : List Tx) : Prop := ∀ t ∈ b.dropWhile Tx.isFeed, t.isFeed = false

instance (b : List Tx) : Decidable (Ordered b) := by unfold Ordered; infer_instance

theorem fed_of_no_feed {b : List Tx} (h : ∀ t ∈ b, t.isFeed = false) (p : Pair) : fed b p = [] := by
  unfold fed
  rw [List.flatMap_eq_nil_iff]
  intro t ht
  have := h t ht
  cases t with
  | feed r pts => cases this
  | median c => rfl
  | other => rfl

theorem fed_lead {b : List Tx} (h : Ordered b) (p : Pair) : fed (b.takeWhile Tx.isFeed) p = fed b p := by
  conv_rhs => rw [← List.takeWhile_append_dropWhile (p := Tx.isFeed) (l := b)]
  rw [fed_append, fed_of_no_feed h, List.append_nil]

theorem not_leadPairs {b : List Tx} {p : Pair} (h : p ∉ leadPairs b) : fed (b.takeWhile Tx.isFeed) p = [] := by
  induction b with
  | nil => rfl
  | cons t b ih =>
    cases t with
    | feed r pts =>
      simp only [leadPairs, List.mem_append, not_or] at h
      simp only [List.takeWhile, Tx.isFeed]
      rw [fed_cons, ih h.2, List.append_nil]
      simp only [feedsOf, List.map_eq_nil_iff, List.filter_eq_nil_iff, decide_eq_true_eq]
      intro x hx e
      exact h.1 (List.mem_map.2 ⟨x, hx, e⟩)
    | median c => simp [List.takeWhile, Tx.isFeed, fed]
    | other => simp [List.takeWhile, Tx.isFeed, fed]

theorem users_delete (top : Layer) (h : Nat) (b : Block) (p : Pair) (k : Nat) (hk : k ≠ h) :
    (deleteBlock top h b).users p k = top.users p k := by
  unfold deleteBlock Layer.users
  by_cases e : p ∈ leadPairs b ∨ (top p).isSome = true
  · simp only [if_pos e, if_neg hk, Layer.users]
  · simp only [if_neg e]
    cases ht : top p with
    | none => rfl
    | some f => exact absurd (Or.inr (by simp [ht])) e

/-- At the height deleted: an empty entry or none, and none only if the pair is neither found in the block nor in the layer. -/
theorem users_delete_same (top : Layer) (h : Nat) (b : Block) (p : Pair) :
    (deleteBlock top h b).users p h = some [] ∨
      ((deleteBlock top h b).users p h = none ∧ p ∉ leadPairs b ∧ top.users p h = none) := by
  unfold deleteBlock Layer.users
  by_cases e : p ∈ leadPairs b ∨ (top p).isSome = true
  · left; simp only [if_pos e, if_true]
  · right
    simp only [if_neg e]
    refine ⟨trivial, fun hm => e (Or.inl hm), ?_⟩
    cases ht : top p with
    | none => rfl
    | some f => exact absurd (Or.inr (by simp [ht])) e

theorem emplaceAll_perm (u base : Users) (h : ((base ++ u).map (·.1)).Nodup) : (emplaceAll base u).Perm (base ++ u) := by
  induction u generalizing base with
  | nil => simp [emplaceAll]
  | cons x u ih =>
    obtain ⟨r, v⟩ := x
    have hnot : r ∉ base.map (·.1) := by
      rw [List.map_append, List.nodup_append'] at h
      intro hm
      exact h.2.2 hm (by simp)
    unfold emplaceAll
    have hf := find_none_iff.2 hnot
    rw [hf, Option.isSome_none, if_neg (by simp)]
    have hp : (put natLt base r v ++ u).Perm (base ++ (r, v) :: u) := by
      refine (List.Perm.append_right u (put_perm hf)).trans ?_
      exact List.perm_middle.symm
    exact (ih _ (by rw [(hp.map _).nodup_iff]; exact h)).trans hp

theorem users_batchWrite (base child : Layer) (p : Pair) (k : Nat) : (batchWrite base child).users p k =
    match child.users p k with
    | none => base.users p k
    | some [] => none
    | some u => some (emplaceAll (usr base p k) u) := by
  unfold batchWrite Layer.users usr Layer.users
  dsimp only
  cases hc : child p with
  | none => simp only
  | some f =>
    dsimp only
    cases f k with
    | none => rfl
    | some u => cases u <;> rfl

theorem usr_flush_none {base child : Layer} {p : Pair} {k : Nat} (h : child.users p k = none) :
    usr (batchWrite base child) p k = usr base p k := by
  unfold usr; rw [users_batchWrite, h]

theorem usr_flush_some {base child : Layer} {p : Pair} {k : Nat} (hb : usr base p k = []) (hn : ((usr child p k).map (·.1)).Nodup) :
    (usr (batchWrite base child) p k).Perm (usr child p k) := by
  unfold usr at hn ⊢
  rw [users_batchWrite]
  cases h : child.users p k with
  | none => dsimp only; unfold usr at hb; rw [hb]; exact List.Perm.refl _
  | some u =>
    cases u with
    | nil => exact List.Perm.refl _
    | cons x u =>
      dsimp only
      rw [hb]
      rw [h] at hn
      exact emplaceAll_perm _ _ hn

/-! ## Reading through two layers -/

theorem userPrices_two (cw base : Layer) (p : Pair) (k : Nat) : userPrices [cw, base] p k =
    match cw.users p k with
    | some [] => none
    | some u => some u
    | none => match base.users p k with
      | some [] => none
      | o => o := by
  have hc : ∀ o : Option Users, o = none ∨ o = some [] ∨ ∃ x u, o = some (x :: u) := by
    intro o
    cases o with
    | none => exact Or.inl rfl
    | some u => cases u with
      | nil => exact Or.inr (Or.inl rfl)
      | cons x u => exact Or.inr (Or.inr ⟨x, u, rfl⟩)
  unfold userPrices scan scan scan
  rcases hc (cw.users p k) with h1 | h1 | ⟨x, u, h1⟩ <;> rcases hc (base.users p k) with h2 | h2 | ⟨y, v, h2⟩ <;>
    simp [h1, h2]

theorem userPrices_list (cw base : Layer) (p : Pair) (k : Nat) : (userPrices [cw, base] p k).getD [] =
    if (cw.users p k).isSome then usr cw p k else usr base p k := by
  rw [userPrices_two]
  unfold usr
  cases h1 : cw.users p k with
  | none => cases h2 : base.users p k with
    | none => rfl
    | some u => cases u <;> rfl
  | some u => cases u <;> rfl

theorem userPrices_isSome (cw base : Layer) (p : Pair) (k : Nat) :
    (userPrices [cw, base] p k).isSome = decide ((userPrices [cw, base] p k).getD [] ≠ []) := by
  rw [userPrices_two]
  cases h1 : cw.users p k with
  | none => cases h2 : base.users p k with
    | none => rfl
    | some u => cases u <;> simp
  | some u => cases u <;> simp

end Verif.Price
