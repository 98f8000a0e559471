import Verif.Merkle.Lemmas

/-!
# Merkle root (C48) and branches (C49)

The hash of two hashes is an arbitrary injective function; "no transaction id is the hash of two hashes" is the separation of
leaves and inner nodes, needed only where trees of different size are compared.
-/
namespace Verif.Merkle

variable {α : Type}

def Inj2 (h : α → α → α) : Prop := ∀ a b c d, h a b = h c d → a = c ∧ b = d

/-- No id of the list is the hash of two hashes. -/
def Leaves (h : α → α → α) (l : List α) : Prop := ∀ x ∈ l, ∀ a b, x ≠ h a b

/-! ## C48 -/

theorem up_inj {h : α → α → α} (hi : Inj2 h) : ∀ {A B : List α}, A.length = B.length → up h A = up h B → A = B
  | [], [], _, _ => rfl
  | [x], [y], _, he => by
    simp only [up, List.cons.injEq, and_true] at he
    rw [(hi _ _ _ _ he).1]
  | x :: y :: A, x' :: y' :: B, hl, he => by
    simp only [up, List.cons.injEq] at he
    obtain ⟨h1, h2⟩ := hi _ _ _ _ he.1
    have := up_inj hi (by simpa using hl) he.2
    rw [h1, h2, this]
  | [], _ :: _, hl, _ => by simp at hl
  | _ :: _, [], hl, _ => by simp at hl
  | [_], _ :: _ :: _, hl, _ => by simp at hl
  | _ :: _ :: _, [_], hl, _ => by simp at hl

theorem reduce_inj {h : α → α → α} (hi : Inj2 h) {f : Nat} {A B : List α} (hl : A.length = B.length)
    (he : reduce h f A = reduce h f B) : A = B := by
  induction f generalizing A B with
  | zero => exact he
  | succ f ih =>
    simp only [reduce, ← hl] at he
    split at he
    · exact up_inj hi hl (ih (by rw [up_length, up_length, hl]) he)
    · exact he

/-- Equal root and equal number of transactions: the same transactions in the same order. -/
theorem root_commits_same_size {h : α → α → α} (hi : Inj2 h) (zero : α) {A B : List α} (hl : A.length = B.length)
    (hr : merkleRoot h zero A = merkleRoot h zero B) : A = B := by
  by_cases hA : A = []
  · subst hA; exact (List.length_eq_zero_iff.1 hl.symm).symm
  · have hB : B ≠ [] := by intro hc; subst hc; exact hA (List.length_eq_zero_iff.1 hl)
    obtain ⟨r, e1, e2⟩ := merkleRoot_eq h zero hA
    obtain ⟨r', e3, e4⟩ := merkleRoot_eq h zero hB
    rw [e1, e3] at hr
    simp only [Option.some.injEq] at hr
    subst hr
    rw [← hl] at e4
    exact reduce_inj hi hl (e2.trans e4.symm)

/-- Equal next levels: the lists are equal, or one repeats its last element. -/
theorem up_eq_cases {h : α → α → α} (hi : Inj2 h) : ∀ {A B : List α}, up h A = up h B → A = B ∨ ¬ A.Nodup ∨ ¬ B.Nodup
  | [], [], _ => .inl rfl
  | [x], [y], he => by
    simp only [up, List.cons.injEq, and_true] at he
    left; rw [(hi _ _ _ _ he).1]
  | x :: y :: A, x' :: y' :: B, he => by
    simp only [up, List.cons.injEq] at he
    obtain ⟨h1, h2⟩ := hi _ _ _ _ he.1
    rcases up_eq_cases hi he.2 with h3 | h3 | h3
    · left; rw [h1, h2, h3]
    · right; left; intro hc; simp only [List.nodup_cons] at hc; exact h3 hc.2.2
    · right; right; intro hc; simp only [List.nodup_cons] at hc; exact h3 hc.2.2
  | [], [_], he => by simp [up] at he
  | [], _ :: _ :: _, he => by simp [up] at he
  | [_], [], he => by simp [up] at he
  | _ :: _ :: _, [], he => by simp [up] at he
  | [x], y :: y' :: B, he => by
    simp only [up, List.cons.injEq] at he
    obtain ⟨h1, h2⟩ := hi _ _ _ _ he.1
    right; right
    rw [← h1, ← h2]; simp
  | x :: x' :: A, [y], he => by
    simp only [up, List.cons.injEq] at he
    obtain ⟨h1, h2⟩ := hi _ _ _ _ he.1
    right; left
    rw [h1, h2]; simp

theorem mem_up {h : α → α → α} {x : α} : ∀ {l : List α}, x ∈ up h l → ∃ a ∈ l, ∃ b ∈ l, x = h a b
  | [], hx => by simp [up] at hx
  | [y], hx => by simp only [up, List.mem_singleton] at hx; exact ⟨y, by simp, y, by simp, hx⟩
  | y :: z :: l, hx => by
    simp only [up, List.mem_cons] at hx
    rcases hx with rfl | hx
    · exact ⟨y, by simp, z, by simp, rfl⟩
    · obtain ⟨a, ha, b, hb, e⟩ := mem_up hx
      exact ⟨a, by simp [ha], b, by simp [hb], e⟩

/-- A repetition in a level comes from a repetition in the level below. -/
theorem up_nodup {h : α → α → α} (hi : Inj2 h) : ∀ {l : List α}, l.Nodup → (up h l).Nodup
  | [], _ => by simp [up]
  | [x], _ => by simp [up]
  | x :: y :: l, hn => by
    simp only [up, List.nodup_cons] at hn ⊢
    refine ⟨?_, up_nodup hi hn.2.2⟩
    intro hc
    obtain ⟨a, ha, b, _, e⟩ := mem_up hc
    rw [(hi _ _ _ _ e).1] at hn
    exact hn.1 (by simp [ha])

theorem upN_nodup {h : α → α → α} (hi : Inj2 h) {l : List α} (hn : l.Nodup) (d : Nat) : (upN h d l).Nodup := by
  induction d with
  | zero => exact hn
  | succ d ih => exact up_nodup hi ih

/-- Levels at different distance from the leaves have nothing in common. -/
theorem levels_disjoint {h : α → α → α} (hi : Inj2 h) {A B : List α} (hA : Leaves h A) {d d' : Nat} (hlt : d < d') {x : α}
    (h1 : x ∈ upN h d A) (h2 : x ∈ upN h d' B) : False := by
  induction d generalizing d' x with
  | zero =>
    obtain ⟨e, rfl⟩ : ∃ e, d' = e + 1 := ⟨d' - 1, by omega⟩
    obtain ⟨a, -, b, -, he⟩ := mem_up (h := h) h2
    exact hA x h1 a b he
  | succ d ih =>
    obtain ⟨e, rfl⟩ : ∃ e, d' = e + 1 := ⟨d' - 1, by omega⟩
    obtain ⟨a, ha, b, -, e1⟩ := mem_up (h := h) h1
    obtain ⟨a', ha', b', -, e2⟩ := mem_up (h := h) h2
    rw [e1] at e2
    obtain ⟨rfl, -⟩ := hi _ _ _ _ e2
    exact ih (by omega) ha ha'

theorem upN_eq_nodup {h : α → α → α} (hi : Inj2 h) {A B : List α} (hA : A.Nodup) (hB : B.Nodup) {d : Nat}
    (he : upN h d A = upN h d B) : A = B := by
  induction d with
  | zero => exact he
  | succ d ih =>
    rcases up_eq_cases hi he with h1 | h1 | h1
    · exact ih h1
    · exact absurd (upN_nodup hi hA d) h1
    · exact absurd (upN_nodup hi hB d) h1

/-- Two lists without repetitions and with the same root are equal, whatever their sizes. -/
theorem root_commits_any_size {h : α → α → α} (hi : Inj2 h) (zero : α) {A B : List α} (hA : A ≠ []) (hB : B ≠ [])
    (lA : Leaves h A) (lB : Leaves h B) (nA : A.Nodup) (nB : B.Nodup)
    (hr : merkleRoot h zero A = merkleRoot h zero B) : A = B := by
  obtain ⟨r, e1, e2⟩ := merkleRoot_eq h zero hA
  obtain ⟨r', e3, e4⟩ := merkleRoot_eq h zero hB
  rw [e1, e3] at hr
  simp only [Option.some.injEq] at hr
  subst hr
  have r1 := reduce_upN h A A.length 0
  have r2 := reduce_upN h B B.length 0
  simp only [upN] at r1 r2
  rw [e2] at r1
  rw [e4] at r2
  have m1 : r ∈ upN h (treeHeight A.length A.length 0) A := by rw [← r1]; simp
  have m2 : r ∈ upN h (treeHeight B.length B.length 0) B := by rw [← r2]; simp
  rcases Nat.lt_trichotomy (treeHeight A.length A.length 0) (treeHeight B.length B.length 0) with hlt | heq | hlt
  · exact (levels_disjoint hi lA hlt m1 m2).elim
  · rw [← heq] at r2
    exact upN_eq_nodup hi nA nB (r1.symm.trans r2)
  · exact (levels_disjoint hi lB hlt m2 m1).elim

/-- The claim in the words of the property: different counts with equal roots mean a repeated transaction. -/
theorem different_count_means_duplicate {h : α → α → α} (hi : Inj2 h) (zero : α) {A B : List α} (hA : A ≠ []) (hB : B ≠ [])
    (lA : Leaves h A) (lB : Leaves h B) (hl : A.length ≠ B.length) (hr : merkleRoot h zero A = merkleRoot h zero B) :
    ¬ A.Nodup ∨ ¬ B.Nodup := by
  by_contra hc
  simp only [not_or, not_not] at hc
  exact hl (by rw [root_commits_any_size hi zero hA hB lA lB hc.1 hc.2 hr])

/-- Trees as hashes: an injective hash whose values are never leaves. -/
inductive Tree | leaf (n : Nat) | node (a b : Tree)
  deriving DecidableEq

def exLeaves (n : Nat) : List Tree := (List.range n).map .leaf

theorem tree_inj : Inj2 Tree.node := by intro a b c d h; simpa using h

/-- The duplicate check matters: with a repetition two different lists share a root. -/
theorem duplicate_gives_same_root : merkleRoot Tree.node (.leaf 0) [.leaf 1, .leaf 2, .leaf 3] =
    merkleRoot Tree.node (.leaf 0) [.leaf 1, .leaf 2, .leaf 3, .leaf 3] := by decide

example : Inj2 Tree.node ∧ Leaves Tree.node (exLeaves 5) ∧ (exLeaves 5).Nodup ∧ exLeaves 5 ≠ [] := by
  refine ⟨tree_inj, ?_, by decide, by decide⟩
  intro x hx a b
  simp only [exLeaves, List.mem_map] at hx
  obtain ⟨n, -, rfl⟩ := hx
  simp

/-! ## C49 -/

theorem branch_spec {h : α → α → α} {f : Nat} {pre l : List α} (hf : l.length ≤ f + 1) {index : Nat} (hidx : index < l.length) :
    ∃ br x r, branchLoop (pre ++ flat h f l) f pre.length l.length index = some br ∧ l[index]? = some x ∧
      reduce h f l = [r] ∧ checkBranch h x br index = r := by
  induction f generalizing pre l index with
  | zero =>
    match l, hf, hidx with
    | [x], _, hidx =>
      refine ⟨[], x, x, rfl, ?_, rfl, rfl⟩
      simp only [List.length_singleton, Nat.lt_one_iff] at hidx
      rw [hidx]; rfl
    | _ :: _ :: _, hf, _ => simp at hf
  | succ f ih =>
    by_cases hn : l.length > 1
    · have hul := up_length h l
      have hk : index / 2 < (up h l).length := by omega
      obtain ⟨br, x, r, i1, i2, i3, i4⟩ := ih (pre := pre ++ l) (l := up h l) (by omega) hk
      obtain ⟨a, b, ha, hb, hab⟩ := up_get_min h (l := l) (k := index / 2) (by omega)
      rw [i2] at hab
      simp only [Option.some.injEq] at hab
      have hflat : flat h (f + 1) l = l ++ flat h f (up h l) := by simp only [flat]; rw [if_pos hn]
      have hred : reduce h (f + 1) l = reduce h f (up h l) := by simp only [reduce]; rw [if_pos hn]
      have hget : ∀ i, i < l.length → (pre ++ flat h (f + 1) l)[pre.length + i]? = l[i]? := by
        intro i hi
        rw [List.getElem?_append_right (by omega), Nat.add_sub_cancel_left, hflat, List.getElem?_append_left hi]
      have hrec : branchLoop (pre ++ flat h (f + 1) l) f (pre.length + l.length) ((l.length + 1) / 2) (index / 2) = some br := by
        rw [hflat, ← List.append_assoc, ← hul, ← List.length_append]
        exact i1
      by_cases he : index % 2 = 0
      · have hi2 : 2 * (index / 2) = index := by omega
        rw [hi2] at ha hb
        have hmin : min (xor1 index) (l.length - 1) = min (index + 1) (l.length - 1) := by simp [xor1, he]
        refine ⟨b :: br, a, r, ?_, ha, by rw [hred, i3], ?_⟩
        · simp only [branchLoop, hn, if_true]
          rw [hmin, hget _ (by omega), hb, hrec]
        · simp only [checkBranch]
          rw [if_neg (by omega), ← hab]
          exact i4
      · have hi2 : 2 * (index / 2) + 1 = index := by omega
        have hmin : min (xor1 index) (l.length - 1) = 2 * (index / 2) := by
          simp only [xor1, he, if_false]; omega
        have hmin2 : min (2 * (index / 2) + 1) (l.length - 1) = index := by omega
        rw [hmin2] at hb
        refine ⟨a :: br, b, r, ?_, hb, by rw [hred, i3], ?_⟩
        · simp only [branchLoop, hn, if_true]
          rw [hmin, hget _ (by omega), ha, hrec]
        · simp only [checkBranch]
          rw [if_pos (by omega), ← hab]
          exact i4
    · match l, hn, hidx with
      | [x], _, hidx =>
        refine ⟨[], x, x, ?_, ?_, ?_, rfl⟩
        · simp [branchLoop]
        · simp only [List.length_singleton, Nat.lt_one_iff] at hidx
          rw [hidx]; rfl
        · simp [reduce]
      | _ :: _ :: _, hn, _ => simp at hn

/-- The branch of every transaction verifies against the root. -/
theorem branch_verifies (h : α → α → α) (zero : α) {txids : List α} {index : Nat} (hidx : index < txids.length) :
    ∃ br x, getBranch h txids index = some br ∧ txids[index]? = some x ∧
      merkleRoot h zero txids = some (checkBranch h x br index) := by
  obtain ⟨br, x, r, h1, h2, h3, h4⟩ := branch_spec (h := h) (f := txids.length) (pre := []) (l := txids) (by omega) hidx
  have hne : txids ≠ [] := by intro hc; subst hc; simp at hidx
  obtain ⟨r', e1, e2⟩ := merkleRoot_eq h zero hne
  rw [h3] at e2
  simp only [List.cons.injEq, and_true] at e2
  subst e2
  refine ⟨br, x, ?_, h2, by rw [e1, h4]⟩
  unfold getBranch
  rw [buildTree_eq]
  simpa using h1

/-- With the same branch and index nothing but one value verifies. -/
theorem branch_leaf_unique {h : α → α → α} (hi : Inj2 h) {x y : α} {br : List α} {index : Nat}
    (he : checkBranch h x br index = checkBranch h y br index) : x = y := by
  induction br generalizing x y index with
  | nil => exact he
  | cons o br ih =>
    simp only [checkBranch] at he
    have := ih he
    split at this
    · exact (hi _ _ _ _ this).2
    · exact (hi _ _ _ _ this).1

/-- Together: exactly the transaction at the index verifies with its branch. -/
theorem branch_verifies_only {h : α → α → α} (hi : Inj2 h) (zero : α) {txids : List α} {index : Nat} (hidx : index < txids.length)
    {br : List α} (hb : getBranch h txids index = some br) (y : α) :
    merkleRoot h zero txids = some (checkBranch h y br index) ↔ txids[index]? = some y := by
  obtain ⟨br', x, h1, h2, h3⟩ := branch_verifies h zero hidx
  rw [hb] at h1
  simp only [Option.some.injEq] at h1
  subst h1
  rw [h3, h2]
  simp only [Option.some.injEq]
  exact ⟨fun e => branch_leaf_unique hi e, fun e => by rw [e]⟩

example : getBranch Tree.node (exLeaves 5) 4 =
    some [.leaf 4, .node (.leaf 4) (.leaf 4), .node (.node (.leaf 0) (.leaf 1)) (.node (.leaf 2) (.leaf 3))] := by decide

end Verif.Merkle
