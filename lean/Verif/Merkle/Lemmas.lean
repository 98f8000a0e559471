import Verif.Merkle.Model
import Mathlib.Data.List.Range
import Mathlib.Data.List.Nodup

/-! Helper facts about Merkle trees: the level-wise view. -/
namespace Verif.Merkle

variable {α : Type}

/-- The next level of a Merkle tree: neighbours are hashed together, a left over element with itself. -/
def up (h : α → α → α) : List α → List α
  | [] => []
  | [x] => [h x x]
  | x :: y :: l => h x y :: up h l

/-- `d` levels up. -/
def upN (h : α → α → α) : Nat → List α → List α
  | 0, l => l
  | d + 1, l => up h (upN h d l)

/-- Levels up until at most one element is left. -/
def reduce (h : α → α → α) : Nat → List α → List α
  | 0, l => l
  | f + 1, l => if l.length > 1 then reduce h f (up h l) else l

theorem up_length (h : α → α → α) : ∀ l : List α, (up h l).length = (l.length + 1) / 2
  | [] => by simp [up]
  | [x] => by simp [up]
  | x :: y :: l => by
    have := up_length h l
    simp only [up, List.length_cons]
    omega

theorem up_get (h : α → α → α) : ∀ (l : List α) (k : Nat), (up h l)[k]? =
    match l[2 * k]? with
    | none => none
    | some a => if 2 * k + 1 < l.length then (l[2 * k + 1]?).map (h a) else some (h a a)
  | [], k => by simp [up]
  | [x], k => by
    cases k with
    | zero => simp [up]
    | succ k =>
      have : 2 * (k + 1) = 2 * k + 1 + 1 := by omega
      simp [up, this]
  | x :: y :: l, k => by
    cases k with
    | zero => simp [up]
    | succ k =>
      have := up_get h l k
      have e1 : 2 * (k + 1) = 2 * k + 1 + 1 := by omega
      simp only [up, List.getElem?_cons_succ, e1, List.length_cons, this, Nat.add_lt_add_iff_right]

theorem up_get_min (h : α → α → α) {l : List α} {k : Nat} (hk : 2 * k < l.length) :
    ∃ a b, l[2 * k]? = some a ∧ l[min (2 * k + 1) (l.length - 1)]? = some b ∧ (up h l)[k]? = some (h a b) := by
  have h1 := up_get h l k
  rw [List.getElem?_eq_getElem hk] at h1
  by_cases h2 : 2 * k + 1 < l.length
  · refine ⟨l[2 * k], l[2 * k + 1], List.getElem?_eq_getElem hk, ?_, ?_⟩
    · rw [Nat.min_eq_left (by omega), List.getElem?_eq_getElem h2]
    · rw [h1]; simp [h2]
  · refine ⟨l[2 * k], l[2 * k], List.getElem?_eq_getElem hk, ?_, ?_⟩
    · have : min (2 * k + 1) (l.length - 1) = 2 * k := by omega
      rw [this, List.getElem?_eq_getElem hk]
    · rw [h1]; simp [h2]

theorem upN_up (h : α → α → α) (d : Nat) (l : List α) : upN h d (up h l) = upN h (d + 1) l := by
  induction d with
  | zero => rfl
  | succ d ih => simp only [upN] at ih ⊢; rw [ih]

/-! ### The flat array -/

/-- All levels one after the other. -/
def flat (h : α → α → α) : Nat → List α → List α
  | 0, l => l
  | f + 1, l => if l.length > 1 then l ++ flat h f (up h l) else l

theorem pushLevel_spec (h : α → α → α) {pre l : List α} {fuel k : Nat} (hf : l.length ≤ 2 * (k + fuel)) (hk : 2 * k ≤ l.length + 1) :
    pushLevel h pre.length l.length fuel (2 * k) (pre ++ l ++ (up h l).take k) = some (pre ++ l ++ up h l) := by
  induction fuel generalizing k with
  | zero =>
    simp only [pushLevel]
    rw [List.take_of_length_le]
    rw [up_length]; omega
  | succ fuel ih =>
    simp only [pushLevel]
    split
    · rename_i hlt
      obtain ⟨a, b, ha, hb, hab⟩ := up_get_min h hlt
      have e1 : (pre ++ l ++ (up h l).take k)[pre.length + 2 * k]? = some a := by
        rw [List.append_assoc, List.getElem?_append_right (by omega), Nat.add_sub_cancel_left,
          List.getElem?_append_left hlt, ha]
      have e2 : (pre ++ l ++ (up h l).take k)[pre.length + min (2 * k + 1) (l.length - 1)]? = some b := by
        rw [List.append_assoc, List.getElem?_append_right (by omega), Nat.add_sub_cancel_left,
          List.getElem?_append_left (by omega), hb]
      rw [e1, e2]
      simp only
      have e3 : pre ++ l ++ (up h l).take k ++ [h a b] = pre ++ l ++ (up h l).take (k + 1) := by
        rw [List.append_assoc, List.take_add_one, hab]
        simp
      rw [e3]
      have := ih (k := k + 1) (by omega) (by omega)
      rw [← this]
      congr 1
    · rename_i hge
      rw [List.take_of_length_le]
      rw [up_length]; omega

theorem levels_spec (h : α → α → α) (fuel : Nat) (pre l : List α) :
    levels h fuel pre.length l.length (pre ++ l) = some (pre ++ flat h fuel l) := by
  induction fuel generalizing pre l with
  | zero => rfl
  | succ fuel ih =>
    simp only [levels, flat]
    split
    · have hp := pushLevel_spec h (pre := pre) (l := l) (fuel := l.length) (k := 0) (by omega) (by omega)
      simp only [Nat.mul_zero, List.take_zero, List.append_nil] at hp
      rw [hp]
      simp only
      have := ih (pre ++ l) (up h l)
      rw [List.length_append, up_length] at this
      rw [this, List.append_assoc]
    · rfl

theorem buildTree_eq (h : α → α → α) (l : List α) : buildTree h l = some (flat h l.length l) := by
  have := levels_spec h l.length [] l
  simpa [buildTree] using this

theorem reduce_length (h : α → α → α) {f : Nat} {l : List α} (hf : l.length ≤ f + 1) (hne : l ≠ []) : (reduce h f l).length = 1 := by
  induction f generalizing l with
  | zero => simp only [reduce]; have := List.length_pos_iff.2 hne; omega
  | succ f ih =>
    simp only [reduce]
    split
    · apply ih
      · rw [up_length]; omega
      · intro hc
        have := up_length h l
        rw [hc] at this
        simp at this
        omega
    · have := List.length_pos_iff.2 hne; omega

theorem flat_last (h : α → α → α) {f : Nat} {l : List α} (hf : l.length ≤ f + 1) (hne : l ≠ []) :
    (flat h f l).getLast? = (reduce h f l).head? := by
  induction f generalizing l with
  | zero =>
    simp only [flat, reduce]
    match l, hne, hf with
    | [x], _, _ => rfl
    | _ :: _ :: _, _, hf => simp at hf
  | succ f ih =>
    simp only [flat, reduce]
    split
    · have hup : up h l ≠ [] := by
        intro hc
        have := up_length h l
        rw [hc] at this
        simp at this
        omega
      have hlen := up_length h l
      have := ih (l := up h l) (by omega) hup
      rw [List.getLast?_append, this]
      have h1 := reduce_length h (f := f) (l := up h l) (by omega) hup
      match hr : reduce h f (up h l), h1 with
      | [r], _ => simp
    · rename_i hle
      match l, hne, hle with
      | [x], _, _ => rfl
      | _ :: _ :: _, _, hle => simp at hle

/-- The root computed by the code is the one element left after reducing level by level. -/
theorem merkleRoot_eq (h : α → α → α) (zero : α) {l : List α} (hne : l ≠ []) :
    ∃ r, merkleRoot h zero l = some r ∧ reduce h l.length l = [r] := by
  have h1 := reduce_length h (f := l.length) (l := l) (by omega) hne
  have h2 := flat_last h (f := l.length) (l := l) (by omega) hne
  match hr : reduce h l.length l, h1 with
  | [r], _ =>
    refine ⟨r, ?_, rfl⟩
    unfold merkleRoot
    rw [buildTree_eq]
    simp only
    rw [h2, hr]
    rfl

/-! ### Width and depth -/

theorem width_succ (n d : Nat) : width n (d + 1) = (width n d + 1) / 2 := by
  unfold width
  have hp : 0 < 2 ^ d := Nat.pow_pos (by omega)
  have e : 2 ^ (d + 1) = 2 ^ d * 2 := by rw [Nat.pow_succ]
  rw [e, ← Nat.div_div_eq_div_mul]
  congr 1
  have : n + 2 ^ d * 2 - 1 = n + 2 ^ d - 1 + 2 ^ d := by omega
  rw [this, Nat.add_div_right _ hp]

theorem upN_length (h : α → α → α) (d : Nat) (l : List α) : (upN h d l).length = width l.length d := by
  induction d with
  | zero => simp [upN, width]
  | succ d ih => rw [upN, up_length, ih, width_succ]

theorem reduce_upN (h : α → α → α) (l : List α) (f k : Nat) :
    reduce h f (upN h k l) = upN h (treeHeight l.length f k) l := by
  induction f generalizing k with
  | zero => rfl
  | succ f ih =>
    simp only [reduce, treeHeight, upN_length]
    split
    · exact ih (k + 1)
    · rfl

theorem calcHash_eq (h : α → α → α) (l : List α) (d pos : Nat) : calcHash h l d pos = (upN h d l)[pos]? := by
  induction d generalizing pos with
  | zero => rfl
  | succ d ih =>
    simp only [calcHash, upN]
    rw [up_get, ih, Nat.mul_comm pos 2, upN_length]
    cases hx : (upN h d l)[2 * pos]? with
    | none => rfl
    | some a =>
      simp only
      split
      · rw [ih]
        cases (upN h d l)[2 * pos + 1]? <;> rfl
      · rfl

end Verif.Merkle
