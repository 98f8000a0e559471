import Verif.Arith.Model
import Mathlib.Tactic.Ring
import Mathlib.Tactic.Linarith

/-!
# The words and their value
-/
namespace Verif.Arith

/-- The value of the words. -/
def val : List Nat → Nat
  | [] => 0
  | x :: a => x + W * val a

/-- Words of 32 bits. -/
def Ok (a : List Nat) : Prop := ∀ x ∈ a, x < W

theorem Ok.head {x : Nat} {a : List Nat} (h : Ok (x :: a)) : x < W := h x List.mem_cons_self
theorem Ok.tail {x : Nat} {a : List Nat} (h : Ok (x :: a)) : Ok a := fun y hy => h y (List.mem_cons_of_mem _ hy)
theorem Ok.cons {x : Nat} {a : List Nat} (h : x < W) (ha : Ok a) : Ok (x :: a) := by
  intro y hy
  rcases List.mem_cons.1 hy with hy | hy
  · rw [hy]; exact h
  · exact ha y hy
theorem ok_nil : Ok [] := by intro y hy; cases hy

theorem Wpos : 0 < W := by decide

theorem W64 : (2 : Nat) ^ 64 = W * W := by decide

theorem val_lt : ∀ {a : List Nat}, Ok a → val a < W ^ a.length
  | [], _ => Nat.lt_of_lt_of_le Nat.zero_lt_one (Nat.le_refl _)
  | x :: a, h => by
    rw [val, List.length_cons, Nat.pow_succ]
    have h1 := val_lt h.tail
    have h2 := h.head
    have h3 : W * val a + W ≤ W * W ^ a.length := by
      rw [← Nat.mul_succ]; exact Nat.mul_le_mul_left _ h1
    rw [Nat.mul_comm (W ^ _)]
    omega

/-- A word and what is carried. -/
theorem carry (n z m : Nat) : (n + W * z) % (W * m) = n % W + W * ((n / W + z) % m) := by
  rw [Nat.mod_mul, Nat.add_mul_mod_self_left, Nat.add_mul_div_left _ _ Wpos]

theorem addLoop_ok : ∀ {a b : List Nat} {c : Nat}, a.length = b.length → Ok a → Ok b → c < W →
    Ok (addLoop c a b) ∧ (addLoop c a b).length = a.length ∧ val (addLoop c a b) = (c + val a + val b) % W ^ a.length
  | [], [], c, _, _, _, _ => ⟨ok_nil, rfl, by rw [List.length_nil, Nat.pow_zero, Nat.mod_one]; rfl⟩
  | [], _ :: _, _, h, _, _, _ => by cases h
  | _ :: _, [], _, h, _, _, _ => by cases h
  | x :: a, y :: b, c, h, ha, hb, hc => by
    have hx := ha.head
    have hy := hb.head
    have hn : (c + x + y) % 2 ^ 64 = c + x + y := Nat.mod_eq_of_lt (by unfold W at *; omega)
    obtain ⟨i1, i2, i3⟩ := addLoop_ok (a := a) (b := b) (c := (c + x + y) / W) (by simpa using h) ha.tail hb.tail
      (by rw [Nat.div_lt_iff_lt_mul Wpos, ← W64]; unfold W at *; omega)
    rw [addLoop]
    rw [hn]
    refine ⟨Ok.cons (Nat.mod_lt _ Wpos) i1, by rw [List.length_cons, i2, List.length_cons], ?_⟩
    rw [val, i3, val, val, List.length_cons, Nat.pow_succ, Nat.mul_comm (W ^ _),
      show c + (x + W * val a) + (y + W * val b) = (c + x + y) + W * (val a + val b) by ring, carry]
    rw [Nat.add_assoc ((c + x + y) / W)]

theorem not_ok : ∀ {a : List Nat}, Ok a → Ok (not a) ∧ (not a).length = a.length ∧ val (not a) + val a + 1 = W ^ a.length
  | [], _ => ⟨ok_nil, rfl, rfl⟩
  | x :: a, h => by
    obtain ⟨i1, i2, i3⟩ := not_ok h.tail
    have hx := h.head
    have e : not (x :: a) = (W - 1 - x) :: not a := rfl
    rw [e]
    refine ⟨Ok.cons (by unfold W; omega) i1, by rw [List.length_cons, i2, List.length_cons], ?_⟩
    rw [val, val, List.length_cons, Nat.pow_succ, ← i3, Nat.mul_comm _ W, Nat.mul_add, Nat.mul_add]
    unfold W at *
    omega

theorem inc_ok : ∀ {a : List Nat}, Ok a → Ok (inc a) ∧ (inc a).length = a.length ∧ val (inc a) = (val a + 1) % W ^ a.length
  | [], _ => ⟨ok_nil, rfl, rfl⟩
  | x :: a, h => by
    obtain ⟨i1, i2, i3⟩ := inc_ok h.tail
    have hx := h.head
    have ht := val_lt h.tail
    have e : (val (x :: a) + 1) % W ^ (x :: a).length = (x + 1) % W + W * (((x + 1) / W + val a) % W ^ a.length) := by
      rw [← carry, List.length_cons, Nat.pow_succ, Nat.mul_comm (W ^ _), val]
      congr 1
      omega
    rw [e, inc]
    split
    · rename_i h0
      have hxe : x + 1 = W := by
        have := Nat.dvd_of_mod_eq_zero h0
        have := Nat.le_of_dvd (by omega) this
        omega
      refine ⟨Ok.cons Wpos i1, by rw [List.length_cons, i2, List.length_cons], ?_⟩
      rw [val, i3, hxe, Nat.mod_self, Nat.div_self Wpos, Nat.add_comm 1]
    · rename_i h0
      have hlt : x + 1 < W := by
        rcases Nat.lt_or_ge (x + 1) W with h1 | h1
        · exact h1
        · have : x + 1 = W := by omega
          rw [this, Nat.mod_self] at h0; exact absurd rfl h0
      refine ⟨Ok.cons (Nat.mod_lt _ Wpos) h.tail, rfl, ?_⟩
      rw [val, Nat.div_eq_of_lt hlt, Nat.zero_add, Nat.mod_eq_of_lt ht]

theorem dec_ok : ∀ {a : List Nat}, Ok a → Ok (dec a) ∧ (dec a).length = a.length ∧ val (dec a) = (val a + (W ^ a.length - 1)) % W ^ a.length
  | [], _ => ⟨ok_nil, rfl, rfl⟩
  | x :: a, h => by
    obtain ⟨i1, i2, i3⟩ := dec_ok h.tail
    have hx := h.head
    have ht := val_lt h.tail
    have hW := Wpos
    have hp : 0 < W ^ a.length := Nat.pow_pos Wpos
    have e : (val (x :: a) + (W ^ (x :: a).length - 1)) % W ^ (x :: a).length =
        (x + (W - 1)) % W + W * (((x + (W - 1)) / W + (val a + (W ^ a.length - 1))) % W ^ a.length) := by
      rw [← carry, List.length_cons, Nat.pow_succ, Nat.mul_comm (W ^ _), val]
      congr 1
      rw [Nat.mul_add, Nat.mul_sub, Nat.mul_one]
      have : W ≤ W * W ^ a.length := Nat.le_mul_of_pos_right _ hp
      omega
    have hWW : W - 1 < W := by omega
    rw [e, dec]
    split
    · rename_i h0
      have hxe : x = 0 := by
        rcases Nat.eq_zero_or_pos x with h1 | h1
        · exact h1
        · have : x + (W - 1) = (x - 1) + W := by omega
          rw [this, Nat.add_mod_right, Nat.mod_eq_of_lt (by omega)] at h0
          omega
      refine ⟨Ok.cons hWW i1, by rw [List.length_cons, i2, List.length_cons], ?_⟩
      rw [val, i3, hxe, Nat.zero_add, Nat.mod_eq_of_lt hWW, Nat.div_eq_of_lt hWW, Nat.zero_add]
    · rename_i h0
      have h1 : 0 < x := by
        rcases Nat.eq_zero_or_pos x with h1 | h1
        · rw [h1, Nat.zero_add, Nat.mod_eq_of_lt hWW] at h0; exact absurd rfl h0
        · exact h1
      have hd : (x + (W - 1)) / W = 1 := by
        rw [show x + (W - 1) = (x - 1) + W by omega, Nat.add_div_right _ Wpos, Nat.div_eq_of_lt (by omega)]
      refine ⟨Ok.cons (Nat.mod_lt _ Wpos) h.tail, by rw [List.length_cons, List.length_cons], ?_⟩
      rw [val, hd, show 1 + (val a + (W ^ a.length - 1)) = val a + W ^ a.length by omega, Nat.add_mod_right, Nat.mod_eq_of_lt ht]

theorem mul_lt {b x c d : Nat} (hb : b < W) (hx : x < W) (hc : c < W) (hd : d < W) : c + d + b * x < 2 ^ 64 := by
  have : b * x ≤ (W - 1) * (W - 1) := Nat.mul_le_mul (by omega) (by omega)
  have h2 : (W - 1) * (W - 1) + (W - 1) + (W - 1) < 2 ^ 64 := by decide
  omega

theorem div_lt {n : Nat} (h : n < 2 ^ 64) : n / W < W := by
  rw [Nat.div_lt_iff_lt_mul Wpos, ← W64]; exact h

theorem mul32Loop_ok {b : Nat} (hb : b < W) : ∀ {a : List Nat} {c : Nat}, Ok a → c < W →
    Ok (mul32Loop b c a) ∧ (mul32Loop b c a).length = a.length ∧ val (mul32Loop b c a) = (c + b * val a) % W ^ a.length
  | [], c, _, _ => ⟨ok_nil, rfl, by rw [List.length_nil, Nat.pow_zero, Nat.mod_one]; rfl⟩
  | x :: a, c, ha, hc => by
    have hlt := mul_lt hb ha.head hc Wpos
    rw [Nat.add_zero] at hlt
    obtain ⟨i1, i2, i3⟩ := mul32Loop_ok hb (a := a) (c := (c + b * x) / W) ha.tail (div_lt hlt)
    rw [mul32Loop]
    rw [Nat.mod_eq_of_lt hlt]
    refine ⟨Ok.cons (Nat.mod_lt _ Wpos) i1, by rw [List.length_cons, i2, List.length_cons], ?_⟩
    rw [val, i3, val, List.length_cons, Nat.pow_succ, Nat.mul_comm (W ^ _), show c + b * (x + W * val a) = (c + b * x) + W * (b * val a) by ring, carry]

theorem mulRow_ok {x : Nat} (hx : x < W) : ∀ {ps b : List Nat} {c : Nat}, ps.length ≤ b.length → Ok ps → Ok b → c < W →
    Ok (mulRow x c ps b) ∧ (mulRow x c ps b).length = ps.length ∧ val (mulRow x c ps b) = (c + val ps + x * val b) % W ^ ps.length
  | [], b, c, _, _, _, _ => by
    rw [mulRow]
    · exact ⟨ok_nil, rfl, by rw [List.length_nil, Nat.pow_zero, Nat.mod_one]; rfl⟩
    · intro p ps y b' h; cases h
  | _ :: _, [], _, h, _, _, _ => by cases h
  | p :: ps, y :: b, c, h, hp, hb, hc => by
    have hlt := mul_lt hx hb.head hc hp.head
    obtain ⟨i1, i2, i3⟩ := mulRow_ok hx (ps := ps) (b := b) (c := (c + p + x * y) / W) (by simpa using h) hp.tail hb.tail (div_lt hlt)
    rw [mulRow]
    rw [Nat.mod_eq_of_lt hlt]
    refine ⟨Ok.cons (Nat.mod_lt _ Wpos) i1, by rw [List.length_cons, i2, List.length_cons], ?_⟩
    rw [val, i3, val, val, List.length_cons, Nat.pow_succ, Nat.mul_comm (W ^ _),
      show c + (p + W * val ps) + x * (y + W * val b) = (c + p + x * y) + W * (val ps + x * val b) by ring, carry, Nat.add_assoc ((c + p + x * y) / W)]

theorem mulLoop_ok {b : List Nat} (hb : Ok b) : ∀ {a ps : List Nat}, ps.length ≤ a.length → ps.length ≤ b.length → Ok a → Ok ps →
    Ok (mulLoop b a ps) ∧ (mulLoop b a ps).length = ps.length ∧ val (mulLoop b a ps) = (val ps + val a * val b) % W ^ ps.length
  | [], ps, h, _, _, hps => by
    have : ps = [] := List.length_eq_zero_iff.1 (Nat.le_zero.1 h)
    subst this
    rw [mulLoop]
    exact ⟨ok_nil, rfl, by rw [List.length_nil, Nat.pow_zero, Nat.mod_one]; rfl⟩
  | x :: a, ps, h1, h2, ha, hps => by
    obtain ⟨r1, r2, r3⟩ := mulRow_ok ha.head (ps := ps) (b := b) (c := 0) h2 hps hb Wpos
    rw [mulLoop]
    cases hr : mulRow x 0 ps b with
    | nil =>
      rw [hr] at r2
      have : ps = [] := List.length_eq_zero_iff.1 r2.symm
      subst this
      exact ⟨ok_nil, rfl, by rw [List.length_nil, Nat.pow_zero, Nat.mod_one]; rfl⟩
    | cons p qs =>
      rw [hr] at r1 r2 r3
      rw [List.length_cons] at r2 h1
      dsimp only
      obtain ⟨i1, i2, i3⟩ := mulLoop_ok hb (a := a) (ps := qs) (by omega) (by omega) ha.tail r1.tail
      refine ⟨Ok.cons r1.head i1, by rw [List.length_cons, i2, r2], ?_⟩
      rw [← r2, Nat.pow_succ, Nat.mul_comm (W ^ _)] at r3 ⊢
      rw [Nat.zero_add] at r3
      rw [val, i3, val]
      have e : (val ps + (x + W * val a) * val b) % (W * W ^ qs.length) = (val (p :: qs) + W * (val a * val b)) % (W * W ^ qs.length) := by
        rw [r3, Nat.mod_add_mod]
        congr 1
        ring
      rw [e, val, show p + W * val qs + W * (val a * val b) = p + W * (val qs + val a * val b) by ring, carry, Nat.mod_eq_of_lt r1.head,
        Nat.div_eq_of_lt r1.head, Nat.zero_add]

/-! ## Bits -/

theorem val_testBit : ∀ {a : List Nat} (i : Nat), Ok a → (val a).testBit i = (a.getD (i / 32) 0).testBit (i % 32)
  | [], i, _ => by rw [val, List.getD_nil, Nat.zero_testBit, Nat.zero_testBit]
  | x :: a, i, h => by
    rw [val, Nat.add_comm, show W = 2 ^ 32 from rfl, Nat.testBit_two_pow_mul_add _ h.head]
    split
    · rename_i hi
      rw [Nat.div_eq_of_lt hi, Nat.mod_eq_of_lt hi]; rfl
    · rename_i hi
      rw [val_testBit (i - 32) h.tail, show i / 32 = (i - 32) / 32 + 1 by omega, List.getD_cons_succ, show (i - 32) % 32 = i % 32 by omega]

theorem getD_lt {a : List Nat} (h : Ok a) (k : Nat) : a.getD k 0 < W := by
  rw [List.getD_eq_getElem?_getD]
  cases hk : a[k]? with
  | none => exact Wpos
  | some x => exact h x (List.mem_of_getElem? hk)

theorem getD_over {a : List Nat} {k : Nat} (h : a.length ≤ k) : a.getD k 0 = 0 := by
  rw [List.getD_eq_getElem?_getD, List.getElem?_eq_none h]; rfl

theorem map_getD (f : Nat → Nat) (k : Nat) : ((List.range 8).map f).getD k 0 = if k < 8 then f k else 0 := by
  rw [List.getD_eq_getElem?_getD, List.getElem?_map]
  split
  · rename_i h; rw [List.getElem?_range h]; rfl
  · rename_i h; rw [List.getElem?_eq_none (by rw [List.length_range]; omega)]; rfl

theorem map_ok {f : Nat → Nat} (h : ∀ k, f k < W) : Ok ((List.range 8).map f) := by
  intro x hx
  obtain ⟨k, _, hk⟩ := List.mem_map.1 hx
  rw [← hk]; exact h k

theorem testBit_over {x i : Nat} (h : x < W) (hi : 32 ≤ i) : x.testBit i = false :=
  Nat.testBit_lt_two_pow (Nat.lt_of_lt_of_le h (Nat.pow_le_pow_right (by decide) hi))

theorem shl_ok {a : List Nat} (h : Ok a) (shift : Nat) :
    Ok (shl a shift) ∧ (shl a shift).length = 8 ∧ val (shl a shift) = val a * 2 ^ shift % 2 ^ 256 := by
  have hok : Ok (shl a shift) := by
    unfold shl
    dsimp only
    apply map_ok
    intro m
    apply Nat.or_lt_two_pow
    · split
      · exact Nat.lt_of_le_of_lt (Nat.shiftRight_le _ _) (getD_lt h _)
      · exact Wpos
    · split
      · exact Nat.mod_lt _ Wpos
      · exact Wpos
  refine ⟨hok, by unfold shl; simp, ?_⟩
  apply Nat.eq_of_testBit_eq
  intro i
  rw [val_testBit i hok, ← Nat.shiftLeft_eq, Nat.testBit_mod_two_pow, Nat.testBit_shiftLeft, val_testBit _ h]
  unfold shl
  dsimp only
  rw [map_getD]
  by_cases hi : i < 256
  · rw [if_pos (by omega), Nat.testBit_or, decide_eq_true hi, Bool.true_and]
    by_cases hlow : shift ≤ i
    · rw [decide_eq_true (show i ≥ shift from hlow), Bool.true_and]
      by_cases hk : shift % 32 ≤ i % 32
      · -- the bit comes from the lower of the two words
        rw [if_pos (by omega : shift / 32 ≤ i / 32), show W = 2 ^ 32 from rfl, Nat.testBit_mod_two_pow, Nat.testBit_shiftLeft,
          decide_eq_true (show i % 32 < 32 by omega), decide_eq_true (show i % 32 ≥ shift % 32 from hk), Bool.true_and, Bool.true_and,
          show (i - shift) / 32 = i / 32 - shift / 32 by omega, show (i - shift) % 32 = i % 32 - shift % 32 by omega]
        have : (if shift / 32 + 1 ≤ i / 32 ∧ shift % 32 ≠ 0 then a.getD (i / 32 - shift / 32 - 1) 0 >>> (32 - shift % 32) else 0).testBit (i % 32) = false := by
          split
          · rw [Nat.testBit_shiftRight]; exact testBit_over (getD_lt h _) (by omega)
          · exact Nat.zero_testBit _
        rw [this, Bool.false_or]
      · rw [if_pos (show shift / 32 + 1 ≤ i / 32 ∧ shift % 32 ≠ 0 by omega), Nat.testBit_shiftRight,
          show (i - shift) / 32 = i / 32 - shift / 32 - 1 by omega, show (i - shift) % 32 = 32 - shift % 32 + i % 32 by omega]
        have : (if shift / 32 ≤ i / 32 then (a.getD (i / 32 - shift / 32) 0 <<< (shift % 32)) % W else 0).testBit (i % 32) = false := by
          split
          · rw [show W = 2 ^ 32 from rfl, Nat.testBit_mod_two_pow, Nat.testBit_shiftLeft, decide_eq_false (show ¬ i % 32 ≥ shift % 32 by omega)]
            simp
          · exact Nat.zero_testBit _
        rw [this, Bool.or_false]
    · rw [decide_eq_false (show ¬ i ≥ shift from hlow), Bool.false_and, Bool.or_eq_false_iff]
      constructor
      · rw [if_neg (by omega)]; exact Nat.zero_testBit _
      · split
        · rw [show W = 2 ^ 32 from rfl, Nat.testBit_mod_two_pow, Nat.testBit_shiftLeft, decide_eq_false (show ¬ i % 32 ≥ shift % 32 by omega)]
          simp
        · exact Nat.zero_testBit _
  · rw [if_neg (by omega), decide_eq_false hi, Bool.false_and]; exact Nat.zero_testBit _

theorem shr_ok {a : List Nat} (h : Ok a) (hl : a.length = 8) (shift : Nat) :
    Ok (shr a shift) ∧ (shr a shift).length = 8 ∧ val (shr a shift) = val a / 2 ^ shift := by
  have hok : Ok (shr a shift) := by
    unfold shr
    dsimp only
    apply map_ok
    intro m
    apply Nat.or_lt_two_pow
    · split
      · exact Nat.mod_lt _ Wpos
      · exact Wpos
    · split
      · exact Nat.lt_of_le_of_lt (Nat.shiftRight_le _ _) (getD_lt h _)
      · exact Wpos
  refine ⟨hok, by unfold shr; simp, ?_⟩
  apply Nat.eq_of_testBit_eq
  intro i
  rw [val_testBit i hok, ← Nat.shiftRight_eq_div_pow, Nat.testBit_shiftRight, val_testBit _ h]
  unfold shr
  dsimp only
  rw [map_getD]
  by_cases hi : i / 32 < 8
  · rw [if_pos hi, Nat.testBit_or]
    by_cases hk : shift % 32 + i % 32 < 32
    · rw [show (shift + i) / 32 = i / 32 + shift / 32 by omega, show (shift + i) % 32 = shift % 32 + i % 32 by omega]
      have : (if i / 32 + shift / 32 + 1 < 8 ∧ shift % 32 ≠ 0 then (a.getD (i / 32 + shift / 32 + 1) 0 <<< (32 - shift % 32)) % W else 0).testBit (i % 32) = false := by
        split
        · rw [show W = 2 ^ 32 from rfl, Nat.testBit_mod_two_pow, Nat.testBit_shiftLeft, decide_eq_false (show ¬ i % 32 ≥ 32 - shift % 32 by omega)]
          simp
        · exact Nat.zero_testBit _
      rw [this, Bool.false_or]
      split
      · rw [Nat.testBit_shiftRight]
      · rw [getD_over (by omega), Nat.zero_testBit, Nat.zero_testBit]
    · rw [show (shift + i) / 32 = i / 32 + shift / 32 + 1 by omega, show (shift + i) % 32 = i % 32 - (32 - shift % 32) by omega]
      have : (if i / 32 + shift / 32 < 8 then a.getD (i / 32 + shift / 32) 0 >>> (shift % 32) else 0).testBit (i % 32) = false := by
        split
        · rw [Nat.testBit_shiftRight]; exact testBit_over (getD_lt h _) (by omega)
        · exact Nat.zero_testBit _
      rw [this, Bool.or_false]
      split
      · rw [show W = 2 ^ 32 from rfl, Nat.testBit_mod_two_pow, Nat.testBit_shiftLeft, decide_eq_true (show i % 32 ≥ 32 - shift % 32 by omega),
          decide_eq_true (show i % 32 < 32 by omega)]
        simp
      · rw [getD_over (by omega), Nat.zero_testBit, Nat.zero_testBit]
  · rw [if_neg hi, getD_over (by omega), Nat.zero_testBit, Nat.zero_testBit]

theorem zip_getD {f : Nat → Nat → Nat} (hf : f 0 0 = 0) : ∀ {a b : List Nat}, a.length = b.length → ∀ k, (List.zipWith f a b).getD k 0 = f (a.getD k 0) (b.getD k 0)
  | [], [], _, k => by simp [hf]
  | [], _ :: _, h, _ => by cases h
  | _ :: _, [], h, _ => by cases h
  | x :: a, y :: b, h, 0 => rfl
  | x :: a, y :: b, h, k + 1 => zip_getD hf (by simpa using h) k

theorem zip_ok {f : Nat → Nat → Nat} (hf : ∀ x y, x < W → y < W → f x y < W) {a b : List Nat} (ha : Ok a) (hb : Ok b) : Ok (List.zipWith f a b) := by
  induction a generalizing b with
  | nil => exact ok_nil
  | cons x a ih =>
    cases b with
    | nil => exact ok_nil
    | cons y b => exact Ok.cons (hf x y ha.head hb.head) (ih ha.tail hb.tail)

/-! ## Comparison and the number of bits -/

/-- The value of words in the other order. -/
def valRev : List Nat → Nat
  | [] => 0
  | x :: a => x * W ^ a.length + valRev a

theorem val_append : ∀ (a : List Nat) (x : Nat), val (a ++ [x]) = val a + W ^ a.length * x
  | [], x => by simp [val]
  | y :: a, x => by
    rw [List.cons_append, val, val_append a x, val, List.length_cons, Nat.pow_succ]; ring

theorem valRev_reverse : ∀ a : List Nat, valRev a = val a.reverse
  | [] => rfl
  | x :: a => by
    rw [valRev, List.reverse_cons, val_append, List.length_reverse, valRev_reverse a]; ring

theorem valRev_lt {a : List Nat} (h : Ok a) : valRev a < W ^ a.length := by
  rw [valRev_reverse, ← List.length_reverse (as := a)]
  exact val_lt (fun x hx => h x (List.mem_reverse.1 hx))

theorem compareRev_ok : ∀ {a b : List Nat}, a.length = b.length → Ok a → Ok b →
    (compareRev a b < 0 ↔ valRev a < valRev b) ∧ (compareRev a b > 0 ↔ valRev b < valRev a)
  | [], [], _, _, _ => by simp [compareRev, valRev]
  | [], _ :: _, h, _, _ => by cases h
  | _ :: _, [], h, _, _ => by cases h
  | x :: a, y :: b, h, ha, hb => by
    have hl : a.length = b.length := by simpa using h
    obtain ⟨i1, i2⟩ := compareRev_ok hl ha.tail hb.tail
    have l1 := valRev_lt ha.tail
    have l2 := valRev_lt hb.tail
    rw [compareRev, valRev, valRev]
    rw [hl] at l1 ⊢
    have step : ∀ u v : Nat, u < v → ∀ p q, p < W ^ b.length → u * W ^ b.length + p < v * W ^ b.length + q := by
      intro u v huv p q hp
      have : (u + 1) * W ^ b.length ≤ v * W ^ b.length := Nat.mul_le_mul_right _ huv
      rw [Nat.succ_mul] at this
      omega
    split
    · rename_i hlt
      have := step x y hlt (valRev a) (valRev b) l1
      constructor <;> constructor <;> intro <;> first | omega | (exfalso; omega)
    · split
      · rename_i hgt
        have := step y x hgt (valRev b) (valRev a) l2
        constructor <;> constructor <;> intro <;> first | omega | (exfalso; omega)
      · have hxy : x = y := by omega
        rw [hxy]
        constructor
        · rw [i1]; omega
        · rw [i2]; omega

theorem Ok.reverse {a : List Nat} (h : Ok a) : Ok a.reverse := fun x hx => h x (List.mem_reverse.1 hx)

theorem compareTo_ok {a b : List Nat} (h : a.length = b.length) (ha : Ok a) (hb : Ok b) :
    (compareTo a b < 0 ↔ val a < val b) ∧ (compareTo a b > 0 ↔ val b < val a) := by
  have := compareRev_ok (a := a.reverse) (b := b.reverse) (by simp [h]) ha.reverse hb.reverse
  rw [valRev_reverse, valRev_reverse, List.reverse_reverse, List.reverse_reverse] at this
  exact this

theorem wordBits_ok {x : Nat} (h0 : x ≠ 0) : ∀ n, x < 2 ^ (n + 1) → 1 ≤ wordBits x n ∧ wordBits x n ≤ n + 1 ∧ 2 ^ (wordBits x n - 1) ≤ x ∧ x < 2 ^ wordBits x n
  | 0, h => by
    rw [wordBits]
    exact ⟨Nat.le_refl _, Nat.le_refl _, by rw [Nat.sub_self, Nat.pow_zero]; omega, h⟩
  | n + 1, h => by
    rw [wordBits]
    split
    · rename_i ht
      exact ⟨by omega, Nat.le_refl _, Nat.ge_two_pow_of_testBit ht, h⟩
    · rename_i ht
      have : x < 2 ^ (n + 1) := by
        apply Nat.lt_pow_two_of_testBit
        intro i hi
        by_cases he : i = n + 1
        · rw [he]; simpa using ht
        · exact Nat.testBit_lt_two_pow (Nat.lt_of_lt_of_le h (Nat.pow_le_pow_right (by decide) (by omega)))
      obtain ⟨h1, h2, h3, h4⟩ := wordBits_ok h0 n this
      exact ⟨h1, by omega, h3, h4⟩

theorem bitsRev_ok : ∀ {a : List Nat}, Ok a → bitsRev a ≤ 32 * a.length ∧ valRev a < 2 ^ bitsRev a ∧ (bitsRev a ≠ 0 → 2 ^ (bitsRev a - 1) ≤ valRev a)
  | [], _ => ⟨Nat.le_refl _, by simp [valRev, bitsRev], fun h => absurd rfl h⟩
  | x :: a, h => by
    obtain ⟨i1, i2, i3⟩ := bitsRev_ok h.tail
    have hl := valRev_lt h.tail
    have hp : W ^ a.length = 2 ^ (32 * a.length) := (Nat.pow_mul 2 32 a.length).symm
    rw [bitsRev, valRev, List.length_cons]
    split
    · rename_i h0
      obtain ⟨w1, w2, w3, w4⟩ := wordBits_ok h0 31 h.head
      rw [hp] at hl ⊢
      refine ⟨by omega, ?_, fun _ => ?_⟩
      · rw [Nat.pow_add, Nat.mul_comm (2 ^ (32 * a.length))]
        have : (x + 1) * 2 ^ (32 * a.length) ≤ 2 ^ wordBits x 31 * 2 ^ (32 * a.length) := Nat.mul_le_mul_right _ w4
        rw [Nat.succ_mul] at this
        omega
      · rw [Nat.add_sub_assoc w1, Nat.pow_add, Nat.mul_comm (2 ^ (32 * a.length))]
        exact Nat.le_trans (Nat.mul_le_mul_right _ w3) (Nat.le_add_right _ _)
    · rename_i h0
      have h0 : x = 0 := by omega
      rw [h0, Nat.zero_mul, Nat.zero_add]
      exact ⟨by omega, i2, i3⟩

theorem bits_ok {a : List Nat} (h : Ok a) : bits a ≤ 32 * a.length ∧ val a < 2 ^ bits a ∧ (bits a ≠ 0 → 2 ^ (bits a - 1) ≤ val a) := by
  have := bitsRev_ok h.reverse
  rw [valRev_reverse, List.reverse_reverse, List.length_reverse] at this
  exact this

/-! ## Division -/

theorem set_getD (a : List Nat) (k x j : Nat) (hk : k < a.length) : (a.set k x).getD j 0 = if j = k then x else a.getD j 0 := by
  rw [List.getD_eq_getElem?_getD, List.getElem?_set, List.getD_eq_getElem?_getD]
  by_cases h : k = j
  · subst h; rw [if_pos rfl, if_pos rfl, if_pos hk]; rfl
  · rw [if_neg h, if_neg (fun e => h e.symm)]

theorem set_bit {q : List Nat} {n : Nat} (hq : Ok q) (hl : q.length = 8) (hn : n < 256) (hz : val q % 2 ^ (n + 1) = 0) :
    Ok (q.set (n / 32) (q.getD (n / 32) 0 ||| 1 <<< (n % 32))) ∧
      val (q.set (n / 32) (q.getD (n / 32) 0 ||| 1 <<< (n % 32))) = val q + 2 ^ n := by
  have hok : Ok (q.set (n / 32) (q.getD (n / 32) 0 ||| 1 <<< (n % 32))) := by
    intro x hx
    rcases List.mem_or_eq_of_mem_set hx with h | h
    · exact hq x h
    · rw [h]
      apply Nat.or_lt_two_pow (getD_lt hq _)
      rw [Nat.one_shiftLeft]
      exact Nat.pow_lt_pow_right (by decide) (by omega)
  refine ⟨hok, ?_⟩
  have hor : val (q.set (n / 32) (q.getD (n / 32) 0 ||| 1 <<< (n % 32))) = val q ||| 2 ^ n := by
    apply Nat.eq_of_testBit_eq
    intro i
    rw [val_testBit i hok, Nat.testBit_or, val_testBit i hq, set_getD _ _ _ _ (by omega)]
    by_cases h : i / 32 = n / 32
    · rw [if_pos h, Nat.testBit_or, h, Nat.one_shiftLeft, Nat.testBit_two_pow, Nat.testBit_two_pow]
      congr 1
      rw [decide_eq_decide]
      omega
    · rw [if_neg h, Nat.testBit_two_pow, decide_eq_false (by intro e; exact h (by rw [e])), Bool.or_false]
  obtain ⟨k, hk⟩ := Nat.dvd_of_mod_eq_zero hz
  rw [hor, hk, ← Nat.two_pow_add_eq_or_of_lt (Nat.pow_lt_pow_right (by decide) (Nat.lt_succ_self n))]

theorem WM : W ^ 8 = 2 ^ 256 := (Nat.pow_mul 2 32 8).symm

theorem neg_ok {a : List Nat} (h : Ok a) (hl : a.length = 8) :
    Ok (neg a) ∧ (neg a).length = 8 ∧ val (neg a) = (2 ^ 256 - val a) % 2 ^ 256 := by
  obtain ⟨n1, n2, n3⟩ := not_ok h
  obtain ⟨i1, i2, i3⟩ := inc_ok n1
  refine ⟨i1, by rw [neg, i2, n2, hl], ?_⟩
  rw [neg, i3, n2, hl, WM]
  rw [hl, WM] at n3
  congr 1
  omega

theorem add_ok {a b : List Nat} (ha : Ok a) (hb : Ok b) (la : a.length = 8) (lb : b.length = 8) :
    Ok (add a b) ∧ (add a b).length = 8 ∧ val (add a b) = (val a + val b) % 2 ^ 256 := by
  obtain ⟨i1, i2, i3⟩ := addLoop_ok (a := a) (b := b) (c := 0) (by rw [la, lb]) ha hb Wpos
  rw [la] at i2
  rw [la, WM, Nat.zero_add] at i3
  exact ⟨i1, i2, i3⟩

theorem val_lt' {a : List Nat} (ha : Ok a) (la : a.length = 8) : val a < 2 ^ 256 := by
  have := val_lt ha
  rwa [la, WM] at this

theorem sub_ok {a b : List Nat} (ha : Ok a) (hb : Ok b) (la : a.length = 8) (lb : b.length = 8) :
    Ok (sub a b) ∧ (sub a b).length = 8 ∧ val (sub a b) = (val a + (2 ^ 256 - val b)) % 2 ^ 256 := by
  obtain ⟨n1, n2, n3⟩ := neg_ok hb lb
  obtain ⟨i1, i2, i3⟩ := add_ok ha n1 la n2
  refine ⟨i1, i2, ?_⟩
  rw [sub, i3, n3, Nat.add_mod_mod]

theorem sub_le {a b : List Nat} (ha : Ok a) (hb : Ok b) (la : a.length = 8) (lb : b.length = 8) (h : val b ≤ val a) :
    val (sub a b) = val a - val b := by
  have h1 := val_lt' ha la
  rw [(sub_ok ha hb la lb).2.2, show val a + (2 ^ 256 - val b) = (val a - val b) + 2 ^ 256 by omega, Nat.add_mod_right, Nat.mod_eq_of_lt (by omega)]

theorem divLoop_ok {D : Nat} (hD : 0 < D) : ∀ (n : Nat) {num dv q : List Nat}, n ≤ 256 → Ok num → num.length = 8 → Ok dv → dv.length = 8 →
    Ok q → q.length = 8 → (n ≠ 0 → val dv = D * 2 ^ (n - 1)) → val num < D * 2 ^ n → val q % 2 ^ n = 0 →
    Ok (divLoop n num dv q) ∧ (divLoop n num dv q).length = 8 ∧ val (divLoop n num dv q) = val q + val num / D
  | 0, num, dv, q, _, _, _, _, _, hq, lq, _, hlt, _ => by
    rw [Nat.pow_zero, Nat.mul_one] at hlt
    rw [divLoop, Nat.div_eq_of_lt hlt]
    exact ⟨hq, lq, rfl⟩
  | n + 1, num, dv, q, hn, h1, l1, h2, l2, hq, lq, hdv, hlt, hz => by
    have hdv := hdv (Nat.succ_ne_zero n)
    rw [Nat.add_sub_cancel] at hdv
    obtain ⟨s1, s2, s3⟩ := shr_ok h2 l2 1
    have hnext : n ≠ 0 → val (shr dv 1) = D * 2 ^ (n - 1) := by
      intro h0
      obtain ⟨k, hk⟩ := Nat.exists_eq_succ_of_ne_zero h0
      rw [s3, hdv, hk, Nat.pow_succ, ← Nat.mul_assoc, Nat.pow_one, Nat.mul_div_cancel _ (by decide), Nat.succ_sub_one]
    have hz' : val q % 2 ^ n = 0 := by
      obtain ⟨k, hk⟩ := Nat.dvd_of_mod_eq_zero hz
      rw [hk, Nat.pow_succ, Nat.mul_assoc, Nat.mul_mod_right]
    have hc := compareTo_ok (by rw [l1, l2]) h1 h2
    rw [divLoop]
    split
    · rename_i hge
      have hle : val dv ≤ val num := by
        rcases Nat.lt_or_ge (val num) (val dv) with h | h
        · have := hc.1.2 h; omega
        · exact h
      obtain ⟨b1, b2⟩ := set_bit hq lq (by omega) hz
      have e := sub_le h1 h2 l1 l2 hle
      obtain ⟨d1, d2, _⟩ := sub_ok h1 h2 l1 l2
      obtain ⟨r1, r2, r3⟩ := divLoop_ok hD n (by omega) d1 d2 s1 s2 b1 (by rw [List.length_set, lq]) hnext
        (by rw [e, hdv]; rw [Nat.pow_succ, ← Nat.mul_assoc] at hlt; rw [hdv] at hle; omega) (by rw [b2, Nat.add_mod_right]; exact hz')
      refine ⟨r1, r2, ?_⟩
      rw [r3, b2, e, hdv, Nat.add_assoc]
      congr 1
      have : val num = (val num - D * 2 ^ n) + D * 2 ^ n := by rw [hdv] at hle; omega
      rw [Nat.add_comm]
      conv => rhs; rw [this]
      rw [Nat.add_mul_div_left _ _ hD]
    · rename_i hge
      have hlt' : val num < val dv := hc.1.1 (by omega)
      rw [hdv] at hlt'
      exact divLoop_ok hD n (by omega) h1 l1 s1 s2 hq lq hnext hlt' hz'

theorem zero_ok : Ok (List.replicate 8 0) ∧ (List.replicate 8 0).length = 8 ∧ val (List.replicate 8 0) = 0 := by
  refine ⟨?_, rfl, rfl⟩
  intro x hx
  rw [List.eq_of_mem_replicate hx]; exact Wpos

theorem div_ok {a b : List Nat} (ha : Ok a) (hb : Ok b) (la : a.length = 8) (lb : b.length = 8) :
    (val b = 0 → div a b = none) ∧
    (val b ≠ 0 → ∃ r : List Nat, div a b = some r ∧ Ok r ∧ r.length = 8 ∧ val r = val a / val b) := by
  obtain ⟨a1, a2, a3⟩ := bits_ok ha
  obtain ⟨b1, b2, b3⟩ := bits_ok hb
  obtain ⟨z1, z2, z3⟩ := zero_ok
  unfold div
  constructor
  · intro h0
    rw [if_pos]
    by_contra hne
    have := b3 hne
    have := Nat.two_pow_pos (bits b - 1)
    omega
  · intro h0
    have hb0 : bits b ≠ 0 := by
      intro h; rw [h] at b2; omega
    rw [if_neg hb0]
    have b3 := b3 hb0
    split
    · rename_i hgt
      refine ⟨_, rfl, z1, z2, ?_⟩
      rw [z3, Nat.div_eq_of_lt]
      exact Nat.lt_of_lt_of_le a2 (Nat.le_trans (Nat.pow_le_pow_right (by decide) (by omega)) b3)
    · rename_i hle
      obtain ⟨s1, s2, s3⟩ := shl_ok hb (bits a - bits b)
      have hsplit : 2 ^ bits a = 2 ^ bits b * 2 ^ (bits a - bits b) := by
        rw [← Nat.pow_add, Nat.add_sub_cancel' (Nat.not_lt.1 hle)]
      have hv : val (shl b (bits a - bits b)) = val b * 2 ^ (bits a - bits b) := by
        rw [s3, Nat.mod_eq_of_lt]
        refine Nat.lt_of_lt_of_le (Nat.mul_lt_mul_of_pos_right b2 (Nat.two_pow_pos _)) ?_
        rw [← hsplit]
        exact Nat.pow_le_pow_right (by decide) (by omega)
      obtain ⟨r1, r2, r3⟩ := divLoop_ok (D := val b) (by omega) (bits a - bits b + 1) (by omega) ha la s1 s2 z1 z2
        (fun _ => by rw [hv, Nat.add_sub_cancel])
        (by
          refine Nat.lt_of_lt_of_le a2 ?_
          have : 2 ^ bits a = 2 ^ (bits b - 1) * 2 ^ (bits a - bits b + 1) := by
            rw [← Nat.pow_add, show bits b - 1 + (bits a - bits b + 1) = bits a by omega]
          rw [this]
          exact Nat.mul_le_mul_right _ b3)
        (by rw [z3, Nat.zero_mod])
      exact ⟨_, rfl, r1, r2, by rw [r3, z3, Nat.zero_add]⟩

theorem val_inj : ∀ {a b : List Nat}, a.length = b.length → Ok a → Ok b → val a = val b → a = b
  | [], [], _, _, _, _ => rfl
  | [], _ :: _, h, _, _, _ => by cases h
  | _ :: _, [], h, _, _, _ => by cases h
  | x :: a, y :: b, h, ha, hb, e => by
    rw [val, val] at e
    have h1 : x = y := by
      have := congrArg (· % W) e
      simpa [Nat.add_mul_mod_self_left, Nat.mod_eq_of_lt ha.head, Nat.mod_eq_of_lt hb.head] using this
    have h2 : val a = val b := by
      rw [h1] at e
      exact Nat.eq_of_mul_eq_mul_left Wpos (Nat.add_left_cancel e)
    rw [h1, val_inj (by simpa using h) ha.tail hb.tail h2]

theorem low64_ok {a : List Nat} (ha : Ok a) : low64 a = val a % 2 ^ 64 := by
  apply Nat.eq_of_testBit_eq
  intro i
  rw [low64, Nat.testBit_or, Nat.testBit_shiftLeft, Nat.testBit_mod_two_pow, val_testBit _ ha]
  by_cases h : i < 32
  · rw [Nat.div_eq_of_lt h, Nat.mod_eq_of_lt h, decide_eq_false (show ¬ i ≥ 32 by omega), decide_eq_true (show i < 64 by omega)]
    simp
  · rw [testBit_over (getD_lt ha 0) (by omega), decide_eq_true (show i ≥ 32 by omega), Bool.false_or, Bool.true_and]
    by_cases h2 : i < 64
    · rw [decide_eq_true h2, Bool.true_and, show i / 32 = 1 by omega, show i % 32 = i - 32 by omega]
    · rw [decide_eq_false h2, Bool.false_and]
      exact testBit_over (getD_lt ha 1) (by omega)

theorem ofU64_ok {b : Nat} (h : b < 2 ^ 64) : Ok (ofU64 b) ∧ (ofU64 b).length = 8 ∧ val (ofU64 b) = b := by
  refine ⟨?_, rfl, ?_⟩
  · intro x hx
    simp only [ofU64, List.mem_cons, List.not_mem_nil, or_false] at hx
    have := Wpos
    rcases hx with hx | hx | hx | hx | hx | hx | hx | hx <;> rw [hx] <;> first | exact Nat.mod_lt _ Wpos | exact Wpos
  · simp only [ofU64, val]
    rw [Nat.mod_eq_of_lt (div_lt h)]
    have := Nat.mod_add_div b W
    simpa using this

end Verif.Arith
