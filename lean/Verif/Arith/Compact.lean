import Verif.Arith.Lemmas

/-!
# The compact form and the bytes
-/
namespace Verif.Arith

/-- What the 32 bits say: a mantissa of 23 bits and a number of bytes. -/
def exact (c : Nat) : Nat := c % 2 ^ 23 * 2 ^ (8 * (c / 2 ^ 24)) / 2 ^ 24

/-- Bit 23. -/
def signed (c : Nat) : Prop := c / 2 ^ 23 % 2 = 1

/-- A number without its last `e` bytes. -/
def trunc (v e : Nat) : Nat := v / 2 ^ (8 * e) * 2 ^ (8 * e)

theorem and_low (c : Nat) : c &&& 0x7fffff = c % 2 ^ 23 := by
  rw [show (0x7fffff : Nat) = 2 ^ 23 - 1 by decide, Nat.and_two_pow_sub_one_eq_mod]

theorem and_sign (c : Nat) : c &&& 0x800000 ≠ 0 ↔ c / 2 ^ 23 % 2 = 1 := by
  have ht : c.testBit 23 = decide (c / 2 ^ 23 % 2 = 1) := Nat.testBit_eq_decide_div_mod_eq
  have hb : (c &&& 0x800000).testBit 23 = c.testBit 23 := by
    rw [Nat.testBit_and, show (0x800000 : Nat).testBit 23 = true by decide, Bool.and_true]
  constructor
  · intro h
    obtain ⟨i, hi⟩ := Nat.exists_testBit_of_ne_zero h
    rw [Nat.testBit_and, show (0x800000 : Nat) = 2 ^ 23 by decide, Nat.testBit_two_pow, Bool.and_eq_true, decide_eq_true_iff] at hi
    rw [← hi.2, ht] at hi
    simpa using hi.1
  · intro h h0
    rw [h0, ht, decide_eq_true h] at hb
    exact absurd hb (by decide)

/-- The word and the size are the exact number. -/
theorem exact_small {c : Nat} (h : c / 2 ^ 24 ≤ 3) : exact c = c % 2 ^ 23 / 2 ^ (8 * (3 - c / 2 ^ 24)) := by
  have : (2 : Nat) ^ 24 = 2 ^ (8 * (c / 2 ^ 24)) * 2 ^ (8 * (3 - c / 2 ^ 24)) := by
    rw [← Nat.pow_add]; congr 1; omega
  unfold exact
  conv => lhs; arg 2; rw [this]
  rw [← Nat.div_div_eq_div_mul, Nat.mul_div_cancel _ (Nat.two_pow_pos _)]

theorem exact_large {c : Nat} (h : 3 < c / 2 ^ 24) : exact c = c % 2 ^ 23 * 2 ^ (8 * (c / 2 ^ 24 - 3)) := by
  have : (2 : Nat) ^ (8 * (c / 2 ^ 24)) = 2 ^ (8 * (c / 2 ^ 24 - 3)) * 2 ^ 24 := by
    rw [← Nat.pow_add]; congr 1; omega
  unfold exact
  rw [this, ← Nat.mul_assoc, Nat.mul_div_cancel _ (Nat.two_pow_pos _)]

theorem pow_big {w s : Nat} (hw : w < 2 ^ 23) (hs : 3 < s) :
    2 ^ 256 ≤ w * 2 ^ (8 * (s - 3)) ↔ w ≠ 0 ∧ (s > 34 ∨ (w > 0xff ∧ s > 33) ∨ (w > 0xffff ∧ s > 32)) := by
  have key : ∀ k, k + 8 * (s - 3) = 256 → (2 ^ 256 ≤ w * 2 ^ (8 * (s - 3)) ↔ 2 ^ k ≤ w) := by
    intro k hk
    rw [← hk, Nat.pow_add]
    exact ⟨fun h => Nat.le_of_mul_le_mul_right h (Nat.two_pow_pos _), fun h => Nat.mul_le_mul_right _ h⟩
  rcases Nat.lt_or_ge 34 s with h | h
  · constructor
    · intro hl
      refine ⟨?_, Or.inl h⟩
      intro h0
      rw [h0, Nat.zero_mul] at hl
      exact absurd hl (Nat.not_le.2 (Nat.two_pow_pos _))
    · rintro ⟨h0, _⟩
      exact Nat.le_trans (Nat.pow_le_pow_right (by decide) (by omega : 256 ≤ 8 * (s - 3))) (Nat.le_mul_of_pos_left _ (Nat.pos_of_ne_zero h0))
  · rcases Nat.lt_or_ge 33 s with h' | h'
    · have : s = 34 := by omega
      subst this
      rw [key 8 (by decide)]
      omega
    · rcases Nat.lt_or_ge 32 s with h'' | h''
      · have : s = 33 := by omega
        subst this
        rw [key 16 (by decide)]
        omega
      · constructor
        · intro hl
          have h1 : w * 2 ^ (8 * (s - 3)) < 2 ^ 23 * 2 ^ (8 * (s - 3)) := Nat.mul_lt_mul_of_pos_right hw (Nat.two_pow_pos _)
          have h2 : 2 ^ 23 * 2 ^ (8 * (s - 3)) ≤ 2 ^ 256 := by
            rw [← Nat.pow_add]; exact Nat.pow_le_pow_right (by decide) (by omega)
          exact absurd (Nat.lt_of_lt_of_le h1 h2) (Nat.not_lt.2 hl)
        · omega

theorem setCompact_ok (c : Nat) :
    Ok (setCompact c).1 ∧ (setCompact c).1.length = 8 ∧ val (setCompact c).1 = exact c % 2 ^ 256 ∧
    ((setCompact c).2.1 = true ↔ exact c ≠ 0 ∧ signed c) ∧ ((setCompact c).2.2 = true ↔ 2 ^ 256 ≤ exact c) := by
  have hm : c % 2 ^ 23 < 2 ^ 23 := Nat.mod_lt _ (by decide)
  unfold setCompact signed
  dsimp only
  rw [Nat.shiftRight_eq_div_pow, and_low, decide_eq_true_iff, decide_eq_true_iff, and_sign]
  by_cases hs : c / 2 ^ 24 ≤ 3
  · rw [if_pos hs, if_pos hs, Nat.shiftRight_eq_div_pow, ← exact_small hs]
    have hlt : exact c < 2 ^ 23 := by
      rw [exact_small hs]; exact Nat.lt_of_le_of_lt (Nat.div_le_self _ _) hm
    obtain ⟨u1, u2, u3⟩ := ofU64_ok (b := exact c) (by omega)
    have h256 : exact c < 2 ^ 256 := Nat.lt_of_lt_of_le hlt (Nat.pow_le_pow_right (by decide) (by decide))
    refine ⟨u1, u2, by rw [u3, Nat.mod_eq_of_lt h256], Iff.rfl, ?_⟩
    constructor
    · omega
    · intro h; exact absurd h256 (Nat.not_lt.2 h)
  · have hs' : 3 < c / 2 ^ 24 := by omega
    rw [if_neg hs, if_neg hs, exact_large hs']
    obtain ⟨u1, u2, u3⟩ := ofU64_ok (b := c % 2 ^ 23) (by omega)
    obtain ⟨s1, s2, s3⟩ := shl_ok u1 (8 * (c / 2 ^ 24 - 3))
    refine ⟨s1, s2, by rw [s3, u3], ?_, (pow_big hm hs').symm⟩
    have : c % 2 ^ 23 * 2 ^ (8 * (c / 2 ^ 24 - 3)) ≠ 0 ↔ c % 2 ^ 23 ≠ 0 := by
      rw [Ne, Nat.mul_eq_zero]
      have := Nat.two_pow_pos (8 * (c / 2 ^ 24 - 3))
      omega
    rw [this]

/-- The mantissa of a number of `b` bits. -/
def mant (v s : Nat) : Nat := v * 2 ^ 24 / 2 ^ (8 * s)

theorem mant_lt {v s k : Nat} (hv : v < 2 ^ k) (hk : k ≤ 8 * s) : mant v s < 2 ^ (24 - (8 * s - k)) ∨ 24 < 8 * s - k := by
  rcases Nat.lt_or_ge 24 (8 * s - k) with h | h
  · exact Or.inr h
  · left
    rw [mant, Nat.div_lt_iff_lt_mul (Nat.two_pow_pos _), ← Nat.pow_add, show 24 - (8 * s - k) + 8 * s = k + 24 by omega, Nat.pow_add]
    exact Nat.mul_lt_mul_of_pos_right hv (Nat.two_pow_pos _)

theorem and_high {m : Nat} (h : m < 2 ^ 23) : m &&& (W - 1 - 0x7fffff) = 0 := by
  apply Nat.eq_of_testBit_eq
  intro i
  rw [Nat.testBit_and, Nat.zero_testBit, show W - 1 - 0x7fffff = 2 ^ 23 * 511 by decide, Nat.testBit_two_pow_mul]
  by_cases hi : 23 ≤ i
  · rw [Nat.testBit_lt_two_pow (Nat.lt_of_lt_of_le h (Nat.pow_le_pow_right (by decide) hi)), Bool.false_and]
  · rw [decide_eq_false (show ¬ i ≥ 23 from hi), Bool.false_and, Bool.and_false]

/-- The last lines of `GetCompact`. -/
def pack (m s : Nat) (negative : Bool) : Option Nat :=
  if m &&& (W - 1 - 0x7fffff) = 0 ∧ s < 256 then
    let c := m ||| (s <<< 24) % W
    some (c ||| (if negative ∧ c &&& 0x7fffff ≠ 0 then 0x800000 else 0))
  else none

theorem pack_ok {m s : Nat} (negative : Bool) (hm : m < 2 ^ 23) (hs : s < 256) :
    pack m s negative = some (s * 2 ^ 24 + (if negative = true ∧ m ≠ 0 then 2 ^ 23 else 0) + m) := by
  unfold pack
  have e : m ||| (s <<< 24) % W = 2 ^ 24 * s + m := by
    rw [Nat.shiftLeft_eq, Nat.mod_eq_of_lt (by unfold W; omega), Nat.or_comm, Nat.mul_comm, Nat.two_pow_add_eq_or_of_lt (by omega)]
  rw [if_pos ⟨and_high hm, hs⟩]
  dsimp only
  rw [e, and_low, show (2 ^ 24 * s + m) % 2 ^ 23 = m by omega]
  by_cases h : negative = true ∧ m ≠ 0
  · rw [if_pos h, if_pos h, show 2 ^ 24 * s + m = 2 ^ 24 * s + m from rfl]
    have e1 : 2 ^ 24 * s + m = 2 ^ 24 * s ||| m := Nat.two_pow_add_eq_or_of_lt (by omega) _
    have e2 : m ||| 0x800000 = 2 ^ 23 + m := by
      rw [Nat.or_comm, show (0x800000 : Nat) = 2 ^ 23 * 1 by decide, ← Nat.two_pow_add_eq_or_of_lt hm, Nat.mul_one]
    rw [e1, Nat.or_assoc, e2, ← Nat.two_pow_add_eq_or_of_lt (by omega)]
    congr 1
    omega
  · rw [if_neg h, if_neg h, Nat.or_zero]
    congr 1
    omega

theorem getCompact_ok {a : List Nat} (negative : Bool) (ha : Ok a) (la : a.length = 8) :
    getCompact a negative = pack (mant (val a) (if val a = 0 then 0 else bits a / 8 + 1)) (if val a = 0 then 0 else bits a / 8 + 1) negative ∧
    mant (val a) (if val a = 0 then 0 else bits a / 8 + 1) < 2 ^ 23 ∧ bits a / 8 + 1 < 256 := by
  obtain ⟨b1, b2, b3⟩ := bits_ok ha
  rw [la] at b1
  have hle8 : bits a ≤ 8 * ((bits a + 7) / 8) := by omega
  -- the first value of the mantissa
  have hc : (if (bits a + 7) / 8 ≤ 3 then (low64 a <<< (8 * (3 - (bits a + 7) / 8))) % W
      else low64 (shr a (8 * ((bits a + 7) / 8 - 3))) % W) = mant (val a) ((bits a + 7) / 8) := by
    have hm : mant (val a) ((bits a + 7) / 8) < 2 ^ 24 := by
      rcases mant_lt b2 hle8 with h | h
      · exact Nat.lt_of_lt_of_le h (Nat.pow_le_pow_right (by decide) (by omega))
      · omega
    split
    · rename_i h
      have hv : val a < 2 ^ 64 := Nat.lt_of_lt_of_le b2 (Nat.pow_le_pow_right (by decide) (by omega))
      have e : mant (val a) ((bits a + 7) / 8) = val a * 2 ^ (8 * (3 - (bits a + 7) / 8)) := by
        have : (2 : Nat) ^ 24 = 2 ^ (8 * (3 - (bits a + 7) / 8)) * 2 ^ (8 * ((bits a + 7) / 8)) := by
          rw [← Nat.pow_add]; congr 1; omega
        unfold mant
        conv => lhs; arg 1; rw [this]
        rw [← Nat.mul_assoc, Nat.mul_div_cancel _ (Nat.two_pow_pos _)]
      rw [low64_ok ha, Nat.mod_eq_of_lt hv, Nat.shiftLeft_eq, ← e, Nat.mod_eq_of_lt (by unfold W; omega)]
    · rename_i h
      obtain ⟨s1, s2, s3⟩ := shr_ok ha la (8 * ((bits a + 7) / 8 - 3))
      have e : mant (val a) ((bits a + 7) / 8) = val a / 2 ^ (8 * ((bits a + 7) / 8 - 3)) := by
        have : (2 : Nat) ^ (8 * ((bits a + 7) / 8)) = 2 ^ 24 * 2 ^ (8 * ((bits a + 7) / 8 - 3)) := by
          rw [← Nat.pow_add]; congr 1; omega
        unfold mant
        rw [this, ← Nat.div_div_eq_div_mul, Nat.mul_div_cancel _ (Nat.two_pow_pos _)]
      rw [low64_ok s1, s3, ← e, Nat.mod_eq_of_lt (by omega : mant (val a) ((bits a + 7) / 8) < 2 ^ 64), Nat.mod_eq_of_lt (by unfold W; omega)]
  have hg : getCompact a negative = pack (if mant (val a) ((bits a + 7) / 8) &&& 0x800000 ≠ 0 then (mant (val a) ((bits a + 7) / 8) >>> 8, (bits a + 7) / 8 + 1)
      else (mant (val a) ((bits a + 7) / 8), (bits a + 7) / 8)).1 (if mant (val a) ((bits a + 7) / 8) &&& 0x800000 ≠ 0 then (mant (val a) ((bits a + 7) / 8) >>> 8, (bits a + 7) / 8 + 1)
      else (mant (val a) ((bits a + 7) / 8), (bits a + 7) / 8)).2 negative := by
    unfold getCompact pack
    dsimp only
    rw [hc]
  rw [hg]
  by_cases h0 : val a = 0
  · have hb0 : bits a = 0 := by
      by_contra h
      have := b3 h
      have := Nat.two_pow_pos (bits a - 1)
      omega
    rw [if_pos h0, hb0, h0]
    have hm0 : ∀ s, mant 0 s = 0 := by intro s; unfold mant; rw [Nat.zero_mul, Nat.zero_div]
    rw [hm0]
    exact ⟨rfl, by decide, by decide⟩
  · have hb0 : bits a ≠ 0 := by
      intro h; rw [h] at b2; omega
    have b3 := b3 hb0
    rw [if_neg h0]
    by_cases h8 : bits a % 8 = 0
    · have hs : (bits a + 7) / 8 = bits a / 8 := by omega
      have hge : 2 ^ 23 ≤ mant (val a) (bits a / 8) := by
        rw [mant, Nat.le_div_iff_mul_le (Nat.two_pow_pos _), ← Nat.pow_add, show 23 + 8 * (bits a / 8) = (bits a - 1) + 24 by omega, Nat.pow_add]
        exact Nat.mul_le_mul_right _ b3
      have hlt : mant (val a) (bits a / 8) < 2 ^ 24 := by
        rcases mant_lt b2 (show bits a ≤ 8 * (bits a / 8) by omega) with h | h
        · exact Nat.lt_of_lt_of_le h (Nat.pow_le_pow_right (by decide) (by omega))
        · omega
      have e : mant (val a) (bits a / 8) >>> 8 = mant (val a) (bits a / 8 + 1) := by
        rw [Nat.shiftRight_eq_div_pow, mant, mant, Nat.div_div_eq_div_mul, ← Nat.pow_add, Nat.mul_add]
      rw [hs, if_pos ((and_sign _).2 (by omega))]
      dsimp only
      rw [e]
      refine ⟨rfl, ?_, by omega⟩
      rw [← e, Nat.shiftRight_eq_div_pow]
      omega
    · have hs : (bits a + 7) / 8 = bits a / 8 + 1 := by omega
      have hlt : mant (val a) (bits a / 8 + 1) < 2 ^ 23 := by
        rcases mant_lt b2 (show bits a ≤ 8 * (bits a / 8 + 1) by omega) with h | h
        · exact Nat.lt_of_lt_of_le h (Nat.pow_le_pow_right (by decide) (by omega))
        · omega
      rw [hs, if_neg (fun h => by have := (and_sign _).1 h; omega)]
      exact ⟨rfl, hlt, by omega⟩

theorem exact_mant {v b s : Nat} (hv : v < 2 ^ b) (hb : b < 8 * s) : mant v s * 2 ^ (8 * s) / 2 ^ 24 = trunc v (s - 3) := by
  unfold mant trunc
  rcases Nat.lt_or_ge 3 s with h | h
  · have : (2 : Nat) ^ (8 * s) = 2 ^ 24 * 2 ^ (8 * (s - 3)) := by
      rw [← Nat.pow_add]; congr 1; omega
    rw [this, ← Nat.div_div_eq_div_mul, Nat.mul_div_cancel _ (Nat.two_pow_pos _), Nat.mul_comm (2 ^ 24), ← Nat.mul_assoc, Nat.mul_div_cancel _ (Nat.two_pow_pos _)]
  · have : (2 : Nat) ^ 24 = 2 ^ (8 * (3 - s)) * 2 ^ (8 * s) := by
      rw [← Nat.pow_add]; congr 1; omega
    rw [show s - 3 = 0 by omega, Nat.mul_zero, Nat.pow_zero, Nat.div_one, Nat.mul_one, this, ← Nat.mul_assoc, Nat.mul_div_cancel _ (Nat.two_pow_pos _), Nat.mul_assoc,
      Nat.mul_div_cancel _ (Nat.mul_pos (Nat.two_pow_pos _) (Nat.two_pow_pos _))]

/-! ## Bytes -/

/-- The value of bytes, lowest first. -/
def byteVal : List Nat → Nat
  | [] => 0
  | x :: l => x + 256 * byteVal l

theorem toBytes_ok : ∀ {a : List Nat}, Ok a → (toBytes a).length = 4 * a.length ∧ (∀ x ∈ toBytes a, x < 256) ∧ byteVal (toBytes a) = val a ∧ ofBytes (toBytes a) = a
  | [], _ => ⟨rfl, (by intro x hx; cases hx), rfl, rfl⟩
  | x :: a, h => by
    obtain ⟨i1, i2, i3, i4⟩ := toBytes_ok h.tail
    have hx : x < 4294967296 := h.head
    have e : toBytes (x :: a) = x % 256 :: x / 256 % 256 :: x / 65536 % 256 :: x / 16777216 % 256 :: toBytes a := rfl
    rw [e]
    refine ⟨by simp only [List.length_cons, i1]; omega, ?_, ?_, ?_⟩
    · intro y hy
      rcases List.mem_cons.1 hy with hy | hy
      · omega
      rcases List.mem_cons.1 hy with hy | hy
      · omega
      rcases List.mem_cons.1 hy with hy | hy
      · omega
      rcases List.mem_cons.1 hy with hy | hy
      · omega
      exact i2 y hy
    · simp only [byteVal, val, i3]; unfold W; omega
    · rw [ofBytes, i4]
      congr 1
      omega

theorem ofBytes_ok : ∀ (n : Nat) {l : List Nat}, l.length = 4 * n → (∀ x ∈ l, x < 256) → Ok (ofBytes l) ∧ (ofBytes l).length = n ∧ val (ofBytes l) = byteVal l ∧ toBytes (ofBytes l) = l
  | 0, l, h, _ => by
    have : l = [] := List.length_eq_zero_iff.1 h
    subst this
    exact ⟨ok_nil, rfl, rfl, rfl⟩
  | n + 1, [], h, _ => by simp at h
  | n + 1, [_], h, _ => by simp at h; omega
  | n + 1, [_, _], h, _ => by simp at h; omega
  | n + 1, [_, _, _], h, _ => by simp at h; omega
  | n + 1, b0 :: b1 :: b2 :: b3 :: l, h, hl => by
    have h0 := hl b0 (by simp)
    have h1 := hl b1 (by simp)
    have h2 := hl b2 (by simp)
    have h3 := hl b3 (by simp)
    obtain ⟨i1, i2, i3, i4⟩ := ofBytes_ok n (l := l) (by simp only [List.length_cons] at h; omega)
      (fun x hx => hl x (by simp [hx]))
    rw [ofBytes]
    refine ⟨Ok.cons (by unfold W; omega) i1, by rw [List.length_cons, i2], ?_, ?_⟩
    · simp only [byteVal, val, i3]; unfold W; omega
    · have e : ∀ x a, toBytes (x :: a) = x % 256 :: x / 256 % 256 :: x / 65536 % 256 :: x / 16777216 % 256 :: toBytes a := fun _ _ => rfl
      rw [e, i4]
      congr 1
      · omega
      congr 1
      · omega
      congr 1
      · omega
      congr 1
      omega

end Verif.Arith
