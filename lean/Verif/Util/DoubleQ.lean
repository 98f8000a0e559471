import Verif.Util.Double
import Mathlib.Algebra.Order.Field.Rat
import Mathlib.Tactic.Linarith
import Mathlib.Tactic.Positivity
import Mathlib.Tactic.GCongr
import Mathlib.Tactic.FieldSimp
import Mathlib.Tactic.NormNum
import Mathlib.Tactic.Ring
import Mathlib.Data.Nat.Cast.Order.Field
/-! Relative errors of computations with doubles. -/
namespace Verif.Dbl

/-- The rational number a double stands for. -/
def val (a : Nat) : ℚ := (a : ℚ) / (ONE : ℚ)

/-- Bound on the relative error of one rounding (twice the true bound, which makes division easy to handle). -/
def ε : ℚ := 1 / 2 ^ 52

theorem eps_pos : 0 < ε := by unfold ε; norm_num
theorem eps_lt : ε < 1 := by unfold ε; norm_num

theorem oneQ_pos : (0 : ℚ) < (ONE : ℚ) := by exact_mod_cast one_pos

theorem val_nonneg (a : Nat) : 0 ≤ val a := div_nonneg (Nat.cast_nonneg _) oneQ_pos.le

theorem fround_up {n d : Nat} (hd : 0 < d) (h : 2 ^ 52 * d ≤ n) : (fround 53 n d : ℚ) ≤ n / d * (1 + ε / 2) := by
  have h' := fround_upper' (p := 53) (by decide) hd ((Nat.le_div_iff_mul_le hd).2 h)
  have hq : (fround 53 n d : ℚ) * d * 2 ^ 53 ≤ n * (2 ^ 53 + 1) := by exact_mod_cast h'
  have hd' : (0 : ℚ) < d := by exact_mod_cast hd
  rw [div_mul_eq_mul_div, le_div_iff₀ hd']
  unfold ε
  have e : (n : ℚ) * (1 + 1 / 2 ^ 52 / 2) = n * (2 ^ 53 + 1) / 2 ^ 53 := by ring
  rw [e, le_div_iff₀ (by norm_num)]
  exact hq

theorem fround_lo {n d : Nat} (hd : 0 < d) (h : 2 ^ 52 * d ≤ n) : n / d * (1 - ε / 2) ≤ (fround 53 n d : ℚ) := by
  have h' := fround_lower (p := 53) (by decide) hd ((Nat.le_div_iff_mul_le hd).2 h)
  have hq : (n : ℚ) * 2 ^ 53 ≤ fround 53 n d * d * 2 ^ 53 + n := by exact_mod_cast h'
  have hd' : (0 : ℚ) < d := by exact_mod_cast hd
  rw [div_mul_eq_mul_div, div_le_iff₀ hd']
  unfold ε
  have e : (n : ℚ) * (1 - 1 / 2 ^ 52 / 2) = (n * 2 ^ 53 - n) / 2 ^ 53 := by ring
  rw [e, div_le_iff₀ (by norm_num)]
  linarith

/-- Far below every value that occurs. -/
def tiny : ℚ := 1 / 2 ^ 248

theorem tiny_one : tiny * ONE = 2 ^ 52 := by
  unfold tiny ONE SC
  rw [Nat.cast_pow, Nat.cast_ofNat, show (300 : ℕ) = 248 + 52 by rfl, pow_add, ← mul_assoc, one_div, inv_mul_cancel₀ (pow_ne_zero _ (by norm_num)), one_mul]

theorem mul_bounds {a b : Nat} (h : tiny ≤ val a * val b) :
    val a * val b * (1 - ε / 2) ≤ val (mul a b) ∧ val (mul a b) ≤ val a * val b * (1 + ε / 2) := by
  have h1 := oneQ_pos
  have hh : 2 ^ 52 * ONE ≤ a * b := by
    have : tiny * ONE * ONE ≤ val a * val b * ONE * ONE := by gcongr
    rw [tiny_one] at this
    have e : val a * val b * ONE * ONE = (a : ℚ) * b := by unfold val; field_simp
    rw [e] at this
    exact_mod_cast this
  have up := fround_up one_pos hh
  have lo := fround_lo one_pos hh
  have e : val a * val b = ((a * b : Nat) : ℚ) / ONE / ONE := by unfold val; push_cast; field_simp
  unfold mul
  constructor
  · rw [e]
    unfold val
    rw [le_div_iff₀ h1]
    calc _ = ((a * b : Nat) : ℚ) / ONE * (1 - ε / 2) := by field_simp
      _ ≤ _ := lo
  · rw [e]
    unfold val
    rw [div_le_iff₀ h1]
    calc _ ≤ ((a * b : Nat) : ℚ) / ONE * (1 + ε / 2) := up
      _ = _ := by field_simp

theorem div_bounds {a b : Nat} (hb : 0 < val b) (h : tiny ≤ val a / val b) :
    val a / val b * (1 - ε / 2) ≤ val (div a b) ∧ val (div a b) ≤ val a / val b * (1 + ε / 2) := by
  have h1 := oneQ_pos
  have hb0 : 0 < b := by
    rcases Nat.eq_zero_or_pos b with rfl | h
    · unfold val at hb; simp at hb
    · exact h
  have hbq : (0 : ℚ) < b := by exact_mod_cast hb0
  have e : val a / val b = ((a * ONE : Nat) : ℚ) / b / ONE := by unfold val; push_cast; field_simp
  have hh : 2 ^ 52 * b ≤ a * ONE := by
    have : tiny * ONE * b ≤ val a / val b * ONE * b := by gcongr
    rw [tiny_one] at this
    have e' : val a / val b * ONE * b = ((a * ONE : Nat) : ℚ) := by rw [e]; field_simp
    rw [e'] at this
    exact_mod_cast this
  have up := fround_up hb0 hh
  have lo := fround_lo hb0 hh
  unfold div
  constructor
  · rw [e]
    unfold val
    rw [le_div_iff₀ h1]
    calc _ = ((a * ONE : Nat) : ℚ) / b * (1 - ε / 2) := by field_simp
      _ ≤ _ := lo
  · rw [e]
    unfold val
    rw [div_le_iff₀ h1]
    calc _ ≤ ((a * ONE : Nat) : ℚ) / b * (1 + ε / 2) := up
      _ = _ := by field_simp

theorem val_exact {n : Nat} (h : n ≤ 2 ^ 53) : val (ofU n) = n := by
  rw [ofU_exact h]; unfold val; push_cast
  have := oneQ_pos
  field_simp

/-- `x` is within `n` roundings of `v`. -/
def Near (n : Nat) (x : Nat) (v : ℚ) : Prop := v * (1 - ε) ^ n ≤ val x ∧ val x ≤ v * (1 + ε) ^ n

theorem near_ofU (n : Nat) : Near 1 (ofU n) n := by
  have h1 := oneQ_pos
  have he := eps_pos
  rcases Nat.eq_zero_or_pos n with rfl | hn
  · rw [Near, val_exact (by decide)]; simp
  · have hh : 2 ^ 52 * 1 ≤ n * ONE := by
      have : 2 ^ 52 ≤ ONE := by unfold ONE SC; decide
      nlinarith
    have up := fround_up (by decide) hh
    have lo := fround_lo (by decide) hh
    have hn' : (0 : ℚ) ≤ n := Nat.cast_nonneg _
    unfold Near val ofU
    rw [le_div_iff₀ h1, div_le_iff₀ h1]
    simp only [Nat.cast_mul, Nat.cast_one, div_one, pow_one] at *
    constructor
    · have : (n : ℚ) * ONE * (1 - ε) ≤ n * ONE * (1 - ε / 2) := by
        have : (0 : ℚ) ≤ n * ONE := by positivity
        nlinarith
      linarith
    · have : (n : ℚ) * ONE * (1 + ε / 2) ≤ n * ONE * (1 + ε) := by
        have : (0 : ℚ) ≤ n * ONE := by positivity
        nlinarith
      linarith

theorem near_exact {n : Nat} (h : n ≤ 2 ^ 53) : Near 0 (ofU n) n := by
  rw [Near, val_exact h]; simp

theorem pow_half {n : Nat} (hn : n ≤ 20) : (1 : ℚ) / 2 ≤ (1 - ε) ^ n := by
  have h1 : (1 - ε) ^ 20 ≤ (1 - ε) ^ n := pow_le_pow_of_le_one (by linarith [eps_lt]) (by linarith [eps_pos]) hn
  have h2 : (1 : ℚ) / 2 ≤ (1 - ε) ^ 20 := by unfold ε; norm_num
  linarith

theorem pow_two {n : Nat} (hn : n ≤ 20) : (1 + ε) ^ n ≤ 2 := by
  have h1 : (1 + ε) ^ n ≤ (1 + ε) ^ 20 := pow_le_pow_right₀ (by linarith [eps_pos]) hn
  have h2 : (1 + ε) ^ 20 ≤ (2 : ℚ) := by unfold ε; norm_num
  linarith

theorem near_mul {i j : Nat} {a b : Nat} {v w : ℚ} (ha : Near i a v) (hb : Near j b w) (hv : 0 ≤ v) (hw : 0 ≤ w)
    (hij : i + j ≤ 20) (ht : 1 / 2 ^ 200 ≤ v * w) : Near (i + j + 1) (mul a b) (v * w) := by
  have he := eps_pos
  have hl := eps_lt
  have h1 : 0 ≤ 1 - ε := by linarith
  have lo : v * w * (1 - ε) ^ (i + j) ≤ val a * val b := by
    calc v * w * (1 - ε) ^ (i + j) = (v * (1 - ε) ^ i) * (w * (1 - ε) ^ j) := by rw [pow_add]; ring
      _ ≤ val a * val b := mul_le_mul ha.1 hb.1 (by positivity) (val_nonneg _)
  have up : val a * val b ≤ v * w * (1 + ε) ^ (i + j) := by
    calc val a * val b ≤ (v * (1 + ε) ^ i) * (w * (1 + ε) ^ j) := mul_le_mul ha.2 hb.2 (val_nonneg _) (by positivity)
      _ = _ := by rw [pow_add]; ring
  have ht2 : tiny ≤ val a * val b := by
    have h2 := pow_half hij
    have h3 : 1 / 2 ^ 200 * (1 / 2) ≤ v * w * (1 - ε) ^ (i + j) := mul_le_mul ht h2 (by norm_num) (by positivity)
    have : tiny ≤ 1 / 2 ^ 200 * (1 / 2) := by unfold tiny; norm_num
    linarith
  obtain ⟨l, u⟩ := mul_bounds ht2
  have hvw : 0 ≤ v * w := mul_nonneg hv hw
  constructor
  · calc v * w * (1 - ε) ^ (i + j + 1) = v * w * (1 - ε) ^ (i + j) * (1 - ε) := by rw [pow_succ]; ring
      _ ≤ val a * val b * (1 - ε / 2) := mul_le_mul lo (by linarith) h1 (mul_nonneg (val_nonneg _) (val_nonneg _))
      _ ≤ _ := l
  · calc val (mul a b) ≤ val a * val b * (1 + ε / 2) := u
      _ ≤ v * w * (1 + ε) ^ (i + j) * (1 + ε) := mul_le_mul up (by linarith) (by linarith) (by positivity)
      _ = _ := by rw [pow_succ (1 + ε) (i + j)]; ring

theorem near_div {i j : Nat} {a b : Nat} {v w : ℚ} (ha : Near i a v) (hb : Near j b w) (hv : 0 ≤ v) (hw : 0 < w)
    (hij : i + 2 * j ≤ 20) (ht : 1 / 2 ^ 200 ≤ v / w) : Near (i + 2 * j + 1) (div a b) (v / w) := by
  have he := eps_pos
  have hl := eps_lt
  have h1 : 0 < 1 - ε := by linarith
  have hbp : 0 < val b := lt_of_lt_of_le (by positivity) hb.1
  have k1 : 1 ≤ (1 - ε) * (1 + ε) ^ 2 := by unfold ε; norm_num
  have k2 : (1 - ε) * (1 + ε) ≤ 1 := by unfold ε; norm_num
  have k1j : 1 ≤ (1 - ε) ^ j * (1 + ε) ^ (2 * j) := by
    rw [pow_mul, ← mul_pow]; exact one_le_pow₀ k1
  have k2j : (1 - ε) ^ j * (1 + ε) ^ j ≤ 1 := by
    rw [← mul_pow]; exact pow_le_one₀ (by positivity) k2
  have lo : v / w * (1 - ε) ^ (i + 2 * j) ≤ val a / val b := by
    rw [le_div_iff₀ hbp]
    calc v / w * (1 - ε) ^ (i + 2 * j) * val b ≤ v / w * (1 - ε) ^ (i + 2 * j) * (w * (1 + ε) ^ j) := by
          gcongr; exact hb.2
      _ = v * (1 - ε) ^ i * ((1 - ε) ^ j * ((1 - ε) ^ j * (1 + ε) ^ j)) := by
          rw [pow_add, two_mul, pow_add]; field_simp
      _ ≤ v * (1 - ε) ^ i * 1 := by
          have p1 : (1 - ε) ^ j ≤ 1 := pow_le_one₀ h1.le (by linarith)
          have p0 : 0 ≤ (1 - ε) ^ j := by positivity
          have p2 : 0 ≤ (1 - ε) ^ j * (1 + ε) ^ j := by positivity
          gcongr
          nlinarith
      _ ≤ val a := by rw [mul_one]; exact ha.1
  have up : val a / val b ≤ v / w * (1 + ε) ^ (i + 2 * j) := by
    rw [div_le_iff₀ hbp]
    calc val a ≤ v * (1 + ε) ^ i := ha.2
      _ = v * (1 + ε) ^ i * 1 := by ring
      _ ≤ v * (1 + ε) ^ i * ((1 - ε) ^ j * (1 + ε) ^ (2 * j)) := by gcongr
      _ = v / w * (1 + ε) ^ (i + 2 * j) * (w * (1 - ε) ^ j) := by rw [pow_add]; field_simp
      _ ≤ v / w * (1 + ε) ^ (i + 2 * j) * val b := by gcongr; exact hb.1
  have hvw : 0 ≤ v / w := div_nonneg hv hw.le
  have ht2 : tiny ≤ val a / val b := by
    have h2 := pow_half hij
    have h3 : 1 / 2 ^ 200 * (1 / 2) ≤ v / w * (1 - ε) ^ (i + 2 * j) := mul_le_mul ht h2 (by norm_num) hvw
    have : tiny ≤ 1 / 2 ^ 200 * (1 / 2) := by unfold tiny; norm_num
    linarith
  obtain ⟨l, u⟩ := div_bounds hbp ht2
  have hab : 0 ≤ val a / val b := div_nonneg (val_nonneg _) hbp.le
  constructor
  · calc v / w * (1 - ε) ^ (i + 2 * j + 1) = v / w * (1 - ε) ^ (i + 2 * j) * (1 - ε) := by rw [pow_succ]; ring
      _ ≤ val a / val b * (1 - ε / 2) := mul_le_mul lo (by linarith) h1.le hab
      _ ≤ _ := l
  · calc val (div a b) ≤ val a / val b * (1 + ε / 2) := u
      _ ≤ v / w * (1 + ε) ^ (i + 2 * j) * (1 + ε) := mul_le_mul up (by linarith) (by linarith) (by positivity)
      _ = _ := by rw [pow_succ (1 + ε) (i + 2 * j)]; ring

/-- The accumulated relative error we allow for: `2^-47`. -/
def δ : ℚ := 1 / 2 ^ 47

theorem near_le {n : Nat} {x : Nat} {v : ℚ} (h : Near n x v) (hn : n ≤ 20) (hv : 0 ≤ v) :
    v * (1 - δ) ≤ val x ∧ val x ≤ v * (1 + δ) := by
  have he := eps_pos
  have hl := eps_lt
  have h1 : (1 - ε) ^ 20 ≤ (1 - ε) ^ n := pow_le_pow_of_le_one (by linarith) (by linarith) hn
  have h2 : (1 + ε) ^ n ≤ (1 + ε) ^ 20 := pow_le_pow_right₀ (by linarith) hn
  have e1 : 1 - δ ≤ (1 - ε) ^ 20 := by unfold ε δ; norm_num
  have e2 : (1 + ε) ^ 20 ≤ 1 + δ := by unfold ε δ; norm_num
  constructor
  · calc v * (1 - δ) ≤ v * (1 - ε) ^ n := by gcongr; linarith
      _ ≤ _ := h.1
  · calc _ ≤ v * (1 + ε) ^ n := h.2
      _ ≤ v * (1 + δ) := by gcongr; linarith

/-! Conversion to integers. -/

theorem le_of_cv (k : Conv) {x s : Nat} (hs : s < 2 ^ 64) (h : s ≤ k.cv x) : (s : ℚ) ≤ val x := by
  have h1 := oneQ_pos
  unfold val
  rw [le_div_iff₀ h1]
  by_cases hx : x < 2 ^ 64 * ONE
  · rw [k.inRange x hx] at h
    have := (Nat.le_div_iff_mul_le one_pos).1 h
    exact_mod_cast this
  · have : s * ONE ≤ x := Nat.le_trans (Nat.mul_le_mul_right _ (Nat.le_of_lt hs)) (Nat.not_lt.1 hx)
    exact_mod_cast this

theorem cv_eq (k : Conv) {x : Nat} (h : val x < 2 ^ 64) : (k.cv x : ℚ) ≤ val x ∧ val x < k.cv x + 1 := by
  have h1 := oneQ_pos
  have hx : x < 2 ^ 64 * ONE := by
    unfold val at h
    rw [div_lt_iff₀ h1] at h
    exact_mod_cast h
  rw [k.inRange x hx]
  unfold val
  rw [le_div_iff₀ h1, div_lt_iff₀ h1]
  have a := Nat.div_mul_le_self x ONE
  have b : x < (x / ONE + 1) * ONE := by
    have := Nat.lt_mul_div_succ x one_pos
    rw [Nat.mul_comm]; exact this
  constructor
  · exact_mod_cast a
  · exact_mod_cast b

end Verif.Dbl
