import Verif.Cdp.Hist
import Verif.Util.DoubleQ
/-! The collateral ratio in floating point and in exact arithmetic. -/
namespace Verif.Cdp

open Verif.Account Verif.Ledger Verif.Dbl

/-- Value of the collateral at the price, over the debt, times `RATIO_BOOST`: what the code computes in doubles. -/
def ratioQ (staked owed price : Nat) : ℚ := (staked : ℚ) * price / PB / owed * RB

/-- The collateral covers `start / RATIO_BOOST` times the debt, up to the rounding error `δ = 2^-47`. -/
def Covers (staked owed price start : Nat) : Prop :=
  (start : ℚ) * owed * PB ≤ (staked : ℚ) * price * RB * (1 + δ)

theorem fround_zero (d : Nat) (hd : 0 < d) : fround 53 0 d = 0 := by
  have := fround_le (p := 53) (n := 0) (d := d) (m := 0) (t := 0) (by decide) hd (by decide) (by omega)
  omega

theorem ofU_zero : ofU 0 = 0 := by unfold ofU; rw [Nat.zero_mul]; exact fround_zero 1 (by decide)

theorem mul_zero_left (b : Nat) : mul 0 b = 0 := by unfold mul; rw [Nat.zero_mul]; exact fround_zero _ one_pos
theorem mul_zero_right (b : Nat) : mul b 0 = 0 := by unfold mul; rw [Nat.mul_zero]; exact fround_zero _ one_pos
theorem div_zero_left {b : Nat} (hb : 0 < b) : div 0 b = 0 := by unfold div; rw [Nat.zero_mul]; exact fround_zero _ hb
theorem cv_zero (k : Conv) : k.cv 0 = 0 := by rw [k.inRange 0 (Nat.mul_pos (by decide) one_pos)]; simp

theorem ofU_pos {n : Nat} (h : 0 < n) : 0 < ofU n := by
  have h1 := (near_ofU n).1
  have h2 : (0 : ℚ) < n := by exact_mod_cast h
  have h3 : 0 < 1 - ε := by linarith [eps_lt]
  have h4 : 0 < val (ofU n) := lt_of_lt_of_le (by rw [pow_one]; positivity) h1
  rcases Nat.eq_zero_or_pos (ofU n) with h | h
  · rw [h] at h4; unfold val at h4; simp at h4
  · exact h

theorem PB_exact : Near 0 (ofU PB) (PB : Nat) := near_exact (by decide)
theorem RB_exact : Near 0 (ofU RB) (RB : Nat) := near_exact (by decide)

theorem qpos {n : Nat} (h : 0 < n) : (1 : ℚ) ≤ n := by exact_mod_cast h
theorem qlt {n m : Nat} (h : n < m) : (n : ℚ) < m := by exact_mod_cast h

theorem PBq : ((PB : Nat) : ℚ) = 100000000 := by unfold PB; norm_num
theorem RBq : ((RB : Nat) : ℚ) = 10000 := by unfold RB; norm_num

/-- The double computed by `CalcCollateralRatio`. -/
theorem calc_near {a s p : Nat} (ha : 0 < a) (hp : 0 < p) (hs : 0 < s) (hs' : s < 2 ^ 64) :
    Near 8 (mul (div (div (mul (ofU a) (ofU p)) (ofU PB)) (ofU s)) (ofU RB)) (ratioQ a s p) := by
  have a1 := qpos ha
  have p1 := qpos hp
  have s1 := qpos hs
  have s2 : (s : ℚ) < 2 ^ 64 := by exact_mod_cast hs'
  have ap : (1 : ℚ) ≤ a * p := by nlinarith
  have n1 := near_mul (near_ofU a) (near_ofU p) (by linarith) (by linarith) (by decide) (by
    calc (1 : ℚ) / 2 ^ 200 ≤ 1 := by norm_num
      _ ≤ _ := ap)
  have t2 : (1 : ℚ) / 100000000 ≤ a * p / PB := by rw [PBq]; gcongr
  have n2 := near_div n1 PB_exact (by positivity) (by rw [PBq]; norm_num) (by decide) (by
    calc (1 : ℚ) / 2 ^ 200 ≤ 1 / 100000000 := by norm_num
      _ ≤ _ := t2)
  have t3 : (1 : ℚ) / 100000000 / 2 ^ 64 ≤ (a : ℚ) * p / PB / s := by
    have : (0 : ℚ) < s := by linarith
    calc (1 : ℚ) / 100000000 / 2 ^ 64 ≤ (a : ℚ) * p / PB / 2 ^ 64 := by gcongr
      _ ≤ (a : ℚ) * p / PB / s := by
        have : (0 : ℚ) ≤ (a : ℚ) * p / PB := le_trans (by norm_num) t2
        gcongr
  have n3 := near_div n2 (near_ofU s) (le_trans (by norm_num) t2) (by linarith) (by decide) (by
    calc (1 : ℚ) / 2 ^ 200 ≤ 1 / 100000000 / 2 ^ 64 := by norm_num
      _ ≤ _ := t3)
  have n4 := near_mul n3 RB_exact (le_trans (by norm_num) t3) (by rw [RBq]; norm_num) (by decide) (by
    rw [RBq]
    calc (1 : ℚ) / 2 ^ 200 ≤ 1 / 100000000 / 2 ^ 64 * 10000 := by norm_num
      _ ≤ _ := by gcongr)
  exact n4

theorem ratioQ_pos {a s p : Nat} : 0 ≤ ratioQ a s p := by unfold ratioQ; positivity

theorem covers_of_ratio {a s p start : Nat} (hs : 0 < s) (h : (start : ℚ) ≤ ratioQ a s p * (1 + δ)) : Covers a s p start := by
  have s1 : (0 : ℚ) < s := by exact_mod_cast hs
  unfold Covers
  unfold ratioQ at h
  have hp : (0 : ℚ) < PB := by rw [PBq]; norm_num
  calc (start : ℚ) * s * PB ≤ (a * p / PB / s * RB * (1 + δ)) * s * PB := by gcongr
    _ = _ := by field_simp

/-- Whatever out of range conversions yield, the check admits only covered debts. -/
theorem calcRatio_covers (k : Conv) {a s p start : Nat} (hs' : s < 2 ^ 64) (hst : start < 2 ^ 64)
    (h : start ≤ calcRatio k a s p) : Covers a s p start := by
  have hd : (0 : ℚ) ≤ 1 + δ := by unfold δ; norm_num
  rcases Nat.eq_zero_or_pos start with rfl | h0
  · unfold Covers; simp only [Nat.cast_zero, zero_mul]; positivity
  · rcases Nat.eq_zero_or_pos s with rfl | hs
    · unfold Covers; simp only [Nat.cast_zero, mul_zero, zero_mul]; positivity
    · unfold calcRatio at h
      rw [if_neg (by omega)] at h
      have hPB := ofU_pos (n := PB) (by decide)
      rcases Nat.eq_zero_or_pos a with rfl | ha
      · rw [ofU_zero, mul_zero_left, div_zero_left hPB, div_zero_left (ofU_pos hs), mul_zero_left, cv_zero] at h; omega
      · rcases Nat.eq_zero_or_pos p with rfl | hp
        · rw [ofU_zero, mul_zero_right, div_zero_left hPB, div_zero_left (ofU_pos hs), mul_zero_left, cv_zero] at h; omega
        · have hn := near_le (calc_near ha hp hs hs') (by decide) ratioQ_pos
          exact covers_of_ratio hs (le_trans (le_of_cv k hst h) hn.2)

/-- A debt covered with some margin passes the check, as long as the ratio fits in 64 bits. -/
theorem calcRatio_complete (k : Conv) {a s p start : Nat} (ha : 0 < a) (hp : 0 < p) (hs : 0 < s) (hs' : s < 2 ^ 64)
    (h : (start : ℚ) ≤ ratioQ a s p * (1 - δ)) (hr : ratioQ a s p * (1 + δ) < 2 ^ 64) : start ≤ calcRatio k a s p := by
  have hn := near_le (calc_near ha hp hs hs') (by decide) ratioQ_pos
  unfold calcRatio
  rw [if_neg (by omega)]
  have hc := cv_eq k (lt_of_le_of_lt hn.2 hr)
  have : (start : ℚ) < k.cv (mul (div (div (mul (ofU a) (ofU p)) (ofU PB)) (ofU s)) (ofU RB)) + 1 :=
    lt_of_le_of_lt (le_trans h hn.1) hc.2
  have h2 : start < k.cv (mul (div (div (mul (ofU a) (ofU p)) (ofU PB)) (ofU s)) (ofU RB)) + 1 := by exact_mod_cast this
  omega

/-- `collateral_ratio_base`. -/
theorem base_near {c : Cdp} (h1 : 0 < c.staked) (h2 : 0 < c.owed) (h3 : c.owed < 2 ^ 64) :
    Near 4 c.base ((c.staked : ℚ) / c.owed) := by
  unfold Cdp.base
  rw [if_neg (by omega), if_neg (by omega)]
  have a1 := qpos h1
  have s1 := qpos h2
  have s2 : (c.owed : ℚ) < 2 ^ 64 := by exact_mod_cast h3
  exact near_div (near_ofU _) (near_ofU _) (by linarith) (by linarith) (by decide) (by
    have : (0 : ℚ) < c.owed := by linarith
    calc (1 : ℚ) / 2 ^ 200 ≤ 1 / 2 ^ 64 := by norm_num
      _ ≤ (c.staked : ℚ) / 2 ^ 64 := by gcongr
      _ ≤ (c.staked : ℚ) / c.owed := by gcongr)

theorem price_near {p : Nat} (hp : 0 < p) : Near 2 (div (ofU p) (ofU PB)) ((p : ℚ) / PB) := by
  have p1 := qpos hp
  exact near_div (near_ofU p) PB_exact (by linarith) (by rw [PBq]; norm_num) (by decide) (by
    rw [PBq]
    calc (1 : ℚ) / 2 ^ 200 ≤ 1 / 100000000 := by norm_num
      _ ≤ _ := by gcongr)

/-- The double computed by `GetCollateralRatio`. -/
theorem ratio_near {c : Cdp} {p : Nat} (h1 : 0 < c.staked) (h2 : 0 < c.owed) (h3 : c.owed < 2 ^ 64) (hp : 0 < p) :
    Near 8 (mul (mul (div (ofU p) (ofU PB)) c.base) (ofU RB)) (ratioQ c.staked c.owed p) := by
  have a1 := qpos h1
  have s1 := qpos h2
  have p1 := qpos hp
  have s2 : (c.owed : ℚ) < 2 ^ 64 := by exact_mod_cast h3
  have s3 : (0 : ℚ) < c.owed := by linarith
  have t1 : (1 : ℚ) / 100000000 / 2 ^ 64 ≤ p / PB * (c.staked / c.owed) := by
    rw [PBq]
    calc (1 : ℚ) / 100000000 / 2 ^ 64 = 1 / 100000000 * (1 / 2 ^ 64) := by ring
      _ ≤ (p : ℚ) / 100000000 * ((c.staked : ℚ) / c.owed) := by
        have : (1 : ℚ) / 2 ^ 64 ≤ (c.staked : ℚ) / c.owed := by gcongr
        gcongr
  have n1 := near_mul (price_near hp) (base_near h1 h2 h3) (by positivity) (by positivity) (by decide) (by
    calc (1 : ℚ) / 2 ^ 200 ≤ 1 / 100000000 / 2 ^ 64 := by norm_num
      _ ≤ _ := t1)
  have n2 := near_mul n1 RB_exact (by positivity) (by rw [RBq]; norm_num) (by decide) (by
    rw [RBq]
    calc (1 : ℚ) / 2 ^ 200 ≤ 1 / 100000000 / 2 ^ 64 * 10000 := by norm_num
      _ ≤ _ := by gcongr)
  have e : ratioQ c.staked c.owed p = p / PB * (c.staked / c.owed) * RB := by unfold ratioQ; ring
  rw [e]; exact n2

theorem maxU_val : (9223372036854775808 : ℚ) ≤ val (ofU MAXU) := by
  have := (near_le (near_ofU MAXU) (by decide) (by positivity)).1
  have e : ((MAXU : Nat) : ℚ) = 18446744073709551615 := by unfold MAXU; norm_num
  rw [e] at this
  have : (9223372036854775808 : ℚ) ≤ 18446744073709551615 * (1 - δ) := by unfold δ; norm_num
  linarith

/-- A ratio of at least `start` means the debt is covered. -/
theorem ratio_covers (k : Conv) {c : Cdp} {p start : Nat} (h3 : c.owed < 2 ^ 64) (hp : 0 < p) (hst : start ≤ 2 ^ 40)
    (h : start ≤ c.ratio k p) : Covers c.staked c.owed p start := by
  have hd : (0 : ℚ) ≤ 1 + δ := by unfold δ; norm_num
  rcases Nat.eq_zero_or_pos start with rfl | h0
  · unfold Covers; simp only [Nat.cast_zero, zero_mul]; positivity
  · rcases Nat.eq_zero_or_pos c.owed with ho | hs
    · unfold Covers; rw [ho]; simp only [Nat.cast_zero, mul_zero, zero_mul]; positivity
    · rcases Nat.eq_zero_or_pos c.staked with ha | ha
      · exfalso
        unfold Cdp.ratio at h
        have hb : c.base = 0 := by unfold Cdp.base; rw [if_neg (by omega), if_pos (Or.inl ha)]
        have := ofU_pos (n := MAXU) (by decide)
        rw [hb, if_neg (by omega), mul_zero_right, mul_zero_left, cv_zero] at h
        omega
      · unfold Cdp.ratio at h
        split at h
        · rename_i hb
          have n1 := near_le (base_near ha hs h3) (by decide) (by positivity)
          rw [hb] at n1
          have hm := maxU_val
          apply covers_of_ratio hs
          have p1 := qpos hp
          have hb2 : (9223372036854775808 : ℚ) ≤ c.staked / c.owed * (1 + δ) := le_trans hm n1.2
          have e : ratioQ c.staked c.owed p * (1 + δ) = (p : ℚ) * (c.staked / c.owed * (1 + δ)) * (RB / PB) := by unfold ratioQ; ring
          rw [e, PBq, RBq]
          have hs40 : (start : ℚ) ≤ 2 ^ 40 := by exact_mod_cast hst
          calc (start : ℚ) ≤ 2 ^ 40 := hs40
            _ ≤ 1 * 9223372036854775808 * (10000 / 100000000) := by norm_num
            _ ≤ _ := by gcongr
        · have n1 := near_le (ratio_near ha hs h3 hp) (by decide) ratioQ_pos
          have : start < 2 ^ 64 := by omega
          exact covers_of_ratio hs (le_trans (le_of_cv k this h) n1.2)

/-- A ratio that fits in 64 bits is computed right. -/
theorem ratio_le (k : Conv) {c : Cdp} {p lim : Nat} (h1 : 0 < c.staked) (h2 : 0 < c.owed) (h3 : c.owed < 2 ^ 64) (hp : 0 < p)
    (hr : ratioQ c.staked c.owed p * (1 + δ) < 2 ^ 64) (hl : lim < MAXU) (h : c.ratio k p ≤ lim) :
    ratioQ c.staked c.owed p * (1 - δ) < lim + 1 := by
  have n1 := near_le (ratio_near h1 h2 h3 hp) (by decide) ratioQ_pos
  unfold Cdp.ratio at h
  split at h
  · omega
  · have hc := cv_eq k (lt_of_le_of_lt n1.2 hr)
    have : (k.cv (mul (mul (div (ofU p) (ofU PB)) c.base) (ofU RB)) : ℚ) ≤ lim := by exact_mod_cast h
    linarith

theorem ratio_gt (k : Conv) {c : Cdp} {p lim : Nat} (h1 : 0 < c.staked) (h2 : 0 < c.owed) (h3 : c.owed < 2 ^ 64) (hp : 0 < p)
    (hb : c.base ≠ ofU MAXU) (h : lim < c.ratio k p) : (lim : ℚ) + 1 ≤ ratioQ c.staked c.owed p * (1 + δ) := by
  have n1 := near_le (ratio_near h1 h2 h3 hp) (by decide) ratioQ_pos
  unfold Cdp.ratio at h
  rw [if_neg hb] at h
  have := k.lt (mul (mul (div (ofU p) (ofU PB)) c.base) (ofU RB))
  have h' := le_of_cv k (s := lim + 1) (by omega) h
  push_cast at h'
  linarith

end Verif.Cdp
