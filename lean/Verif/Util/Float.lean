/-!
# Binary floating point on non-negative numbers

IEEE-754 round-to-nearest-even to `p` significant bits, for values inside the normal
exponent range, as a function on rationals `n / d`.  Values with a fractional part are
represented scaled by a power of two chosen by the caller, so results are naturals.
-/
namespace Verif

/-- Nearest integer to `n / d`, ties to even. -/
def rne (n d : Nat) : Nat :=
  if 2 * (n % d) < d then n / d
  else if d < 2 * (n % d) then n / d + 1
  else n / d + (n / d) % 2

/-- Exponent of the last place of a `p`-bit float near `n / d`. -/
def ulpExp (p n d : Nat) : Nat := Nat.log2 (n / d) + 1 - p

/-- `n / d` rounded to `p` significant bits (`24` for `float`, `53` for `double`); the
value must be at least `2^(p-1)` or an integer. -/
def fround (p n d : Nat) : Nat := rne n (d * 2 ^ ulpExp p n d) * 2 ^ ulpExp p n d

theorem rne_le {n d k : Nat} (hd : 0 < d) (h : n ≤ k * d) : rne n d ≤ k := by
  have hk : n / d ≤ k := Nat.div_le_of_le_mul (by rw [Nat.mul_comm]; exact h)
  have key : n / d = k → n % d = 0 := by
    intro e
    have := Nat.div_add_mod n d
    rw [e, Nat.mul_comm] at this
    omega
  unfold rne
  by_cases e : n / d = k
  · rw [key e]; simp [hd]; omega
  · split
    · omega
    · split
      · omega
      · have : n / d % 2 < 2 := Nat.mod_lt _ (by decide)
        omega

theorem le_rne {n d k : Nat} (hd : 0 < d) (h : k * d ≤ n) : k ≤ rne n d := by
  have hk : k ≤ n / d := (Nat.le_div_iff_mul_le hd).2 h
  unfold rne
  split
  · exact hk
  · split <;> omega

/-- Rounding error of `rne` is at most one half. -/
theorem rne_upper {n d : Nat} (hd : 0 < d) : 2 * (rne n d * d) ≤ 2 * n + d := by
  have h := Nat.div_add_mod n d
  have hlt := Nat.mod_lt n hd
  generalize hq : n / d = q at *
  generalize hr : n % d = r at *
  have e : rne n d ≤ q ∨ (rne n d = q + 1 ∧ d ≤ 2 * r) := by
    unfold rne
    rw [hq, hr]
    split
    · left; omega
    · split
      · right; omega
      · have : q % 2 < 2 := Nat.mod_lt _ (by decide)
        by_cases h2 : q % 2 = 0
        · left; omega
        · right; omega
  rcases e with e | ⟨e, h2⟩
  · have : rne n d * d ≤ q * d := Nat.mul_le_mul_right _ e
    rw [Nat.mul_comm d q] at h
    omega
  · rw [e, Nat.add_mul, Nat.one_mul]
    rw [Nat.mul_comm d q] at h
    omega

/-- Below `2^p`, integers are exact. -/
theorem fround_exact {p n : Nat} (hp : 0 < p) (h : n < 2 ^ p) : fround p n 1 = n := by
  have e : ulpExp p n 1 = 0 := by
    unfold ulpExp
    rw [Nat.div_one]
    by_cases h0 : n = 0
    · subst h0; simp; omega
    · have := (Nat.log2_lt h0).2 h
      omega
  unfold fround rne
  rw [e]
  simp [Nat.mod_one]

/-- Rounding never crosses a representable number upwards: if `n / d ≤ v` and `v` is a
`p`-bit number then the rounded value is at most `v`. -/
theorem fround_le {p n d m t : Nat} (hp : 0 < p) (hd : 0 < d) (hm : m ≤ 2 ^ p) (h : n ≤ m * 2 ^ t * d) :
    fround p n d ≤ m * 2 ^ t := by
  unfold fround
  generalize hs : ulpExp p n d = s
  by_cases hst : s ≤ t
  · obtain ⟨u, rfl⟩ : ∃ u, t = s + u := ⟨t - s, by omega⟩
    have : rne n (d * 2 ^ s) ≤ m * 2 ^ u := by
      apply rne_le (Nat.mul_pos hd (Nat.two_pow_pos s))
      calc n ≤ m * 2 ^ (s + u) * d := h
        _ = m * 2 ^ u * (d * 2 ^ s) := by rw [Nat.pow_add]; ac_rfl
    calc rne n (d * 2 ^ s) * 2 ^ s ≤ m * 2 ^ u * 2 ^ s := Nat.mul_le_mul_right _ this
      _ = m * 2 ^ (s + u) := by rw [Nat.pow_add]; ac_rfl
  · have hn0 : n / d ≠ 0 := by
      intro e
      unfold ulpExp at hs
      rw [e] at hs
      simp at hs
      omega
    have hlow : 2 ^ (s + p - 1) ≤ n / d := by
      apply (Nat.le_log2 hn0).1
      unfold ulpExp at hs
      omega
    have hup : n / d ≤ m * 2 ^ t := Nat.div_le_of_le_mul (by rw [Nat.mul_comm]; exact h)
    have h3 : m * 2 ^ t ≤ 2 ^ (p + t) := by rw [Nat.pow_add]; exact Nat.mul_le_mul_right _ hm
    have h4 : 2 ^ (p + t) ≤ 2 ^ (s + p - 1) := Nat.pow_le_pow_right (by decide) (by omega)
    have e1 : n / d = m * 2 ^ t := by omega
    have e2 : m * 2 ^ t = 2 ^ (s + p - 1) := by omega
    have : rne n (d * 2 ^ s) ≤ 2 ^ (p - 1) := by
      apply rne_le (Nat.mul_pos hd (Nat.two_pow_pos s))
      calc n ≤ m * 2 ^ t * d := h
        _ = 2 ^ (p - 1) * (d * 2 ^ s) := by
          rw [e2, show s + p - 1 = s + (p - 1) by omega, Nat.pow_add]; ac_rfl
    calc rne n (d * 2 ^ s) * 2 ^ s ≤ 2 ^ (p - 1) * 2 ^ s := Nat.mul_le_mul_right _ this
      _ = m * 2 ^ t := by rw [e2, show s + p - 1 = s + (p - 1) by omega, Nat.pow_add]; ac_rfl

/-- Rounding never crosses a representable number downwards. -/
theorem le_fround {p n d m t : Nat} (hp : 0 < p) (hd : 0 < d) (hm : m ≤ 2 ^ p) (h : m * 2 ^ t * d ≤ n) :
    m * 2 ^ t ≤ fround p n d := by
  unfold fround
  generalize hs : ulpExp p n d = s
  by_cases hst : s ≤ t
  · obtain ⟨u, rfl⟩ : ∃ u, t = s + u := ⟨t - s, by omega⟩
    have : m * 2 ^ u ≤ rne n (d * 2 ^ s) := by
      apply le_rne (Nat.mul_pos hd (Nat.two_pow_pos s))
      calc m * 2 ^ u * (d * 2 ^ s) = m * 2 ^ (s + u) * d := by rw [Nat.pow_add]; ac_rfl
        _ ≤ n := h
    calc m * 2 ^ (s + u) = m * 2 ^ u * 2 ^ s := by rw [Nat.pow_add]; ac_rfl
      _ ≤ _ := Nat.mul_le_mul_right _ this
  · have hn0 : n / d ≠ 0 := by
      intro e
      unfold ulpExp at hs
      rw [e] at hs
      simp at hs
      omega
    have hlow : 2 ^ (s + p - 1) ≤ n / d := by
      apply (Nat.le_log2 hn0).1
      unfold ulpExp at hs
      omega
    have h3 : m * 2 ^ t ≤ 2 ^ (p + t) := by rw [Nat.pow_add]; exact Nat.mul_le_mul_right _ hm
    have h4 : 2 ^ (p + t) ≤ 2 ^ (s + p - 1) := Nat.pow_le_pow_right (by decide) (by omega)
    have e2 : 2 ^ (s + p - 1) = 2 ^ (p - 1) * 2 ^ s := by
      rw [← Nat.pow_add]; congr 1; omega
    have : 2 ^ (p - 1) ≤ rne n (d * 2 ^ s) := by
      apply le_rne (Nat.mul_pos hd (Nat.two_pow_pos s))
      calc 2 ^ (p - 1) * (d * 2 ^ s) = d * 2 ^ (s + p - 1) := by rw [e2]; ac_rfl
        _ ≤ d * (n / d) := Nat.mul_le_mul_left _ hlow
        _ ≤ n := Nat.mul_div_le n d
    calc m * 2 ^ t ≤ 2 ^ (p - 1) * 2 ^ s := by omega
      _ ≤ _ := Nat.mul_le_mul_right _ this

/-- Relative error bound for rounding an integer: `fround p n 1 ≤ n (1 + 2^-p)`. -/
theorem fround_upper {p n : Nat} (hp : 0 < p) : fround p n 1 * 2 ^ p ≤ n * (2 ^ p + 1) := by
  unfold fround
  generalize hs : ulpExp p n 1 = s
  rw [Nat.one_mul]
  have hr := rne_upper (n := n) (d := 2 ^ s) (Nat.two_pow_pos s)
  by_cases h0 : s = 0
  · subst h0
    simp only [Nat.pow_zero, Nat.mul_one] at hr ⊢
    have : rne n 1 = n := by unfold rne; simp [Nat.mod_one]
    rw [this, Nat.mul_add]
    omega
  · have hn0 : n ≠ 0 := by
      rintro rfl
      unfold ulpExp at hs
      simp at hs
      omega
    have hlow : 2 ^ (s - 1 + p) ≤ n := by
      apply (Nat.le_log2 hn0).1
      unfold ulpExp at hs
      rw [Nat.div_one] at hs
      omega
    have e : 2 ^ s = 2 * 2 ^ (s - 1) := by rw [← Nat.pow_succ']; congr 1; omega
    have h1 : rne n (2 ^ s) * 2 ^ s ≤ n + 2 ^ (s - 1) := by omega
    calc rne n (2 ^ s) * 2 ^ s * 2 ^ p ≤ (n + 2 ^ (s - 1)) * 2 ^ p := Nat.mul_le_mul_right _ h1
      _ = n * 2 ^ p + 2 ^ (s - 1 + p) := by rw [Nat.add_mul, Nat.pow_add]
      _ ≤ n * (2 ^ p + 1) := by rw [Nat.mul_add]; omega

theorem rne_lower {n d : Nat} (hd : 0 < d) : 2 * n ≤ 2 * (rne n d * d) + d := by
  have h := Nat.div_add_mod n d
  have hlt := Nat.mod_lt n hd
  generalize hq : n / d = q at *
  generalize hr : n % d = r at *
  have e : q + 1 ≤ rne n d ∨ (q ≤ rne n d ∧ 2 * r ≤ d) := by
    unfold rne
    rw [hq, hr]
    split
    · right; omega
    · split
      · left; omega
      · right; omega
  rw [Nat.mul_comm d q] at h
  rcases e with e | ⟨e, h2⟩
  · have : (q + 1) * d ≤ rne n d * d := Nat.mul_le_mul_right _ e
    rw [Nat.add_mul, Nat.one_mul] at this
    omega
  · have : q * d ≤ rne n d * d := Nat.mul_le_mul_right _ e
    omega

/-- Relative error bound from below: `(n / d) (1 - 2^-p) ≤ fround p n d`. -/
theorem fround_lower {p n d : Nat} (hp : 0 < p) (hd : 0 < d) (hn : 2 ^ (p - 1) ≤ n / d) :
    n * 2 ^ p ≤ fround p n d * d * 2 ^ p + n := by
  have hn0 : n / d ≠ 0 := by
    have := Nat.two_pow_pos (p - 1); omega
  unfold fround
  generalize hs : ulpExp p n d = s
  have hr := rne_lower (n := n) (d := d * 2 ^ s) (Nat.mul_pos hd (Nat.two_pow_pos s))
  have hl := Nat.le_log2 hn0 (k := p - 1)
  have hl' := hl.2 hn
  have hlow : 2 ^ (s + p - 1) ≤ n / d := by
    apply (Nat.le_log2 hn0).1
    unfold ulpExp at hs
    omega
  have h1 : d * 2 ^ (s + p - 1) ≤ n :=
    Nat.le_trans (Nat.mul_le_mul_left _ hlow) (Nat.mul_div_le n d)
  have h2 : d * 2 ^ s * 2 ^ p ≤ 2 * n := by
    calc d * 2 ^ s * 2 ^ p = 2 * (d * 2 ^ (s + p - 1)) := by
          rw [Nat.mul_assoc, ← Nat.pow_add, show s + p = (s + p - 1) + 1 by omega, Nat.pow_succ]
          rw [show s + p - 1 + 1 - 1 = s + p - 1 by omega]; ac_rfl
      _ ≤ 2 * n := Nat.mul_le_mul_left _ h1
  have h3 : 2 * n * 2 ^ p ≤ (2 * (rne n (d * 2 ^ s) * (d * 2 ^ s)) + d * 2 ^ s) * 2 ^ p :=
    Nat.mul_le_mul_right _ hr
  have e : rne n (d * 2 ^ s) * 2 ^ s * d * 2 ^ p = rne n (d * 2 ^ s) * (d * 2 ^ s) * 2 ^ p := by ac_rfl
  rw [e]
  rw [Nat.add_mul, Nat.mul_assoc 2, Nat.mul_assoc 2] at h3
  omega

end Verif
