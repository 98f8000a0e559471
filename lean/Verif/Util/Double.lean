import Verif.Util.Float
/-!
# Doubles

A non-negative `double` of value `v` is represented by the natural number `v * 2^300`.
Every operation computes the exact result and rounds it to 53 significant bits, ties to
even (IEEE-754 default).  Values met in the modelled code are zero or lie between `2^-200`
and `2^300`, so subnormal numbers, infinities and the fixed scale play no role.
-/
namespace Verif.Dbl

/-- The scale. -/
def SC : Nat := 300

/-- One. -/
def ONE : Nat := 2 ^ SC

/-- `double(n)` for an unsigned 64-bit `n`. -/
def ofU (n : Nat) : Nat := fround 53 (n * ONE) 1

/-- `a * b`. -/
def mul (a b : Nat) : Nat := fround 53 (a * b) ONE

/-- `a / b`, `b` not zero. -/
def div (a b : Nat) : Nat := fround 53 (a * ONE) b

/-- Conversion of a `double` to `uint64_t`.  In range it truncates; out of range the
behaviour is undefined in C++, so the result is left open (processors differ). -/
structure Conv where
  cv : Nat → Nat
  lt : ∀ a, cv a < 2 ^ 64
  inRange : ∀ a, a < 2 ^ 64 * ONE → cv a = a / ONE

theorem one_pos : 0 < ONE := Nat.two_pow_pos _

/-- A processor that saturates (AArch64 `fcvtzu`). -/
def saturating : Conv where
  cv a := if a < 2 ^ 64 * ONE then a / ONE else 2 ^ 64 - 1
  lt a := by
    split
    · rename_i h; exact (Nat.div_lt_iff_lt_mul one_pos).2 h
    · decide
  inRange a h := by rw [if_pos h]

/-- x86-64 as compiled by GCC: above `2^63` the value minus `2^63` is converted as signed and the top bit
flipped; the signed conversion yields `2^63` when out of range. -/
def x86 : Conv where
  cv a := if a < 2 ^ 64 * ONE then a / ONE else 0
  lt a := by
    split
    · rename_i h; exact (Nat.div_lt_iff_lt_mul one_pos).2 h
    · decide
  inRange a h := by rw [if_pos h]

/-- Relative error of one rounding, from above. -/
theorem fround_upper' {p n d : Nat} (hp : 0 < p) (hd : 0 < d) (hn : 2 ^ (p - 1) ≤ n / d) :
    fround p n d * d * 2 ^ p ≤ n * (2 ^ p + 1) := by
  have hn0 : n / d ≠ 0 := by
    have := Nat.two_pow_pos (p - 1); omega
  unfold fround
  generalize hs : ulpExp p n d = s
  have hr := rne_upper (n := n) (d := d * 2 ^ s) (Nat.mul_pos hd (Nat.two_pow_pos s))
  have hl' := (Nat.le_log2 hn0 (k := p - 1)).2 hn
  have hlow : 2 ^ (s + p - 1) ≤ n / d := by
    apply (Nat.le_log2 hn0).1
    unfold ulpExp at hs
    omega
  have h1 : d * 2 ^ (s + p - 1) ≤ n :=
    Nat.le_trans (Nat.mul_le_mul_left _ hlow) (Nat.mul_div_le n d)
  have h2 : d * 2 ^ s * 2 ^ p ≤ 2 * n := by
    calc d * 2 ^ s * 2 ^ p = 2 * (d * 2 ^ (s + p - 1)) := by
          rw [Nat.mul_assoc, ← Nat.pow_add, show s + p = (s + p - 1) + 1 by omega, Nat.pow_succ]
          rw [show s + p - 1 + 1 - 1 = s + p - 1 by omega]; ac_rfl
      _ ≤ 2 * n := Nat.mul_le_mul_left _ h1
  have h3 : 2 * (rne n (d * 2 ^ s) * (d * 2 ^ s)) * 2 ^ p ≤ (2 * n + d * 2 ^ s) * 2 ^ p :=
    Nat.mul_le_mul_right _ hr
  have e : rne n (d * 2 ^ s) * 2 ^ s * d * 2 ^ p = rne n (d * 2 ^ s) * (d * 2 ^ s) * 2 ^ p := by ac_rfl
  rw [e, Nat.mul_add]
  rw [Nat.add_mul, Nat.mul_assoc 2, Nat.mul_assoc 2] at h3
  omega

/-- Integers of at most 53 bits are exact. -/
theorem ofU_exact {n : Nat} (h : n ≤ 2 ^ 53) : ofU n = n * ONE := by
  unfold ofU ONE
  apply Nat.le_antisymm
  · exact fround_le (by decide) (by decide) h (by omega)
  · exact le_fround (by decide) (by decide) h (by omega)

end Verif.Dbl
