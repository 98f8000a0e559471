/-!
# 64-bit unsigned arithmetic on `Nat`

The C++ code stores amounts in `uint64_t`. The model keeps them as `Nat` and uses the functions below
wherever the C++ adds or subtracts without checking, so that wrap-around is explicit.
-/
namespace Verif

/-- `2^64`: one more than the largest `uint64_t`. -/
def U64 : Nat := 18446744073709551616

/-- C++ `a + b` on `uint64_t` (wraps). -/
def wadd (a b : Nat) : Nat := (a + b) % U64

/-- C++ `a - b` on `uint64_t` (wraps). -/
def wsub (a b : Nat) : Nat := (a + U64 - b % U64) % U64

/-- C++ `a * b` on `uint64_t` (wraps). -/
def wmul (a b : Nat) : Nat := (a * b) % U64

theorem wadd_eq {a b : Nat} (h : a + b < U64) : wadd a b = a + b := by
  unfold wadd; exact Nat.mod_eq_of_lt h

theorem wadd_sub_cancel {x v : Nat} (h : v ≤ x) (hx : x + v < U64) : wadd (x - v) v = x := by
  rw [wadd_eq] <;> omega

theorem wadd_lt (a b : Nat) : wadd a b < U64 := Nat.mod_lt _ (by decide)

theorem wsub_eq {a b : Nat} (h : b ≤ a) (ha : a < U64) : wsub a b = a - b := by
  unfold wsub U64 at *; omega

theorem wsub_lt (a b : Nat) : wsub a b < U64 := Nat.mod_lt _ (by decide)

theorem wmul_eq {a b : Nat} (h : a * b < U64) : wmul a b = a * b := Nat.mod_eq_of_lt h

end Verif
