import Mathlib.Data.Int.Log
import Mathlib.Algebra.Order.Archimedean.Real.Basic
import Mathlib.Algebra.Ring.Parity

/-!
# Specification: binary floating point numbers

IEEE 754 arithmetic with `p` significant bits (24 for `float`, 53 for `double`), rounding to nearest, ties to even.
Every operation returns the rounded exact result.  The exponents are not bounded: no overflow, no underflow.
-/

namespace Edsp.Spec

/-- The integer nearest to `x`, the even one of two at the same distance. -/
noncomputable def nearestEven (x : ℝ) : ℤ :=
  if x - ⌊x⌋ < 1 / 2 then ⌊x⌋
  else if 1 / 2 < x - ⌊x⌋ then ⌊x⌋ + 1
  else if Even ⌊x⌋ then ⌊x⌋ else ⌊x⌋ + 1

/-- The distance of neighbouring numbers with `p` bits around `x`. -/
noncomputable def ulp (p : ℕ) (x : ℝ) : ℝ := 2 ^ (Int.log 2 |x| - (p : ℤ) + 1)

/-- The number with `p` significant bits that stands for `x`. -/
noncomputable def rnd (p : ℕ) (x : ℝ) : ℝ := if x = 0 then 0 else nearestEven (x / ulp p x) * ulp p x

/-- `x` has `p` significant bits. -/
def IsFloat (p : ℕ) (x : ℝ) : Prop := ∃ m k : ℤ, |m| < 2 ^ p ∧ x = m * 2 ^ k

/-- `x` is an integer multiple of 2^k, of at most `M` units (such as samples of `M` levels). -/
def Grid (k : ℤ) (M : ℕ) (x : ℝ) : Prop := ∃ z : ℤ, |z| ≤ M ∧ x = z * 2 ^ k

end Edsp.Spec
