import Mathlib.Algebra.Order.Archimedean.Real.Basic

/-!
# Specification: agreement of non-negative numbers up to some roundings
-/

namespace Edsp.Spec

/-- `a` and `b` differ by a factor of at most `(1 + 2^-p)^k`: `k` roundings to `p` bits. -/
def Agree (p k : ℕ) (a b : ℝ) : Prop :=
  a ≤ b * (1 + (2 : ℝ) ^ (-(p : ℤ))) ^ k ∧ b ≤ a * (1 + (2 : ℝ) ^ (-(p : ℤ))) ^ k

end Edsp.Spec
