import Mathlib.Analysis.SpecialFunctions.Trigonometric.Basic

/-!
# Specification: a mathematical library of good quality
-/

namespace Edsp.Spec

/-- `c` is a cosine for numbers with `p` bits: the error is at most 2^-p (one unit in the last place of a result near 1),
no result exceeds 1 in absolute value, and the cosine of 0 is 1. -/
structure CosLike (p : ℕ) (c : ℝ → ℝ) : Prop where
  near : ∀ x, |c x - Real.cos x| ≤ (2 : ℝ) ^ (-(p : ℤ))
  range : ∀ x, |c x| ≤ 1
  zero : c 0 = 1

/-- `s` is a sine for numbers with `p` bits: the error is at most 2^-p. -/
structure SinLike (p : ℕ) (s : ℝ → ℝ) : Prop where
  near : ∀ x, |s x - Real.sin x| ≤ (2 : ℝ) ^ (-(p : ℤ))

/-- `t` is a tangent for numbers with `p` bits: the error is at most 2·2^-p of the result (one unit in the last place). -/
structure TanLike (p : ℕ) (t : ℝ → ℝ) : Prop where
  near : ∀ x, |t x - Real.tan x| ≤ 2 * (2 : ℝ) ^ (-(p : ℤ)) * |Real.tan x|

end Edsp.Spec
