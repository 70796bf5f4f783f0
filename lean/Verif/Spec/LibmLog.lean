import Mathlib.Analysis.SpecialFunctions.Log.Base
import Mathlib.Analysis.SpecialFunctions.Pow.Real

/-!
# Specification: logarithms and powers of ten in a mathematical library
-/

namespace Edsp.Spec

/-- `a` is `b` up to the relative error `e`. -/
def Within (e a b : ℝ) : Prop := |a - b| ≤ e * |b|

/-- `L` is a decimal logarithm with relative error at most `e`. -/
structure LogLike (e : ℝ) (L : ℝ → ℝ) : Prop where
  near : ∀ x, 0 < x → Within e (L x) (Real.logb 10 x)

/-- `P` is the power of ten with relative error at most `e`. -/
structure PowLike (e : ℝ) (P : ℝ → ℝ) : Prop where
  near : ∀ x, Within e (P x) ((10 : ℝ) ^ x)

end Edsp.Spec
