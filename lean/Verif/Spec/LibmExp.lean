import Verif.Spec.LibmLog
import Mathlib.Analysis.SpecialFunctions.Log.Basic

/-!
# Specification: exponentials and natural logarithms in a mathematical library
-/

namespace Edsp.Spec

/-- `L` is a natural logarithm with relative error at most `e`. -/
structure LnLike (e : ℝ) (L : ℝ → ℝ) : Prop where
  near : ∀ x, 0 < x → Within e (L x) (Real.log x)

/-- `L` is a binary logarithm with relative error at most `e`. -/
structure Log2Like (e : ℝ) (L : ℝ → ℝ) : Prop where
  near : ∀ x, 0 < x → Within e (L x) (Real.logb 2 x)

/-- `E` is the exponential function with relative error at most `e`. -/
structure ExpLike (e : ℝ) (E : ℝ → ℝ) : Prop where
  near : ∀ x, Within e (E x) (Real.exp x)

/-- `L x` is the logarithm of `1 + x` with relative error at most `e`. -/
structure Log1pLike (e : ℝ) (L : ℝ → ℝ) : Prop where
  near : ∀ x, -1 < x → Within e (L x) (Real.log (1 + x))

/-- `E x` is the exponential of `x` minus 1 with relative error at most `e`. -/
structure Expm1Like (e : ℝ) (E : ℝ → ℝ) : Prop where
  near : ∀ x, Within e (E x) (Real.exp x - 1)

end Edsp.Spec
