import Mathlib.Analysis.SpecialFunctions.Log.Basic
import Mathlib.Analysis.SpecialFunctions.Pow.Real

/-! # Specification: the µ-law of the documentation (mu_law_compressor.hpp 36-38, 68-70), scaled to samples up to `A` -/

namespace Edsp.Spec

/-- `F(x) = sgn(x) ln(1 + µ|x|) / ln(1 + µ)` of `x / A`, times `A`. -/
noncomputable def muLaw (A mu x : ℝ) : ℝ :=
  A * (SignType.sign x * (Real.log (1 + mu * |x / A|) / Real.log (1 + mu)))

/-- `F⁻¹(y) = sgn(y) (1/µ) ((1 + µ)^|y| - 1)` of `y / A`, times `A`. -/
noncomputable def muLawInverse (A mu y : ℝ) : ℝ :=
  A * (SignType.sign y * (1 / mu * ((1 + mu) ^ |y / A| - 1)))

end Edsp.Spec
