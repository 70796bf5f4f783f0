import Mathlib.Algebra.Order.Archimedean.Real.Basic

/-!
# Specification: changes of level by powers of two
-/

namespace Edsp.Spec

/-- The factor is a power of two, of any exponent and either sign. -/
def Gain (c : ℝ) : Prop := ∃ k : ℤ, c = 2 ^ k ∨ c = -2 ^ k

/-- A signal with every sample multiplied by `c`. -/
def louder (c : ℝ) (xs : List ℝ) : List ℝ := xs.map fun x => c * x

/-- 1 for a positive factor, -1 for one that turns the polarity round. -/
noncomputable def polarity (c : ℝ) : ℝ := if 0 < c then 1 else -1

end Edsp.Spec
