import Mathlib.Analysis.Complex.Basic
import Mathlib.Algebra.BigOperators.Group.Finset.Basic

/-! # Specification: rational transfer functions and difference equations of any order -/

namespace Edsp.Spec

/-- `Σ c_m z^{-m}`. -/
noncomputable def polyAt (c : List ℝ) (z : ℂ) : ℂ := ∑ m ∈ Finset.range c.length, (c.getD m 0 : ℂ) * (z⁻¹) ^ m

/-- Two-sided signals `x`, `y` satisfy `Σ a_m y[t-m] = Σ b_m x[t-m]` at every time `t`. -/
def Recursion (b a : List ℝ) (x y : ℤ → ℂ) : Prop :=
  ∀ t : ℤ, ∑ m ∈ Finset.range a.length, (a.getD m 0 : ℂ) * y (t - m) =
    ∑ m ∈ Finset.range b.length, (b.getD m 0 : ℂ) * x (t - m)

end Edsp.Spec
