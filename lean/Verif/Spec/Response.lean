import Verif.Model.Biquad
import Mathlib.Analysis.Complex.Basic
import Mathlib.Analysis.SpecialFunctions.Trigonometric.Basic

/-!
# Specification: frequency response of a second-order section
-/

namespace Edsp.Spec

open Complex

/-- Numerator of the transfer function at `z`. -/
noncomputable def numAt (f : Biquad ℝ) (z : ℂ) : ℂ := f.b0 + f.b1 * z⁻¹ + f.b2 * (z⁻¹) ^ 2

/-- Denominator of the transfer function at `z`. -/
noncomputable def denAt (f : Biquad ℝ) (z : ℂ) : ℂ := 1 + f.a1 * z⁻¹ + f.a2 * (z⁻¹) ^ 2

/-- The transfer function has the value `h` at `z` (and no pole there). -/
def TransferAt (f : Biquad ℝ) (z h : ℂ) : Prop := denAt f z ≠ 0 ∧ numAt f z = h * denAt f z

/-- The filter multiplies the amplitude at angular frequency `w` (radians per sample) by `g`:
`w = 0` is DC, `w = π` is the Nyquist frequency. -/
def GainAt (f : Biquad ℝ) (w g : ℝ) : Prop :=
  ∃ h : ℂ, TransferAt f (exp (w * I)) h ∧ ‖h‖ = g

end Edsp.Spec
