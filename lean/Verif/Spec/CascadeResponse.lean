import Verif.Spec.Response

/-! # Specification: frequency response of a chain of sections -/

namespace Edsp.Spec

/-- The transfer function of a chain of sections has the value `h` at `z`: the product of the
values of its sections. -/
def ChainTransferAt : List (Biquad ℝ) → ℂ → ℂ → Prop
  | [], _, h => h = 1
  | f :: fs, z, h => ∃ h₁ h₂, TransferAt f z h₁ ∧ ChainTransferAt fs z h₂ ∧ h = h₁ * h₂

/-- The chain multiplies the amplitude at angular frequency `w` by `g`. -/
def ChainGainAt (fs : List (Biquad ℝ)) (w g : ℝ) : Prop :=
  ∃ h, ChainTransferAt fs (Complex.exp (w * Complex.I)) h ∧ ‖h‖ = g

/-- The stages of a cascade through which samples pass. -/
def active (c : Cascade ℝ) : List (Biquad ℝ) := c.stages.take c.num

end Edsp.Spec
