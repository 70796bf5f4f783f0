import Mathlib.Data.Real.Basic

/-! # Specification: what a device puts out after its input has stopped -/

namespace Edsp.Spec

/-- Sample number `n` of the output after the input `xs` is over and silence is fed. -/
def after (filt : List ℝ → List ℝ) (xs : List ℝ) (n : ℕ) : ℝ :=
  (filt (xs ++ List.replicate (n + 1) 0)).getD (xs.length + n) 0

/-- After every input the device falls silent at once, or it rings on with an amplitude that is multiplied by exactly
`ρ` per sample: the outputs stay below a multiple of `ρ^n`, and of any two neighbouring outputs one is above another
multiple of `ρ^n`. -/
def RingsWith (filt : List ℝ → List ℝ) (ρ : ℝ) : Prop :=
  ∀ xs, (∀ n, after filt xs n = 0) ∨ ∃ c C : ℝ, 0 < c ∧
    ∀ n, |after filt xs n| ≤ C * ρ ^ n ∧ c * ρ ^ n ≤ max |after filt xs n| |after filt xs (n + 1)|

end Edsp.Spec
