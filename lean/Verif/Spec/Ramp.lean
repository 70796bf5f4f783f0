import Verif.Spec.Polarity

/-! # Specification: ramps, the signals that change at a constant speed -/

namespace Edsp.Spec

/-- The signal with the value `β` at sample 0 that rises by `α` per sample. -/
def ramp (α β : ℝ) : ℕ → ℝ := fun n => α * n + β

/-- The device answers every ramp with the same ramp, `g` times as high and `τ` samples late
(early, if `τ` is negative). -/
def DelaysRamps (filt : List ℝ → List ℝ) (g τ : ℝ) : Prop :=
  ∀ α β, Answers filt (ramp α β) fun n => g * (α * (n - τ) + β)

end Edsp.Spec
