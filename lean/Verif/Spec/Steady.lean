import Mathlib.Analysis.SpecialFunctions.Trigonometric.Basic

/-! # Specification: sinusoids and signals that settle -/

namespace Edsp.Spec

/-- The sinusoid of amplitude `A`, angular frequency `w` (radians per sample) and phase `p`. -/
noncomputable def sinusoid (A w p : ℝ) (n : ℕ) : ℝ := A * Real.cos (w * n + p)

/-- A device that writes `out n` when fed the first `n` samples of a signal settles to `target`: it
writes one sample per sample, and the distance of its sample number `k` from `target k` decays
exponentially with `k`. -/
def SettlesTo (out : ℕ → List ℝ) (target : ℕ → ℝ) : Prop :=
  ∃ D ρ : ℝ, 0 ≤ ρ ∧ ρ < 1 ∧ ∀ n, (out n).length = n ∧
    ∀ k < n, ∃ y, (out n)[k]? = some y ∧ |y - target k| ≤ D * ρ ^ k

end Edsp.Spec
