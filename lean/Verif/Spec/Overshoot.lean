import Mathlib.Data.Real.Basic
import Mathlib.Data.List.Pairwise

/-! # Specification: filters that do not overshoot -/

namespace Edsp.Spec

/-- No output is outside an interval that contains 0 (what the filter was fed before) and all samples. -/
def KeepsRange (T : List ℝ → List ℝ) : Prop :=
  ∀ lo hi : ℝ, lo ≤ 0 → 0 ≤ hi → ∀ xs : List ℝ, (∀ x ∈ xs, lo ≤ x ∧ x ≤ hi) → ∀ y ∈ T xs, lo ≤ y ∧ y ≤ hi

/-- Samples that rise from 0 come out rising from 0. -/
def KeepsOrder (T : List ℝ → List ℝ) : Prop :=
  ∀ xs : List ℝ, (0 :: xs).Pairwise (· ≤ ·) → (0 :: T xs).Pairwise (· ≤ ·)

end Edsp.Spec
