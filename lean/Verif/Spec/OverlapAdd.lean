import Mathlib.Data.Real.Basic
import Mathlib.Algebra.BigOperators.Group.Finset.Basic

/-! # Specification: windowed frames added up again -/

namespace Edsp.Spec

/-- Sample `n` of the signal put together from its windowed frames.  The frames start every `hop` samples, at 0,
`hop`, `2 hop`, …; each is multiplied by the window `w` and they are added where they overlap.  Only the frames that
start at or before `n` can contain it; beyond its length a frame contributes nothing. -/
def overlapAdd (w : List ℝ) (hop : ℕ) (x : ℕ → ℝ) (n : ℕ) : ℝ :=
  ∑ k ∈ Finset.range (n / hop + 1), w.getD (n - k * hop) 0 * x n

end Edsp.Spec
