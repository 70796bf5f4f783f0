import Mathlib.Data.Real.Basic
import Mathlib.Algebra.BigOperators.Group.List.Basic

/-! # Specification: the energy of a frame -/

namespace Edsp.Spec

/-- The energy of a frame: the sum of the squares of its samples. -/
def frameEnergy (xs : List ℝ) : ℝ := (xs.map fun x => x ^ 2).sum

end Edsp.Spec
