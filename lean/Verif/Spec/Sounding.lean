import Mathlib.Data.Real.Basic

/-! # Specification: the samples that are not zero -/

namespace Edsp.Spec

/-- The samples that are not zero, in order. -/
noncomputable def sounding (xs : List ℝ) : List ℝ := xs.filter fun x => decide (x ≠ 0)

end Edsp.Spec
