import Mathlib.Analysis.SpecialFunctions.Log.Base

/-!
# Specification of the equivalent continuous sound level

The level, in decibel, of the steady sound with the same energy: `10 log10` of the mean of the mean squares of the
frames.  Independent of the model.
-/

namespace Edsp.Spec

/-- The mean square of a frame. -/
noncomputable def meanSquare (x : List ℝ) : ℝ := (x.map fun v => v ^ 2).sum / x.length

/-- The level of a power. -/
noncomputable def decibel (p : ℝ) : ℝ := 10 * Real.logb 10 p

/-- The equivalent continuous sound level of consecutive frames. -/
noncomputable def equivalentLevel (frames : List (List ℝ)) : ℝ :=
  decibel ((frames.map meanSquare).sum / frames.length)

end Edsp.Spec
