import Mathlib.Analysis.SpecialFunctions.Trigonometric.Basic
import Mathlib.Algebra.Order.Floor.Ring

/-!
# Specification: periodic waveforms

Functions of the position `p` counted in periods (one period is `[0, 1)`).  Independent of the model.
-/

namespace Edsp.Spec

/-- A sine with the phase shift `φ` in radians. -/
noncomputable def sineWave (φ p : ℝ) : ℝ := Real.sin (2 * Real.pi * p + φ)

/-- Active (1) during the first `d` of each period, inactive (-1) during the rest. -/
noncomputable def squareWave (d p : ℝ) : ℝ := if Int.fract p < d then 1 else -1

/-- Rises linearly from -1 to 1 during the first `w` of each period and falls back during the rest. -/
noncomputable def sawWave (w p : ℝ) : ℝ :=
  if Int.fract p < w then -1 + 2 * (Int.fract p / w) else 1 - 2 * ((Int.fract p - w) / (1 - w))

/-- The triangle from -1 at the beginning of each period to 1 in its middle and back. -/
noncomputable def triangleWave (p : ℝ) : ℝ := 1 - 4 * |Int.fract p - 1 / 2|

end Edsp.Spec
