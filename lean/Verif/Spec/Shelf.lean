import Mathlib.Analysis.SpecialFunctions.Pow.Real

/-! Specification of rippled shelves.  Nothing here refers to the code. -/

namespace Edsp.Spec

/-- A gain in dB as an amplitude ratio. -/
noncomputable def ofDb (d : ℝ) : ℝ := (10 : ℝ) ^ (d / 20)

/-- The gain in dB at the edge of a shelf of `gainDb` with a ripple of `rippleDb`: closer to 0 dB by the
ripple. -/
noncomputable def edgeDb (gainDb rippleDb : ℝ) : ℝ :=
  if 0 < gainDb then gainDb - rippleDb else gainDb + rippleDb

/-- The textbook gain of a rippled shelf with plateau gain `H` and edge gain `Hb`, for the value `T` of
the Chebyshev polynomial: `H` for `T = 0`, `Hb` for `T = ±1` and 1 in the limit `T → ∞`. -/
noncomputable def rippleShelf (H Hb T : ℝ) : ℝ :=
  Real.sqrt ((H ^ 2 + (H ^ 2 - Hb ^ 2) / (Hb ^ 2 - 1) * T ^ 2) /
    (1 + (H ^ 2 - Hb ^ 2) / (Hb ^ 2 - 1) * T ^ 2))

end Edsp.Spec
