import Verif.Spec.Spectral
import Mathlib.Analysis.SpecialFunctions.Log.Basic

/-!
# Specification: the real cepstrum
-/

namespace Edsp.Spec

open Finset

/-- The samples followed by as many zeros. -/
def zeroPad (x : List ℝ) : List ℝ := x ++ List.replicate x.length 0

/-- Sample `j` of the real cepstrum: the inverse transform of the logarithms of the magnitudes of the transform of
the samples padded with zeros to twice their number. -/
noncomputable def realCepstrum (x : List ℝ) (j : ℕ) : ℝ :=
  (∑ k ∈ range (2 * x.length), Real.log ‖bin (ofReals (zeroPad x)) k‖ *
    Real.cos (2 * Real.pi * k * j / (2 * x.length))) / (2 * x.length)

end Edsp.Spec
