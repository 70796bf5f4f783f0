import Verif.Model.Fault
import Mathlib.Analysis.SpecialFunctions.Trigonometric.Basic

/-! Specification of band filters: edges, and the textbook frequency maps.  Nothing here refers to the
code. -/

namespace Edsp.Spec

/-- Lower band edge as an angular frequency (radians per sample). -/
noncomputable def bandLo (fs fc bw : ℝ) : ℝ := 2 * Real.pi * (fc - bw / 2) / fs
/-- Upper band edge as an angular frequency (radians per sample). -/
noncomputable def bandHi (fs fc bw : ℝ) : ℝ := 2 * Real.pi * (fc + bw / 2) / fs

/-- A band strictly inside `(0, fs/2)`, by a margin of `10⁻⁸` radians per sample on both sides. -/
structure BandOk (fs fc bw : ℝ) : Prop where
  fs_pos : 0 < fs
  bw_pos : 0 < bw
  lo : 1 / 10 ^ 8 ≤ bandLo fs fc bw
  hi : bandHi fs fc bw ≤ Real.pi - 1 / 10 ^ 8

/-- The low-pass to band-pass map on pre-warped frequencies `t = tan (w/2)`:
`(t² - t₁t₂) / (t (t₂ - t₁))`. -/
noncomputable def passFreq (t1 t2 t : ℝ) : ℝ := (t ^ 2 - t1 * t2) / (t * (t2 - t1))

/-- The low-pass to band-stop map: `t (t₂ - t₁) / (t₁t₂ - t²)`. -/
noncomputable def stopFreq (t1 t2 t : ℝ) : ℝ := t * (t2 - t1) / (t1 * t2 - t ^ 2)

end Edsp.Spec
