import Verif.Model.Sequences
import Verif.Spec.Ieee

/-!
# Extrema, sums and element-wise functions on numbers that may be infinite or not a number

The functions of `Verif.Model.Sequences` and `Verif.Model.Statistics` in the arithmetic of Spec/Ieee.lean; `R` rounds.
The functions that write return the list of the values written.
-/

namespace Edsp.Extended

open Edsp.Spec Edsp.Spec.Ext

open Classical in
/-- `operator<`: false if one of the numbers is NaN. -/
noncomputable def less (a b : Ext) : Bool := decide (Lt a b)

/-- The comparison of max.hpp 52, min.hpp 52 and peak.hpp 55. -/
noncomputable def lessAbs (a b : Ext) : Bool := less a.abs b.abs

/-- max.hpp 38-40. -/
noncomputable def max (l : List Ext) : Except Fault Ext := do return (← Seq.maxElement less l).2

/-- min.hpp 38-40. -/
noncomputable def min (l : List Ext) : Except Fault Ext := do return (← Seq.minElement less l).2

/-- max.hpp 50-54. -/
noncomputable def maxabs (l : List Ext) : Except Fault Ext := do return (← Seq.maxElement lessAbs l).2.abs

/-- min.hpp 50-54. -/
noncomputable def minabs (l : List Ext) : Except Fault Ext := do return (← Seq.minElement lessAbs l).2.abs

/-- peak.hpp 38-42. -/
noncomputable def peak (l : List Ext) : Except Fault (Nat × Ext) := Seq.maxElement less l

/-- peak.hpp 52-58. -/
noncomputable def peakabs (l : List Ext) : Except Fault (Nat × Ext) := Seq.maxElement lessAbs l

/-- normalize.hpp 45-52. -/
noncomputable def normalize (R : ℝ → Ext) (l : List Ext) : Except Fault (List Ext) := do
  let factor ← maxabs l
  return l.map fun v => div R v factor

open Classical in
/-- The element function of clipper.hpp 45. -/
noncomputable def clip1 (lo hi v : Ext) : Ext := if Lt v lo then lo else if Lt hi v then hi else v

/-- clipper.hpp 42-47. -/
noncomputable def clipper (lo hi : Ext) (l : List Ext) : List Ext := l.map (clip1 lo hi)

/-- amplifier.hpp 45-50. -/
noncomputable def amplifier (R : ℝ → Ext) (factor : Ext) (l : List Ext) : List Ext := l.map fun v => mul R factor v

/-- amplifier.hpp 71-78. -/
noncomputable def amplifierClip (R : ℝ → Ext) (factor lo hi : Ext) (l : List Ext) : List Ext :=
  l.map fun v => clip1 lo hi (mul R factor v)

/-- `std::accumulate`. -/
noncomputable def accumulate (R : ℝ → Ext) (init : Ext) (l : List Ext) : Ext := l.foldl (add R) init

/-- mean.hpp 44-48. -/
noncomputable def mean (R : ℝ → Ext) (l : List Ext) : Ext := div R (accumulate R (fin 0) l) (R (l.length : ℝ))

/-- `std::inner_product` of a range with itself. -/
noncomputable def squares (R : ℝ → Ext) (init : Ext) (l : List Ext) : Ext :=
  l.foldl (fun s v => add R s (mul R v v)) init

/-- energy.hpp 45-49. -/
noncomputable def energy (R : ℝ → Ext) (l : List Ext) : Ext := squares R (fin 0) l

/-- power.hpp 43-48. -/
noncomputable def power (R : ℝ → Ext) (l : List Ext) : Ext := div R (energy R l) (R (l.length : ℝ))

/-- rms.hpp 42-47; the sum starts at 1. -/
noncomputable def rms (R : ℝ → Ext) (l : List Ext) : Ext := sqrt R (div R (squares R (fin 1) l) (R (l.length : ℝ)))

/-- rssq.hpp 41-46. -/
noncomputable def rssq (R : ℝ → Ext) (l : List Ext) : Ext := sqrt R (squares R (fin 0) l)

end Edsp.Extended
