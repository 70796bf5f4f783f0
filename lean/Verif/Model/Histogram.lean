import Mathlib.Data.Real.Basic

/-!
# Model of `statistics::histogram`

statistics/histogram.hpp.  The destination is the block of cells the caller owns.
-/

namespace Edsp.Histogram

/-- statistics/histogram.hpp 74-77. -/
structure Histogram where
  numBins : ℕ
  cacheSize : ℕ
  bins : List (ℝ × ℝ)

/-- The constructor, statistics/histogram.hpp 51-54 (`bins_(num_bins)`: value-initialised pairs). -/
def new (numBins cacheSize : ℕ) : Histogram := ⟨numBins, cacheSize, List.replicate numBins (0, 0)⟩

/-- `compute`, statistics/histogram.hpp 66-72: the object and the destination after the call; the body marks its arguments as
unused and does nothing else. -/
def compute (h : Histogram) (_input : List ℝ) (dst : List (ℝ × ℝ)) : Histogram × List (ℝ × ℝ) := (h, dst)

end Edsp.Histogram
