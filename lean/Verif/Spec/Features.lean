import Mathlib.Analysis.SpecialFunctions.Pow.Real
import Mathlib.Analysis.SpecialFunctions.Log.Base
import Mathlib.Algebra.BigOperators.Group.Finset.Basic

/-!
# Specification: features of a signal or a spectrum

The defining formulas of the documentation as finite sums, independent of the model.
-/

namespace Edsp.Spec

open Finset

/-- Element `i` of a sequence; 0 outside. -/
def at0 (x : List ℝ) (i : ℕ) : ℝ := x.getD i 0

/-- `Σ x(n)`. -/
def total (x : List ℝ) : ℝ := ∑ i ∈ range x.length, at0 x i

/-- Centre of gravity of the magnitudes `x` over the axis `f` (centroid.hpp 34 and 59). -/
noncomputable def gravity (f : ℕ → ℝ) (x : List ℝ) : ℝ := (∑ i ∈ range x.length, f i * at0 x i) / total x

/-- Mean squared deviation from the centre of gravity (spread.hpp 42). -/
noncomputable def scatter (f : ℕ → ℝ) (x : List ℝ) : ℝ :=
  (∑ i ∈ range x.length, (f i - gravity f x) ^ 2 * at0 x i) / total x

/-- Entropy in bits of a probability mass function (entropy.hpp 37), with `0 log 0 = 0`. -/
noncomputable def bits (p : List ℝ) : ℝ := -∑ i ∈ range p.length, at0 p i * Real.logb 2 (at0 p i)

/-- Energy of the first `k` samples. -/
def energyUpTo (x : List ℝ) (k : ℕ) : ℝ := ∑ i ∈ range k, at0 x i ^ 2

/-- Lag `k` of the average magnitude difference function, over the pairs inside the sequence (amdf.hpp 42). -/
noncomputable def magnitudeDifference (x : List ℝ) (k : ℕ) : ℝ :=
  (∑ j ∈ range (x.length - k), |at0 x j - at0 x (j + k)|) / x.length

/-- Lag `k` of the average squared difference function, over the pairs inside the sequence (asdf.hpp 43). -/
noncomputable def squareDifference (x : List ℝ) (k : ℕ) : ℝ :=
  (∑ j ∈ range (x.length - k), (at0 x j - at0 x (j + k)) ^ 2) / x.length

/-- Zero crossing rate (azcr.hpp 43): the share of adjacent pairs with a negative product. -/
noncomputable def crossingRate (x : List ℝ) : ℝ :=
  (∑ t ∈ range (x.length - 1), if at0 x (t + 1) * at0 x t < 0 then (1 : ℝ) else 0) / ((x.length : ℝ) - 1)

/-- Slope of the regression line, relative to the sum of the magnitudes (slope.hpp 48-50). -/
noncomputable def regressionSlope (x f : List ℝ) : ℝ :=
  1 / total x * ((x.length * ∑ i ∈ range x.length, at0 x i * at0 f i) - total x * total f) /
    (x.length * (∑ i ∈ range x.length, at0 f i ^ 2) - total f ^ 2)

/-- Decrease (decrease.hpp 40). -/
noncomputable def decreaseOf (x : List ℝ) : ℝ :=
  1 / (∑ n ∈ Ico 1 x.length, at0 x n) * ∑ n ∈ Ico 1 x.length, (at0 x n - at0 x (n - 1)) / n

/-- Euclidean flux: the sum of the squared differences of the two spectra, each divided by its own sum (flux.hpp
36-37 and the cited book). -/
noncomputable def fluxOf (x y : List ℝ) : ℝ :=
  ∑ i ∈ range x.length, (at0 x i / total x - at0 y i / total y) ^ 2

/-- Variation (variation.hpp 44). -/
noncomputable def variationOf (x y : List ℝ) : ℝ :=
  1 - (∑ i ∈ range x.length, at0 x i * at0 y i) / (Real.sqrt (total x) * Real.sqrt (total y))

/-- Irregularity after Jensen (spectral_irregularity.hpp 37-40): squared differences of adjacent partials over the
squared amplitudes. -/
noncomputable def irregularityOf (x : List ℝ) : ℝ :=
  (∑ i ∈ range (x.length - 1), (at0 x i - at0 x (i + 1)) ^ 2) / ∑ i ∈ range x.length, at0 x i ^ 2

/-- Mean squared deviation of a signal from its mean. -/
noncomputable def varianceOf (x : List ℝ) : ℝ :=
  (∑ i ∈ range x.length, (at0 x i - total x / x.length) ^ 2) / x.length

/-- Signal-to-noise ratio in decibels (snr.hpp 34-42): variance of the signal over variance of the difference of the
two signals. -/
noncomputable def snrOf (x y : List ℝ) : ℝ :=
  10 * (Real.log (varianceOf x / varianceOf (List.zipWith (fun a b => a - b) x y)) / Real.log 10)

end Edsp.Spec
