import Verif.Model.RoundedSums
import Mathlib.Analysis.SpecialFunctions.Pow.Real

/-!
# Features of a spectrum and means in floating point arithmetic

Every operation rounded to `p` bits, no fused operations, no overflow, no underflow.  The elements are numbers with `p`
bits; a result that is not finite is `none`.  The functions of the mathematical library are parameters.
-/

namespace Edsp.Rounded

open Edsp.Spec

/-- The loop of feature/statistics/centroid.hpp 47-50: the counter, the weighted and the unweighted sum. -/
noncomputable def centroidLoop (p : ℕ) : ℝ → ℝ × ℝ → List ℝ → ℝ × ℝ
  | _, s, [] => s
  | i, s, x :: xs => centroidLoop p (rnd p (i + 1)) (rnd p (s.1 + rnd p (i * x)), rnd p (s.2 + x)) xs

/-- feature/statistics/centroid.hpp 43-52. -/
noncomputable def centroid (p : ℕ) (xs : List ℝ) : Option ℝ :=
  let s := centroidLoop p 0 (0, 0) xs
  quotient p s.1 s.2

/-- The loop of feature/statistics/centroid.hpp 73-76: magnitudes and axis. -/
noncomputable def weightedLoop (p : ℕ) : ℝ × ℝ → List ℝ → List ℝ → ℝ × ℝ
  | s, x :: xs, f :: fs => weightedLoop p (rnd p (s.1 + rnd p (f * x)), rnd p (s.2 + x)) xs fs
  | s, _, _ => s

/-- feature/statistics/centroid.hpp 69-78. -/
noncomputable def weightedCentroid (p : ℕ) (xs fs : List ℝ) : Option ℝ :=
  let s := weightedLoop p (0, 0) xs fs
  quotient p s.1 s.2

/-- `std::sqrt`; `none` if it is not a number. -/
noncomputable def root (p : ℕ) (x : ℝ) : Option ℝ := if x < 0 then none else some (rnd p (Real.sqrt x))

/-- The loop of feature/statistics/spread.hpp 58-62. -/
noncomputable def spreadLoop (p : ℕ) (c : ℝ) : ℝ → ℝ × ℝ → List ℝ → ℝ × ℝ
  | _, s, [] => s
  | i, s, x :: xs =>
    let diff := rnd p (i - c)
    spreadLoop p c (rnd p (i + 1)) (rnd p (s.1 + rnd p (rnd p (diff * diff) * x)), rnd p (s.2 + x)) xs

/-- feature/statistics/spread.hpp 53-64. -/
noncomputable def spread (p : ℕ) (xs : List ℝ) : Option ℝ :=
  (centroid p xs).bind fun c =>
    let s := spreadLoop p c 0 (0, 0) xs
    (quotient p s.1 s.2).bind (root p)

/-- The loop of feature/statistics/spread.hpp 78-82. -/
noncomputable def weightedSpreadLoop (p : ℕ) (c : ℝ) : ℝ × ℝ → List ℝ → List ℝ → ℝ × ℝ
  | s, x :: xs, f :: fs =>
    let diff := rnd p (f - c)
    weightedSpreadLoop p c (rnd p (s.1 + rnd p (rnd p (diff * diff) * x)), rnd p (s.2 + x)) xs fs
  | s, _, _ => s

/-- feature/statistics/spread.hpp 73-84. -/
noncomputable def weightedSpread (p : ℕ) (xs fs : List ℝ) : Option ℝ :=
  (weightedCentroid p xs fs).bind fun c =>
    let s := weightedSpreadLoop p c (0, 0) xs fs
    (quotient p s.1 s.2).bind (root p)

/-- statistics/max.hpp 50-54 (`std::abs` and comparisons are exact). -/
noncomputable def maxabs (xs : List ℝ) : ℝ := xs.foldl (fun a x => if a < |x| then |x| else a) 0

/-- feature/statistics/crest.hpp 38-45. -/
noncomputable def crest (p : ℕ) (xs : List ℝ) : Option ℝ := quotient p (maxabs xs) (accumulate p 0 (xs.map abs))

/-- statistics/norm.hpp 48-55. -/
noncomputable def norm (p : ℕ) (xs : List ℝ) : ℝ :=
  rnd p (Real.sqrt (xs.foldl (fun s x => rnd p (s + rnd p (|x| * |x|))) 0))

/-- The loop of statistics/harmonic_mean.hpp 47-48 with `math::inv` (math/numeric.hpp 207-210).  The sum is `none` once
it is infinite: the zeros are taken as positive. -/
noncomputable def inverses (p : ℕ) : Option ℝ → List ℝ → Option ℝ
  | s, [] => s
  | s, x :: xs => inverses p (s.bind fun a => (quotient p 1 x).map fun y => rnd p (a + y)) xs

/-- statistics/harmonic_mean.hpp 45-50; a number divided by infinity is 0. -/
noncomputable def harmonicMean (p : ℕ) (xs : List ℝ) : Option ℝ :=
  match inverses p (some 0) xs with
  | some acc => quotient p (rnd p (xs.length : ℝ)) acc
  | none => some 0

/-- The loop of statistics/geometric_mean.hpp 46-47; `L` is `std::log`.  The outer `none` is not a number, after the
logarithm of a negative number; the sum is `none` once it is minus infinity, after the logarithm of 0. -/
noncomputable def logarithms (p : ℕ) (L : ℝ → ℝ) : Option ℝ → List ℝ → Option (Option ℝ)
  | s, [] => some s
  | s, x :: xs =>
    if x < 0 then none
    else logarithms p L (s.bind fun a => if x = 0 then none else some (rnd p (a + L x))) xs

/-- statistics/geometric_mean.hpp 43-50; `E` is `std::exp`, which is 0 at minus infinity. -/
noncomputable def geometricMean (p : ℕ) (L E : ℝ → ℝ) (xs : List ℝ) : Option ℝ :=
  match logarithms p L (some 0) xs with
  | none => none
  | some none => some 0
  | some (some acc) => (quotient p acc (rnd p (xs.length : ℝ))).map E

/-- feature/statistics/flatness.hpp 44-48. -/
noncomputable def flatness (p : ℕ) (L E : ℝ → ℝ) (xs : List ℝ) : Option ℝ :=
  (geometricMean p L E xs).bind fun g => (mean p xs).bind fun m => quotient p g m

/-- `std::log2`; `none` if it is not a finite number. -/
noncomputable def logarithm (L : ℝ → ℝ) (x : ℝ) : Option ℝ := if x ≤ 0 then none else some (L x)

/-- The loop of feature/statistics/entropy.hpp 53-57; `L` is `std::log2`.  The logarithm
of 0 is minus infinity, and its product with 0 not a number. -/
noncomputable def entropyLoop (p : ℕ) (L : ℝ → ℝ) : ℝ → List ℝ → Option ℝ
  | s, [] => some s
  | s, x :: xs => (logarithm L x).bind fun y => entropyLoop p L (rnd p (s + rnd p (y * x))) xs

/-- feature/statistics/entropy.hpp 51-59. -/
noncomputable def entropy (p : ℕ) (L : ℝ → ℝ) (xs : List ℝ) : Option ℝ :=
  (entropyLoop p L 0 xs).bind fun acc => (logarithm L (rnd p (xs.length : ℝ))).bind fun b => quotient p (-acc) b

/-- The loop of feature/spectral/spectral_entropy.hpp 59-64. -/
noncomputable def spectralEntropyLoop (p : ℕ) (L : ℝ → ℝ) (sum : ℝ) : ℝ → List ℝ → Option ℝ
  | s, [] => some s
  | s, x :: xs => (quotient p x sum).bind fun n => (logarithm L n).bind fun y =>
      spectralEntropyLoop p L sum (rnd p (s + rnd p (y * n))) xs

/-- feature/spectral/spectral_entropy.hpp 56-66. -/
noncomputable def spectralEntropy (p : ℕ) (L : ℝ → ℝ) (xs : List ℝ) : Option ℝ :=
  (spectralEntropyLoop p L (accumulate p 0 xs) 0 xs).bind fun acc =>
    (logarithm L (rnd p (xs.length : ℝ))).bind fun b => quotient p (-acc) b

end Edsp.Rounded
