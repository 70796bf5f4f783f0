import Mathlib.Analysis.SpecialFunctions.Trigonometric.Basic
import Mathlib.Algebra.BigOperators.Group.Finset.Basic

/-!
# Specification: transforms, convolution and correlation of finite sequences

The defining sums of the documentation, independent of the model.  Outside its range a sequence is 0.
-/

namespace Edsp.Spec

open Finset

/-- Bin `k` of the discrete Fourier transform: `Σ_j x_j (cos(2πjk/N) - i sin(2πjk/N))` (dft.hpp 34-36). -/
noncomputable def bin (x : List ℂ) (k : ℕ) : ℂ :=
  ∑ j ∈ range x.length, x.getD j 0 *
    ((Real.cos (2 * Real.pi * k * j / x.length) : ℂ) -
      Complex.I * (Real.sin (2 * Real.pi * k * j / x.length) : ℂ))

/-- A real sequence as a complex one. -/
noncomputable def ofReals (x : List ℝ) : List ℂ := x.map fun v : ℝ => (v : ℂ)

/-- Sample `m` of the convolution of two sequences: `Σ_{i ≤ m} x_i y_{m-i}` (convolution.hpp 37-41). -/
def convolution (x y : List ℝ) (m : ℕ) : ℝ := ∑ i ∈ range (m + 1), x.getD i 0 * y.getD (m - i) 0

/-- Lag `l` of the cross correlation: `Σ_j x_{j+l} y_j` (correlation.hpp 89-93, with `n = j + l`). -/
def correlation (x y : List ℝ) (l : ℕ) : ℝ := ∑ j ∈ range (x.length - l), x.getD (j + l) 0 * y.getD j 0

/-- Coefficient `k` of the Hartley transform (hartley.hpp 35-38). -/
noncomputable def hartleySum (x : List ℝ) (k : ℕ) : ℝ :=
  ∑ j ∈ range x.length, x.getD j 0 *
    (Real.cos (2 * Real.pi / x.length * j * k) + Real.sin (2 * Real.pi / x.length * j * k))

/-- Coefficient `k` of the DCT-II (dct.hpp 34-37). -/
noncomputable def cosineSum (x : List ℝ) (k : ℕ) : ℝ :=
  ∑ j ∈ range x.length, x.getD j 0 * Real.cos (Real.pi / x.length * (j + 1 / 2) * k)

/-- Sample `j` of the unscaled inverse transform: `Σ_k X_k (cos(2πjk/N) + i sin(2πjk/N))`. -/
noncomputable def inverseSum (x : List ℂ) (j : ℕ) : ℂ :=
  ∑ k ∈ range x.length, x.getD k 0 *
    ((Real.cos (2 * Real.pi * k * j / x.length) : ℂ) +
      Complex.I * (Real.sin (2 * Real.pi * k * j / x.length) : ℂ))

/-- Sample `j` of the unscaled inverse of a half spectrum of `n` real samples: the bins 0 and `n/2` (the latter only
for an even `n`) count once with their real part, the others twice, once for the conjugate bin. -/
noncomputable def halfInverseSum (n : ℕ) (x : List ℂ) (j : ℕ) : ℝ :=
  (x.getD 0 0).re + (if n % 2 = 0 then (-1) ^ j * (x.getD (n / 2) 0).re else 0) +
    2 * ∑ k ∈ Ico 1 ((n + 1) / 2), ((x.getD k 0).re * Real.cos (2 * Real.pi * k * j / n) -
      (x.getD k 0).im * Real.sin (2 * Real.pi * k * j / n))

/-- Sample `j` of the DCT-III: `x_0/2 + Σ_{k ≥ 1} x_k cos(π/N k (j + 1/2))` (dct.hpp 56-58). -/
noncomputable def inverseCosineSum (x : List ℝ) (j : ℕ) : ℝ :=
  x.getD 0 0 / 2 + ∑ k ∈ Ico 1 x.length, x.getD k 0 * Real.cos (Real.pi / x.length * k * (j + 1 / 2))

end Edsp.Spec
