import Verif.Lemmas.Spectral
import Mathlib.Analysis.SpecialFunctions.Trigonometric.Basic
import Mathlib.Algebra.BigOperators.Field
import Mathlib.Tactic.LinearCombination

/-!
# Finite sums of a sampled sine
-/

namespace Edsp.ToneL

open Complex Finset Edsp.Spec Edsp.Fourier

/-- A sine as the two roots of unity it is made of. -/
theorem sine_split (N K j : ℕ) (θ : ℝ) :
    ((Real.sin (2 * Real.pi * K * j / N + θ) : ℝ) : ℂ) =
      (exp (θ * I) * om N ^ ((j : ℤ) * K) - exp (-(θ * I)) * om N ^ (-((j : ℤ) * K))) / (2 * I) := by
  rw [← exp_pos, ← Fourier.exp_neg, ← Complex.exp_add, ← Complex.exp_add, Complex.ofReal_sin, Complex.sin]
  have e1 : (θ : ℂ) * I + 2 * Real.pi * I * j * K / N = ((2 * Real.pi * K * j / N + θ : ℝ) : ℂ) * I := by
    push_cast; ring
  have e2 : -((θ : ℂ) * I) + -(2 * Real.pi * I * j * K / N) = -((2 * Real.pi * K * j / N + θ : ℝ) : ℂ) * I := by
    push_cast; ring
  rw [e1, e2]
  generalize exp (((2 * Real.pi * K * j / N + θ : ℝ) : ℂ) * I) = a
  generalize exp (-((2 * Real.pi * K * j / N + θ : ℝ) : ℂ) * I) = b
  have hI : (I : ℂ) ≠ 0 := I_ne_zero
  field_simp
  rw [I_sq]
  ring

/-- The transform of a sampled sine with `K` periods in `N` samples. -/
theorem sine_bins {N : ℕ} (h : N ≠ 0) (A θ : ℝ) (K k : ℕ) :
    F N (fun j => ((A * Real.sin (2 * Real.pi * K * j / N + θ) : ℝ) : ℂ)) k =
      A / (2 * I) * (exp (θ * I) * (if (N : ℤ) ∣ K - k then (N : ℂ) else 0) -
        exp (-(θ * I)) * (if (N : ℤ) ∣ K + k then (N : ℂ) else 0)) := by
  have h1 := orth h ((K : ℤ) - k)
  have h2 := orth h (-((K : ℤ) + k))
  simp only [Int.dvd_neg] at h2
  rw [← h1, ← h2, F, mul_sum, mul_sum, ← sum_sub_distrib, mul_sum]
  refine sum_congr rfl fun j _ => ?_
  rw [Complex.ofReal_mul, sine_split, Fourier.exp_neg]
  have e1 : (j : ℤ) * ((K : ℤ) - k) = j * K + -(j * k) := by ring
  have e2 : (j : ℤ) * -((K : ℤ) + k) = -(j * K) + -(j * k) := by ring
  rw [e1, e2, zpow_add₀ (om_ne N), zpow_add₀ (om_ne N)]
  ring

/-- The sum of a sampled sine over whole periods. -/
theorem sine_sum {N : ℕ} (h : N ≠ 0) (θ : ℝ) {K : ℕ} (hK : ¬ N ∣ K) :
    ∑ j ∈ range N, Real.sin (2 * Real.pi * K * j / N + θ) = 0 := by
  have e := sine_bins h 1 θ K 0
  have hK' : ¬ (N : ℤ) ∣ K := fun g => hK (by exact_mod_cast g)
  rw [if_neg (by simpa using hK'), if_neg (by simpa using hK')] at e
  simp only [mul_zero, sub_zero, F, Nat.cast_zero, zero_div, neg_zero, Complex.exp_zero, mul_one, one_mul] at e
  exact_mod_cast e

/-- The sum of the squares of a sampled sine over whole periods. -/
theorem sine_squares {N : ℕ} (h : N ≠ 0) (θ : ℝ) {K : ℕ} (hK : ¬ N ∣ 2 * K) :
    ∑ j ∈ range N, Real.sin (2 * Real.pi * K * j / N + θ) ^ 2 = N / 2 := by
  have e := sine_sum h (2 * θ + Real.pi / 2) hK
  have hs : ∀ j : ℕ, Real.sin (2 * Real.pi * K * j / N + θ) ^ 2 =
      1 / 2 - Real.sin (2 * Real.pi * (2 * K : ℕ) * j / N + (2 * θ + Real.pi / 2)) / 2 := by
    intro j
    rw [← add_assoc, Real.sin_add_pi_div_two, Real.sin_sq_eq_half_sub]
    congr 3
    push_cast
    ring
  simp only [hs, sum_sub_distrib, ← sum_div, e]
  simp

end Edsp.ToneL
