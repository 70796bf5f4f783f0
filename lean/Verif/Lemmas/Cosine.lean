import Verif.Lemmas.Fourier
import Mathlib.Algebra.BigOperators.Field
import Mathlib.Tactic.Linarith

/-!
# Cosine sums
-/

namespace Edsp.Fourier

open Finset

theorem om_re_im (N : ℕ) (z : ℤ) : (om N ^ z).re = Real.cos (2 * Real.pi * z / N) ∧
    (om N ^ z).im = Real.sin (2 * Real.pi * z / N) := by
  have : om N ^ z = Complex.exp (((2 * Real.pi * z / N : ℝ) : ℂ) * Complex.I) := by
    unfold om
    rw [← Complex.exp_int_mul]
    congr 1
    push_cast
    ring
  rw [this, Complex.exp_ofReal_mul_I_re, Complex.exp_ofReal_mul_I_im]
  exact ⟨rfl, rfl⟩

theorem cos_orth {N : ℕ} (h : N ≠ 0) (d : ℤ) :
    ∑ k ∈ range N, Real.cos (2 * Real.pi * ((k : ℤ) * d : ℤ) / N) = if (N : ℤ) ∣ d then (N : ℝ) else 0 := by
  have := congrArg Complex.re (orth h d)
  rw [Complex.re_sum] at this
  simp only [(om_re_im N _).1] at this
  rw [this]
  split <;> simp

theorem sin_orth {N : ℕ} (h : N ≠ 0) (d : ℤ) :
    ∑ k ∈ range N, Real.sin (2 * Real.pi * ((k : ℤ) * d : ℤ) / N) = 0 := by
  have := congrArg Complex.im (orth h d)
  rw [Complex.im_sum] at this
  simp only [(om_re_im N _).2] at this
  rw [this]
  split <;> simp

/-- The half sum of cosines at the multiples of `π m / n`. -/
theorem half_cos {n : ℕ} (h : n ≠ 0) (m : ℤ) :
    1 + 2 * ∑ k ∈ Ico 1 n, Real.cos (Real.pi * m * k / n) =
      (if ((2 * n : ℕ) : ℤ) ∣ m then (2 * n : ℝ) else 0) - Real.cos (Real.pi * m) := by
  have hn : (n : ℝ) ≠ 0 := Nat.cast_ne_zero.mpr h
  have h2 := cos_orth (N := 2 * n) (by omega) m
  have e : ∀ k : ℕ, Real.cos (2 * Real.pi * ((k : ℤ) * m : ℤ) / (2 * n : ℕ)) = Real.cos (Real.pi * m * k / n) := by
    intro k
    congr 1
    push_cast
    field_simp
  simp only [e] at h2
  have hs : ∑ k ∈ range (2 * n), Real.cos (Real.pi * m * k / n) =
      1 + ∑ k ∈ Ico 1 n, Real.cos (Real.pi * m * k / n) + Real.cos (Real.pi * m) +
        ∑ k ∈ Ico (n + 1) (2 * n), Real.cos (Real.pi * m * k / n) := by
    rw [range_eq_Ico, ← sum_Ico_consecutive _ (Nat.zero_le n) (by omega : n ≤ 2 * n),
      sum_eq_sum_Ico_succ_bot (by omega : 0 < n), sum_eq_sum_Ico_succ_bot (by omega : n < 2 * n)]
    have e0 : Real.pi * m * ((0 : ℕ) : ℝ) / n = 0 := by simp
    have e1 : Real.pi * m * (n : ℝ) / n = Real.pi * m := by field_simp
    rw [e0, e1, Real.cos_zero, zero_add]
    ring
  have hr : ∑ k ∈ Ico (n + 1) (2 * n), Real.cos (Real.pi * m * k / n) =
      ∑ k ∈ Ico 1 n, Real.cos (Real.pi * m * k / n) := by
    refine sum_nbij' (fun k => 2 * n - k) (fun k => 2 * n - k) ?_ ?_ ?_ ?_ ?_
    · intro k hk; have hk := mem_Ico.mp hk; exact mem_Ico.mpr ⟨by omega, by omega⟩
    · intro k hk; have hk := mem_Ico.mp hk; exact mem_Ico.mpr ⟨by omega, by omega⟩
    · intro k hk; have hk := mem_Ico.mp hk; omega
    · intro k hk; have hk := mem_Ico.mp hk; omega
    · intro k hk
      have hk := mem_Ico.mp hk
      rw [Nat.cast_sub (by omega : k ≤ 2 * n)]
      have : Real.pi * m * (((2 * n : ℕ) : ℝ) - k) / n = m * (2 * Real.pi) - Real.pi * m * k / n := by
        push_cast
        field_simp
      rw [this, Real.cos_int_mul_two_pi_sub]
  rw [hs, hr] at h2
  push_cast at h2 ⊢
  linarith

/-- Orthogonality of the cosines of the DCT. -/
theorem dct_orth {n : ℕ} {i j : ℕ} (hi : i < n) (hj : j < n) :
    1 + 2 * ∑ k ∈ Ico 1 n, Real.cos (Real.pi / n * (j + 1 / 2) * k) * Real.cos (Real.pi / n * k * (i + 1 / 2)) =
      if i = j then (n : ℝ) else 0 := by
  have hn : n ≠ 0 := by omega
  have a := half_cos hn ((i : ℤ) - j)
  have b := half_cos hn ((i : ℤ) + j + 1)
  have e : ∀ k : ℕ, Real.cos (Real.pi / n * (j + 1 / 2) * k) * Real.cos (Real.pi / n * k * (i + 1 / 2)) =
      (Real.cos (Real.pi * ((i : ℤ) - j : ℤ) * k / n) + Real.cos (Real.pi * ((i : ℤ) + j + 1 : ℤ) * k / n)) / 2 := by
    intro k
    have e1 : Real.pi * ((i : ℤ) - j : ℤ) * k / n =
        Real.pi / n * k * (i + 1 / 2) - Real.pi / n * (j + 1 / 2) * k := by push_cast; ring
    have e2 : Real.pi * ((i : ℤ) + j + 1 : ℤ) * k / n =
        Real.pi / n * k * (i + 1 / 2) + Real.pi / n * (j + 1 / 2) * k := by push_cast; ring
    rw [e1, e2, Real.cos_sub, Real.cos_add]
    ring
  simp only [e]
  rw [← sum_div, sum_add_distrib]
  have hd1 : ((2 * n : ℕ) : ℤ) ∣ (i : ℤ) - j ↔ i = j := by
    constructor
    · intro h
      have h1 : |(i : ℤ) - j| < (2 * n : ℕ) := by rw [abs_lt]; push_cast; omega
      have := Int.eq_zero_of_abs_lt_dvd h h1
      omega
    · rintro rfl; simp
  have hd2 : ¬ ((2 * n : ℕ) : ℤ) ∣ (i : ℤ) + j + 1 := by
    intro h
    have h1 : |(i : ℤ) + j + 1| < (2 * n : ℕ) := by rw [abs_lt]; push_cast; omega
    have := Int.eq_zero_of_abs_lt_dvd h h1
    omega
  rw [if_neg hd2] at b
  have hpar : Real.cos (Real.pi * ((i : ℤ) + j + 1 : ℤ)) = -Real.cos (Real.pi * ((i : ℤ) - j : ℤ)) := by
    have : Real.pi * ((i : ℤ) + j + 1 : ℤ) = Real.pi * ((i : ℤ) - j : ℤ) + Real.pi + (j : ℤ) * (2 * Real.pi) := by
      push_cast; ring
    rw [this, Real.cos_add_int_mul_two_pi, Real.cos_add_pi]
  simp only [hd1] at a
  rw [hpar] at b
  split
  · rename_i h
    rw [if_pos h] at a
    linarith
  · rename_i h
    rw [if_neg h] at a
    linarith

end Edsp.Fourier
