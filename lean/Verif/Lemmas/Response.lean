import Verif.Spec.Response
import Verif.Lemmas.Stability

/-! Helper lemmas: gains of sections given by six coefficients. -/

namespace Edsp.Response

open Edsp Edsp.Spec

/-- A section built from coefficients: accepted, stable, in the triangle. -/
theorem stable_of {a0 a1 a2 b0 b1 b2 : ℝ} (h0 : 0 < a0) (h2 : |a2| < a0) (h1 : |a1| < a0 + a2) :
    ∃ f, Biquad.ofCoeffs a0 a1 a2 b0 b1 b2 = .ok f ∧ f.stability = true := by
  refine ⟨_, by rw [Biquad.ofCoeffs, if_neg h0.ne'], ?_⟩
  have e2 : |a2 / a0| < 1 := by
    rw [abs_div, abs_of_pos h0, div_lt_one h0]; exact h2
  have e1 : |a1 / a0| < 1 + a2 / a0 := by
    rw [abs_div, abs_of_pos h0, show 1 + a2 / a0 = (a0 + a2) / a0 by field_simp]
    exact div_lt_div_of_pos_right h1 h0
  simp [Biquad.stability, e1, e2]

/-- The transfer function in terms of the coefficients given to the constructor. -/
theorem transfer_of {a0 a1 a2 b0 b1 b2 : ℝ} {f : Biquad ℝ}
    (h : Biquad.ofCoeffs a0 a1 a2 b0 b1 b2 = .ok f) {z : ℂ} (hz : z ≠ 0) {g : ℂ}
    (hd : (a0 : ℂ) * z ^ 2 + a1 * z + a2 ≠ 0)
    (hn : (b0 : ℂ) * z ^ 2 + b1 * z + b2 = g * (a0 * z ^ 2 + a1 * z + a2)) :
    TransferAt f z g := by
  unfold Biquad.ofCoeffs at h
  split at h
  · simp at h
  · rename_i ha
    injection h with h
    subst h
    have hac : (a0 : ℂ) ≠ 0 := by exact_mod_cast ha
    have ed : denAt ⟨b2 / a0, b1 / a0, b0 / a0, a2 / a0, a1 / a0, 1, 0, 0⟩ z = (a0 * z ^ 2 + a1 * z + a2) / (a0 * z ^ 2) := by
      simp only [denAt]; push_cast; field_simp
    have en : numAt ⟨b2 / a0, b1 / a0, b0 / a0, a2 / a0, a1 / a0, 1, 0, 0⟩ z = (b0 * z ^ 2 + b1 * z + b2) / (a0 * z ^ 2) := by
      simp only [numAt]; push_cast; field_simp
    constructor
    · rw [ed]; exact div_ne_zero hd (mul_ne_zero hac (pow_ne_zero 2 hz))
    · rw [ed, en, hn]; ring

/-- Gain at DC. -/
theorem gain_dc {a0 a1 a2 b0 b1 b2 g : ℝ} {f : Biquad ℝ}
    (h : Biquad.ofCoeffs a0 a1 a2 b0 b1 b2 = .ok f) (hg : 0 ≤ g)
    (hd : a0 + a1 + a2 ≠ 0) (hn : b0 + b1 + b2 = g * (a0 + a1 + a2)) : GainAt f 0 g := by
  refine ⟨g, ?_, by simp [abs_of_nonneg hg]⟩
  have e : Complex.exp ((0 : ℝ) * Complex.I) = 1 := by simp
  rw [e]
  apply transfer_of h one_ne_zero
  · simp only [one_pow, mul_one]; exact_mod_cast hd
  · simp only [one_pow, mul_one]; exact_mod_cast hn

/-- Gain at the Nyquist frequency. -/
theorem gain_nyquist {a0 a1 a2 b0 b1 b2 g : ℝ} {f : Biquad ℝ}
    (h : Biquad.ofCoeffs a0 a1 a2 b0 b1 b2 = .ok f) (hg : 0 ≤ g)
    (hd : a0 - a1 + a2 ≠ 0) (hn : b0 - b1 + b2 = g * (a0 - a1 + a2)) :
    GainAt f Real.pi g := by
  refine ⟨g, ?_, by simp [abs_of_nonneg hg]⟩
  rw [Complex.exp_pi_mul_I]
  apply transfer_of h (by norm_num)
  · have : ((a0 : ℂ)) * (-1) ^ 2 + a1 * (-1) + a2 = ((a0 - a1 + a2 : ℝ) : ℂ) := by push_cast; ring
    rw [this]; exact_mod_cast hd
  · have e1 : ((a0 : ℂ)) * (-1) ^ 2 + a1 * (-1) + a2 = ((a0 - a1 + a2 : ℝ) : ℂ) := by
      push_cast; ring
    have e2 : ((b0 : ℂ)) * (-1) ^ 2 + b1 * (-1) + b2 = ((b0 - b1 + b2 : ℝ) : ℂ) := by
      push_cast; ring
    rw [e1, e2, hn]; push_cast; ring

/-- A stable section has no pole on the unit circle. -/
theorem denAt_ne_zero {f : Biquad ℝ} (h : f.stability = true) {z : ℂ} (hz : ‖z‖ = 1) :
    denAt f z ≠ 0 := by
  intro h0
  have hs : |f.a2| < 1 ∧ |f.a1| < 1 + f.a2 := by simpa [Biquad.stability] using h
  have hz0 : z ≠ 0 := by intro h; rw [h] at hz; simp at hz
  have : z ^ 2 + f.a1 * z + f.a2 = 0 := by
    have : z ^ 2 * denAt f z = z ^ 2 + f.a1 * z + f.a2 := by
      unfold denAt; field_simp
    rw [← this, h0, mul_zero]
  have := Stability.roots_in_disc hs.1 hs.2 this
  linarith

/-- Polynomial value at `e^{iw}` divided by `e^{iw}`: the trigonometric form used for gains at a
given frequency. -/
theorem poly_exp (c0 c1 c2 w : ℝ) :
    (c0 : ℂ) * Complex.exp (w * Complex.I) ^ 2 + c1 * Complex.exp (w * Complex.I) + c2
      = Complex.exp (w * Complex.I) *
        ((((c0 + c2) * Real.cos w + c1 : ℝ) : ℂ) + (((c0 - c2) * Real.sin w : ℝ) : ℂ) * Complex.I) := by
  have e : Complex.exp (w * Complex.I) = Complex.cos w + Complex.sin w * Complex.I :=
    Complex.exp_mul_I _
  have h1 := Complex.cos_sq_add_sin_sq (w : ℂ)
  rw [e]
  push_cast
  have hI := Complex.I_sq
  linear_combination (c2 : ℂ) * (1 - 0) * (-h1) + ((c2 : ℂ) * Complex.sin w ^ 2) * hI

/-- Gain at a frequency from the two trigonometric forms. -/
theorem gain_at {a0 a1 a2 b0 b1 b2 w g : ℝ} {f : Biquad ℝ} {h : ℂ}
    (hf : Biquad.ofCoeffs a0 a1 a2 b0 b1 b2 = .ok f)
    (hd : (((a0 + a2) * Real.cos w + a1 : ℝ) : ℂ) + (((a0 - a2) * Real.sin w : ℝ) : ℂ) * Complex.I ≠ 0)
    (hn : (((b0 + b2) * Real.cos w + b1 : ℝ) : ℂ) + (((b0 - b2) * Real.sin w : ℝ) : ℂ) * Complex.I
      = h * ((((a0 + a2) * Real.cos w + a1 : ℝ) : ℂ)
          + (((a0 - a2) * Real.sin w : ℝ) : ℂ) * Complex.I))
    (hg : ‖h‖ = g) : GainAt f w g := by
  refine ⟨h, ?_, hg⟩
  apply transfer_of hf (Complex.exp_ne_zero _)
  · rw [poly_exp]; exact mul_ne_zero (Complex.exp_ne_zero _) hd
  · rw [poly_exp, poly_exp, hn]; ring

end Edsp.Response
