import Verif.Model.RoundedAuditory
import Verif.Lemmas.RoundedConverters

/-!
# Errors of the converters of auditory scales
-/

namespace Edsp.RndAudL
open Edsp Edsp.Spec Edsp.RndAud Edsp.FloatL Edsp.RndWinL Edsp.RndConvL

/-- The relative error of a rounding to `p` bits. -/
noncomputable def eps (p : ℕ) : ℝ := 2 ^ (-(p : ℤ))

theorem eps_pos (p : ℕ) : 0 < eps p := u_pos p

theorem eps_small {p : ℕ} (hp : 24 ≤ p) : eps p ≤ 1 / 16777216 := u_small hp

theorem eps_dbl : eps 53 ≤ 1 / 9007199254740992 := by
  unfold eps; norm_num

theorem eps_mono {p : ℕ} (hq : p ≤ 53) : eps 53 ≤ eps p := eps_dbl.trans (u_large hq)

theorem near_rnd (p : ℕ) (x : ℝ) : Within (eps p) (rnd p x) x := rnd_err p x

theorem near_rnd_of {p : ℕ} {e a b : ℝ} (h : Within e a b) : Within (eps p + e + eps p * e) (rnd p a) b :=
  within_trans (eps_pos p).le (near_rnd p a) h

/-- A product of two values with errors. -/
theorem within_mul2 {d e a b c g : ℝ} (hd : 0 ≤ d) (h1 : Within d a b) (h2 : Within e c g) :
    Within (d + e + d * e) (a * c) (b * g) :=
  within_trans hd (within_mul c h1) (within_mul' b h2)

theorem within_inv {d a b : ℝ} (hb : b ≠ 0) (h0 : 0 ≤ d) (hd : d ≤ 1 / 100) (h : Within d a b) :
    Within (1.02 * d) a⁻¹ b⁻¹ := by
  unfold Within at *
  have hB : 0 < |b| := abs_pos.mpr hb
  have hA : 0.99 * |b| ≤ |a| := by
    have h1 : |b| ≤ |a| + |a - b| := by
      have := abs_sub_le b a 0
      rw [sub_zero, sub_zero, abs_sub_comm b a] at this
      linarith
    have : d * |b| ≤ 1 / 100 * |b| := mul_le_mul_of_nonneg_right hd hB.le
    linarith
  have ha : a ≠ 0 := by
    rintro rfl
    rw [abs_zero] at hA
    linarith
  have e : a⁻¹ - b⁻¹ = (b - a) / a * b⁻¹ := by field_simp
  rw [e, abs_mul]
  refine mul_le_mul_of_nonneg_right ?_ (abs_nonneg _)
  rw [abs_div, div_le_iff₀ (abs_pos.mpr ha), abs_sub_comm]
  have : 1.02 * d * (0.99 * |b|) ≤ 1.02 * d * |a| := mul_le_mul_of_nonneg_left hA (by positivity)
  have : 0 ≤ d * |b| := by positivity
  linarith

/-- One more small error. -/
theorem step {d e D E : ℝ} (hd : 0 ≤ d) (h1 : d ≤ D) (h2 : e ≤ E) (he : E ≤ 1 / 100) : d + e + d * e ≤ 1.01 * D + E := by
  have a : d * e ≤ d * (1 / 100) := mul_le_mul_of_nonneg_left (h2.trans he) hd
  linarith

/-- The logarithm of `1 + y` keeps the relative error of `y`. -/
theorem log1p_within {d y y' : ℝ} (hy : 0 ≤ y) (h0 : 0 ≤ d) (hd : d ≤ 1 / 1000) (h : Within d y' y) :
    0 ≤ y' ∧ Within (1.002 * d) (Real.log (1 + y')) (Real.log (1 + y)) := by
  unfold Within at *
  rw [abs_of_nonneg hy, abs_le] at h
  have hy' : 0 ≤ y' := by nlinarith
  refine ⟨hy', ?_⟩
  have hl : 0 ≤ Real.log (1 + y) := Real.log_nonneg (by linarith)
  have p1 : 0 < 1 + y := by linarith
  have p2 : 0 < 1 + y' := by linarith
  have key : y ≤ Real.log (1 + y) * (1 + y) := by
    have := Real.one_sub_inv_le_log_of_pos p1
    have h2 := mul_le_mul_of_nonneg_right this p1.le
    rw [sub_mul, inv_mul_cancel₀ p1.ne'] at h2
    linarith
  have hdy : 0 ≤ d * y := mul_nonneg h0 hy
  rw [abs_of_nonneg hl, ← Real.log_div p2.ne' p1.ne']
  have q := div_pos p2 p1
  have l1 := Real.log_le_sub_one_of_pos q
  have l2 := Real.one_sub_inv_le_log_of_pos q
  have a1 : (1 + y') / (1 + y) - 1 ≤ d * Real.log (1 + y) := by
    rw [sub_le_iff_le_add, div_le_iff₀ p1]
    nlinarith [mul_le_mul_of_nonneg_left key h0]
  have a2 : ((1 + y') / (1 + y))⁻¹ - 1 ≤ 1.002 * d * Real.log (1 + y) := by
    rw [inv_div, sub_le_iff_le_add, div_le_iff₀ p2]
    have b : 0.999 * (1 + y) ≤ 1 + y' := by nlinarith
    have c : 0.999 * (d * y) ≤ 0.999 * (d * (Real.log (1 + y) * (1 + y))) :=
      mul_le_mul_of_nonneg_left (mul_le_mul_of_nonneg_left key h0) (by norm_num)
    have e : 0 ≤ d * Real.log (1 + y) := mul_nonneg h0 hl
    nlinarith [mul_le_mul_of_nonneg_left b e]
  have e : 0 ≤ d * Real.log (1 + y) := mul_nonneg h0 hl
  rw [abs_le]
  constructor <;> linarith

theorem exp_near {s : ℝ} (h : |s| ≤ 1 / 100) : |Real.exp s - 1| ≤ 1.01 * |s| := by
  have h1 := Real.abs_exp_sub_one_sub_id_le (x := s) (by linarith)
  have h2 : |Real.exp s - 1| ≤ |Real.exp s - 1 - s| + |s| := by simpa using abs_add_le (Real.exp s - 1 - s) s
  have h3 : s ^ 2 ≤ 1 / 100 * |s| := by
    rw [← sq_abs, sq]
    exact mul_le_mul_of_nonneg_right h (abs_nonneg s)
  linarith

/-- The exponential of a value with an absolute error. -/
theorem exp_within {s t x : ℝ} (h : |t - x| ≤ s) (hs : s ≤ 1 / 100) : Within (1.01 * s) (Real.exp t) (Real.exp x) := by
  unfold Within
  have e : Real.exp t - Real.exp x = (Real.exp (t - x) - 1) * Real.exp x := by
    rw [sub_mul, ← Real.exp_add, sub_add_cancel, one_mul]
  rw [e, abs_mul]
  exact mul_le_mul_of_nonneg_right ((exp_near (h.trans hs)).trans (by linarith)) (abs_nonneg _)

/-- The exponential minus 1 of a value with a relative error. -/
theorem expm1_within {d t x : ℝ} (hx : 0 ≤ x) (h0 : 0 ≤ d) (h : Within d t x) (hd : d * (1 + x) ≤ 1 / 100) :
    Within (1.01 * (d * (1 + x))) (Real.exp t - 1) (Real.exp x - 1) := by
  have h : |t - x| ≤ d * |x| := h
  rw [abs_of_nonneg hx] at h
  have h1 : |Real.exp t - Real.exp x| ≤ 1.01 * (d * x) * |Real.exp x| := exp_within h (by nlinarith)
  rw [abs_of_pos (Real.exp_pos x)] at h1
  have h2 := Real.add_one_le_exp x
  unfold Within
  rw [abs_of_nonneg (by linarith : 0 ≤ Real.exp x - 1), sub_sub_sub_cancel_right]
  refine h1.trans ?_
  have : d * (x * Real.exp x) ≤ d * ((1 + x) * (Real.exp x - 1)) := mul_le_mul_of_nonneg_left (by nlinarith) h0
  nlinarith

end Edsp.RndAudL
