import Verif.Lemmas.RoundedRbj
import Verif.Model.RoundedZoelzer

/-!
# Relative errors, and the tangent of the rounded angle
-/

namespace Edsp.RndZoelzerL

open Edsp Edsp.Spec Edsp.FloatL Edsp.RndWinL Edsp.RndWin Edsp.RndRbjL

/-- `x` is `X` up to a relative error `e`. -/
def R (e x X : ℝ) : Prop := |x - X| ≤ e * |X|

theorem R.mono {e e' x X : ℝ} (h : R e x X) (he : e ≤ e') : R e' x X :=
  le_trans h (mul_le_mul_of_nonneg_right he (abs_nonneg _))

theorem R.abs_le {e x X : ℝ} (h : R e x X) : |x| ≤ (1 + e) * |X| := by
  have := abs_add_le (x - X) X
  rw [sub_add_cancel] at this
  unfold R at h
  linarith

theorem R.rnd {p : ℕ} {e x X : ℝ} (h : R e x X) : R (e + u p * (1 + e)) (rnd p x) X := by
  have h1 := rnd_err' p x
  have h2 := h.abs_le
  have h3 := abs_sub_le (Spec.rnd p x) x X
  have h4 := mul_le_mul_of_nonneg_left h2 (u_pos p).le
  unfold R at *
  linarith

theorem R.refl (x : ℝ) : R 0 x x := by simp [R]

theorem R.mul {e d x X y Y : ℝ} (h : R e x X) (k : R d y Y) : R (e + d + e * d) (x * y) (X * Y) := by
  have e1 : x * y - X * Y = (x - X) * (y - Y) + (x - X) * Y + X * (y - Y) := by ring
  have a1 := abs_add_le ((x - X) * (y - Y) + (x - X) * Y) (X * (y - Y))
  have a2 := abs_add_le ((x - X) * (y - Y)) ((x - X) * Y)
  rw [abs_mul, abs_mul] at a2
  rw [abs_mul X] at a1
  unfold R at *
  rw [e1, abs_mul]
  have m1 := mul_le_mul h k (abs_nonneg _) (le_trans (abs_nonneg _) h)
  have m2 := mul_le_mul_of_nonneg_right h (abs_nonneg Y)
  have m3 := mul_le_mul_of_nonneg_left k (abs_nonneg X)
  nlinarith

theorem R.inv {e x X : ℝ} (h : R e x X) (hX : 0 < X) (he0 : 0 ≤ e) (he : e ≤ 1 / 20) :
    0 < x ∧ R (1.06 * e) (1 / x) (1 / X) := by
  unfold R at *
  rw [abs_of_pos hX] at h
  have h' := _root_.abs_le.mp h
  have hx : 0.95 * X ≤ x := by nlinarith
  have hx0 : 0 < x := by linarith
  refine ⟨hx0, ?_⟩
  rw [abs_of_pos (by positivity : 0 < 1 / X), show 1 / x - 1 / X = -(x - X) / (x * X) by field_simp; ring, abs_div,
    abs_neg, abs_of_pos (by positivity : 0 < x * X), div_le_iff₀ (by positivity)]
  have : 1.06 * e * (1 / X) * (x * X) = 1.06 * e * x := by field_simp
  rw [this]
  nlinarith

/-- The angle, half of the one of the RBJ designs. -/
theorem angle_ok {p : ℕ} (hp : 24 ≤ p) (hq : p ≤ 53) {fc fs : ℝ} (h0 : 0 < fc) (h1 : fc < fs / 2) :
    ∃ w, RndZoelzer.angle p fc fs = .ok w ∧ |w - Real.pi * fc / fs| ≤ 7.1 * u p * (Real.pi * fc / fs) := by
  obtain ⟨w, k1, k2, k3, -⟩ := omega_ok hp hq h0 h1
  have hfs : fs ≠ 0 := by linarith
  have hr : rnd p (2 * RndRbj.pi p) = 2 * RndRbj.pi p := by
    rw [rnd_double]
    unfold RndRbj.pi lit
    rw [rnd_rnd (by omega)]
  unfold RndRbj.omega at k1
  rw [hr, mul_assoc, rnd_double, div_ok hfs, mul_div_assoc, rnd_double] at k1
  have k1 := Except.ok.inj k1
  refine ⟨_, by unfold RndZoelzer.angle; exact div_ok hfs, ?_⟩
  rw [← k1] at k2 k3
  rw [show 2 * Real.pi * fc / fs = 2 * (Real.pi * fc / fs) by ring] at k2 k3
  rw [_root_.abs_le]
  constructor <;> linarith

/-- The tangent of an angle that is a little off. -/
theorem tan_err {v w θ r : ℝ} (hv : 0 < v) (h0 : 0 < θ) (h1 : θ < Real.pi / 2) (hr : r = v / Real.cos θ)
    (hr1 : r ≤ 1 / 1000) (h : |w - θ| ≤ 7.1 * v * θ) : R (11.4 * r) (Real.tan w) (Real.tan θ) := by
  have hpi : Real.pi ≤ 3.1416 := Real.pi_lt_d4.le
  have hc : 0 < Real.cos θ := Real.cos_pos_of_mem_Ioo ⟨by linarith, h1⟩
  have hs : 0 < Real.sin θ := Real.sin_pos_of_pos_of_lt_pi h0 (by linarith)
  have hsθ : 2 / Real.pi * θ ≤ Real.sin θ := Real.mul_le_sin h0.le h1.le
  have hθ : θ ≤ Real.pi / 2 * Real.sin θ := by
    have := mul_le_mul_of_nonneg_left hsθ (by linarith : 0 ≤ Real.pi / 2)
    have e : Real.pi / 2 * (2 / Real.pi * θ) = θ := by field_simp
    linarith
  have hvr : v = r * Real.cos θ := by rw [hr]; field_simp
  have hr0 : 0 < r := by rw [hr]; positivity
  have hcw := Real.abs_cos_sub_cos_le w θ
  have hwθ : |w - θ| ≤ 11.16 * r * Real.cos θ := by
    refine h.trans ?_
    rw [hvr]
    have : 7.1 * θ ≤ 11.16 := by linarith
    have := mul_le_mul_of_nonneg_left this (mul_pos hr0 hc).le
    nlinarith
  have hcw2 : 0.988 * Real.cos θ ≤ Real.cos w := by
    have := (_root_.abs_le.mp (hcw.trans hwθ)).1
    nlinarith
  have hcw3 : 0 < Real.cos w := by linarith
  unfold R
  have e : Real.tan w - Real.tan θ = Real.sin (w - θ) / (Real.cos w * Real.cos θ) := by
    rw [Real.tan_eq_sin_div_cos, Real.tan_eq_sin_div_cos, Real.sin_sub]
    field_simp
  rw [e, abs_div, abs_of_pos (mul_pos hcw3 hc), Real.tan_eq_sin_div_cos, abs_of_pos (div_pos hs hc),
    div_le_iff₀ (mul_pos hcw3 hc)]
  have e2 : 11.4 * r * (Real.sin θ / Real.cos θ) * (Real.cos w * Real.cos θ) = 11.4 * r * Real.sin θ * Real.cos w := by
    field_simp
  rw [e2]
  have h2 : |Real.sin (w - θ)| ≤ |w - θ| := Real.abs_sin_le_abs
  have h3 : |w - θ| ≤ 11.16 * r * Real.cos θ * Real.sin θ := by
    refine h.trans ?_
    have a : 7.1 * θ ≤ 11.16 * Real.sin θ := by
      have := mul_le_mul_of_nonneg_right hpi hs.le
      linarith
    rw [hvr]
    have := mul_le_mul_of_nonneg_left a (mul_pos hr0 hc).le
    linarith
  have h4 := mul_le_mul_of_nonneg_left hcw2 (by positivity : 0 ≤ 11.4 * r * Real.sin θ)
  have h5 : 0 ≤ r * Real.sin θ * Real.cos θ := by positivity
  linarith

end Edsp.RndZoelzerL
