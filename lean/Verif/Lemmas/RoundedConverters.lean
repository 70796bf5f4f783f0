import Verif.Model.RoundedConverters
import Verif.Lemmas.RoundedRbj
import Mathlib.Analysis.SpecialFunctions.Log.Deriv
import Mathlib.Analysis.Complex.ExponentialBounds

/-!
# Relative errors of the converters
-/

namespace Edsp.RndConvL
open Edsp Edsp.Spec Edsp.RndConv Edsp.FloatL Edsp.RndWinL

theorem within_mono {e e' a b : ℝ} (h : Within e a b) (he : e ≤ e') : Within e' a b :=
  h.trans (mul_le_mul_of_nonneg_right he (abs_nonneg b))

theorem within_le {e a b : ℝ} (h : Within e a b) : |a| ≤ (1 + e) * |b| := by
  have h1 : |a| ≤ |a - b| + |b| := by simpa using abs_add_le (a - b) b
  have h2 : |a - b| ≤ e * |b| := h
  linarith

theorem within_trans {d e a b c : ℝ} (hd : 0 ≤ d) (h1 : Within d a b) (h2 : Within e b c) :
    Within (d + e + d * e) a c := by
  have h3 := within_le h2
  have h4 : |a - b| ≤ d * |b| := h1
  have h5 : |b - c| ≤ e * |c| := h2
  have h6 : |a - c| ≤ |a - b| + |b - c| := abs_sub_le a b c
  have h7 := mul_le_mul_of_nonneg_left h3 hd
  have : (d + e + d * e) * |c| = d * ((1 + e) * |c|) + e * |c| := by ring
  unfold Within
  linarith

theorem within_mul {e a b : ℝ} (k : ℝ) (h : Within e a b) : Within e (a * k) (b * k) := by
  unfold Within at *
  rw [← sub_mul, abs_mul, abs_mul, ← mul_assoc]
  exact mul_le_mul_of_nonneg_right h (abs_nonneg k)

theorem within_mul' {e a b : ℝ} (k : ℝ) (h : Within e a b) : Within e (k * a) (k * b) := by
  rw [mul_comm k a, mul_comm k b]
  exact within_mul k h

theorem within_div {e a b : ℝ} (k : ℝ) (h : Within e a b) : Within e (a / k) (b / k) := by
  rw [div_eq_mul_inv, div_eq_mul_inv]
  exact within_mul _ h

theorem within_rnd (p : ℕ) (x : ℝ) : Within (u p) (rnd p x) x := rnd_err p x

theorem within_rnd_of {p : ℕ} {e a b : ℝ} (h : Within e a b) : Within (u p + e + u p * e) (rnd p a) b :=
  within_trans (u_pos p).le (within_rnd p a) h

theorem within_pi {p : ℕ} (hp : 24 ≤ p) (hq : p ≤ 53) : Within (5 * u p) (RndRbj.pi p) Real.pi := by
  obtain ⟨h1, h2⟩ := RndRbjL.pi_err hp hq
  unfold Within
  rw [abs_of_pos Real.pi_pos, abs_le]
  constructor <;> linarith

theorem pi_pos {p : ℕ} (hp : 24 ≤ p) (hq : p ≤ 53) : 0 < RndRbj.pi p :=
  lt_of_lt_of_le (mul_pos (by linarith [u_small hp]) Real.pi_pos) (RndRbjL.pi_err hp hq).1

theorem within_inv_pi {p : ℕ} (hp : 24 ≤ p) (hq : p ≤ 53) : Within (5.1 * u p) (RndRbj.pi p)⁻¹ (Real.pi)⁻¹ := by
  obtain ⟨h1, h2⟩ := RndRbjL.pi_err hp hq
  have hu := u_pos p
  have hs := u_small hp
  have hπ := Real.pi_pos
  have hP := pi_pos hp hq
  have e : (RndRbj.pi p)⁻¹ - (Real.pi)⁻¹ = (Real.pi - RndRbj.pi p) / RndRbj.pi p * (Real.pi)⁻¹ := by
    field_simp
  unfold Within
  rw [e, abs_mul]
  refine mul_le_mul_of_nonneg_right ?_ (abs_nonneg _)
  rw [abs_div, abs_of_pos hP, div_le_iff₀ hP, abs_le]
  have : u p * Real.pi * (5.1 * (1 - 5 * u p)) ≤ 5.1 * u p * RndRbj.pi p := by
    calc u p * Real.pi * (5.1 * (1 - 5 * u p)) = 5.1 * u p * ((1 - 5 * u p) * Real.pi) := by ring
      _ ≤ _ := mul_le_mul_of_nonneg_left h1 (by positivity)
  have h5 : u p * Real.pi * 5 ≤ u p * Real.pi * (5.1 * (1 - 5 * u p)) :=
    mul_le_mul_of_nonneg_left (by linarith) (by positivity)
  constructor <;> linarith

theorem chain3 {v : ℝ} (h0 : 0 < v) (h1 : v ≤ 1 / 16777216) {k : ℝ} (hk0 : 0 ≤ k) (hk : k ≤ 6) :
    v + (v + k * v + v * (k * v)) + v * (v + k * v + v * (k * v)) ≤ (k + 2.1) * v := by
  have a : v * v ≤ v * (1 / 16777216) := mul_le_mul_of_nonneg_left h1 h0.le
  have b : v * v * v ≤ v * v * (1 / 16777216) := mul_le_mul_of_nonneg_left h1 (by positivity)
  have c : k * (v * v) ≤ 6 * (v * v) := mul_le_mul_of_nonneg_right hk (by positivity)
  have d : k * (v * v * v) ≤ 6 * (v * v * v) := mul_le_mul_of_nonneg_right hk (by positivity)
  nlinarith

/-- Decimal logarithm of a relative error. -/
theorem logb_within {e a b : ℝ} (hb : 0 < b) (he : e ≤ 1 / 4) (h0 : 0 ≤ e) (h : Within e a b) :
    0 < a ∧ |Real.logb 10 a - Real.logb 10 b| ≤ e := by
  unfold Within at h
  rw [abs_of_pos hb, abs_le] at h
  have hl : (2 : ℝ) < Real.log 10 := by
    have h8 : Real.log 8 < Real.log 10 := Real.log_lt_log (by norm_num) (by norm_num)
    have : Real.log 8 = 3 * Real.log 2 := by
      rw [show (8 : ℝ) = 2 ^ 3 by norm_num, Real.log_pow]; push_cast; ring
    have := Real.log_two_gt_d9
    linarith
  have ha : 0 < a := by nlinarith
  refine ⟨ha, ?_⟩
  rw [Real.logb, Real.logb, ← sub_div, ← Real.log_div ha.ne' hb.ne', abs_div, abs_of_pos (by linarith : 0 < Real.log 10),
    div_le_iff₀ (by linarith)]
  have hq : 0 < a / b := div_pos ha hb
  have q1 : a / b ≤ 1 + e := by rw [div_le_iff₀ hb]; linarith
  have q2 : 1 - e ≤ a / b := by rw [le_div_iff₀ hb]; linarith
  have l1 := Real.log_le_sub_one_of_pos hq
  have l2 := Real.one_sub_inv_le_log_of_pos hq
  have i1 : (a / b)⁻¹ ≤ 1 + 2 * e := by
    rw [inv_le_comm₀ hq (by linarith)]
    refine le_trans ?_ q2
    rw [inv_le_iff_one_le_mul₀ (by linarith)]
    nlinarith
  have : e * 2 ≤ e * Real.log 10 := mul_le_mul_of_nonneg_left hl.le h0
  rw [abs_le]
  constructor <;> linarith

/-- A power of ten near 1. -/
theorem pow_near {s : ℝ} (h : |s| ≤ 1 / 4) : |(10 : ℝ) ^ s - 1| ≤ 5 * |s| := by
  have hl : Real.log 10 < 2.5 := by
    rw [Real.log_lt_iff_lt_exp (by norm_num)]
    have := Real.exp_one_gt_d9
    have e : Real.exp 2.5 = Real.exp 1 * Real.exp 1 * Real.exp (1 / 2) := by
      rw [← Real.exp_add, ← Real.exp_add]; norm_num
    have h2 : (1 / 2 : ℝ) + 1 ≤ Real.exp (1 / 2) := Real.add_one_le_exp _
    rw [e]
    nlinarith [mul_pos (by linarith : (0 : ℝ) < Real.exp 1 - 2.7) (by linarith : (0 : ℝ) < Real.exp 1 - 2.7)]
  have h0 : 0 < Real.log 10 := Real.log_pos (by norm_num)
  rw [Real.rpow_def_of_pos (by norm_num)]
  have hb : |Real.log 10 * s| ≤ 2.5 * |s| := by
    rw [abs_mul, abs_of_pos h0]
    exact mul_le_mul_of_nonneg_right hl.le (abs_nonneg s)
  refine (Real.abs_exp_sub_one_le (by linarith)).trans ?_
  linarith

/-- Level of a power: `k` is 10 or 20. -/
theorem level_err {p : ℕ} {e : ℝ} {L : ℝ → ℝ} (hL : LogLike e L) (k : ℝ) {x : ℝ} (hx : 0 < x) :
    Within (u p + e + u p * e) (rnd p (k * L x)) (k * Real.logb 10 x) :=
  within_rnd_of (within_mul' k (hL.near x hx))

theorem small_sum {v e : ℝ} (hv : 0 < v) (hs : v ≤ 1 / 1000) (he : 0 ≤ e) (hl : e ≤ 1 / 1000) :
    v + e + v * e ≤ 1.01 * (v + e) := by
  nlinarith [mul_le_mul_of_nonneg_left hl hv.le]

/-- Power of a level. -/
theorem power_err {p : ℕ} {e : ℝ} {P : ℝ → ℝ} (hP : PowLike e P) (t : ℝ) :
    Within (u p + e + u p * e) (rnd p (P t)) ((10 : ℝ) ^ t) := within_rnd_of (hP.near t)

/-- A level to a power and back. -/
theorem there_and_back {p : ℕ} (hp : 24 ≤ p) {e : ℝ} (he : 0 ≤ e) (hl : e ≤ 1 / 1000) {L P : ℝ → ℝ}
    (hL : LogLike e L) (hP : PowLike e P) {k : ℝ} (hk : 0 < k) (x : ℝ) :
    0 < rnd p (P (rnd p (x / k))) ∧
    |rnd p (k * L (rnd p (P (rnd p (x / k))))) - x| ≤ (u p + e) * (3 * |x| + 1.2 * k) := by
  have hu := u_pos p
  have hs : u p ≤ 1 / 1000 := (u_small hp).trans (by norm_num)
  have hm := small_sum hu hs he hl
  obtain ⟨q0, q1⟩ := logb_within (Real.rpow_pos_of_pos (by norm_num : (0 : ℝ) < 10) _) (by linarith) (by positivity)
    (power_err (p := p) hP (rnd p (x / k)))
  refine ⟨q0, ?_⟩
  set q := rnd p (P (rnd p (x / k)))
  rw [Real.logb_rpow (by norm_num) (by norm_num)] at q1
  have ht : Within (u p) (rnd p (x / k)) (x / k) := within_rnd p _
  have ht : |rnd p (x / k) - x / k| ≤ u p * |x / k| := ht
  have hr : Within _ (rnd p (k * L q)) (k * Real.logb 10 q) := level_err hL k q0
  have hr : |rnd p (k * L q) - k * Real.logb 10 q| ≤ (u p + e + u p * e) * |k * Real.logb 10 q| := hr
  set g := Real.logb 10 q
  set t := rnd p (x / k)
  have hx : |x / k| = |x| / k := by rw [abs_div, abs_of_pos hk]
  rw [hx] at ht
  -- the logarithm of the power
  have hg : |k * g - x| ≤ k * (u p + e + u p * e) + u p * |x| := by
    have a : k * g - x = k * (g - t) + k * (t - x / k) := by field_simp; ring
    have b : k * (u p * (|x| / k)) = u p * |x| := by field_simp
    rw [a]
    refine (abs_add_le _ _).trans ?_
    rw [abs_mul, abs_mul, abs_of_pos hk]
    exact add_le_add (mul_le_mul_of_nonneg_left q1 hk.le) ((mul_le_mul_of_nonneg_left ht hk.le).trans b.le)
  have hX := abs_nonneg x
  have hkg : |k * g| ≤ 1.01 * |x| + 0.01 * k := by
    have a : |k * g| ≤ |k * g - x| + |x| := by simpa using abs_add_le (k * g - x) x
    have b : k * (u p + e + u p * e) ≤ k * 0.01 := mul_le_mul_of_nonneg_left (by linarith) hk.le
    have c : u p * |x| ≤ 0.01 * |x| := mul_le_mul_of_nonneg_right (by linarith) hX
    linarith
  have h1 : (u p + e + u p * e) * |k * g| ≤ 1.01 * (u p + e) * (1.01 * |x| + 0.01 * k) :=
    mul_le_mul hm hkg (abs_nonneg _) (by positivity)
  have h2 : |rnd p (k * L q) - x| ≤ |rnd p (k * L q) - k * g| + |k * g - x| := abs_sub_le _ _ _
  have h3 : k * (u p + e + u p * e) ≤ k * (1.01 * (u p + e)) := mul_le_mul_of_nonneg_left hm hk.le
  have h4 : 0 ≤ e * |x| := mul_nonneg he hX
  have h5 : 0 ≤ u p * |x| := mul_nonneg hu.le hX
  have h6 : 0 ≤ e * k := mul_nonneg he hk.le
  have h7 : 0 ≤ u p * k := mul_nonneg hu.le hk.le
  nlinarith

/-- A power to a level and back. -/
theorem back_and_there {p : ℕ} (hp : 24 ≤ p) {e : ℝ} (he : 0 ≤ e) (hl : e ≤ 1 / 1000) {L P : ℝ → ℝ}
    (hL : LogLike e L) (hP : PowLike e P) {k : ℝ} (hk : 0 < k) {x : ℝ} (hx : 0 < x)
    (hr : (u p + e) * |Real.logb 10 x| ≤ 1 / 10) :
    Within ((u p + e) * (13 * |Real.logb 10 x| + 2)) (rnd p (P (rnd p (rnd p (k * L x) / k)))) x := by
  have hu := u_pos p
  have hs : u p ≤ 1 / 1000 := (u_small hp).trans (by norm_num)
  have hm := small_sum hu hs he hl
  have h1 := within_rnd_of (p := p) (within_div k (level_err (p := p) hL k hx))
  rw [mul_div_cancel_left₀ _ hk.ne'] at h1
  set g := Real.logb 10 x with hg
  set t := rnd p (rnd p (k * L x) / k)
  have hG := abs_nonneg g
  have hc : u p + (u p + e + u p * e) + u p * (u p + e + u p * e) ≤ 2.1 * (u p + e) := by
    have a : u p * (u p + e + u p * e) ≤ u p * 0.01 := mul_le_mul_of_nonneg_left (by linarith) hu.le
    linarith
  have h1 : |t - g| ≤ 2.1 * (u p + e) * |g| := (within_mono h1 hc : _)
  have h2 : |(10 : ℝ) ^ (t - g) - 1| ≤ 5 * |t - g| := pow_near (by linarith)
  have h3 : Within (10.5 * ((u p + e) * |g|)) ((10 : ℝ) ^ t) x := by
    have : (10 : ℝ) ^ t = (10 : ℝ) ^ (t - g) * x := by
      rw [Real.rpow_sub (by norm_num), hg, Real.rpow_logb (by norm_num) (by norm_num) hx]
      field_simp
    unfold Within
    rw [this, show (10 : ℝ) ^ (t - g) * x - x = ((10 : ℝ) ^ (t - g) - 1) * x by ring, abs_mul]
    exact mul_le_mul_of_nonneg_right (by linarith) (abs_nonneg x)
  refine within_mono (within_trans (by positivity) (power_err (p := p) hP t) h3) ?_
  have h4 : 0 ≤ (u p + e) * |g| := by positivity
  have h5 : (u p + e + u p * e) * (10.5 * ((u p + e) * |g|)) ≤ 0.01 * (10.5 * ((u p + e) * |g|)) :=
    mul_le_mul_of_nonneg_right (by linarith) (by positivity)
  linarith

end Edsp.RndConvL
