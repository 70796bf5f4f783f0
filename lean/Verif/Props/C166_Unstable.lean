import Verif.Props.C09_Stability
import Mathlib.Tactic.LinearCombination
import Mathlib.Tactic.Linarith
import Mathlib.Tactic.NormNum
import Mathlib.Algebra.BigOperators.Fin

/-! # C166: a filter that is reported as unstable can be driven to any level -/

namespace Edsp.Props

open Edsp Finset

namespace C166

/-- The output stays within some bound. -/
def Tame (y : ℕ → ℝ) : Prop := ∃ L, ∀ n, |y n| ≤ L

variable {f : Biquad ℝ} {z : ℂ}

theorem partner (hz : z ^ 2 + f.a1 * z + f.a2 = 0) : (-f.a1 - z) + z = -(f.a1 : ℂ) ∧ (-f.a1 - z) * z = (f.a2 : ℂ) := by
  constructor
  · ring
  · linear_combination -hz

/-- The part of the state that belongs to the pole. -/
noncomputable def mode (f : Biquad ℝ) (z : ℂ) (x : ℕ → ℝ) (n : ℕ) : ℂ := (f.stateAt x n).w1 + z * (f.stateAt x n).w0

theorem mode_step (hz : z ^ 2 + f.a1 * z + f.a2 = 0) (x : ℕ → ℝ) (n : ℕ) :
    mode f z x (n + 1) = z * mode f z x n + (f.b0 * z ^ 2 + f.b1 * z + f.b2) * x n := by
  obtain ⟨h1, h2⟩ := partner hz
  have := (Stability.state_recurrence f h1 h2 x n).1
  simp only at this
  unfold mode
  rw [this]
  linear_combination (-(f.b0 : ℂ) * x n) * hz

/-- A bounded output leaves the state bounded. -/
theorem mode_tame {x : ℕ → ℝ} (hx : ∀ n, |x n| ≤ 1) (h : Tame (f.response x)) : ∃ L, ∀ n, ‖mode f z x n‖ ≤ L := by
  obtain ⟨L, hL⟩ := h
  have hw0 : ∀ n, |(f.stateAt x n).w0| ≤ L + |f.b0| := by
    intro n
    have e : (f.stateAt x n).w0 = f.response x n - f.b0 * x n := by rw [Stability.response_eq]; ring
    rw [e]
    refine (abs_sub _ _).trans (add_le_add (hL n) ?_)
    rw [abs_mul]
    exact mul_le_of_le_one_right (abs_nonneg _) (hx n)
  have hw1 : ∀ n, |(f.stateAt x (n + 1)).w1| ≤ |f.b2| + |f.a2| * L := by
    intro n
    obtain ⟨h1, h2, h3, h4, h5, _⟩ := Biquad.stateAt_coeffs f x n
    have e : (f.stateAt x (n + 1)).w1 = f.b2 * x n - f.a2 * f.response x n := by
      rw [Stability.response_eq, ← h1, ← h3, ← h5]
      rfl
    rw [e]
    refine (abs_sub _ _).trans (add_le_add ?_ ?_)
    · rw [abs_mul]
      exact mul_le_of_le_one_right (abs_nonneg _) (hx n)
    · rw [abs_mul]
      exact mul_le_mul_of_nonneg_left (hL n) (abs_nonneg _)
  refine ⟨|f.w1| + (|f.b2| + |f.a2| * L) + ‖z‖ * (L + |f.b0|), fun n => ?_⟩
  have hL0 : 0 ≤ L := (abs_nonneg _).trans (hL 0)
  unfold mode
  refine (norm_add_le _ _).trans (add_le_add ?_ ?_)
  · rw [Complex.norm_real, Real.norm_eq_abs]
    cases n with
    | zero =>
      have : 0 ≤ |f.b2| + |f.a2| * L := by positivity
      exact le_add_of_nonneg_right this
    | succ n => exact (hw1 n).trans (le_add_of_nonneg_left (abs_nonneg _))
  · rw [norm_mul, Complex.norm_real, Real.norm_eq_abs]
    exact mul_le_mul_of_nonneg_left (hw0 n) (norm_nonneg _)

/-- Outside the unit circle one of the inputs 0 and 1, 0, 0, … is enough. -/
theorem outside (hz : z ^ 2 + f.a1 * z + f.a2 = 0) (hn : 1 < ‖z‖) (hb : (f.b0 * z ^ 2 + f.b1 * z + f.b2 : ℂ) ≠ 0)
    (h : ∀ x : ℕ → ℝ, (∀ n, |x n| ≤ 1) → Tame (f.response x)) : False := by
  have key : ∀ t : ℝ, |t| ≤ 1 → z * mode f z (fun _ => 0) 0 + (f.b0 * z ^ 2 + f.b1 * z + f.b2) * t = 0 := by
    intro t ht
    set x : ℕ → ℝ := fun n => if n = 0 then t else 0 with hxd
    have hx : ∀ n, |x n| ≤ 1 := by
      intro n
      by_cases hn : n = 0
      · simpa [hxd, hn] using ht
      · simp [hxd, hn]
    obtain ⟨L, hL⟩ := mode_tame (z := z) hx (h x hx)
    have hgrow : ∀ n, mode f z x (n + 1) = z ^ n * (z * mode f z (fun _ => 0) 0 + (f.b0 * z ^ 2 + f.b1 * z + f.b2) * t) := by
      intro n
      induction n with
      | zero =>
        rw [mode_step hz, pow_zero, one_mul]
        simp [hxd, mode, Biquad.stateAt]
      | succ n ih =>
        rw [mode_step hz, ih]
        simp only [hxd, Nat.succ_ne_zero, if_false, Complex.ofReal_zero]
        ring
    by_contra hne
    have hpos := norm_pos_iff.mpr hne
    obtain ⟨n, hbig⟩ := pow_unbounded_of_one_lt (L / ‖z * mode f z (fun _ => 0) 0 +
      (f.b0 * z ^ 2 + f.b1 * z + f.b2) * t‖) hn
    have := hL (n + 1)
    rw [hgrow, norm_mul, norm_pow] at this
    rw [div_lt_iff₀ hpos] at hbig
    linarith
  have k0 := key 0 (by norm_num)
  have k1 := key 1 (by norm_num)
  rw [Complex.ofReal_zero, mul_zero, add_zero] at k0
  rw [k0, zero_add, Complex.ofReal_one, mul_one] at k1
  exact hb k1

/-- On the unit circle the sinusoid of the pole is in resonance. -/
theorem resonance (hz : z ^ 2 + f.a1 * z + f.a2 = 0) (hn : ‖z‖ = 1) (hb : (f.b0 * z ^ 2 + f.b1 * z + f.b2 : ℂ) ≠ 0)
    (h : ∀ x : ℕ → ℝ, (∀ n, |x n| ≤ 1) → Tame (f.response x)) : False := by
  have hc : ∀ k : ℕ, (starRingEnd ℂ) z ^ k * z ^ k = 1 := by
    intro k
    rw [← mul_pow, mul_comm, Complex.mul_conj, Complex.normSq_eq_norm_sq, hn]
    norm_num
  -- the correlation of the input with the sinusoid stays bounded
  have key : ∀ x : ℕ → ℝ, (∀ n, |x n| ≤ 1) → ∃ L, ∀ n, ‖∑ k ∈ range n, (x k : ℂ) * (starRingEnd ℂ) z ^ k‖ ≤ L := by
    intro x hx
    obtain ⟨L, hL⟩ := mode_tame (z := z) hx (h x hx)
    have hsum : ∀ n, mode f z x n * (starRingEnd ℂ) z ^ n = mode f z x 0 +
        (f.b0 * z ^ 2 + f.b1 * z + f.b2) * (starRingEnd ℂ) z * ∑ k ∈ range n, (x k : ℂ) * (starRingEnd ℂ) z ^ k := by
      intro n
      induction n with
      | zero => simp
      | succ n ih =>
        rw [mode_step hz, sum_range_succ, mul_add, ← add_assoc, ← ih]
        have h1 := hc 1
        rw [pow_one, pow_one] at h1
        rw [pow_succ]
        linear_combination (mode f z x n * (starRingEnd ℂ) z ^ n) * h1
    have hcn : ‖(starRingEnd ℂ) z‖ = 1 := by rw [Complex.norm_conj, hn]
    have hpos := norm_pos_iff.mpr hb
    refine ⟨(L + L) / ‖(f.b0 * z ^ 2 + f.b1 * z + f.b2 : ℂ)‖, fun n => ?_⟩
    rw [le_div_iff₀ hpos]
    have e : ‖∑ k ∈ range n, (x k : ℂ) * (starRingEnd ℂ) z ^ k‖ * ‖(f.b0 * z ^ 2 + f.b1 * z + f.b2 : ℂ)‖ =
        ‖mode f z x n * (starRingEnd ℂ) z ^ n - mode f z x 0‖ := by
      rw [hsum n, add_sub_cancel_left, norm_mul, norm_mul, hcn, mul_one, mul_comm]
    rw [e]
    refine (norm_sub_le _ _).trans (add_le_add ?_ (hL 0))
    rw [norm_mul, norm_pow, hcn, one_pow, mul_one]
    exact hL n
  have hzn : ∀ k : ℕ, ‖z ^ k‖ = 1 := fun k => by rw [norm_pow, hn, one_pow]
  obtain ⟨L1, h1⟩ := key (fun k => (z ^ k).re) fun k => (Complex.abs_re_le_norm _).trans (hzn k).le
  obtain ⟨L2, h2⟩ := key (fun k => (z ^ k).im) fun k => (Complex.abs_im_le_norm _).trans (hzn k).le
  have hconj : ∀ k : ℕ, (starRingEnd ℂ) z ^ k = (starRingEnd ℂ) (z ^ k) := fun k => by rw [map_pow]
  obtain ⟨n, hbig⟩ := exists_nat_gt (L1 + L2)
  have r1 : (∑ k ∈ range n, ((z ^ k).re : ℂ) * (starRingEnd ℂ) z ^ k).re = ∑ k ∈ range n, (z ^ k).re * (z ^ k).re := by
    rw [Complex.re_sum]
    exact sum_congr rfl fun k _ => by rw [hconj, Complex.re_ofReal_mul, Complex.conj_re]
  have r2 : (∑ k ∈ range n, ((z ^ k).im : ℂ) * (starRingEnd ℂ) z ^ k).im = -∑ k ∈ range n, (z ^ k).im * (z ^ k).im := by
    rw [Complex.im_sum, ← sum_neg_distrib]
    exact sum_congr rfl fun k _ => by rw [hconj, Complex.im_ofReal_mul, Complex.conj_im]; ring
  have htot : ∑ k ∈ range n, (z ^ k).re * (z ^ k).re + ∑ k ∈ range n, (z ^ k).im * (z ^ k).im = n := by
    rw [← sum_add_distrib]
    rw [sum_congr rfl fun k _ => show (z ^ k).re * (z ^ k).re + (z ^ k).im * (z ^ k).im = 1 by
      rw [← Complex.normSq_apply, Complex.normSq_eq_norm_sq, hzn, one_pow]]
    simp
  have b1 := (Complex.abs_re_le_norm _).trans (h1 n)
  have b2 := (Complex.abs_im_le_norm _).trans (h2 n)
  rw [r1] at b1
  rw [r2, abs_neg] at b2
  linarith [le_abs_self (∑ k ∈ range n, (z ^ k).re * (z ^ k).re), le_abs_self (∑ k ∈ range n, (z ^ k).im * (z ^ k).im)]

end C166

open C166

/-- A biquad with a pole on or outside the unit circle that is not a zero of its numerator: from whatever state, some input
within -1 and 1 drives the output beyond every level. -/
theorem C166_unbounded (f : Biquad ℝ) {z : ℂ} (hz : z ^ 2 + f.a1 * z + f.a2 = 0) (hn : 1 ≤ ‖z‖)
    (hb : (f.b0 * z ^ 2 + f.b1 * z + f.b2 : ℂ) ≠ 0) :
    ∃ x : ℕ → ℝ, (∀ n, |x n| ≤ 1) ∧ ∀ L, ∃ n, L < |f.response x n| := by
  by_contra hcon
  push Not at hcon
  have h : ∀ x : ℕ → ℝ, (∀ n, |x n| ≤ 1) → Tame (f.response x) := hcon
  rcases hn.lt_or_eq with h1 | h1
  · exact outside hz h1 hb h
  · exact resonance hz h1.symm hb h

/-- `stability()` of a biquad without common factors of numerator and denominator on or outside the unit circle holds exactly
if every bounded input gives a bounded output. -/
theorem C166_stability_iff (f : Biquad ℝ)
    (hc : ∀ z : ℂ, 1 ≤ ‖z‖ → z ^ 2 + f.a1 * z + f.a2 = 0 → (f.b0 * z ^ 2 + f.b1 * z + f.b2 : ℂ) ≠ 0) :
    f.stability = true ↔ ∀ x : ℕ → ℝ, (∃ M, ∀ n, |x n| ≤ M) → ∃ L, ∀ n, |f.response x n| ≤ L := by
  constructor
  · rintro h x ⟨M, hM⟩
    exact C09_bibo f h x M hM
  · intro h
    rw [C09_stability_iff_poles]
    intro z hz
    by_contra hn
    have hn := not_lt.mp hn
    obtain ⟨x, hx, hL⟩ := C166_unbounded f hz hn (hc z hn hz)
    obtain ⟨L, hL'⟩ := h x ⟨1, hx⟩
    obtain ⟨n, hlt⟩ := hL L
    exact absurd (hL' n) (not_le.mpr hlt)

/-- The condition is needed: with the numerator equal to the denominator the poles are never excited, and the biquad at rest
returns its input whatever `stability()` says. -/
theorem C166_cancelled (f : Biquad ℝ) (h0 : f.b0 = 1) (h1 : f.b1 = f.a1) (h2 : f.b2 = f.a2) (w0 : f.w0 = 0) (w1 : f.w1 = 0)
    (x : ℕ → ℝ) (n : ℕ) : f.response x n = x n := by
  have key : ∀ n, (f.stateAt x n).w0 = 0 ∧ (f.stateAt x n).w1 = 0 := by
    intro n
    induction n with
    | zero => exact ⟨w0, w1⟩
    | succ n ih =>
      obtain ⟨c1, c2, c3, c4, c5, _⟩ := Biquad.stateAt_coeffs f x n
      constructor
      · simp only [Biquad.stateAt, Biquad.tick, ih.1, ih.2, c1, c2, c4, h0, h1]
        ring
      · simp only [Biquad.stateAt, Biquad.tick, ih.1, c1, c3, c5, h0, h2]
        ring
  rw [Stability.response_eq, (key n).1, h0]
  ring

/-- A resonator with the poles ±i can be driven beyond every level; with the same polynomial as numerator it is harmless, and
`stability()` is false for both. -/
theorem C166_example :
    (({ Biquad.default with a2 := 1 } : Biquad ℝ).stability = false ∧
      ∃ x : ℕ → ℝ, (∀ n, |x n| ≤ 1) ∧ ∀ L, ∃ n, L < |({ Biquad.default with a2 := 1 } : Biquad ℝ).response x n|) ∧
    (({ Biquad.default with a2 := 1, b2 := 1 } : Biquad ℝ).stability = false ∧
      ∀ x : ℕ → ℝ, ∀ n, ({ Biquad.default with a2 := 1, b2 := 1 } : Biquad ℝ).response x n = x n) := by
  refine ⟨⟨by norm_num [Biquad.stability, Biquad.default], C166_unbounded _ (z := Complex.I) ?_ (by simp) ?_⟩,
    by norm_num [Biquad.stability, Biquad.default], fun x n => C166_cancelled _ ?_ ?_ ?_ ?_ ?_ x n⟩ <;>
    simp [Biquad.default]

end Edsp.Props
