import Verif.Spec.Ringing
import Verif.Lemmas.Biquad
import Mathlib.Analysis.Real.Sqrt
import Mathlib.Tactic.LinearCombination
import Mathlib.Tactic.Positivity

/-! # Helper lemmas: recursions with complex poles ring with a fixed factor per sample -/

namespace Edsp.RingingL

open Edsp Edsp.Spec

/-- The output after the input, as a recursion. -/
theorem after_section (f : Biquad ℝ) (xs : List ℝ) (n : ℕ) :
    after (fun l => (f.filter l).2) xs n = (f.filter xs).1.response (fun _ => 0) n := by
  unfold after
  have e : List.replicate (n + 1) (0 : ℝ) = (List.range (n + 1)).map fun _ => (0 : ℝ) := by
    rw [List.map_const', List.length_range]
  dsimp only
  rw [Biquad.filter_append, e, (Biquad.filter_range _ _ _).2]
  have hl : (f.filter xs).2.length = xs.length := by
    clear e
    induction xs generalizing f with
    | nil => rfl
    | cons x xs ih => simp [Biquad.filter_cons, ih]
  dsimp only
  rw [List.getD_eq_getElem?_getD, List.getElem?_append_right (by rw [hl]; omega), hl, Nat.add_sub_cancel_left]
  simp

/-- The quadratic form that every step multiplies by `a2`. -/
theorem ring_form {a1 a2 : ℝ} {y : ℕ → ℝ} (h : ∀ n, y (n + 2) = -a1 * y (n + 1) - a2 * y n) (n : ℕ) :
    y (n + 1) ^ 2 + a1 * y (n + 1) * y n + a2 * y n ^ 2 = a2 ^ n * (y 1 ^ 2 + a1 * y 1 * y 0 + a2 * y 0 ^ 2) := by
  induction n with
  | zero => simp
  | succ n ih =>
    have e : a2 ^ (n + 1) * (y 1 ^ 2 + a1 * y 1 * y 0 + a2 * y 0 ^ 2) =
        a2 * (a2 ^ n * (y 1 ^ 2 + a1 * y 1 * y 0 + a2 * y 0 ^ 2)) := by ring
    rw [e, ← ih, h n]
    ring

theorem rings {a1 a2 : ℝ} (hc : a1 ^ 2 < 4 * a2) {y : ℕ → ℝ} (h : ∀ n, y (n + 2) = -a1 * y (n + 1) - a2 * y n) :
    (∀ n, y n = 0) ∨ ∃ c C : ℝ, 0 < c ∧
      ∀ n, |y n| ≤ C * Real.sqrt a2 ^ n ∧ c * Real.sqrt a2 ^ n ≤ max |y n| |y (n + 1)| := by
  have ha : 0 < a2 := by nlinarith [sq_nonneg a1]
  set E := y 1 ^ 2 + a1 * y 1 * y 0 + a2 * y 0 ^ 2 with hE
  have hd : 0 < a2 - a1 ^ 2 / 4 := by linarith
  have hE0 : 0 ≤ E := by
    have : E = (y 1 + a1 / 2 * y 0) ^ 2 + (a2 - a1 ^ 2 / 4) * y 0 ^ 2 := by rw [hE]; ring
    rw [this]; positivity
  rcases hE0.eq_or_lt with h0 | hpos
  · left
    have e : (y 1 + a1 / 2 * y 0) ^ 2 + (a2 - a1 ^ 2 / 4) * y 0 ^ 2 = 0 := by rw [h0, hE]; ring
    have e2 : 0 ≤ (a2 - a1 ^ 2 / 4) * y 0 ^ 2 := by positivity
    have e3 : (a2 - a1 ^ 2 / 4) * y 0 ^ 2 = 0 := by nlinarith [sq_nonneg (y 1 + a1 / 2 * y 0)]
    have y0 : y 0 = 0 := by
      rcases mul_eq_zero.mp e3 with h | h
      · exact absurd h hd.ne'
      · exact pow_eq_zero_iff two_ne_zero |>.mp h
    have y1 : y 1 = 0 := by
      rw [y0] at e
      have : y 1 ^ 2 = 0 := by linarith
      exact pow_eq_zero_iff two_ne_zero |>.mp this
    have : ∀ n, y n = 0 ∧ y (n + 1) = 0 := by
      intro n
      induction n with
      | zero => exact ⟨y0, y1⟩
      | succ n ih => exact ⟨ih.2, by rw [h n, ih.1, ih.2]; ring⟩
    exact fun n => (this n).1
  · right
    set S := 1 + |a1| + a2 with hS
    have hSp : 0 < S := by positivity
    refine ⟨Real.sqrt (E / S), Real.sqrt (E / (a2 - a1 ^ 2 / 4)), Real.sqrt_pos.mpr (by positivity), fun n => ?_⟩
    have hf := ring_form h n
    have hpow : Real.sqrt a2 ^ n = Real.sqrt (a2 ^ n) := by
      rw [eq_comm, Real.sqrt_eq_iff_mul_self_eq (by positivity) (by positivity), ← mul_pow, Real.mul_self_sqrt ha.le]
    rw [hpow, ← Real.sqrt_mul (by positivity), ← Real.sqrt_mul (by positivity)]
    constructor
    · apply Real.abs_le_sqrt
      rw [div_mul_eq_mul_div, le_div_iff₀ hd]
      nlinarith [sq_nonneg (y (n + 1) + a1 / 2 * y n)]
    · set M := max |y n| |y (n + 1)| with hM
      have m1 : |y n| ≤ M := le_max_left _ _
      have m2 : |y (n + 1)| ≤ M := le_max_right _ _
      have hM0 : 0 ≤ M := (abs_nonneg _).trans m1
      rw [Real.sqrt_le_left hM0, div_mul_eq_mul_div, div_le_iff₀ hSp, mul_comm E, ← hf]
      have q1 : y n ^ 2 ≤ M ^ 2 := by rw [← sq_abs]; gcongr
      have q2 : y (n + 1) ^ 2 ≤ M ^ 2 := by rw [← sq_abs]; gcongr
      have q3 : a1 * y (n + 1) * y n ≤ |a1| * M ^ 2 := by
        calc a1 * y (n + 1) * y n ≤ |a1 * y (n + 1) * y n| := le_abs_self _
          _ = |a1| * (|y (n + 1)| * |y n|) := by rw [abs_mul, abs_mul]; ring
          _ ≤ |a1| * (M * M) := by gcongr
          _ = |a1| * M ^ 2 := by ring
      rw [hS]
      nlinarith [mul_le_mul_of_nonneg_left q1 ha.le]

/-- A section with complex poles, from every state. -/
theorem section_rings {f : Biquad ℝ} (hc : f.a1 ^ 2 < 4 * f.a2) :
    RingsWith (fun l => (f.filter l).2) (Real.sqrt f.a2) := by
  intro xs
  simp only [after_section]
  refine rings hc fun n => ?_
  rw [Biquad.response_step]
  obtain ⟨-, -, -, h4, h5, -⟩ := Biquad.filter_coeffs f xs
  rw [h4, h5]
  ring

end Edsp.RingingL
