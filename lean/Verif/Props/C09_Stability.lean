import Verif.Lemmas.Stability

/-!
# Property C09: `stability()`

Real coefficients, exact arithmetic.  `f.response x n` is the value returned by the `n`-th call of
`tick` on the infinite signal `x`, starting from whatever state `f` is in
(`C06_response_is_filter` identifies it with what `filter` writes).
-/

namespace Edsp.Props

open Edsp

/-- **C09**, pole location: `stability()` holds exactly when every complex root of
`z² + a1 z + a2` is strictly inside the unit circle. -/
theorem C09_stability_iff_poles (f : Biquad ℝ) :
    f.stability = true ↔ ∀ z : ℂ, z ^ 2 + f.a1 * z + f.a2 = 0 → ‖z‖ < 1 := by
  have : f.stability = true ↔ |f.a2| < 1 ∧ |f.a1| < 1 + f.a2 := by simp [Biquad.stability]
  rw [this]
  exact ⟨fun ⟨h2, h1⟩ z hz => Stability.roots_in_disc h2 h1 hz, Stability.triangle_of_roots⟩

/-- **C09**, decay: a stable filter left to itself from any state decays exponentially. -/
theorem C09_decay (f : Biquad ℝ) (h : f.stability = true) :
    ∃ D ρ : ℝ, 0 ≤ ρ ∧ ρ < 1 ∧ ∀ n, |f.response (fun _ => 0) n| ≤ D * ρ ^ n := by
  rw [C09_stability_iff_poles] at h
  obtain ⟨p, q, hs, hm⟩ := Stability.split_quadratic f.a1 f.a2
  obtain ⟨rp, rq⟩ := Stability.is_root hs hm
  have hp := h p rp
  have hq := h q rq
  have hrec := Stability.state_recurrence f hs hm (fun _ => 0)
  have hu : ∀ n, ‖((f.stateAt (fun _ => 0) n).w1 + q * (f.stateAt (fun _ => 0) n).w0 : ℂ)‖
      ≤ ‖((f.w1 : ℂ) + q * f.w0)‖ * ‖q‖ ^ n := by
    intro n
    induction n with
    | zero => simp [Biquad.stateAt]
    | succ n ih =>
      have := (hrec n).1
      simp only [Complex.ofReal_zero, mul_zero, add_zero] at this
      rw [this, norm_mul, pow_succ]
      nlinarith [norm_nonneg q]
  obtain ⟨D, ρ, h0, h1, hD⟩ := Stability.geometric_rec hp (norm_nonneg q) hq
    (s := fun n => ((f.stateAt (fun _ => 0) n).w0 : ℂ)) (fun n => (hrec n).2)
    (C := ‖((f.w1 : ℂ) + q * f.w0)‖) (fun n => by simpa using hu n)
  refine ⟨D, ρ, h0, h1, fun n => ?_⟩
  rw [Stability.response_eq]
  have := hD n
  simpa using this

/-- **C09**, in particular the response to silence tends to 0. -/
theorem C09_tends_to_zero (f : Biquad ℝ) (h : f.stability = true) :
    Filter.Tendsto (f.response fun _ => 0) Filter.atTop (nhds 0) := by
  obtain ⟨D, ρ, h0, h1, hD⟩ := C09_decay f h
  have ht : Filter.Tendsto (fun n => D * ρ ^ n) Filter.atTop (nhds 0) := by
    simpa using (tendsto_pow_atTop_nhds_zero_of_lt_one h0 h1).const_mul D
  exact squeeze_zero_norm (fun n => by simpa using hD n) ht

/-- **C09**, bounded input gives bounded output, from any state. -/
theorem C09_bibo (f : Biquad ℝ) (h : f.stability = true) (x : ℕ → ℝ) (M : ℝ)
    (hx : ∀ n, |x n| ≤ M) : ∃ B, ∀ n, |f.response x n| ≤ B := by
  rw [C09_stability_iff_poles] at h
  obtain ⟨p, q, hs, hm⟩ := Stability.split_quadratic f.a1 f.a2
  obtain ⟨rp, rq⟩ := Stability.is_root hs hm
  have hrec := Stability.state_recurrence f hs hm x
  have hxn : ∀ (c : ℂ) n, ‖c * (x n : ℂ)‖ ≤ ‖c‖ * M := by
    intro c n
    rw [norm_mul]
    exact mul_le_mul_of_nonneg_left (by simpa using hx n) (norm_nonneg _)
  obtain ⟨U, hU⟩ := Stability.bounded_rec (h q rq)
    (s := fun n => ((f.stateAt x n).w1 + q * (f.stateAt x n).w0 : ℂ)) (fun n => (hrec n).1) (fun n => hxn _ n)
  obtain ⟨W, hW⟩ := Stability.bounded_rec (h p rp)
    (s := fun n => ((f.stateAt x n).w0 : ℂ)) (fun n => (hrec n).2)
    (G := U + ‖((f.b1 : ℂ) - f.a1 * f.b0)‖ * M)
    (fun n => (norm_add_le _ _).trans (add_le_add (hU n) (hxn _ n)))
  refine ⟨|f.b0| * M + W, fun n => ?_⟩
  rw [Stability.response_eq]
  refine (abs_add_le _ _).trans (add_le_add ?_ ?_)
  · rw [abs_mul]; exact mul_le_mul_of_nonneg_left (hx n) (abs_nonneg _)
  · have := hW n; simpa using this

/-- **C09**, converse: if `stability()` is false, some state of the filter does not decay, so
`false` answers are not spurious. -/
theorem C09_unstable_does_not_decay (f : Biquad ℝ) (h : f.stability = false) :
    ∃ w0 w1 : ℝ, ¬ Filter.Tendsto (({ f with w0 := w0, w1 := w1 } : Biquad ℝ).response fun _ => 0)
      Filter.atTop (nhds 0) := by
  have h' : ¬ f.stability = true := by simp [h]
  rw [C09_stability_iff_poles] at h'
  push Not at h'
  obtain ⟨z, hz, hn⟩ := h'
  have key : ∀ (c : ℂ) (n : ℕ),
      let g : Biquad ℝ := { f with w0 := c.re, w1 := (c * (z + f.a1)).re }
      (g.stateAt (fun _ => 0) n).w0 = (c * z ^ n).re ∧
      (g.stateAt (fun _ => 0) n).w1 = (c * z ^ n * (z + f.a1)).re := by
    intro c n g
    induction n with
    | zero => simp [Biquad.stateAt, g]
    | succ n ih =>
      obtain ⟨h1, h2, h3, h4, h5, _⟩ := Biquad.stateAt_coeffs g (fun _ => 0) n
      have e0 : (g.stateAt (fun _ => 0) (n + 1)).w0 = - f.a1 * (g.stateAt (fun _ => 0) n).w0
          + (g.stateAt (fun _ => 0) n).w1 := by
        have : f.a1 = (g.stateAt (fun _ => 0) n).a1 := h4.symm
        rw [this]; simp [Biquad.stateAt, Biquad.tick]
      have e1 : (g.stateAt (fun _ => 0) (n + 1)).w1 = - f.a2 * (g.stateAt (fun _ => 0) n).w0 := by
        have : f.a2 = (g.stateAt (fun _ => 0) n).a2 := h5.symm
        rw [this]; simp [Biquad.stateAt, Biquad.tick]
      rw [e0, e1, ih.1, ih.2]
      constructor
      · have : c * z ^ (n + 1) = c * z ^ n * (z + f.a1) - f.a1 * (c * z ^ n) := by ring
        rw [this, Complex.sub_re, Complex.re_ofReal_mul]; ring
      · have : c * z ^ (n + 1) * (z + f.a1) = -(f.a2 * (c * z ^ n)) := by
          linear_combination (c * z ^ n) * hz
        rw [this, Complex.neg_re, Complex.re_ofReal_mul]; ring
  by_contra hcon
  push Not at hcon
  have t1 := hcon (1 : ℂ).re ((1 : ℂ) * (z + f.a1)).re
  have t2 := hcon (-Complex.I).re ((-Complex.I) * (z + f.a1)).re
  have r : ∀ (c : ℂ) n, ({ f with w0 := c.re, w1 := (c * (z + f.a1)).re } : Biquad ℝ).response
      (fun _ => 0) n = (c * z ^ n).re := by
    intro c n
    rw [Stability.response_eq, (key c n).1]; simp
  rw [show (({ f with w0 := (1 : ℂ).re, w1 := ((1 : ℂ) * (z + f.a1)).re } : Biquad ℝ).response
      fun _ => 0) = fun n => (1 * z ^ n).re from funext (r 1)] at t1
  rw [show (({ f with w0 := (-Complex.I).re, w1 := ((-Complex.I) * (z + f.a1)).re } :
      Biquad ℝ).response fun _ => 0) = fun n => ((-Complex.I) * z ^ n).re from
      funext (r (-Complex.I))] at t2
  have t3 := (t1.mul t1).add (t2.mul t2)
  have e : ∀ n, (1 * z ^ n).re * (1 * z ^ n).re + (-Complex.I * z ^ n).re * (-Complex.I * z ^ n).re
      = (‖z‖ ^ n) ^ 2 := by
    intro n
    rw [← norm_pow, Complex.sq_norm, Complex.normSq_apply]; simp
  simp only [e] at t3
  have hge : ∀ n : ℕ, (1 : ℝ) ≤ (‖z‖ ^ n) ^ 2 := fun n => one_le_pow₀ (one_le_pow₀ hn)
  have := ge_of_tendsto' t3 hge
  norm_num at this

/-- A resonator with poles at ±0.9i is declared stable; one with poles ±1.1i is not. -/
example : ({ Biquad.default with a2 := 0.81 } : Biquad ℝ).stability = true ∧
    ({ Biquad.default with a2 := 1.21 } : Biquad ℝ).stability = false := by
  constructor <;> norm_num [Biquad.stability, Biquad.default, abs_of_pos]

end Edsp.Props
