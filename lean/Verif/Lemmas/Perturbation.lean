import Verif.Lemmas.RoundedBiquad
import Verif.Lemmas.Float

/-!
# A filter whose coefficients are slightly wrong
-/

namespace Edsp.PerturbL

open Edsp Edsp.Rounded

/-- Two filters at rest whose coefficients differ by at most `δ`. -/
structure Within (δ : ℝ) (f g : Biquad ℝ) : Prop where
  a1 : |f.a1 - g.a1| ≤ δ
  a2 : |f.a2 - g.a2| ≤ δ
  b0 : |f.b0 - g.b0| ≤ δ
  b1 : |f.b1 - g.b1| ≤ δ
  b2 : |f.b2 - g.b2| ≤ δ
  fw0 : f.w0 = 0
  fw1 : f.w1 = 0
  gw0 : g.w0 = 0
  gw1 : g.w1 = 0

theorem abs_le_of_sub {a b δ S : ℝ} (h : |a - b| ≤ δ) (hb : |b| ≤ S) : |a| ≤ S + δ := by
  have := abs_add_le (a - b) b
  rw [sub_add_cancel] at this
  linarith

theorem Within.coeffs {δ S : ℝ} {f g : Biquad ℝ} (h : Within δ f g) (hS : CoeffLe g S) (hδ : δ ≤ 1) : CoeffLe f (2 * S) := by
  have h1 := hS.one
  exact ⟨by linarith, by linarith [abs_le_of_sub h.b0 hS.b0], by linarith [abs_le_of_sub h.b1 hS.b1],
    by linarith [abs_le_of_sub h.b2 hS.b2], by linarith [abs_le_of_sub h.a1 hS.a1], by linarith [abs_le_of_sub h.a2 hS.a2]⟩

/-- The poles move by less than half of their distance from the unit circle. -/
theorem Within.poles {δ k : ℝ} {f g : Biquad ℝ} (h : Within δ f g) (hk : 1 ≤ k)
    (hg : ∀ z : ℂ, z ^ 2 + g.a1 * z + g.a2 = 0 → ‖z‖ ≤ 1 - 1 / k) (hδ : 13 * δ * k ^ 2 ≤ 1) {z : ℂ}
    (hz : z ^ 2 + f.a1 * z + f.a2 = 0) : ‖z‖ ≤ 1 - 1 / (2 * k) := by
  by_contra hc
  push Not at hc
  obtain ⟨p, q, hs, hm⟩ := Stability.split_quadratic g.a1 g.a2
  obtain ⟨rp, rq⟩ := Stability.is_root hs hm
  have np := hg p rp
  have nq := hg q rq
  have hk0 : 0 < k := by linarith
  have hδ0 : 0 ≤ δ := (abs_nonneg _).trans h.a1
  have e : (z - p) * (z - q) = ((g.a1 - f.a1 : ℝ) : ℂ) * z + ((g.a2 - f.a2 : ℝ) : ℂ) := by
    push_cast
    linear_combination hz - z * hs + hm
  have e1 : ‖z - p‖ * ‖z - q‖ ≤ δ * ‖z‖ + δ := by
    rw [← norm_mul, e]
    refine (norm_add_le _ _).trans ?_
    rw [norm_mul, norm_ofReal, norm_ofReal, abs_sub_comm g.a1, abs_sub_comm g.a2]
    exact add_le_add (mul_le_mul_of_nonneg_right h.a1 (norm_nonneg _)) h.a2
  have t1 := norm_sub_norm_le z p
  have t2 := norm_sub_norm_le z q
  generalize ‖z‖ = r at *
  set t := r - (1 - 1 / k) with ht
  have hki : 1 / (2 * k) = (1 / k) / 2 := by field_simp
  rw [hki] at hc
  have hinv : 0 < 1 / k := by positivity
  have ht0 : (1 / k) / 2 < t := by rw [ht]; linarith
  have ht1 : t ≤ ‖z - p‖ := by linarith
  have ht2 : t ≤ ‖z - q‖ := by linarith
  have ht3 : t * t ≤ ‖z - p‖ * ‖z - q‖ := mul_le_mul ht1 ht2 (by linarith) (norm_nonneg _)
  have hr : r = t + 1 - 1 / k := by rw [ht]; ring
  have hrt : r + 1 ≤ t + 2 := by linarith
  have h1 : t * t ≤ δ * (t + 2) := by nlinarith
  have hkk : (1 / k) * k = 1 := by field_simp
  have hd : 13 * δ ≤ (1 / k) ^ 2 := by
    have : (1 / k) ^ 2 * (13 * δ * k ^ 2) ≤ (1 / k) ^ 2 := mul_le_of_le_one_right (by positivity) hδ
    have e3 : (1 / k) ^ 2 * (13 * δ * k ^ 2) = 13 * δ * ((1 / k) * k) ^ 2 := by ring
    rw [e3, hkk] at this
    linarith
  have hi1 : 1 / k ≤ 1 := by rw [div_le_one hk0]; exact hk
  generalize 1 / k = i at *
  -- t > i/2, 13 δ ≤ i², t² ≤ δ (t+2)
  have h2 : δ * (t + 2) ≤ i ^ 2 / 13 * (t + 2) := mul_le_mul_of_nonneg_right (by linarith) (by linarith)
  have h3 : i ^ 2 ≤ 4 * (t * t) := by nlinarith
  have h4 : i ^ 2 * t ≤ 2 * (t * t) := by
    have a : i * i ≤ 1 * i := mul_le_mul_of_nonneg_right hi1 hinv.le
    have b : i * i * t ≤ 2 * t * t := mul_le_mul_of_nonneg_right (by linarith) (by linarith)
    linarith [show i ^ 2 * t = i * i * t by ring]
  have h5 : 0 < t * t := by nlinarith
  nlinarith

theorem split_radius {a1 a2 : ℝ} {k : ℝ} (hk : 1 ≤ k) (hg : ∀ z : ℂ, z ^ 2 + a1 * z + a2 = 0 → ‖z‖ ≤ 1 - 1 / k) :
    ∃ p q : ℂ, p + q = -a1 ∧ p * q = a2 ∧ ‖p‖ ≤ 1 - 1 / k ∧ ‖q‖ ≤ 1 - 1 / k ∧ (1 - 1 / k) ≤ 1 ∧ (1 - (1 - 1 / k)) * k = 1 := by
  obtain ⟨p, q, hs, hm⟩ := Stability.split_quadratic a1 a2
  obtain ⟨rp, rq⟩ := Stability.is_root hs hm
  have hk0 : 0 < k := by linarith
  have : 0 < 1 / k := by positivity
  exact ⟨p, q, hs, hm, hg p rp, hg q rq, by linarith, by rw [sub_sub_cancel]; field_simp⟩

/-- The difference of the outputs of two filters with nearly the same coefficients. -/
theorem Within.outputs {δ S k X : ℝ} {f g : Biquad ℝ} (h : Within δ f g) (hS : CoeffLe g S) (hk : 1 ≤ k)
    (hg : ∀ z : ℂ, z ^ 2 + g.a1 * z + g.a2 = 0 → ‖z‖ ≤ 1 - 1 / k) (hδ : 13 * δ * k ^ 2 ≤ 1)
    {x : ℕ → ℝ} (hx : ∀ n, |x n| ≤ X) (n : ℕ) :
    |f.response x n - g.response x n| ≤ 1641 * S ^ 3 * k ^ 4 * δ * X := by
  have hX : 0 ≤ X := (abs_nonneg _).trans (hx 0)
  have hS1 := hS.one
  have hδ0 : 0 ≤ δ := (abs_nonneg _).trans h.a1
  have hk2 : 1 ≤ k ^ 2 := one_le_pow₀ hk
  have hδ1 : δ ≤ 1 := by nlinarith
  obtain ⟨p, q, hs, hm, hp, hq, hr, hrk⟩ := split_radius hk hg
  obtain ⟨p', q', hs', hm', hp', hq', hr', hrk'⟩ := split_radius (a1 := f.a1) (a2 := f.a2) (k := 2 * k) (by linarith)
    fun z hz => h.poles hk hg hδ hz
  -- the output of `f`
  have hY : ∀ n, |f.response x n| ≤ 544 * S ^ 3 * k ^ 2 * X := by
    intro n
    have hb := exact_bound (h.coeffs hS hδ1) hs' hm' hp' hq' hr' hrk' (by linarith) h.fw0 h.fw1 hx n
    have e : f.response x n = f.b0 * x n + (f.stateAt x n).w0 := by
      show (f.stateAt x n).b0 * x n + (f.stateAt x n).w0 = _
      rw [(Biquad.stateAt_coeffs f x n).1]
    rw [e]
    refine (abs_add_le _ _).trans ?_
    rw [abs_mul]
    have h0 := (h.coeffs hS hδ1).b0
    have h1 : |f.b0| * |x n| ≤ 2 * S * |x n| := mul_le_mul_of_nonneg_right h0 (abs_nonneg _)
    have h2 : |(f.stateAt x n).w0| ≤ 2 * S * |(f.stateAt x n).w0| := le_mul_of_one_le_left (abs_nonneg _) (by linarith)
    have h3 : 0 ≤ 2 * S * |(f.stateAt x n).w1| := by positivity
    have h4 := mul_le_mul_of_nonneg_left hb (show 0 ≤ 2 * S by linarith)
    have e2 : 2 * S * (17 * (2 * S) ^ 2 * (2 * k) ^ 2 * X) = 544 * S ^ 3 * k ^ 2 * X := by ring
    rw [e2] at h4
    linarith
  set Y := 544 * S ^ 3 * k ^ 2 * X with hYe
  set G := δ * (546 * S ^ 3 * k ^ 2 * X) with hGe
  have hP : X ≤ S * X := le_mul_of_one_le_left hX hS1
  have hP2 : S * X ≤ S ^ 3 * k ^ 2 * X := by
    have h1 : S ≤ S ^ 3 := by nlinarith [sq_nonneg (S - 1)]
    have h2 : S ≤ S ^ 3 * k ^ 2 := by nlinarith
    nlinarith
  -- the differences of the states
  have loc : ∀ (db a da : ℝ) (n : ℕ), |db| ≤ δ → |a| ≤ S → |da| ≤ δ →
      |db * x n - da * f.response x n - a * ((f.b0 - g.b0) * x n)| ≤ G := by
    intro db a da n h1 h2 h3
    have c1 : |db * x n| ≤ δ * X := by
      rw [abs_mul]; exact mul_le_mul h1 (hx n) (abs_nonneg _) hδ0
    have c2 : |da * f.response x n| ≤ δ * Y := by
      rw [abs_mul]; exact mul_le_mul h3 (hY n) (abs_nonneg _) hδ0
    have c3 : |a * ((f.b0 - g.b0) * x n)| ≤ S * (δ * X) := by
      rw [abs_mul, abs_mul]
      exact mul_le_mul h2 (mul_le_mul h.b0 (hx n) (abs_nonneg _) hδ0) (by positivity) (by linarith)
    have d1 := abs_sub (db * x n - da * f.response x n) (a * ((f.b0 - g.b0) * x n))
    have d2 := abs_sub (db * x n) (da * f.response x n)
    have d3 : δ * X + δ * Y + S * (δ * X) ≤ G := by
      have : X + Y + S * X ≤ 546 * S ^ 3 * k ^ 2 * X := by rw [hYe]; linarith
      have := mul_le_mul_of_nonneg_left this hδ0
      rw [hGe]
      linarith
    linarith
  have G0 : ∀ n, |(f.b1 - g.b1) * x n - (f.a1 - g.a1) * f.response x n - g.a1 * ((f.b0 - g.b0) * x n)| ≤ G :=
    fun n => loc _ _ _ n h.b1 hS.a1 h.a1
  have G1 : ∀ n, |(f.b2 - g.b2) * x n - (f.a2 - g.a2) * f.response x n - g.a2 * ((f.b0 - g.b0) * x n)| ≤ G :=
    fun n => loc _ _ _ n h.b2 hS.a2 h.a2
  have sf : ∀ n, f.response x n = f.b0 * x n + (f.stateAt x n).w0 ∧
      (f.stateAt x (n + 1)).w0 = f.b1 * x n - f.a1 * f.response x n + (f.stateAt x n).w1 ∧
      (f.stateAt x (n + 1)).w1 = f.b2 * x n - f.a2 * f.response x n := by
    intro n
    obtain ⟨h1, h2, h3, h4, h5, _⟩ := Biquad.stateAt_coeffs f x n
    refine ⟨?_, ?_, ?_⟩
    · rw [← h1]; rfl
    · rw [← h2, ← h4]; rfl
    · rw [← h3, ← h5]; rfl
  have sg : ∀ n, g.response x n = g.b0 * x n + (g.stateAt x n).w0 ∧
      (g.stateAt x (n + 1)).w0 = g.b1 * x n - g.a1 * g.response x n + (g.stateAt x n).w1 ∧
      (g.stateAt x (n + 1)).w1 = g.b2 * x n - g.a2 * g.response x n := by
    intro n
    obtain ⟨h1, h2, h3, h4, h5, _⟩ := Biquad.stateAt_coeffs g x n
    refine ⟨?_, ?_, ?_⟩
    · rw [← h1]; rfl
    · rw [← h2, ← h4]; rfl
    · rw [← h3, ← h5]; rfl
  set D0 : ℕ → ℝ := fun n => (f.stateAt x n).w0 - (g.stateAt x n).w0 with hD0
  set D1 : ℕ → ℝ := fun n => (f.stateAt x n).w1 - (g.stateAt x n).w1 with hD1
  set E0 : ℕ → ℝ := fun n => (f.b1 - g.b1) * x n - (f.a1 - g.a1) * f.response x n - g.a1 * ((f.b0 - g.b0) * x n) with hE0
  set E1 : ℕ → ℝ := fun n => (f.b2 - g.b2) * x n - (f.a2 - g.a2) * f.response x n - g.a2 * ((f.b0 - g.b0) * x n) with hE1
  have r0 : ∀ n, D0 (n + 1) = -g.a1 * D0 n + D1 n + E0 n := by
    intro n
    obtain ⟨f1, f2, f3⟩ := sf n
    obtain ⟨g1, g2, g3⟩ := sg n
    simp only [hD0, hD1, hE0]
    rw [f2, g2, g1]
    linear_combination (-g.a1) * f1
  have r1 : ∀ n, D1 (n + 1) = -g.a2 * D0 n + E1 n := by
    intro n
    obtain ⟨f1, f2, f3⟩ := sf n
    obtain ⟨g1, g2, g3⟩ := sg n
    simp only [hD0, hD1, hE1]
    rw [f3, g3, g1]
    linear_combination (-g.a2) * f1
  have c1 : (g.a1 : ℂ) = -(p + q) := by rw [hs]; ring
  have hk0 : 0 ≤ k := by linarith
  have u0 : ∀ n, ‖((D1 n : ℂ) + q * D0 n)‖ ≤ 2 * G * k := by
    refine rec_bound (p := q) (s := fun n => ((D1 n : ℂ) + q * D0 n)) (g := fun n => (E1 n : ℂ) + q * E0 n) hq hrk hk0
      (fun n => ?_) (fun n => ?_) ?_
    · rw [r0, r1]
      push_cast
      rw [c1, ← hm]
      ring
    · refine (norm_add_le _ _).trans ?_
      rw [norm_mul, norm_ofReal, norm_ofReal]
      have a := G1 n
      have b := mul_le_mul (hq.trans hr) (G0 n) (abs_nonneg _) zero_le_one
      simp only [hE0, hE1]
      linarith
    · simp [hD0, hD1, Biquad.stateAt, h.fw0, h.fw1, h.gw0, h.gw1]
  have hG : 0 ≤ G := (abs_nonneg _).trans (G0 0)
  have v0 : ∀ n, ‖(D0 n : ℂ)‖ ≤ (2 * G * k + G) * k := by
    refine rec_bound (p := p) (s := fun n => (D0 n : ℂ)) (g := fun n => ((D1 n : ℂ) + q * D0 n) + E0 n) hp hrk hk0
      (fun n => ?_) (fun n => ?_) ?_
    · rw [r0]
      push_cast
      rw [c1]
      ring
    · refine (norm_add_le _ _).trans ?_
      rw [norm_ofReal]
      exact add_le_add (u0 n) (G0 n)
    · simp [hD0, Biquad.stateAt, h.fw0, h.gw0]
  have hv := v0 n
  rw [norm_ofReal] at hv
  have e : f.response x n - g.response x n = (f.b0 - g.b0) * x n + D0 n := by
    rw [(sf n).1, (sg n).1]
    simp only [hD0]
    ring
  rw [e]
  refine (abs_add_le _ _).trans ?_
  have c : |(f.b0 - g.b0) * x n| ≤ δ * X := by
    rw [abs_mul]; exact mul_le_mul h.b0 (hx n) (abs_nonneg _) hδ0
  have hGk : G * k ≤ G * k ^ 2 := mul_le_mul_of_nonneg_left (by nlinarith) hG
  have e1 : (2 * G * k + G) * k = 2 * (G * k ^ 2) + G * k := by ring
  have e2 : G * k ^ 2 = 546 * (δ * (S ^ 3 * k ^ 4 * X)) := by rw [hGe]; ring
  have e3 : 1641 * S ^ 3 * k ^ 4 * δ * X = 1641 * (δ * (S ^ 3 * k ^ 4 * X)) := by ring
  have e4 : X ≤ S ^ 3 * k ^ 4 * X := by
    have h1 : 1 ≤ S ^ 3 := one_le_pow₀ hS1
    have h2 : 1 ≤ k ^ 4 := one_le_pow₀ hk
    exact le_mul_of_one_le_left hX (one_le_mul_of_one_le_of_one_le h1 h2)
  have e5 := mul_le_mul_of_nonneg_left e4 hδ0
  have e6 := mul_nonneg hδ0 hX
  rw [e3]
  rw [e1] at hv
  rw [e2] at hGk hv
  linarith

end Edsp.PerturbL
