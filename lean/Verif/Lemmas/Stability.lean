import Verif.Lemmas.Biquad
import Mathlib.Data.Complex.Basic
import Mathlib.Analysis.Complex.Norm
import Mathlib.Analysis.Complex.Basic
import Mathlib.Analysis.SpecificLimits.Basic
import Mathlib.Tactic.Linarith
import Mathlib.Tactic.Positivity
import Mathlib.Tactic.FieldSimp
import Mathlib.Tactic.NormNum

/-! Helper lemmas: roots of real quadratics in the unit disc, first-order recurrences. -/

namespace Edsp.Stability

/-- The triangle conditions imply that the roots lie inside the unit circle. -/
theorem roots_in_disc {a1 a2 : ℝ} (h2 : |a2| < 1) (h1 : |a1| < 1 + a2) {z : ℂ}
    (hz : z ^ 2 + a1 * z + a2 = 0) : ‖z‖ < 1 := by
  obtain ⟨l2, u2⟩ := abs_lt.mp h2
  obtain ⟨l1, u1⟩ := abs_lt.mp h1
  have hre := congrArg Complex.re hz
  have him := congrArg Complex.im hz
  simp [pow_two] at hre him
  have hn : ‖z‖ ^ 2 = z.re * z.re + z.im * z.im := by
    rw [Complex.sq_norm, Complex.normSq_apply]
  suffices z.re * z.re + z.im * z.im < 1 by
    nlinarith [norm_nonneg z]
  by_cases hi : z.im = 0
  · rw [hi] at hre ⊢
    have hlt : z.re < 1 := by
      by_contra hcon
      nlinarith
    have hgt : -1 < z.re := by
      by_contra hcon
      nlinarith
    nlinarith
  · have ha : a1 = -2 * z.re := by
      have : z.im * (2 * z.re + a1) = 0 := by linarith
      rcases mul_eq_zero.mp this with h | h
      · exact absurd h hi
      · linarith
    rw [ha] at hre
    nlinarith

/-- The quadratic splits over `ℂ`. -/
theorem split_quadratic (a1 a2 : ℝ) :
    ∃ p q : ℂ, p + q = -a1 ∧ p * q = a2 := by
  obtain ⟨s, hs⟩ : ∃ s : ℂ, s ^ 2 = (a1 : ℂ) ^ 2 - 4 * a2 := by
    by_cases h : 0 ≤ a1 ^ 2 - 4 * a2
    · refine ⟨(Real.sqrt (a1 ^ 2 - 4 * a2) : ℝ), ?_⟩
      rw [← Complex.ofReal_pow, Real.sq_sqrt h]; push_cast; ring
    · push Not at h
      refine ⟨(Real.sqrt (-(a1 ^ 2 - 4 * a2)) : ℝ) * Complex.I, ?_⟩
      rw [mul_pow, ← Complex.ofReal_pow, Real.sq_sqrt (by linarith), Complex.I_sq]; push_cast; ring
  refine ⟨(-a1 + s) / 2, (-a1 - s) / 2, by ring, ?_⟩
  have : (-(a1 : ℂ) + s) / 2 * ((-a1 - s) / 2) = ((a1 : ℂ) ^ 2 - s ^ 2) / 4 := by ring
  rw [this, hs]; ring

theorem is_root {a1 a2 : ℝ} {p q : ℂ} (h1 : p + q = -a1) (h2 : p * q = a2) :
    p ^ 2 + a1 * p + a2 = 0 ∧ q ^ 2 + a1 * q + a2 = 0 := by
  have e1 : (a1 : ℂ) = -(p + q) := by rw [h1]; ring
  rw [e1, ← h2]; constructor <;> ring

/-- Conversely, if every root is inside the unit circle the triangle conditions hold. -/
theorem triangle_of_roots {a1 a2 : ℝ} (h : ∀ z : ℂ, z ^ 2 + a1 * z + a2 = 0 → ‖z‖ < 1) :
    |a2| < 1 ∧ |a1| < 1 + a2 := by
  have real_root : ∀ r : ℝ, r ^ 2 + a1 * r + a2 = 0 → |r| < 1 := by
    intro r hr
    have := h (r : ℂ) (by exact_mod_cast hr)
    simpa using this
  have h2 : |a2| < 1 := by
    obtain ⟨p, q, hs, hp⟩ := split_quadratic a1 a2
    obtain ⟨r1, r2⟩ := is_root hs hp
    have := congrArg norm hp
    rw [norm_mul] at this
    have e : ‖(a2 : ℂ)‖ = |a2| := by simp
    rw [← e, ← this]
    have := h p r1; have := h q r2
    nlinarith [norm_nonneg p, norm_nonneg q]
  refine ⟨h2, ?_⟩
  by_cases hd : 0 ≤ a1 ^ 2 - 4 * a2
  · set s := Real.sqrt (a1 ^ 2 - 4 * a2) with hsd
    have hs : s ^ 2 = a1 ^ 2 - 4 * a2 := Real.sq_sqrt hd
    have k1 := abs_lt.mp (real_root ((-a1 + s) / 2) (by nlinarith))
    have k2 := abs_lt.mp (real_root ((-a1 - s) / 2) (by nlinarith))
    rw [abs_lt]
    constructor
    · nlinarith [mul_pos (sub_pos.mpr k1.2) (sub_pos.mpr k2.2)]
    · nlinarith [mul_pos (by linarith : 0 < (-a1 + s) / 2 + 1) (by linarith : 0 < (-a1 - s) / 2 + 1)]
  · push Not at hd
    have : a1 ^ 2 < (1 + a2) ^ 2 := by nlinarith [sq_nonneg (1 - a2)]
    have hpos : 0 < 1 + a2 := by linarith [(abs_lt.mp h2).1]
    exact abs_lt_of_sq_lt_sq this hpos.le

/-- A first-order recurrence with bounded forcing is bounded. -/
theorem bounded_rec {p : ℂ} (hp : ‖p‖ < 1) {s g : ℕ → ℂ} {G : ℝ}
    (hs : ∀ n, s (n + 1) = p * s n + g n) (hg : ∀ n, ‖g n‖ ≤ G) :
    ∃ S, ∀ n, ‖s n‖ ≤ S := by
  have hG : 0 ≤ G := (norm_nonneg _).trans (hg 0)
  refine ⟨max ‖s 0‖ (G / (1 - ‖p‖)), ?_⟩
  set S := max ‖s 0‖ (G / (1 - ‖p‖)) with hS
  have hS2 : G ≤ (1 - ‖p‖) * S := by
    have : G / (1 - ‖p‖) ≤ S := le_max_right _ _
    rw [div_le_iff₀ (by linarith)] at this
    linarith
  intro n
  induction n with
  | zero => exact le_max_left _ _
  | succ n ih =>
    rw [hs]
    calc ‖p * s n + g n‖ ≤ ‖p‖ * ‖s n‖ + ‖g n‖ := by
          rw [← norm_mul]; exact norm_add_le _ _
      _ ≤ ‖p‖ * S + G := add_le_add (mul_le_mul_of_nonneg_left ih (norm_nonneg _)) (hg n)
      _ ≤ S := by linarith

/-- A first-order recurrence with geometrically decaying forcing decays geometrically. -/
theorem geometric_rec {p : ℂ} (hp : ‖p‖ < 1) {s g : ℕ → ℂ} {C r : ℝ} (hr0 : 0 ≤ r) (hr : r < 1)
    (hs : ∀ n, s (n + 1) = p * s n + g n) (hg : ∀ n, ‖g n‖ ≤ C * r ^ n) :
    ∃ D ρ, 0 ≤ ρ ∧ ρ < 1 ∧ ∀ n, ‖s n‖ ≤ D * ρ ^ n := by
  have hC : 0 ≤ C := by have := (norm_nonneg _).trans (hg 0); simpa using this
  obtain ⟨ρ, h1, h2⟩ := exists_between (max_lt hp hr)
  have hpρ : ‖p‖ < ρ := lt_of_le_of_lt (le_max_left _ _) h1
  have hrρ : r < ρ := lt_of_le_of_lt (le_max_right _ _) h1
  have hρ : 0 ≤ ρ := (norm_nonneg p).trans hpρ.le
  refine ⟨max ‖s 0‖ (C / (ρ - ‖p‖)), ρ, hρ, h2, ?_⟩
  set D := max ‖s 0‖ (C / (ρ - ‖p‖)) with hD
  have hD2 : C ≤ (ρ - ‖p‖) * D := by
    have : C / (ρ - ‖p‖) ≤ D := le_max_right _ _
    rw [div_le_iff₀ (by linarith)] at this
    linarith
  intro n
  induction n with
  | zero => rw [pow_zero, mul_one]; exact le_max_left _ _
  | succ n ih =>
    rw [hs]
    have hpow : r ^ n ≤ ρ ^ n := pow_le_pow_left₀ hr0 hrρ.le n
    have hρn : 0 ≤ ρ ^ n := pow_nonneg hρ n
    calc ‖p * s n + g n‖ ≤ ‖p‖ * ‖s n‖ + ‖g n‖ := by
          rw [← norm_mul]; exact norm_add_le _ _
      _ ≤ ‖p‖ * (D * ρ ^ n) + C * ρ ^ n :=
          add_le_add (mul_le_mul_of_nonneg_left ih (norm_nonneg _))
            ((hg n).trans (mul_le_mul_of_nonneg_left hpow hC))
      _ = (‖p‖ * D + C) * ρ ^ n := by ring
      _ ≤ (ρ * D) * ρ ^ n := mul_le_mul_of_nonneg_right (by linarith) hρn
      _ = D * ρ ^ (n + 1) := by ring

/-- The state recurrence in triangular form. -/
theorem state_recurrence (f : Biquad ℝ) {p q : ℂ} (hs : p + q = -f.a1) (hm : p * q = f.a2)
    (x : ℕ → ℝ) (n : ℕ) :
    let w0 : ℕ → ℂ := fun n => (f.stateAt x n).w0
    let u : ℕ → ℂ := fun n => (f.stateAt x n).w1 + q * (f.stateAt x n).w0
    u (n + 1) = q * u n + ((f.b2 - f.a2 * f.b0) + q * (f.b1 - f.a1 * f.b0)) * x n ∧
    w0 (n + 1) = p * w0 n + (u n + (f.b1 - f.a1 * f.b0) * x n) := by
  obtain ⟨h1, h2, h3, h4, h5, _⟩ := Biquad.stateAt_coeffs f x n
  have e0 : (f.stateAt x (n + 1)).w0 = f.b1 * x n - f.a1 * (f.b0 * x n + (f.stateAt x n).w0)
      + (f.stateAt x n).w1 := by
    rw [← h1, ← h2, ← h4]; rfl
  have e1 : (f.stateAt x (n + 1)).w1 = f.b2 * x n - f.a2 * (f.b0 * x n + (f.stateAt x n).w0) := by
    rw [← h1, ← h3, ← h5]; rfl
  have ha1 : (f.a1 : ℂ) = -(p + q) := by rw [hs]; ring
  intro w0 u
  simp only [w0, u, e0, e1]
  push_cast
  rw [ha1, ← hm]
  constructor <;> ring

theorem response_eq (f : Biquad ℝ) (x : ℕ → ℝ) (n : ℕ) :
    f.response x n = f.b0 * x n + (f.stateAt x n).w0 := by
  obtain ⟨h1, _⟩ := Biquad.stateAt_coeffs f x n
  rw [← h1]; rfl

end Edsp.Stability
