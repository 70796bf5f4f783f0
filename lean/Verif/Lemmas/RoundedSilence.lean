import Verif.Model.RoundedBiquad
import Verif.Lemmas.RoundedBiquad

/-!
# Rounded sections: a norm in which a stable section contracts

Rounding with a relative error `ε` and an absolute error `η` (underflow).
-/

namespace Edsp.Rounded

open Edsp

/-- One rounding more, in multiples of `M = ε Z + η`. -/
theorem R_more {R : ℝ → ℝ} {ε η Z a b c z y : ℝ} (hR : ∀ z, |R z - z| ≤ ε * |z| + η) (h0 : 0 ≤ ε) (h1 : ε ≤ 1)
    (hη : 0 ≤ η) (hZ : 0 ≤ Z) (ha : 0 ≤ a) (hb : 1 ≤ b) (hc : 0 ≤ c) (hz : |z - y| ≤ a * (ε * Z + η))
    (hy : |y| ≤ b * Z + c * (ε * Z + η)) : |R z - y| ≤ (2 * a + b + c) * (ε * Z + η) := by
  have hM : 0 ≤ ε * Z + η := by positivity
  have h2 : |z| ≤ b * Z + (a + c) * (ε * Z + η) := by
    have := abs_add_le (z - y) y
    rw [sub_add_cancel] at this
    linarith
  have h3 := mul_le_mul_of_nonneg_left h2 h0
  have h4 : ε * ((a + c) * (ε * Z + η)) ≤ (a + c) * (ε * Z + η) :=
    mul_le_of_le_one_left (by positivity) h1
  have h5 : η ≤ b * η := le_mul_of_one_le_left hη hb
  have h6 := abs_sub_le (R z) z y
  have h7 := hR z
  linarith

/-- One call of `tick`: the new state is the exact one of the same state and input, up to small errors. -/
theorem tick_near {R : ℝ → ℝ} {ε η : ℝ} (hR : ∀ z, |R z - z| ≤ ε * |z| + η) (h0 : 0 ≤ ε) (h1 : ε ≤ 1) (hη : 0 ≤ η)
    {f : Biquad ℝ} {S Z x : ℝ} (hS : CoeffLe f S) (hZ : |x| + |f.w0| + |f.w1| ≤ Z) :
    |(biquadTick R f x).2 - (f.b0 * x + f.w0)| ≤ 3 * S * (ε * Z + η) ∧
    |(biquadTick R f x).1.w0 - ((f.b1 - f.a1 * f.b0) * x - f.a1 * f.w0 + f.w1)| ≤ 39 * S ^ 2 * (ε * Z + η) ∧
    |(biquadTick R f x).1.w1 - ((f.b2 - f.a2 * f.b0) * x - f.a2 * f.w0)| ≤ 18 * S ^ 2 * (ε * Z + η) := by
  obtain ⟨s1, sb0, sb1, sb2, sa1, sa2⟩ := hS
  have hx0 := abs_nonneg x
  have hw0 := abs_nonneg f.w0
  have hw1 := abs_nonneg f.w1
  have hZ0 : 0 ≤ Z := by linarith
  have hS0 : 0 ≤ S := by linarith
  have hM : 0 ≤ ε * Z + η := by positivity
  have hSS : S ≤ S ^ 2 := by nlinarith
  have hS2 : 1 ≤ S ^ 2 := by linarith
  have hxZ : |x| ≤ Z := by linarith
  have hprod : ∀ {b y Y : ℝ}, |b| ≤ S → |y| ≤ Y → |b * y| ≤ S * Y := by
    intro b y Y hb hy
    rw [abs_mul]
    exact mul_le_mul hb hy (abs_nonneg y) hS0
  set M := ε * Z + η with hMdef
  have hSM : S * M ≤ S ^ 2 * M := mul_le_mul_of_nonneg_right hSS hM
  have hSM0 : 0 ≤ S * M := mul_nonneg hS0 hM
  have hSZ : S * Z ≤ S ^ 2 * Z := mul_le_mul_of_nonneg_right hSS hZ0
  have hZS : Z ≤ S ^ 2 * Z := le_mul_of_one_le_left hZ0 hS2
  -- the products with the input
  have hin : ∀ {b : ℝ}, |b| ≤ S → |R (b * x) - b * x| ≤ S * M := by
    intro b hb
    have := R_more hR h0 h1 hη hZ0 (a := 0) (b := S) (c := 0) (z := b * x) (y := b * x) le_rfl s1 le_rfl
      (by rw [sub_self, abs_zero, zero_mul]) (by have := hprod hb hxZ; linarith)
    rw [mul_zero, zero_add, add_zero] at this
    exact this
  -- the output
  have eo : |(biquadTick R f x).2 - (f.b0 * x + f.w0)| ≤ 3 * S * M := by
    have hy : |f.b0 * x + f.w0| ≤ S * Z := by
      have a1 := abs_add_le (f.b0 * x) f.w0
      have a2 := hprod sb0 (le_refl |x|)
      have a3 : |f.w0| ≤ S * |f.w0| := le_mul_of_one_le_left hw0 s1
      have a4 := mul_le_mul_of_nonneg_left (by linarith : |x| + |f.w0| ≤ Z) hS0
      linarith
    have := R_more hR h0 h1 hη hZ0 (a := S) (b := S) (c := 0) (z := R (f.b0 * x) + f.w0) (y := f.b0 * x + f.w0) hS0 s1
      le_rfl (by rw [add_sub_add_right_eq_sub]; exact hin sb0) (by linarith)
    show |R (R (f.b0 * x) + f.w0) - (f.b0 * x + f.w0)| ≤ _
    linarith
  have ho : |(biquadTick R f x).2| ≤ S * Z + 3 * S * M := by
    have hy : |f.b0 * x + f.w0| ≤ S * Z := by
      have a1 := abs_add_le (f.b0 * x) f.w0
      have a2 := hprod sb0 (le_refl |x|)
      have a3 : |f.w0| ≤ S * |f.w0| := le_mul_of_one_le_left hw0 s1
      have a4 := mul_le_mul_of_nonneg_left (by linarith : |x| + |f.w0| ≤ Z) hS0
      linarith
    have := abs_add_le ((biquadTick R f x).2 - (f.b0 * x + f.w0)) (f.b0 * x + f.w0)
    rw [sub_add_cancel] at this
    linarith
  have e1 : (biquadTick R f x).1.w0
      = R (R (R (f.b1 * x) - R (f.a1 * (biquadTick R f x).2)) + f.w1) := rfl
  have e2 : (biquadTick R f x).1.w1 = R (R (f.b2 * x) - R (f.a2 * (biquadTick R f x).2)) := rfl
  rw [e1, e2]
  generalize (biquadTick R f x).2 = out at eo ho
  -- a feedback product and a difference
  have hfb : ∀ {b a : ℝ}, |b| ≤ S → |a| ≤ S →
      |R (b * x) - R (a * out) - (b * x - a * out)| ≤ 5 * S ^ 2 * M ∧
      |b * x - a * out| ≤ 2 * S ^ 2 * Z + 3 * S ^ 2 * M := by
    intro b a hb ha
    have ha' := hprod ha ho
    have h2 : S * (S * Z + 3 * S * M) = S ^ 2 * Z + 3 * S ^ 2 * M := by ring
    rw [h2] at ha'
    have h3 := R_more hR h0 h1 hη hZ0 (a := 0) (b := S ^ 2) (c := 3 * S ^ 2) (z := a * out) (y := a * out) le_rfl hS2
      (by positivity) (by rw [sub_self, abs_zero, zero_mul]) ha'
    have h4 := hin hb
    have h5 := abs_sub (R (b * x) - b * x) (R (a * out) - a * out)
    rw [show R (b * x) - b * x - (R (a * out) - a * out) = R (b * x) - R (a * out) - (b * x - a * out) by ring] at h5
    have h6 := abs_sub (b * x) (a * out)
    have h7 := hprod hb hxZ
    constructor
    · linarith
    · linarith
  refine ⟨eo, ?_, ?_⟩
  · obtain ⟨g1, g2⟩ := hfb sb1 sa1
    have g3 := R_more hR h0 h1 hη hZ0 (a := 5 * S ^ 2) (b := 2 * S ^ 2) (c := 3 * S ^ 2)
      (z := R (f.b1 * x) - R (f.a1 * out)) (y := f.b1 * x - f.a1 * out) (by positivity) (by linarith) (by positivity)
      g1 g2
    have g4 : |f.b1 * x - f.a1 * out + f.w1| ≤ 3 * S ^ 2 * Z + 3 * S ^ 2 * M := by
      have := abs_add_le (f.b1 * x - f.a1 * out) f.w1
      linarith
    have g5 := R_more hR h0 h1 hη hZ0 (a := 15 * S ^ 2) (b := 3 * S ^ 2) (c := 3 * S ^ 2)
      (z := R (R (f.b1 * x) - R (f.a1 * out)) + f.w1) (y := f.b1 * x - f.a1 * out + f.w1) (by positivity)
      (by linarith) (by positivity) (by rw [add_sub_add_right_eq_sub]; linarith) g4
    have g6 := hprod sa1 eo
    have g7 := abs_sub (R (R (R (f.b1 * x) - R (f.a1 * out)) + f.w1) - (f.b1 * x - f.a1 * out + f.w1))
      (f.a1 * (out - (f.b0 * x + f.w0)))
    rw [show R (R (R (f.b1 * x) - R (f.a1 * out)) + f.w1) - (f.b1 * x - f.a1 * out + f.w1)
        - f.a1 * (out - (f.b0 * x + f.w0)) = R (R (R (f.b1 * x) - R (f.a1 * out)) + f.w1)
          - ((f.b1 - f.a1 * f.b0) * x - f.a1 * f.w0 + f.w1) by ring] at g7
    linarith
  · obtain ⟨g1, g2⟩ := hfb sb2 sa2
    have g3 := R_more hR h0 h1 hη hZ0 (a := 5 * S ^ 2) (b := 2 * S ^ 2) (c := 3 * S ^ 2)
      (z := R (f.b2 * x) - R (f.a2 * out)) (y := f.b2 * x - f.a2 * out) (by positivity) (by linarith) (by positivity)
      g1 g2
    have g6 := hprod sa2 eo
    have g7 := abs_sub (R (R (f.b2 * x) - R (f.a2 * out)) - (f.b2 * x - f.a2 * out))
      (f.a2 * (out - (f.b0 * x + f.w0)))
    rw [show R (R (f.b2 * x) - R (f.a2 * out)) - (f.b2 * x - f.a2 * out)
        - f.a2 * (out - (f.b0 * x + f.w0)) = R (R (f.b2 * x) - R (f.a2 * out))
          - ((f.b2 - f.a2 * f.b0) * x - f.a2 * f.w0) by ring] at g7
    linarith

/-- The norm of a state in which the section contracts. -/
noncomputable def norm2 (c : ℝ) (q : ℂ) (e0 e1 : ℝ) : ℝ := c * |e0| + ‖(e1 : ℂ) + q * (e0 : ℂ)‖

theorem norm2_step {a1 a2 r c : ℝ} {p q : ℂ} (hs : p + q = -a1) (hm : p * q = a2) (hp : ‖p‖ ≤ r) (hq : ‖q‖ ≤ r)
    (hr : r + c ≤ 1) (hc : 0 ≤ c) (e0 e1 g0 g1 : ℝ) :
    norm2 c q (-a1 * e0 + e1 + g0) (-a2 * e0 + g1) ≤ (r + c) * norm2 c q e0 e1 + (|g0| + |g1|) := by
  unfold norm2
  have hr0 : 0 ≤ r := (norm_nonneg p).trans hp
  have k1 : ((-a1 * e0 + e1 + g0 : ℝ) : ℂ) = p * e0 + ((e1 : ℂ) + q * e0) + g0 := by
    push_cast
    linear_combination (-(e0 : ℂ)) * hs
  have k2 : ((-a2 * e0 + g1 : ℝ) : ℂ) + q * ((-a1 * e0 + e1 + g0 : ℝ) : ℂ)
      = q * ((e1 : ℂ) + q * e0) + ((g1 : ℂ) + q * g0) := by
    push_cast
    linear_combination (e0 : ℂ) * hm - q * (e0 : ℂ) * hs
  have h1 : |-a1 * e0 + e1 + g0| ≤ r * |e0| + ‖(e1 : ℂ) + q * e0‖ + |g0| := by
    rw [← norm_ofReal, k1]
    have a := norm_add_le (p * e0 + ((e1 : ℂ) + q * e0)) (g0 : ℂ)
    have b := norm_add_le (p * (e0 : ℂ)) ((e1 : ℂ) + q * e0)
    rw [norm_mul, norm_ofReal] at b
    rw [norm_ofReal] at a
    have := mul_le_mul_of_nonneg_right hp (abs_nonneg e0)
    linarith
  have h2 : ‖((-a2 * e0 + g1 : ℝ) : ℂ) + q * ((-a1 * e0 + e1 + g0 : ℝ) : ℂ)‖
      ≤ r * ‖(e1 : ℂ) + q * e0‖ + (|g1| + r * |g0|) := by
    rw [k2]
    have a := norm_add_le (q * ((e1 : ℂ) + q * e0)) ((g1 : ℂ) + q * g0)
    have b := norm_add_le (g1 : ℂ) (q * g0)
    rw [norm_mul, norm_ofReal, norm_ofReal] at b
    rw [norm_mul] at a
    have c1 := mul_le_mul_of_nonneg_right hq (abs_nonneg g0)
    have c2 := mul_le_mul_of_nonneg_right hq (norm_nonneg ((e1 : ℂ) + q * e0))
    linarith
  have h3 := mul_le_mul_of_nonneg_left h1 hc
  have h4 := mul_le_mul_of_nonneg_right hr (abs_nonneg g0)
  have h5 : 0 ≤ c * (c * |e0|) := by positivity
  linarith

theorem norm2_ge {c : ℝ} {q : ℂ} (hc : 0 < c) (hc1 : c ≤ 1) (hq : ‖q‖ ≤ 1) (e0 e1 : ℝ) :
    |e0| + |e1| ≤ 3 / c * norm2 c q e0 e1 := by
  have h := abs_second hq e0 e1
  unfold norm2
  have e : 3 / c * (c * |e0| + ‖(e1 : ℂ) + q * e0‖) = 3 * |e0| + 3 / c * ‖(e1 : ℂ) + q * e0‖ := by
    field_simp
  have h1 : 1 * ‖(e1 : ℂ) + q * e0‖ ≤ 3 / c * ‖(e1 : ℂ) + q * e0‖ := by
    refine mul_le_mul_of_nonneg_right ?_ (norm_nonneg _)
    rw [le_div_iff₀ hc]
    linarith
  have := abs_nonneg e0
  linarith

theorem norm2_le {c : ℝ} {q : ℂ} (hc1 : c ≤ 1) (hq : ‖q‖ ≤ 1) (e0 e1 : ℝ) : norm2 c q e0 e1 ≤ 2 * (|e0| + |e1|) := by
  unfold norm2
  have a := norm_add_le (e1 : ℂ) (q * e0)
  rw [norm_mul, norm_ofReal, norm_ofReal] at a
  have b := mul_le_of_le_one_left (abs_nonneg e0) hq
  have c1 := mul_le_of_le_one_left (abs_nonneg e0) hc1
  have := abs_nonneg e1
  linarith

theorem norm2_nonneg {c : ℝ} (hc : 0 ≤ c) (q : ℂ) (e0 e1 : ℝ) : 0 ≤ norm2 c q e0 e1 := by
  unfold norm2
  positivity

/-- Linear recurrences with a bounded addend. -/
theorem geometric {σ B : ℝ} (h0 : 0 ≤ σ) (h1 : σ < 1) (hB : 0 ≤ B) {V : ℕ → ℝ} (h : ∀ n, V (n + 1) ≤ σ * V n + B)
    (n : ℕ) : V n ≤ σ ^ n * V 0 + B / (1 - σ) := by
  have h2 : 0 < 1 - σ := by linarith
  induction n with
  | zero =>
    have : 0 ≤ B / (1 - σ) := by positivity
    simpa using this
  | succ n ih =>
    have h3 := mul_le_mul_of_nonneg_left ih h0
    have h4 : σ * (B / (1 - σ)) + B = B / (1 - σ) := by
      field_simp
      ring
    have h5 := h n
    rw [pow_succ]
    linarith

/-- The state `(a, b)` given to a filter. -/
def fromState (f : Biquad ℝ) (a b : ℝ) : Biquad ℝ := { f with w0 := a, w1 := b }

theorem coeffLe_state {f : Biquad ℝ} {S : ℝ} (hS : CoeffLe f S) (R : ℝ → ℝ) (a b : ℝ) (x : ℕ → ℝ) (n : ℕ) :
    CoeffLe (biquadState R (fromState f a b) x n) S := by
  obtain ⟨h0, h1, h2, h3, h4⟩ := state_coeffs R (fromState f a b) x n
  obtain ⟨s1, sb0, sb1, sb2, sa1, sa2⟩ := hS
  exact ⟨s1, by rw [h0]; exact sb0, by rw [h1]; exact sb1, by rw [h2]; exact sb2, by rw [h3]; exact sa1,
    by rw [h4]; exact sa2⟩

/-- The rounded recurrence of the state. -/
theorem rounded_step {f : Biquad ℝ} {S : ℝ} (hS : CoeffLe f S) {R : ℝ → ℝ} {ε η : ℝ}
    (hR : ∀ z, |R z - z| ≤ ε * |z| + η) (h0 : 0 ≤ ε) (h1 : ε ≤ 1) (hη : 0 ≤ η) (a b : ℝ) (x : ℕ → ℝ) (n : ℕ) {Z : ℝ}
    (hZ : |x n| + |(biquadState R (fromState f a b) x n).w0| + |(biquadState R (fromState f a b) x n).w1| ≤ Z) :
    ∃ α δ₀ δ₁ : ℝ, |α| ≤ 3 * S * (ε * Z + η) ∧ |δ₀| ≤ 39 * S ^ 2 * (ε * Z + η) ∧ |δ₁| ≤ 18 * S ^ 2 * (ε * Z + η) ∧
      biquadResponse R (fromState f a b) x n = f.b0 * x n + (biquadState R (fromState f a b) x n).w0 + α ∧
      (biquadState R (fromState f a b) x (n + 1)).w0 = -f.a1 * (biquadState R (fromState f a b) x n).w0
        + (biquadState R (fromState f a b) x n).w1 + ((f.b1 - f.a1 * f.b0) * x n + δ₀) ∧
      (biquadState R (fromState f a b) x (n + 1)).w1 = -f.a2 * (biquadState R (fromState f a b) x n).w0
        + ((f.b2 - f.a2 * f.b0) * x n + δ₁) := by
  obtain ⟨e0, e1, e2, e3, e4⟩ := state_coeffs R (fromState f a b) x n
  obtain ⟨t1, t2, t3⟩ := tick_near hR h0 h1 hη (coeffLe_state hS R a b x n) hZ
  rw [e0] at t1 t2 t3
  rw [e1, e3] at t2
  rw [e2, e4] at t3
  refine ⟨_, _, _, t1, t2, t3, ?_, ?_, ?_⟩
  · show biquadResponse R (fromState f a b) x n = f.b0 * x n + _ + (_ - (f.b0 * x n + _))
    unfold biquadResponse
    ring
  · show (biquadTick R _ (x n)).1.w0 = -f.a1 * _ + _ + (_ + (_ - ((f.b1 - f.a1 * f.b0) * x n - f.a1 * _ + _)))
    ring
  · show (biquadTick R _ (x n)).1.w1 = -f.a2 * _ + (_ + (_ - ((f.b2 - f.a2 * f.b0) * x n - f.a2 * _)))
    ring

/-- What is needed of the poles. -/
structure Poles (f : Biquad ℝ) (p q : ℂ) (r c : ℝ) : Prop where
  sum : p + q = -f.a1
  prod : p * q = f.a2
  hp : ‖p‖ ≤ r
  hq : ‖q‖ ≤ r
  c0 : 0 < c
  rc : r + 2 * c = 1

/-- The state stays bounded. -/
theorem rounded_state {f : Biquad ℝ} {S : ℝ} (hS : CoeffLe f S) {p q : ℂ} {r c : ℝ} (hP : Poles f p q r c) {R : ℝ → ℝ}
    {ε η : ℝ} (hR : ∀ z, |R z - z| ≤ ε * |z| + η) (h0 : 0 ≤ ε) (h1 : ε ≤ 1) (hη : 0 ≤ η)
    (hε : 342 * S ^ 2 * ε ≤ c ^ 2) (a b : ℝ) {x : ℕ → ℝ} {X : ℝ} (hx : ∀ n, |x n| ≤ X) (n : ℕ) :
    |(biquadState R (fromState f a b) x n).w0| + |(biquadState R (fromState f a b) x n).w1|
      ≤ 3 / c * (2 + 122 * S ^ 2 / c) * ((1 - c / 2) ^ n * (|a| + |b|) + X + η) := by
  obtain ⟨hs, hm, hp, hq, hc, hrc⟩ := hP
  have hr0 : 0 ≤ r := (norm_nonneg p).trans hp
  have hc1 : c ≤ 1 := by linarith
  have hq1 : ‖q‖ ≤ 1 := by linarith
  have hX : 0 ≤ X := (abs_nonneg _).trans (hx 0)
  have hS1 := hS.one
  set w0 : ℕ → ℝ := fun n => (biquadState R (fromState f a b) x n).w0 with hw0
  set w1 : ℕ → ℝ := fun n => (biquadState R (fromState f a b) x n).w1 with hw1
  set V : ℕ → ℝ := fun n => norm2 c q (w0 n) (w1 n) with hV
  have hge : ∀ n, |w0 n| + |w1 n| ≤ 3 / c * V n := fun n => norm2_ge hc hc1 hq1 _ _
  have hstep : ∀ n, V (n + 1) ≤ (1 - c / 2) * V n + 61 * S ^ 2 * (X + η) := by
    intro n
    obtain ⟨α, δ₀, δ₁, -, d0, d1, -, s0, s1⟩ := rounded_step hS hR h0 h1 hη a b x n
      (Z := X + 3 / c * V n) (by have := hge n; have := hx n; linarith)
    have hV0 : 0 ≤ V n := norm2_nonneg hc.le q _ _
    have hb := norm2_step hs hm hp hq (by linarith : r + c ≤ 1) hc.le (w0 n) (w1 n)
      ((f.b1 - f.a1 * f.b0) * x n + δ₀) ((f.b2 - f.a2 * f.b0) * x n + δ₁)
    rw [← s0, ← s1] at hb
    have hcoef : ∀ {b' a' : ℝ}, |b'| ≤ S → |a'| ≤ S → |(b' - a' * f.b0) * x n| ≤ 2 * S ^ 2 * X := by
      intro b' a' hb' ha'
      rw [abs_mul]
      refine mul_le_mul ?_ (hx n) (abs_nonneg _) (by positivity)
      have i1 := abs_sub b' (a' * f.b0)
      have i2 : |a' * f.b0| ≤ S * S := by
        rw [abs_mul]
        exact mul_le_mul ha' hS.b0 (abs_nonneg _) (by linarith)
      have i3 : S * 1 ≤ S * S := mul_le_mul_of_nonneg_left hS1 (by linarith)
      rw [pow_two]
      linarith
    have j0 := abs_add_le ((f.b1 - f.a1 * f.b0) * x n) δ₀
    have j1 := abs_add_le ((f.b2 - f.a2 * f.b0) * x n) δ₁
    have k0 := hcoef hS.b1 hS.a1
    have k1 := hcoef hS.b2 hS.a2
    have l1 : 57 * S ^ 2 * (ε * (3 / c * V n)) ≤ c / 2 * V n := by
      have : 57 * S ^ 2 * (ε * (3 / c * V n)) = 342 * S ^ 2 * ε / (2 * c) * V n := by
        field_simp
        ring
      rw [this]
      refine mul_le_mul_of_nonneg_right ?_ hV0
      rw [div_le_iff₀ (by positivity)]
      calc _ ≤ c ^ 2 := hε
        _ = _ := by ring
    have l2 : 57 * S ^ 2 * (ε * X) ≤ 57 * S ^ 2 * X :=
      mul_le_mul_of_nonneg_left (mul_le_of_le_one_left hX h1) (by positivity)
    have l3 : 0 ≤ 4 * S ^ 2 * η := by positivity
    have l4 : r + c = 1 - c := by linarith
    rw [l4] at hb
    show norm2 c q _ _ ≤ _
    have l5 : V n = norm2 c q (w0 n) (w1 n) := rfl
    rw [← l5] at hb
    refine hb.trans ?_
    have l6 : 39 * S ^ 2 * (ε * (X + 3 / c * V n) + η) + 18 * S ^ 2 * (ε * (X + 3 / c * V n) + η)
        = 57 * S ^ 2 * (ε * X) + 57 * S ^ 2 * (ε * (3 / c * V n)) + 57 * S ^ 2 * η := by ring
    linarith
  have hgeo := geometric (by linarith : 0 ≤ 1 - c / 2) (by linarith) (by positivity) hstep n
  rw [sub_sub_cancel] at hgeo
  have h00 : V 0 ≤ 2 * (|a| + |b|) := norm2_le hc1 hq1 _ _
  have hpow : 0 ≤ (1 - c / 2) ^ n := pow_nonneg (by linarith) n
  have h2 := mul_le_mul_of_nonneg_left h00 hpow
  refine (hge n).trans ?_
  rw [mul_assoc]
  refine mul_le_mul_of_nonneg_left ?_ (by positivity)
  have e : 61 * S ^ 2 * (X + η) / (c / 2) = 122 * S ^ 2 / c * (X + η) := by
    field_simp
    ring
  rw [e] at hgeo
  have h3 : 0 ≤ 122 * S ^ 2 / c * ((1 - c / 2) ^ n * (|a| + |b|)) := by positivity
  linarith

/-- The output: bounded, and near the exact output. -/
theorem rounded_output {f : Biquad ℝ} {S : ℝ} (hS : CoeffLe f S) {p q : ℂ} {r c : ℝ} (hP : Poles f p q r c) {R : ℝ → ℝ}
    {ε η : ℝ} (hR : ∀ z, |R z - z| ≤ ε * |z| + η) (h0 : 0 ≤ ε) (h1 : ε ≤ 1) (hη : 0 ≤ η)
    (hε : 342 * S ^ 2 * ε ≤ c ^ 2) (a b : ℝ) {x : ℕ → ℝ} {X : ℝ} (hx : ∀ n, |x n| ≤ X) {C : ℝ}
    (hC : C = 3 / c * (2 + 122 * S ^ 2 / c)) (n : ℕ) :
    |biquadResponse R (fromState f a b) x n| ≤ 8 * S * (C + 1) * ((1 - c / 2) ^ n * (|a| + |b|) + X + η) := by
  have hst := rounded_state hS hP hR h0 h1 hη hε a b hx n
  rw [← hC] at hst
  have hS1 := hS.one
  have hc := hP.c0
  have hX : 0 ≤ X := (abs_nonneg _).trans (hx 0)
  have hC0 : 0 ≤ C := by rw [hC]; positivity
  obtain ⟨α, δ₀, δ₁, da, -, -, e, -, -⟩ := rounded_step hS hR h0 h1 hη a b x n (Z := X + C * ((1 - c / 2) ^ n * (|a| + |b|) + X + η))
    (by have := hx n; linarith)
  have hr0 : 0 ≤ r := (norm_nonneg p).trans hP.hp
  have hpow : 0 ≤ (1 - c / 2) ^ n := pow_nonneg (by linarith [hP.rc]) n
  set T := (1 - c / 2) ^ n * (|a| + |b|) + X + η with hT
  have hXT : X ≤ T := by
    have := mul_nonneg hpow (add_nonneg (abs_nonneg a) (abs_nonneg b))
    linarith
  have hηT : η ≤ T := by
    have := mul_nonneg hpow (add_nonneg (abs_nonneg a) (abs_nonneg b))
    linarith
  have hT0 : 0 ≤ T := by linarith
  have i1 := abs_add_le (f.b0 * x n + (biquadState R (fromState f a b) x n).w0) α
  have i2 := abs_add_le (f.b0 * x n) (biquadState R (fromState f a b) x n).w0
  have i3 : |f.b0 * x n| ≤ S * X := by
    rw [abs_mul]
    exact mul_le_mul hS.b0 (hx n) (abs_nonneg _) (by linarith)
  have i4 := abs_nonneg (biquadState R (fromState f a b) x n).w1
  rw [e]
  have i5 : ε * (X + C * T) ≤ X + C * T := mul_le_of_le_one_left (by positivity) h1
  have i6 : 3 * S * (ε * (X + C * T) + η) ≤ 3 * S * (X + C * T + η) :=
    mul_le_mul_of_nonneg_left (by linarith) (by linarith)
  have i7 : S * X ≤ S * T := mul_le_mul_of_nonneg_left hXT (by linarith)
  have i8 : S * η ≤ S * T := mul_le_mul_of_nonneg_left hηT (by linarith)
  have i9 : 1 * (C * T) ≤ S * (C * T) := mul_le_mul_of_nonneg_right hS1 (by positivity)
  have i10 : 0 ≤ S * (C * T) := by positivity
  have i11 : 0 ≤ S * T := by positivity
  linarith

theorem rounded_error {f : Biquad ℝ} {S : ℝ} (hS : CoeffLe f S) {p q : ℂ} {r c : ℝ} (hP : Poles f p q r c) {R : ℝ → ℝ}
    {ε η : ℝ} (hR : ∀ z, |R z - z| ≤ ε * |z| + η) (h0 : 0 ≤ ε) (h1 : ε ≤ 1) (hη : 0 ≤ η)
    (hε : 342 * S ^ 2 * ε ≤ c ^ 2) (a b : ℝ) {x : ℕ → ℝ} {X : ℝ} (hx : ∀ n, |x n| ≤ X) {C : ℝ}
    (hC : C = 3 / c * (2 + 122 * S ^ 2 / c)) (n : ℕ) :
    |biquadResponse R (fromState f a b) x n - biquadResponse id (fromState f a b) x n|
      ≤ (171 * S ^ 2 / c ^ 2 + 3 * S) * (2 * C + 1) * (ε * (X + |a| + |b|) + η) := by
  obtain ⟨hs, hm, hp, hq, hc, hrc⟩ := id hP
  have hr0 : 0 ≤ r := (norm_nonneg p).trans hp
  have hc1 : c ≤ 1 := by linarith
  have hq1 : ‖q‖ ≤ 1 := by linarith
  have hX : 0 ≤ X := (abs_nonneg _).trans (hx 0)
  have hS1 := hS.one
  have hC0 : 0 ≤ C := by rw [hC]; positivity
  have hW : 0 ≤ |a| + |b| := add_nonneg (abs_nonneg a) (abs_nonneg b)
  have hid : ∀ z : ℝ, |id z - z| ≤ 0 * |z| + 0 := by intro z; simp
  set Z := X + C * (|a| + |b| + X + η) with hZ
  have hZ0 : 0 ≤ Z := by positivity
  have hbound : ∀ n, |x n| + |(biquadState R (fromState f a b) x n).w0| + |(biquadState R (fromState f a b) x n).w1| ≤ Z := by
    intro n
    have hst := rounded_state hS hP hR h0 h1 hη hε a b hx n
    rw [← hC] at hst
    have hpow : (1 - c / 2) ^ n ≤ 1 := pow_le_one₀ (by linarith) (by linarith)
    have := mul_le_of_le_one_left hW hpow
    have := mul_le_mul_of_nonneg_left (by linarith :
      (1 - c / 2) ^ n * (|a| + |b|) + X + η ≤ |a| + |b| + X + η) hC0
    have := hx n
    linarith
  set Q := ε * (X + |a| + |b|) + η with hQ
  have hQ0 : 0 ≤ Q := by positivity
  have hM : ε * Z + η ≤ (2 * C + 1) * Q := by
    have k1 : C * (ε * η) ≤ C * η := mul_le_mul_of_nonneg_left (mul_le_of_le_one_left hη h1) hC0
    have k2 : 0 ≤ C * (ε * (X + |a| + |b|)) := by positivity
    have k3 : 0 ≤ C * η := by positivity
    have k4 : 0 ≤ ε * (|a| + |b|) := by positivity
    have e : ε * Z = ε * X + C * (ε * (X + |a| + |b|)) + C * (ε * η) := by rw [hZ]; ring
    have e2 : (2 * C + 1) * Q = 2 * (C * (ε * (X + |a| + |b|))) + 2 * (C * η) + ε * X + ε * (|a| + |b|) + η := by
      rw [hQ]; ring
    rw [e, e2]
    linarith
  have hM0 : 0 ≤ ε * Z + η := by positivity
  set e0 : ℕ → ℝ := fun n => (biquadState R (fromState f a b) x n).w0 - (biquadState id (fromState f a b) x n).w0 with he0
  set e1 : ℕ → ℝ := fun n => (biquadState R (fromState f a b) x n).w1 - (biquadState id (fromState f a b) x n).w1 with he1
  set V : ℕ → ℝ := fun n => norm2 c q (e0 n) (e1 n) with hV
  have hge : ∀ n, |e0 n| + |e1 n| ≤ 3 / c * V n := fun n => norm2_ge hc hc1 hq1 _ _
  have hstep : ∀ n, V (n + 1) ≤ (1 - c) * V n + 57 * S ^ 2 * (ε * Z + η) := by
    intro n
    obtain ⟨α, δ₀, δ₁, -, d0, d1, -, s0, s1⟩ := rounded_step hS hR h0 h1 hη a b x n (hbound n)
    obtain ⟨β, κ₀, κ₁, -, c0, c1, -, t0, t1⟩ := rounded_step hS hid le_rfl zero_le_one le_rfl a b x n le_rfl
    rw [zero_mul, zero_add, mul_zero] at c0 c1
    rw [abs_eq_zero.mp (le_antisymm c0 (abs_nonneg _))] at t0
    rw [abs_eq_zero.mp (le_antisymm c1 (abs_nonneg _))] at t1
    have hb := norm2_step hs hm hp hq (by linarith : r + c ≤ 1) hc.le (e0 n) (e1 n) δ₀ δ₁
    have E0 : e0 (n + 1) = -f.a1 * e0 n + e1 n + δ₀ := by
      simp only [he0, he1]
      rw [s0, t0]
      ring
    have E1 : e1 (n + 1) = -f.a2 * e0 n + δ₁ := by
      simp only [he0, he1]
      rw [s1, t1]
      ring
    rw [← E0, ← E1, show r + c = 1 - c by linarith] at hb
    have : V (n + 1) = norm2 c q (e0 (n + 1)) (e1 (n + 1)) := rfl
    rw [this]
    refine hb.trans ?_
    have : V n = norm2 c q (e0 n) (e1 n) := rfl
    rw [this]
    linarith
  have hgeo := geometric (by linarith : 0 ≤ 1 - c) (by linarith) (by positivity) hstep n
  rw [sub_sub_cancel] at hgeo
  have h00 : V 0 = 0 := by
    show norm2 c q (_ - _) (_ - _) = 0
    simp [biquadState, norm2]
  rw [h00, mul_zero, zero_add] at hgeo
  obtain ⟨α, δ₀, δ₁, da, -, -, s, -, -⟩ := rounded_step hS hR h0 h1 hη a b x n (hbound n)
  obtain ⟨β, κ₀, κ₁, db, -, -, t, -, -⟩ := rounded_step hS hid le_rfl zero_le_one le_rfl a b x n le_rfl
  rw [zero_mul, zero_add, mul_zero] at db
  rw [abs_eq_zero.mp (le_antisymm db (abs_nonneg _))] at t
  have i1 : biquadResponse R (fromState f a b) x n - biquadResponse id (fromState f a b) x n = e0 n + α := by
    rw [s, t]
    simp only [he0]
    ring
  rw [i1]
  have i2 := abs_add_le (e0 n) α
  have i3 := hge n
  have i4 := abs_nonneg (e1 n)
  have i5 : 3 / c * V n ≤ 171 * S ^ 2 / c ^ 2 * (ε * Z + η) := by
    have := mul_le_mul_of_nonneg_left hgeo (by positivity : 0 ≤ 3 / c)
    refine this.trans (le_of_eq ?_)
    field_simp
    ring
  have i6 := mul_le_mul_of_nonneg_left hM (by positivity : 0 ≤ 171 * S ^ 2 / c ^ 2 + 3 * S)
  rw [mul_assoc]
  linarith

end Edsp.Rounded
