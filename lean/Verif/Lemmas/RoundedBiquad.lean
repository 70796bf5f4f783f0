import Verif.Model.RoundedBiquad
import Verif.Lemmas.Stability
import Verif.Lemmas.Biquad
import Verif.Lemmas.Float

/-!
# Error analysis of one section
-/

namespace Edsp.Rounded

open Edsp Edsp.Spec

/-- The coefficients do not change. -/
theorem state_coeffs (R : ℝ → ℝ) (f : Biquad ℝ) (x : ℕ → ℝ) (n : ℕ) :
    (biquadState R f x n).b0 = f.b0 ∧ (biquadState R f x n).b1 = f.b1 ∧ (biquadState R f x n).b2 = f.b2 ∧
      (biquadState R f x n).a1 = f.a1 ∧ (biquadState R f x n).a2 = f.a2 := by
  induction n with
  | zero => exact ⟨rfl, rfl, rfl, rfl, rfl⟩
  | succ n ih => exact ih

/-- A bound `S` on the coefficients. -/
structure CoeffLe (f : Biquad ℝ) (S : ℝ) : Prop where
  one : 1 ≤ S
  b0 : |f.b0| ≤ S
  b1 : |f.b1| ≤ S
  b2 : |f.b2| ≤ S
  a1 : |f.a1| ≤ S
  a2 : |f.a2| ≤ S

section
variable {R : ℝ → ℝ} {ε : ℝ}

theorem R_le (hR : ∀ z, |R z - z| ≤ ε * |z|) (h1 : ε ≤ 1) (z : ℝ) : |R z| ≤ 2 * |z| := by
  have h := hR z
  have e : R z = (R z - z) + z := by ring
  have h2 := abs_add_le (R z - z) z
  rw [← e] at h2
  have h3 := mul_le_mul_of_nonneg_right h1 (abs_nonneg z)
  linarith

/-- One call of `tick`, with the rounding errors of each of the three assignments gathered. -/
theorem tick_err (hR : ∀ z, |R z - z| ≤ ε * |z|) (h0 : 0 ≤ ε) (h1 : ε ≤ 1) {f : Biquad ℝ} {S Z x : ℝ}
    (hS : CoeffLe f S) (hZ : |x| + |f.w0| + |f.w1| ≤ Z) :
    ∃ α β γ : ℝ, (biquadTick R f x).2 = f.b0 * x + f.w0 + α ∧
      (biquadTick R f x).1.w0 = f.b1 * x - f.a1 * (biquadTick R f x).2 + f.w1 + β ∧
      (biquadTick R f x).1.w1 = f.b2 * x - f.a2 * (biquadTick R f x).2 + γ ∧
      |α| ≤ 3 * S * (ε * Z) ∧ |β| ≤ 36 * S ^ 2 * (ε * Z) ∧ |γ| ≤ 15 * S ^ 2 * (ε * Z) := by
  obtain ⟨s1, sb0, sb1, sb2, sa1, sa2⟩ := hS
  have hx0 := abs_nonneg x
  have hw0 := abs_nonneg f.w0
  have hw1 := abs_nonneg f.w1
  have hZ0 : 0 ≤ Z := by linarith
  have hS0 : 0 ≤ S := by linarith
  have hSS : S * Z ≤ S ^ 2 * Z := by
    have : S ≤ S ^ 2 := by nlinarith
    exact mul_le_mul_of_nonneg_right this hZ0
  have hZS : Z ≤ S * Z := by nlinarith
  have hxZ : |x| ≤ Z := by linarith
  have mulS : ∀ {c y Y : ℝ}, |c| ≤ S → |y| ≤ Y → |c * y| ≤ S * Y := by
    intro c y Y hc hy
    rw [abs_mul]
    exact mul_le_mul hc hy (abs_nonneg _) hS0
  have eb : ∀ {z B : ℝ}, |z| ≤ B → |R z - z| ≤ ε * B := fun hz =>
    (hR _).trans (mul_le_mul_of_nonneg_left hz h0)
  have rb : ∀ {z B : ℝ}, |z| ≤ B → |R z| ≤ 2 * B := fun hz =>
    (R_le hR h1 _).trans (by linarith)
  -- the output
  have t0 : |f.b0 * x| ≤ S * |x| := mulS sb0 le_rfl
  have o1 : |R (f.b0 * x) + f.w0| ≤ 2 * (S * |x|) + |f.w0| :=
    (abs_add_le _ _).trans (by linarith [rb t0])
  have hSx : S * |x| + |f.w0| ≤ S * Z := by nlinarith
  have e1 := eb t0
  have e2 := eb o1
  have out_le : |R (R (f.b0 * x) + f.w0)| ≤ 4 * S * Z := (rb o1).trans (by nlinarith)
  -- the first state variable
  have t1 : |f.b1 * x| ≤ S * Z := mulS sb1 hxZ
  have t2 : |f.a1 * R (R (f.b0 * x) + f.w0)| ≤ S * (4 * S * Z) := mulS sa1 out_le
  have o2 : |R (f.b1 * x) - R (f.a1 * R (R (f.b0 * x) + f.w0))| ≤ 2 * (S * Z) + 2 * (S * (4 * S * Z)) :=
    (abs_sub _ _).trans (by linarith [rb t1, rb t2])
  have o3 : |R (R (f.b1 * x) - R (f.a1 * R (R (f.b0 * x) + f.w0))) + f.w1| ≤
      2 * (2 * (S * Z) + 2 * (S * (4 * S * Z))) + Z :=
    (abs_add_le _ _).trans (by linarith [rb o2])
  have e3 := eb t1
  have e4 := eb t2
  have e5 := eb o2
  have e6 := eb o3
  -- the second state variable
  have t3 : |f.b2 * x| ≤ S * Z := mulS sb2 hxZ
  have t4 : |f.a2 * R (R (f.b0 * x) + f.w0)| ≤ S * (4 * S * Z) := mulS sa2 out_le
  have o4 : |R (f.b2 * x) - R (f.a2 * R (R (f.b0 * x) + f.w0))| ≤ 2 * (S * Z) + 2 * (S * (4 * S * Z)) :=
    (abs_sub _ _).trans (by linarith [rb t3, rb t4])
  have e7 := eb t3
  have e8 := eb t4
  have e9 := eb o4
  have hεS := mul_le_mul_of_nonneg_left hSS h0
  have hεZ := mul_le_mul_of_nonneg_left hZS h0
  have hεx := mul_le_mul_of_nonneg_left hSx h0
  have hεw : 0 ≤ ε * |f.w0| := mul_nonneg h0 hw0
  refine ⟨(biquadTick R f x).2 - (f.b0 * x + f.w0),
    (biquadTick R f x).1.w0 - (f.b1 * x - f.a1 * (biquadTick R f x).2 + f.w1),
    (biquadTick R f x).1.w1 - (f.b2 * x - f.a2 * (biquadTick R f x).2), by ring, by ring, by ring, ?_, ?_, ?_⟩
  · simp only [biquadTick]
    have e : R (R (f.b0 * x) + f.w0) - (f.b0 * x + f.w0) =
        (R (R (f.b0 * x) + f.w0) - (R (f.b0 * x) + f.w0)) + (R (f.b0 * x) - f.b0 * x) := by ring
    rw [e]
    refine (abs_add_le _ _).trans ?_
    nlinarith
  · simp only [biquadTick]
    generalize R (R (f.b0 * x) + f.w0) = out at *
    have e : R (R (R (f.b1 * x) - R (f.a1 * out)) + f.w1) - (f.b1 * x - f.a1 * out + f.w1) =
        (R (R (R (f.b1 * x) - R (f.a1 * out)) + f.w1) - (R (R (f.b1 * x) - R (f.a1 * out)) + f.w1)) +
        ((R (R (f.b1 * x) - R (f.a1 * out)) - (R (f.b1 * x) - R (f.a1 * out))) +
        ((R (f.b1 * x) - f.b1 * x) - (R (f.a1 * out) - f.a1 * out))) := by ring
    rw [e]
    refine (abs_add_le _ _).trans ?_
    have a1 := abs_add_le (R (R (f.b1 * x) - R (f.a1 * out)) - (R (f.b1 * x) - R (f.a1 * out)))
      ((R (f.b1 * x) - f.b1 * x) - (R (f.a1 * out) - f.a1 * out))
    have a2 := abs_sub (R (f.b1 * x) - f.b1 * x) (R (f.a1 * out) - f.a1 * out)
    have k1 : ε * (2 * (2 * (S * Z) + 2 * (S * (4 * S * Z))) + Z) =
      4 * (ε * (S * Z)) + 16 * (ε * (S ^ 2 * Z)) + ε * Z := by ring
    have k2 : ε * (2 * (S * Z) + 2 * (S * (4 * S * Z))) = 2 * (ε * (S * Z)) + 8 * (ε * (S ^ 2 * Z)) := by ring
    have k3 : ε * (S * (4 * S * Z)) = 4 * (ε * (S ^ 2 * Z)) := by ring
    have k4 : 36 * S ^ 2 * (ε * Z) = 36 * (ε * (S ^ 2 * Z)) := by ring
    rw [k1] at e6
    rw [k2] at e5
    rw [k3] at e4
    rw [k4]
    linarith
  · simp only [biquadTick]
    generalize R (R (f.b0 * x) + f.w0) = out at *
    have e : R (R (f.b2 * x) - R (f.a2 * out)) - (f.b2 * x - f.a2 * out) =
        (R (R (f.b2 * x) - R (f.a2 * out)) - (R (f.b2 * x) - R (f.a2 * out))) +
        ((R (f.b2 * x) - f.b2 * x) - (R (f.a2 * out) - f.a2 * out)) := by ring
    rw [e]
    refine (abs_add_le _ _).trans ?_
    have a2 := abs_sub (R (f.b2 * x) - f.b2 * x) (R (f.a2 * out) - f.a2 * out)
    have k2 : ε * (2 * (S * Z) + 2 * (S * (4 * S * Z))) = 2 * (ε * (S * Z)) + 8 * (ε * (S ^ 2 * Z)) := by ring
    have k3 : ε * (S * (4 * S * Z)) = 4 * (ε * (S ^ 2 * Z)) := by ring
    have k4 : 15 * S ^ 2 * (ε * Z) = 15 * (ε * (S ^ 2 * Z)) := by ring
    rw [k2] at e9
    rw [k3] at e8
    rw [k4]
    linarith

end

/-- A first order recurrence stays within the bound of its input divided by `1 - r`; `k` is `1 / (1 - r)`. -/
theorem rec_bound {p : ℂ} {r k G : ℝ} (hp : ‖p‖ ≤ r) (hk : (1 - r) * k = 1) (hk0 : 0 ≤ k) {s g : ℕ → ℂ}
    (hs : ∀ n, s (n + 1) = p * s n + g n) (hg : ∀ n, ‖g n‖ ≤ G) (h0 : s 0 = 0) (n : ℕ) : ‖s n‖ ≤ G * k := by
  have hG : 0 ≤ G := (norm_nonneg _).trans (hg 0)
  have hGk : 0 ≤ G * k := mul_nonneg hG hk0
  induction n with
  | zero => rw [h0, norm_zero]; exact hGk
  | succ n ih =>
    rw [hs]
    refine (norm_add_le _ _).trans ?_
    rw [norm_mul]
    have h1 : ‖p‖ * ‖s n‖ ≤ r * (G * k) := mul_le_mul hp ih (norm_nonneg _) ((norm_nonneg _).trans hp)
    have h2 := hg n
    have h3 : G * k = r * (G * k) + G * ((1 - r) * k) := by ring
    rw [hk, mul_one] at h3
    linarith

theorem norm_ofReal (c : ℝ) : ‖(c : ℂ)‖ = |c| := by simp

theorem abs_second {q : ℂ} (hq : ‖q‖ ≤ 1) (e0 e1 : ℝ) : |e1| ≤ ‖(e1 : ℂ) + q * (e0 : ℂ)‖ + |e0| := by
  have e : (e1 : ℂ) = ((e1 : ℂ) + q * (e0 : ℂ)) - q * (e0 : ℂ) := by ring
  have a := norm_sub_le ((e1 : ℂ) + q * (e0 : ℂ)) (q * (e0 : ℂ))
  rw [← e, norm_ofReal, norm_mul, norm_ofReal] at a
  have := mul_le_of_le_one_left (abs_nonneg e0) hq
  linarith

/-- The state of the exact section driven by a signal within `X`. -/
theorem exact_bound {f : Biquad ℝ} {S r k X : ℝ} (hS : CoeffLe f S) {p q : ℂ} (hs : p + q = -f.a1)
    (hm : p * q = f.a2) (hp : ‖p‖ ≤ r) (hq : ‖q‖ ≤ r) (hr : r ≤ 1) (hk : (1 - r) * k = 1) (hk1 : 1 ≤ k)
    (h0 : f.w0 = 0) (h1 : f.w1 = 0) {x : ℕ → ℝ} (hx : ∀ n, |x n| ≤ X) (n : ℕ) :
    |x n| + |(f.stateAt x n).w0| + |(f.stateAt x n).w1| ≤ 17 * S ^ 2 * k ^ 2 * X := by
  obtain ⟨s1, sb0, sb1, sb2, sa1, sa2⟩ := hS
  have hX : 0 ≤ X := (abs_nonneg _).trans (hx 0)
  have hS0 : 0 ≤ S := by linarith
  have hSS : S ≤ S ^ 2 := by nlinarith
  have hk0 : 0 ≤ k := by linarith
  have hkk : k ≤ k ^ 2 := by nlinarith
  have nrm : ∀ c : ℝ, ‖(c : ℂ)‖ = |c| := fun c => by simp
  have hab : ∀ {a b c : ℝ}, |a| ≤ S → |b| ≤ S → |c| ≤ S → ‖((a : ℂ) - b * c)‖ ≤ 2 * S ^ 2 := by
    intro a b c ha hb hc
    refine (norm_sub_le _ _).trans ?_
    rw [norm_mul, nrm, nrm, nrm]
    have := mul_le_mul hb hc (abs_nonneg _) hS0
    nlinarith
  have hrec := Stability.state_recurrence f hs hm x
  have hg1 : ∀ n, ‖((f.b2 - f.a2 * f.b0 : ℂ) + q * (f.b1 - f.a1 * f.b0)) * x n‖ ≤ 4 * S ^ 2 * X := by
    intro n
    rw [norm_mul, nrm]
    refine mul_le_mul ?_ (hx n) (abs_nonneg _) (by positivity)
    refine (norm_add_le _ _).trans ?_
    rw [norm_mul]
    have a := hab sb2 sa2 sb0
    have b := hab sb1 sa1 sb0
    have c := mul_le_mul (hq.trans hr) b (norm_nonneg _) zero_le_one
    linarith
  have hu := rec_bound (p := q) (s := fun n => ((f.stateAt x n).w1 + q * (f.stateAt x n).w0 : ℂ)) hq hk hk0
    (fun n => (hrec n).1) hg1 (by simp [Biquad.stateAt, h0, h1])
  have hg2 : ∀ n, ‖((f.stateAt x n).w1 + q * (f.stateAt x n).w0 : ℂ) + (f.b1 - f.a1 * f.b0) * x n‖ ≤
      6 * S ^ 2 * k * X := by
    intro n
    refine (norm_add_le _ _).trans ?_
    have a := hu n
    have b : ‖((f.b1 - f.a1 * f.b0 : ℂ)) * x n‖ ≤ 2 * S ^ 2 * X := by
      rw [norm_mul, nrm]
      exact mul_le_mul (hab sb1 sa1 sb0) (hx n) (abs_nonneg _) (by positivity)
    have c : S ^ 2 * X ≤ S ^ 2 * X * k := le_mul_of_one_le_right (by positivity) hk1
    have d : 6 * S ^ 2 * k * X = 6 * (S ^ 2 * X * k) := by ring
    have e : 4 * S ^ 2 * X * k = 4 * (S ^ 2 * X * k) := by ring
    rw [d]
    rw [e] at a
    linarith
  have hw := rec_bound (p := p) (s := fun n => ((f.stateAt x n).w0 : ℂ)) hp hk hk0 (fun n => (hrec n).2) hg2 (by simp [Biquad.stateAt, h0])
  have b0 := hw n
  rw [nrm] at b0
  have b1 : |(f.stateAt x n).w1| ≤ 4 * S ^ 2 * X * k + 6 * S ^ 2 * k * X * k :=
    (abs_second (hq.trans hr) (f.stateAt x n).w0 (f.stateAt x n).w1).trans (add_le_add (hu n) b0)
  have hP : 0 ≤ S ^ 2 * X := by positivity
  have c1 : S ^ 2 * X * k ≤ S ^ 2 * X * k ^ 2 := mul_le_mul_of_nonneg_left hkk hP
  have c2 : S ^ 2 * X ≤ S ^ 2 * X * k := le_mul_of_one_le_right hP hk1
  have c3 : X ≤ S ^ 2 * X := le_mul_of_one_le_left hX (by nlinarith)
  have k1 : 6 * S ^ 2 * k * X * k = 6 * (S ^ 2 * X * k ^ 2) := by ring
  have k2 : 4 * S ^ 2 * X * k = 4 * (S ^ 2 * X * k) := by ring
  have k3 : 17 * S ^ 2 * k ^ 2 * X = 17 * (S ^ 2 * X * k ^ 2) := by ring
  rw [k1] at b0 b1
  rw [k2] at b1
  rw [k3]
  have := hx n
  linarith

/-- One step of the errors: the difference of the states of the rounded and the exact section. -/
theorem step_err {R : ℝ → ℝ} {ε : ℝ} (hR : ∀ z, |R z - z| ≤ ε * |z|) (h0 : 0 ≤ ε) (hε1 : ε ≤ 1) {f : Biquad ℝ}
    {S K : ℝ} (hS : CoeffLe f S) (x : ℕ → ℝ) (n : ℕ)
    (hZ : |x n| + |(biquadState R f x n).w0| + |(biquadState R f x n).w1| ≤ 2 * K) :
    ∃ α η₁ η₂ : ℝ, |α| ≤ 6 * (S * (ε * K)) ∧ |η₂| ≤ 78 * (S ^ 2 * (ε * K)) ∧ |η₁| ≤ 36 * (S ^ 2 * (ε * K)) ∧
      biquadResponse R f x n - f.response x n = ((biquadState R f x n).w0 - (f.stateAt x n).w0) + α ∧
      (biquadState R f x (n + 1)).w0 - (f.stateAt x (n + 1)).w0 =
        -f.a1 * ((biquadState R f x n).w0 - (f.stateAt x n).w0) +
          ((biquadState R f x n).w1 - (f.stateAt x n).w1) + η₂ ∧
      (biquadState R f x (n + 1)).w1 - (f.stateAt x (n + 1)).w1 =
        -f.a2 * ((biquadState R f x n).w0 - (f.stateAt x n).w0) + η₁ := by
  obtain ⟨s1, sb0, sb1, sb2, sa1, sa2⟩ := hS
  have hS0 : 0 ≤ S := by linarith
  obtain ⟨c0, c1, c2, c3, c4⟩ := state_coeffs R f x n
  obtain ⟨d0, d1, d2, d3, d4, -⟩ := Biquad.stateAt_coeffs f x n
  have hS'' : CoeffLe (biquadState R f x n) S :=
    ⟨s1, by rwa [c0], by rwa [c1], by rwa [c2], by rwa [c3], by rwa [c4]⟩
  obtain ⟨α, β, γ, e1, e2, e3, b1, b2, b3⟩ := tick_err hR h0 hε1 hS'' hZ
  have fo : f.response x n = f.b0 * x n + (f.stateAt x n).w0 := Stability.response_eq f x n
  have f0 : (f.stateAt x (n + 1)).w0 = f.b1 * x n - f.a1 * f.response x n + (f.stateAt x n).w1 := by
    rw [fo, Biquad.stateAt, Biquad.tick, d0, d1, d3]
  have f1 : (f.stateAt x (n + 1)).w1 = f.b2 * x n - f.a2 * f.response x n := by
    rw [fo, Biquad.stateAt, Biquad.tick, d0, d2, d4]
  have g0 : (biquadState R f x (n + 1)).w0 = (biquadTick R (biquadState R f x n) (x n)).1.w0 := rfl
  have g1 : (biquadState R f x (n + 1)).w1 = (biquadTick R (biquadState R f x n) (x n)).1.w1 := rfl
  have go : biquadResponse R f x n = (biquadTick R (biquadState R f x n) (x n)).2 := rfl
  rw [c0] at e1
  rw [c1, c3] at e2
  rw [c2, c4] at e3
  have hb : 3 * S * (ε * (2 * K)) = 6 * (S * (ε * K)) := by ring
  rw [hb] at b1
  have hq : ∀ a : ℝ, |a| ≤ S → |a * α| ≤ 6 * (S ^ 2 * (ε * K)) := by
    intro a ha
    rw [abs_mul]
    have := mul_le_mul ha b1 (abs_nonneg _) hS0
    have e : S * (6 * (S * (ε * K))) = 6 * (S ^ 2 * (ε * K)) := by ring
    linarith
  have q1 := hq _ sa1
  have q2 := hq _ sa2
  refine ⟨α, γ - f.a2 * α, β - f.a1 * α, b1, ?_, ?_, ?_, ?_, ?_⟩
  · have e : 36 * S ^ 2 * (ε * (2 * K)) = 72 * (S ^ 2 * (ε * K)) := by ring
    have := abs_sub β (f.a1 * α)
    linarith
  · have e : 15 * S ^ 2 * (ε * (2 * K)) = 30 * (S ^ 2 * (ε * K)) := by ring
    have := abs_sub γ (f.a2 * α)
    linarith
  · rw [go, e1, fo]; ring
  · rw [g0, e2, f0, go.symm, go, e1, fo]; ring
  · rw [g1, e3, f1, e1, fo]; ring

/-- **Error of one section**, and a bound on its state.  `k` is `1 / (1 - r)`, `r` a bound on the moduli of the poles. -/
theorem section_both {R : ℝ → ℝ} {ε : ℝ} (hR : ∀ z, |R z - z| ≤ ε * |z|) (h0 : 0 ≤ ε) {f : Biquad ℝ}
    {S r k X : ℝ} (hS : CoeffLe f S) {p q : ℂ} (hs : p + q = -f.a1)
    (hm : p * q = f.a2) (hp : ‖p‖ ≤ r) (hq : ‖q‖ ≤ r) (hr : r ≤ 1) (hk : (1 - r) * k = 1) (hk1 : 1 ≤ k)
    (hε : 600 * S ^ 2 * k ^ 2 * ε ≤ 1)
    (hw0 : f.w0 = 0) (hw1 : f.w1 = 0) {x : ℕ → ℝ} (hx : ∀ n, |x n| ≤ X) (n : ℕ) :
    |biquadResponse R f x n - f.response x n| ≤ 4200 * S ^ 4 * k ^ 4 * ε * X ∧
      |x n| + |(biquadState R f x n).w0| + |(biquadState R f x n).w1| ≤ 2 * (17 * S ^ 2 * k ^ 2 * X) := by
  have hS' := hS
  obtain ⟨s1, sb0, sb1, sb2, sa1, sa2⟩ := hS'
  have hX : 0 ≤ X := (abs_nonneg _).trans (hx 0)
  have hS0 : 0 ≤ S := by linarith
  have hS2 : 1 ≤ S ^ 2 := by nlinarith
  have hSS : S ≤ S ^ 2 := by nlinarith
  have hk0 : 0 ≤ k := by linarith
  have hk2 : 1 ≤ k ^ 2 := by nlinarith
  have hε1 : ε ≤ 1 := by
    have : ε ≤ S ^ 2 * k ^ 2 * ε := le_mul_of_one_le_left h0 (by nlinarith)
    nlinarith
  have nrm : ∀ c : ℝ, ‖(c : ℂ)‖ = |c| := fun c => by simp
  obtain ⟨h, hh⟩ : ∃ h, h = 120 * S ^ 2 * ε * (17 * S ^ 2 * k ^ 2 * X) := ⟨_, rfl⟩
  obtain ⟨K, hK⟩ : ∃ K, K = 17 * S ^ 2 * k ^ 2 * X := ⟨_, rfl⟩
  have hK0 : 0 ≤ K := by rw [hK]; positivity
  have hhK : h = 120 * (S ^ 2 * (ε * K)) := by rw [hh, hK]; ring
  have hP : 0 ≤ S ^ 2 * (ε * K) := by positivity
  have hh0 : 0 ≤ h := by rw [hhK]; linarith
  have hbig : 5 * (h * k ^ 2) ≤ K := by
    have e : 5 * (h * k ^ 2) = 600 * S ^ 2 * k ^ 2 * ε * K := by rw [hhK]; ring
    rw [e]
    exact mul_le_of_le_one_left hK0 hε
  have hhk : h * k ≤ h * k ^ 2 := mul_le_mul_of_nonneg_left (by nlinarith) hh0
  have inv : ∀ n, |(biquadState R f x n).w0 - (f.stateAt x n).w0| ≤ 2 * (h * k ^ 2) ∧
      ‖(((biquadState R f x n).w1 - (f.stateAt x n).w1 : ℝ) : ℂ) +
        q * (((biquadState R f x n).w0 - (f.stateAt x n).w0 : ℝ) : ℂ)‖ ≤ h * k → 
      |x n| + |(biquadState R f x n).w0| + |(biquadState R f x n).w1| ≤ 2 * K := by
    intro n ⟨h1, h2⟩
    have hex := exact_bound hS hs hm hp hq hr hk hk1 hw0 hw1 hx n
    rw [← hK] at hex
    have a0 : |(biquadState R f x n).w0| ≤ |(f.stateAt x n).w0| + 2 * (h * k ^ 2) := by
      have := abs_sub_abs_le_abs_sub (biquadState R f x n).w0 (f.stateAt x n).w0
      linarith
    have a1 := abs_second (hq.trans hr) ((biquadState R f x n).w0 - (f.stateAt x n).w0)
      ((biquadState R f x n).w1 - (f.stateAt x n).w1)
    have a2 := abs_sub_abs_le_abs_sub (biquadState R f x n).w1 (f.stateAt x n).w1
    linarith
  have step := fun n => step_err (K := K) hR h0 hε1 hS x n
  have main : ∀ n, |(biquadState R f x n).w0 - (f.stateAt x n).w0| ≤ 2 * (h * k ^ 2) ∧
      ‖(((biquadState R f x n).w1 - (f.stateAt x n).w1 : ℝ) : ℂ) +
        q * (((biquadState R f x n).w0 - (f.stateAt x n).w0 : ℝ) : ℂ)‖ ≤ h * k := by
    intro n
    induction n with
    | zero =>
      have : (0 : ℝ) ≤ h * k := mul_nonneg hh0 hk0
      simp [biquadState, Biquad.stateAt]
      exact ⟨by positivity, this⟩
    | succ n ih =>
      obtain ⟨α, η₁, η₂, b1, b2, b3, -, r0, r1⟩ := step n (inv n ih)
      obtain ⟨i0, i1⟩ := ih
      generalize (biquadState R f x n).w0 - (f.stateAt x n).w0 = e0 at *
      generalize (biquadState R f x n).w1 - (f.stateAt x n).w1 = e1 at *
      rw [r0, r1]
      have ha1 : ((-f.a1 : ℝ) : ℂ) = p + q := by rw [hs]; push_cast; ring
      have ha2 : ((-f.a2 : ℝ) : ℂ) = -(p * q) := by rw [hm]; push_cast; ring
      have w : (((-f.a1 * e0 + e1 + η₂ : ℝ)) : ℂ) = p * e0 + ((e1 : ℂ) + q * e0) + η₂ := by
        rw [Complex.ofReal_add, Complex.ofReal_add, Complex.ofReal_mul, ha1]; ring
      have v : (((-f.a2 * e0 + η₁ : ℝ)) : ℂ) + q * (((-f.a1 * e0 + e1 + η₂ : ℝ)) : ℂ) =
          q * ((e1 : ℂ) + q * e0) + (η₁ + q * η₂) := by
        rw [w, Complex.ofReal_add, Complex.ofReal_mul, ha2]; ring
      have hr0 : 0 ≤ r := (norm_nonneg _).trans hp
      constructor
      · rw [← nrm, w]
        refine (norm_add_le _ _).trans ?_
        have a := norm_add_le (p * (e0 : ℂ)) ((e1 : ℂ) + q * e0)
        rw [norm_mul, nrm] at a
        rw [nrm]
        have c := mul_le_mul hp i0 (abs_nonneg _) hr0
        have d : 2 * (h * k ^ 2) = r * (2 * (h * k ^ 2)) + 2 * (h * k * ((1 - r) * k)) := by ring
        rw [hk, mul_one] at d
        have : h ≤ h * k := le_mul_of_one_le_right hh0 hk1
        linarith
      · rw [v]
        refine (norm_add_le _ _).trans ?_
        have a := norm_add_le (η₁ : ℂ) (q * η₂)
        rw [norm_mul, nrm, nrm] at a
        rw [norm_mul]
        have c := mul_le_mul hq i1 (norm_nonneg _) hr0
        have c2 := mul_le_mul (hq.trans hr) b2 (abs_nonneg _) zero_le_one
        have d : h * k = r * (h * k) + h * ((1 - r) * k) := by ring
        rw [hk, mul_one] at d
        linarith
  obtain ⟨α, η₁, η₂, b1, -, -, ro, -, -⟩ := step n (inv n (main n))
  refine ⟨?_, hK ▸ inv n (main n)⟩
  rw [ro]
  refine (abs_add_le _ _).trans ?_
  have i0 := (main n).1
  have c : S * (ε * K) ≤ S ^ 2 * (ε * K) := mul_le_mul_of_nonneg_right hSS (by positivity)
  have c2 : S ^ 2 * (ε * K) ≤ S ^ 2 * (ε * K) * k ^ 2 := le_mul_of_one_le_right hP hk2
  have e : h * k ^ 2 = 120 * (S ^ 2 * (ε * K) * k ^ 2) := by rw [hhK]; ring
  have e2 : 4200 * S ^ 4 * k ^ 4 * ε * X = 246 * (S ^ 2 * (ε * K) * k ^ 2) + 18 * (S ^ 4 * k ^ 4 * ε * X) := by
    rw [hK]; ring
  have : 0 ≤ S ^ 4 * k ^ 4 * ε * X := by positivity
  rw [e2]
  rw [e] at i0
  linarith

/-- The error alone. -/
theorem section_err {R : ℝ → ℝ} {ε : ℝ} (hR : ∀ z, |R z - z| ≤ ε * |z|) (h0 : 0 ≤ ε) {f : Biquad ℝ}
    {S r k X : ℝ} (hS : CoeffLe f S) {p q : ℂ} (hs : p + q = -f.a1)
    (hm : p * q = f.a2) (hp : ‖p‖ ≤ r) (hq : ‖q‖ ≤ r) (hr : r ≤ 1) (hk : (1 - r) * k = 1) (hk1 : 1 ≤ k)
    (hε : 600 * S ^ 2 * k ^ 2 * ε ≤ 1)
    (hw0 : f.w0 = 0) (hw1 : f.w1 = 0) {x : ℕ → ℝ} (hx : ∀ n, |x n| ≤ X) (n : ℕ) :
    |biquadResponse R f x n - f.response x n| ≤ 4200 * S ^ 4 * k ^ 4 * ε * X :=
  (section_both hR h0 hS hs hm hp hq hr hk hk1 hε hw0 hw1 hx n).1

end Edsp.Rounded
