import Verif.Lemmas.RoundedZoelzer
import Verif.Props.C17_Zoelzer
import Verif.Props.C116_RoundedRbj

/-!
# C135: the Zoelzer designs computed in `float` or `double`

`RndZoelzer.lowPass p t fc fs Q` (Model/RoundedZoelzer.lean) is the designer for numbers with `p` bits; `t` is the tangent
of the mathematical library.  `Zoelzer.lowPass fc fs Q` (Model/Designers.lean) is the same design in exact arithmetic, the
subject of C17.
-/

namespace Edsp.Props

open Edsp Edsp.Spec Edsp.RndWin Edsp.RndZoelzer Edsp.FloatL Edsp.RndWinL Edsp.RndRbjL Edsp.RndZoelzerL

namespace C135

variable {p : ℕ} {t : ℝ → ℝ} {fc fs Q k K r : ℝ}

section
variable (hr0 : u p ≤ r) (hr1 : r ≤ 1 / 1000)
include hr0 hr1

theorem kq_err (hk : R (13.5 * r) k K) : R (14.6 * r) (rnd p (k / Q)) (K / Q) := by
  have hu := u_pos p
  have h := R.mul hk (R.refl Q⁻¹)
  rw [← div_eq_mul_inv, ← div_eq_mul_inv] at h
  exact (h.rnd (p := p)).mono (by nlinarith)

theorem kk_err (hk : R (13.5 * r) k K) : R (28.3 * r) (rnd p (k * k)) (K * K) := by
  have hu := u_pos p
  refine ((R.mul hk hk).rnd (p := p)).mono ?_
  have m1 : r * r ≤ 1 / 1000 * r := mul_le_mul_of_nonneg_right hr1 (by linarith)
  have m2 : u p * (1 + (13.5 * r + 13.5 * r + 13.5 * r * (13.5 * r))) ≤ r * 1.03 :=
    mul_le_mul hr0 (by linarith) (by nlinarith) (by linarith)
  linarith

theorem den_err (hK : 0 < K) (hQ : 0 < Q) {kq kk : ℝ} (h1 : R (14.6 * r) kq (K / Q)) (h2 : R (28.3 * r) kk (K * K)) :
    R (30.6 * r) (denominator p kq kk) (1 + K / Q + K * K) := by
  have hu := u_pos p
  have hr : 0 < r := by linarith
  have hA : 0 < K / Q := div_pos hK hQ
  have hB : 0 < K * K := by positivity
  unfold R at *
  rw [abs_of_pos hA] at h1
  rw [abs_of_pos hB] at h2
  rw [abs_of_pos (show 0 < 1 + K / Q + K * K by positivity)]
  generalize K / Q = A at *
  generalize K * K = B at *
  have hrA := mul_pos hr hA
  have hrB := mul_pos hr hB
  have huA := mul_le_mul_of_nonneg_right hr0 hA.le
  have huB := mul_le_mul_of_nonneg_right hr0 hB.le
  have mA := mul_le_mul_of_nonneg_right hr1 hA.le
  have mB := mul_le_mul_of_nonneg_right hr1 hB.le
  have a1 : |1 + kq - (1 + A)| ≤ 14.6 * r * A := by rwa [add_sub_add_left_eq_sub]
  have a2 := rnd_shift (p := p) (B := 1 + 1.02 * A) a1 (by rw [abs_of_pos (by linarith)]; linarith)
  have a3 : |rnd p (1 + kq) + kk - (1 + A + B)| ≤ 14.6 * r * A + u p * (1 + 1.02 * A) + 28.3 * r * B := by
    rw [show rnd p (1 + kq) + kk - (1 + A + B) = (rnd p (1 + kq) - (1 + A)) + (kk - B) by ring]
    exact (abs_add_le _ _).trans (add_le_add a2 h2)
  have a4 := rnd_shift (p := p) (B := 1.04 * (1 + A + B)) a3
    (by rw [abs_of_pos (by linarith)]; linarith)
  unfold denominator
  refine a4.trans ?_
  linarith

theorem norm_ok (hK : 0 < K) (hQ : 0 < Q) {kq kk : ℝ} (h1 : R (14.6 * r) kq (K / Q)) (h2 : R (28.3 * r) kk (K * K)) :
    denominator p kq kk ≠ 0 ∧ R (34 * r) (rnd p (1 / denominator p kq kk)) (1 / (1 + K / Q + K * K)) := by
  have hu := u_pos p
  have hD : 0 < 1 + K / Q + K * K := by positivity
  obtain ⟨h, k⟩ := (den_err hr0 hr1 hK hQ h1 h2).inv hD (by linarith) (by linarith)
  exact ⟨h.ne', (k.rnd (p := p)).mono (by nlinarith)⟩

/-- A product with the reciprocal of the denominator. -/
theorem scaled {D n N x e M : ℝ} (hD : 0 < D) (he : 0 ≤ e) (heM : e ≤ 0.2) (hM : M ≤ 2) (hM0 : 0 ≤ M)
    (hx : |x - N| ≤ e * D) (hN : |N| ≤ M * D) (hn : R (34 * r) n (1 / D)) :
    |rnd p (x * n) - N / D| ≤ 1.04 * e + 35.1 * M * r + 0.3 * r := by
  have hu := u_pos p
  have hr : 0 < r := by linarith
  unfold R at hn
  rw [abs_of_pos (by positivity : 0 < 1 / D)] at hn
  have hn2 : |n| ≤ 1.034 * (1 / D) := by
    have := abs_add_le (n - 1 / D) (1 / D)
    rw [sub_add_cancel, abs_of_pos (by positivity : 0 < 1 / D)] at this
    have h3 := mul_le_mul_of_nonneg_right hr1 (by positivity : 0 ≤ 1 / D)
    linarith
  have e1 : x * n - N / D = (x - N) * n + N * (n - 1 / D) := by ring
  have b1 : |x * n - N / D| ≤ 1.034 * e + 34 * M * r := by
    rw [e1]
    refine (abs_add_le _ _).trans ?_
    rw [abs_mul, abs_mul]
    have m1 := mul_le_mul hx hn2 (abs_nonneg _) (by positivity)
    have m2 := mul_le_mul hN hn (abs_nonneg _) (by positivity)
    have c1 : e * D * (1.034 * (1 / D)) = 1.034 * e := by field_simp
    have c2 : M * D * (34 * r * (1 / D)) = 34 * M * r := by field_simp
    rw [c1] at m1
    rw [c2] at m2
    linarith
  have hND : |N / D| ≤ M := by
    rw [abs_div, abs_of_pos hD, div_le_iff₀ hD]
    exact hN
  have hMr : M * r ≤ 0.002 := by nlinarith
  have b2 := rnd_shift (p := p) (B := M + (1.034 * e + 34 * M * r)) b1 (by linarith)
  have m : u p * (M + (1.034 * e + 34 * M * r)) ≤ r * (M + 0.28) :=
    mul_le_mul hr0 (by linarith) (by positivity) hr.le
  have m2 : 0.006 * (M * r) ≤ 0.012 * r := by nlinarith
  have m3 : 0.28 * r ≤ 0.28 * r := le_rfl
  have : 0 ≤ M * r := by positivity
  linarith

/-- The first feedback coefficient. -/
theorem first_err (hp : 1 ≤ p) (hK : 0 < K) (hQ : 0 < Q) {kk n : ℝ} (h2 : R (28.3 * r) kk (K * K))
    (hn : R (34 * r) n (1 / (1 + K / Q + K * K))) :
    |first p kk n - 2 * (K * K - 1) / (1 + K / Q + K * K)| ≤ 132 * r := by
  have hu := u_pos p
  have hr : 0 < r := by linarith
  have hA : 0 < K / Q := div_pos hK hQ
  have hB : 0 < K * K := by positivity
  unfold R at h2
  rw [abs_of_pos hB] at h2
  have hD : 0 < 1 + K / Q + K * K := by positivity
  have hrA := mul_pos hr hA
  have hrB := mul_pos hr hB
  have huB := mul_le_mul_of_nonneg_right hr0 hB.le
  have mB := mul_le_mul_of_nonneg_right hr1 hB.le
  have hN : |K * K - 1| ≤ 1 + K * K := by rw [abs_le]; constructor <;> linarith
  have a1 : |kk - 1 - (K * K - 1)| ≤ 28.3 * r * (K * K) := by rwa [sub_sub_sub_cancel_right]
  have a2 := rnd_shift (p := p) (B := 1 + 1.03 * (K * K)) a1 (by linarith)
  have a3 : |rnd p (2 * rnd p (kk - 1)) - 2 * (K * K - 1)| ≤ 58.8 * r * (1 + K / Q + K * K) := by
    rw [rnd_double, rnd_rnd hp, ← mul_sub, abs_mul, abs_of_pos (by norm_num : (0 : ℝ) < 2)]
    linarith
  have := scaled hr0 hr1 (M := 2) hD (by positivity) (by linarith) le_rfl (by norm_num) a3
    (by rw [abs_mul, abs_of_pos (by norm_num : (0 : ℝ) < 2)]; linarith) hn
  unfold first
  linarith

/-- The second feedback coefficient. -/
theorem second_err (hK : 0 < K) (hQ : 0 < Q) {kq kk n : ℝ} (h1 : R (14.6 * r) kq (K / Q)) (h2 : R (28.3 * r) kk (K * K))
    (hn : R (34 * r) n (1 / (1 + K / Q + K * K))) :
    |second p kq kk n - (1 - K / Q + K * K) / (1 + K / Q + K * K)| ≤ 68 * r := by
  have hu := u_pos p
  have hr : 0 < r := by linarith
  have hA : 0 < K / Q := div_pos hK hQ
  have hB : 0 < K * K := by positivity
  unfold R at h1 h2
  rw [abs_of_pos hA] at h1
  rw [abs_of_pos hB] at h2
  generalize K / Q = A at *
  generalize K * K = B at *
  have hD : 0 < 1 + A + B := by positivity
  have hrA := mul_pos hr hA
  have hrB := mul_pos hr hB
  have huA := mul_le_mul_of_nonneg_right hr0 hA.le
  have huB := mul_le_mul_of_nonneg_right hr0 hB.le
  have mA := mul_le_mul_of_nonneg_right hr1 hA.le
  have mB := mul_le_mul_of_nonneg_right hr1 hB.le
  have hN0 : |1 - A| ≤ 1 + A := by rw [abs_le]; constructor <;> linarith
  have hN : |1 - A + B| ≤ 1 + A + B := by rw [abs_le]; constructor <;> linarith
  have a1 : |1 - kq - (1 - A)| ≤ 14.6 * r * A := by
    rw [show 1 - kq - (1 - A) = -(kq - A) by ring, abs_neg]
    exact h1
  have a2 := rnd_shift (p := p) (B := 1 + 1.02 * A) a1 (by linarith)
  have a3 : |rnd p (1 - kq) + kk - (1 - A + B)| ≤ 14.6 * r * A + u p * (1 + 1.02 * A) + 28.3 * r * B := by
    rw [show rnd p (1 - kq) + kk - (1 - A + B) = (rnd p (1 - kq) - (1 - A)) + (kk - B) by ring]
    exact (abs_add_le _ _).trans (add_le_add a2 h2)
  have a4 := rnd_shift (p := p) (B := 1.04 * (1 + A + B)) a3 (by linarith)
  have a5 : |rnd p (rnd p (1 - kq) + kk) - (1 - A + B)| ≤ 30.6 * r * (1 + A + B) := by
    refine a4.trans ?_
    linarith
  have := scaled hr0 hr1 (M := 1) hD (by positivity) (by linarith) (by norm_num) (by norm_num) a5 (by linarith) hn
  unfold second
  linarith

end

/-- Two filters whose coefficients differ by at most `E`, those of the numerator even relatively. -/
structure Close (E : ℝ) (f g : Biquad ℝ) : Prop where
  near : C116.Near E f g
  b0 : |f.b0 - g.b0| ≤ E * |g.b0|
  b1 : |f.b1 - g.b1| ≤ E * |g.b1|
  b2 : |f.b2 - g.b2| ≤ E * |g.b2|

/-- The tangent every design computes first. -/
theorem setup (hp : 24 ≤ p) (hq : p ≤ 53) (ht : TanLike p t) (h0 : 0 < fc) (h1 : fc < fs / 2)
    (hv : 1000 * 2 ^ (-(p : ℤ)) ≤ Real.cos (Real.pi * fc / fs)) {r : ℝ}
    (hr : r = 2 ^ (-(p : ℤ)) / Real.cos (Real.pi * fc / fs)) :
    u p ≤ r ∧ r ≤ 1 / 1000 ∧ ∃ w K, angle p fc fs = .ok w ∧ K = Real.tan (Real.pi * fc / fs) ∧ 0 < K ∧
      (fdiv (Real.pi * fc) fs >>= ctan) = .ok K ∧ R (13.5 * r) (t w) K := by
  have hu := u_pos p
  have hs := u_small hp
  obtain ⟨w, k1, k2⟩ := angle_ok hp hq h0 h1
  obtain ⟨K, a1, a2, -, -, a3⟩ := zoelzer_K h0 h1
  have hfs : 0 < fs := by linarith
  have hpi := Real.pi_pos
  have hθ0 : 0 < Real.pi * fc / fs := by positivity
  have hθ1 : Real.pi * fc / fs < Real.pi / 2 := by
    rw [div_lt_iff₀ hfs]
    nlinarith
  have hc : 0 < Real.cos (Real.pi * fc / fs) := Real.cos_pos_of_mem_Ioo ⟨by linarith, hθ1⟩
  have hr' : r = u p / Real.cos (Real.pi * fc / fs) := hr
  have hv' : 1000 * u p ≤ Real.cos (Real.pi * fc / fs) := hv
  have r0 : u p ≤ r := by
    rw [hr', le_div_iff₀ hc]
    nlinarith [Real.cos_le_one (Real.pi * fc / fs)]
  have r1 : r ≤ 1 / 1000 := by
    rw [hr', div_le_iff₀ hc]
    linarith
  refine ⟨r0, r1, w, K, k1, a3, a2, a1, ?_⟩
  have b := tan_err hu hθ0 hθ1 hr' r1 k2
  have b1 := ht.near w
  rw [a3]
  have b2 := b.abs_le
  unfold R at *
  have b3 := abs_sub_le (t w) (Real.tan w) (Real.tan (Real.pi * fc / fs))
  change _ ≤ 2 * u p * _ at b1
  generalize |Real.tan (Real.pi * fc / fs)| = T at *
  have hT : 0 ≤ T := by
    have := (abs_nonneg (Real.tan w)).trans b2
    by_contra hn
    nlinarith
  have b4 := mul_le_mul_of_nonneg_left b2 hu.le
  have b7 : u p * ((1 + 11.4 * r) * T) = u p * T + 11.4 * (u p * r * T) := by ring
  rw [b7] at b4
  have b8 : 0 ≤ r * T := mul_nonneg (by linarith) hT
  have b5 : u p * T ≤ r * T := mul_le_mul_of_nonneg_right r0 hT
  have b6 : u p * r * T ≤ 1 / 16777216 * (r * T) := by
    rw [mul_assoc]
    exact mul_le_mul_of_nonneg_right hs (by nlinarith)
  linarith

theorem of_one (a1 a2 b0 b1 b2 : ℝ) : RndRbj.ofCoeffs p 1 a1 a2 b0 b1 b2 =
    .ok { b2 := rnd p b2, b1 := rnd p b1, b0 := rnd p b0, a2 := rnd p a2, a1 := rnd p a1, a0 := 1, w0 := 0, w1 := 0 } := by
  simp only [RndRbj.ofCoeffs, div_ok one_ne_zero, bind, Except.bind, pure, Except.pure, div_one]

theorem of_one' (a1 a2 b0 b1 b2 : ℝ) : Biquad.ofCoeffs 1 a1 a2 b0 b1 b2 =
    .ok { b2 := b2, b1 := b1, b0 := b0, a2 := a2, a1 := a1, a0 := 1, w0 := 0, w1 := 0 } := by
  unfold Biquad.ofCoeffs
  rw [if_neg one_ne_zero]
  simp

/-- The denominator of the computed design and its numerators, in terms of the exact tangent. -/
structure Shape (p : ℕ) (r K Q : ℝ) (f : Biquad ℝ) : Prop where
  a1 : |f.a1 - 2 * (K * K - 1) / (1 + K / Q + K * K)| ≤ 132 * r
  a2 : |f.a2 - (1 - K / Q + K * K) / (1 + K / Q + K * K)| ≤ 68 * r
  float : IsFloat p f.a1 ∧ IsFloat p f.a2
  one : f.a0 = 1
  rest : f.w0 = 0 ∧ f.w1 = 0

theorem designs (hp : 24 ≤ p) (hq : p ≤ 53) (ht : TanLike p t) (h0 : 0 < fc) (h1 : fc < fs / 2) (hQ : 0 < Q)
    (hv : 1000 * 2 ^ (-(p : ℤ)) ≤ Real.cos (Real.pi * fc / fs)) {r K : ℝ}
    (hr : r = 2 ^ (-(p : ℤ)) / Real.cos (Real.pi * fc / fs)) (hK : K = Real.tan (Real.pi * fc / fs)) :
    (∃ f, RndZoelzer.lowPass p t fc fs Q = .ok f ∧ Shape p r K Q f ∧ R (65 * r) f.b0 (K * K / (1 + K / Q + K * K)) ∧
      f.b1 = 2 * f.b0 ∧ f.b2 = f.b0) ∧
    (∃ f, RndZoelzer.highPass p t fc fs Q = .ok f ∧ Shape p r K Q f ∧ R (65 * r) f.b0 (1 / (1 + K / Q + K * K)) ∧
      f.b1 = -(2 * f.b0) ∧ f.b2 = f.b0) ∧
    (∃ f, RndZoelzer.bandPass p t fc fs Q = .ok f ∧ Shape p r K Q f ∧ R (65 * r) f.b0 (K / Q / (1 + K / Q + K * K)) ∧
      f.b1 = 0 ∧ f.b2 = -f.b0) := by
  obtain ⟨r0, r1, w, K', k1, k2, k3, -, k4⟩ := setup hp hq ht h0 h1 hv hr
  have : K' = K := by rw [k2, hK]
  subst this
  have hu := u_pos p
  have hr0 : 0 < r := by linarith
  have h1p : 1 ≤ p := by omega
  have j1 := kq_err (Q := Q) r0 r1 k4
  have j2 := kk_err r0 r1 k4
  obtain ⟨j3, j4⟩ := norm_ok r0 r1 k3 hQ j1 j2
  have c1 := first_err r0 r1 h1p k3 hQ j2 j4
  have c2 := second_err r0 r1 k3 hQ j1 j2 j4
  have e1 : ∀ kk n, rnd p (first p kk n) = first p kk n := fun kk n => rnd_rnd h1p _
  have e2 : ∀ kq kk n, rnd p (second p kq kk n) = second p kq kk n := fun kq kk n => rnd_rnd h1p _
  generalize hkq : rnd p (t w / Q) = kq at *
  generalize hkk : rnd p (t w * t w) = kk at *
  generalize hn : rnd p (1 / denominator p kq kk) = n at *
  have sh : ∀ b0 b1 b2, Shape p r K' Q
      ⟨b2, b1, b0, RndZoelzer.second p kq kk n, RndZoelzer.first p kk n, 1, 0, 0⟩ := by
    intro b0 b1 b2
    exact ⟨c1, c2, ⟨isFloat_rnd h1p _, isFloat_rnd h1p _⟩, rfl, rfl, rfl⟩
  have rr : r * r ≤ 1 / 1000 * r := mul_le_mul_of_nonneg_right r1 hr0.le
  have weak : ∀ {e x X : ℝ}, R e x X → e ≤ 63.5 * r → R (65 * r) (rnd p x) X := by
    intro e x X h he
    refine (h.mono he).rnd.mono ?_
    have : u p * (1 + 63.5 * r) ≤ r * 1.07 := mul_le_mul r0 (by linarith) (by linarith) hr0.le
    linarith
  refine ⟨?_, ?_, ?_⟩
  · refine ⟨_, ?_, sh (rnd p (kk * n)) (2 * rnd p (kk * n)) (rnd p (kk * n)), ?_, rfl, rfl⟩
    · simp only [RndZoelzer.lowPass, k1, bind, Except.bind, div_ok hQ.ne', hkq, hkk, div_ok j3, hn, of_one, e1, e2,
        rnd_double, rnd_rnd h1p]
    · have := R.mul j2 j4
      rw [mul_one_div] at this
      exact weak this (by linarith)
  · refine ⟨_, ?_, sh (rnd p n) (-(2 * rnd p n)) (rnd p n), ?_, rfl, rfl⟩
    · simp only [RndZoelzer.highPass, k1, bind, Except.bind, div_ok hQ.ne', hkq, hkk, div_ok j3, hn, of_one, e1, e2,
        one_mul, neg_mul, rnd_neg, rnd_double, rnd_rnd h1p]
    · exact weak j4 (by linarith)
  · refine ⟨_, ?_, sh (rnd p (kq * n)) 0 (-rnd p (kq * n)), ?_, rfl, rfl⟩
    · simp only [RndZoelzer.bandPass, k1, bind, Except.bind, div_ok hQ.ne', hkq, hkk, div_ok j3, hn, of_one, e1, e2,
        rnd_neg, rnd_zero, rnd_rnd h1p]
    · have := R.mul j1 j4
      rw [mul_one_div] at this
      exact weak this (by linarith)

/-- The exact designs. -/
theorem exact_designs (h0 : 0 < fc) (h1 : fc < fs / 2) (hQ : 0 < Q) {K D : ℝ}
    (hK : K = Real.tan (Real.pi * fc / fs)) (hD : D = 1 + K / Q + K * K) :
    0 < K ∧
    Zoelzer.lowPass fc fs Q = .ok {
      b0 := K * K / D, b1 := 2 * (K * K / D), b2 := K * K / D, a0 := 1,
      a1 := 2 * (K * K - 1) / D, a2 := (1 - K / Q + K * K) / D, w0 := 0, w1 := 0 } ∧
    Zoelzer.highPass fc fs Q = .ok {
      b0 := 1 / D, b1 := -(2 * (1 / D)), b2 := 1 / D, a0 := 1,
      a1 := 2 * (K * K - 1) / D, a2 := (1 - K / Q + K * K) / D, w0 := 0, w1 := 0 } ∧
    Zoelzer.bandPass fc fs Q = .ok {
      b0 := K / Q / D, b1 := 0, b2 := -(K / Q / D), a0 := 1,
      a1 := 2 * (K * K - 1) / D, a2 := (1 - K / Q + K * K) / D, w0 := 0, w1 := 0 } := by
  obtain ⟨K', a1, a2, -, -, a3⟩ := zoelzer_K h0 h1
  have : K' = K := by rw [a3, hK]
  subst this
  have hD' : D ≠ 0 := by rw [hD]; positivity
  refine ⟨a2, ?_, ?_, ?_⟩
  · unfold Zoelzer.lowPass
    rw [← bind_assoc, a1]
    simp only [bind, Except.bind, fdiv_ok _ hQ.ne', ← hD, fdiv_ok _ hD', of_one', mul_one_div]
  · unfold Zoelzer.highPass
    rw [← bind_assoc, a1]
    simp only [bind, Except.bind, fdiv_ok _ hQ.ne', ← hD, fdiv_ok _ hD', of_one', mul_one_div, neg_div]
  · unfold Zoelzer.bandPass
    rw [← bind_assoc, a1]
    simp only [bind, Except.bind, fdiv_ok _ hQ.ne', ← hD, fdiv_ok _ hD', of_one', mul_one_div]

/-- The exact numerators are at most 1. -/
theorem close_of {r K Q D : ℝ} {f : Biquad ℝ} (hr : 0 < r) (hD : D = 1 + K / Q + K * K) (hs : Shape p r K Q f)
    {B0 σ1 σ2 : ℝ} (hB : |B0| ≤ 1) (h : R (65 * r) f.b0 B0) (e1 : f.b1 = σ1 * f.b0) (e2 : f.b2 = σ2 * f.b0)
    (h1 : |σ1| ≤ 2) (h2 : |σ2| ≤ 1) :
    Close (132 * r) f {
      b0 := B0, b1 := σ1 * B0, b2 := σ2 * B0, a0 := 1, a1 := 2 * (K * K - 1) / D,
      a2 := (1 - K / Q + K * K) / D, w0 := 0, w1 := 0 } := by
  have ha := abs_nonneg B0
  unfold R at h
  have q0 : |f.b0 - B0| ≤ 132 * r * |B0| := by nlinarith
  have q : ∀ σ : ℝ, |σ * f.b0 - σ * B0| ≤ |σ| * (65 * r * |B0|) := by
    intro σ
    rw [← mul_sub, abs_mul]
    exact mul_le_mul_of_nonneg_left h (abs_nonneg _)
  have m := mul_nonneg hr.le ha
  have m1 : r * |B0| ≤ r := by nlinarith
  have q1 := q σ1
  have q2 := q σ2
  have s1 := mul_le_mul_of_nonneg_right h1 m
  have s2 := mul_le_mul_of_nonneg_right h2 m
  have p1 := mul_nonneg (abs_nonneg σ1) m
  have p2 := mul_nonneg (abs_nonneg σ2) m
  subst hD
  refine ⟨⟨⟨hs.one, rfl⟩, hs.a1, hs.a2.trans (by linarith), ?_, ?_, ?_, hs.rest.1, hs.rest.2, rfl, rfl⟩, q0, ?_, ?_⟩
  · exact q0.trans (by linarith)
  · rw [e1]
    exact q1.trans (by linarith)
  · rw [e2]
    exact q2.trans (by linarith)
  · rw [e1, abs_mul]
    exact q1.trans (by linarith)
  · rw [e2, abs_mul]
    exact q2.trans (by linarith)

/-- A stable section whose numerator vanishes at -1 or at 1. -/
theorem zero_gain {f : Biquad ℝ} (hs : f.stability = true) :
    (f.b0 - f.b1 + f.b2 = 0 → GainAt f Real.pi 0) ∧ (f.b0 + f.b1 + f.b2 = 0 → GainAt f 0 0) := by
  have hs : |f.a2| < 1 ∧ |f.a1| < 1 + f.a2 := by simpa [Biquad.stability] using hs
  have h2 := abs_lt.mp hs.2
  constructor
  · intro h
    refine ⟨0, ?_, by simp⟩
    rw [Complex.exp_pi_mul_I]
    constructor
    · intro hd
      have : (1 : ℝ) - f.a1 + f.a2 = 0 := by
        unfold denAt at hd
        exact_mod_cast (by linear_combination hd : (1 : ℂ) - f.a1 + f.a2 = 0)
      linarith
    · have : (f.b0 : ℂ) - f.b1 + f.b2 = 0 := by exact_mod_cast h
      unfold numAt
      linear_combination this
  · intro h
    refine ⟨0, ?_, by simp⟩
    rw [show Complex.exp ((0 : ℝ) * Complex.I) = 1 by simp]
    constructor
    · intro hd
      have : (1 : ℝ) + f.a1 + f.a2 = 0 := by
        unfold denAt at hd
        exact_mod_cast (by linear_combination hd : (1 : ℂ) + f.a1 + f.a2 = 0)
      linarith
    · have : (f.b0 : ℂ) + f.b1 + f.b2 = 0 := by exact_mod_cast h
      unfold numAt
      linear_combination this

theorem zoelzer_numerators (hp : 1 ≤ p) (t : ℝ → ℝ) (fc fs Q : ℝ) {f : Biquad ℝ} :
    (RndZoelzer.lowPass p t fc fs Q = .ok f → f.a0 = 1 ∧ f.b1 = 2 * f.b0 ∧ f.b2 = f.b0) ∧
    (RndZoelzer.highPass p t fc fs Q = .ok f → f.a0 = 1 ∧ f.b1 = -(2 * f.b0) ∧ f.b2 = f.b0) ∧
    (RndZoelzer.bandPass p t fc fs Q = .ok f → f.a0 = 1 ∧ f.b1 = 0 ∧ f.b2 = -f.b0) := by
  have hd : ∀ a b, div p a b = .error .divByZero ∨ ∃ x, div p a b = .ok x := by
    intro a b
    by_cases h : b = 0
    · left
      simp [RndWin.div, Win.div, h, bind, Except.bind]
    · exact Or.inr ⟨_, div_ok h⟩
  refine ⟨fun h => ?_, fun h => ?_, fun h => ?_⟩
  all_goals
    simp only [RndZoelzer.lowPass, RndZoelzer.highPass, RndZoelzer.bandPass, RndZoelzer.angle] at h
    rcases hd (rnd p (RndRbj.pi p * fc)) fs with e | ⟨w, e⟩
    · simp [e, bind, Except.bind] at h
    rcases hd (t w) Q with e' | ⟨kq, e'⟩
    · simp [e, e', bind, Except.bind] at h
    rcases hd 1 (denominator p kq (rnd p (t w * t w))) with e'' | ⟨n, e''⟩
    · simp [e, e', e'', bind, Except.bind] at h
    simp only [e, e', e'', bind, Except.bind, of_one] at h
    have h := Except.ok.inj h
    subst h
    simp [rnd_double, rnd_rnd hp, rnd_neg, rnd_zero]

theorem rbj_numerators (hp : 1 ≤ p) (s c : ℝ → ℝ) (fc fs Q : ℝ) {f : Biquad ℝ} :
    (RndRbj.lowPass p s c fc fs Q = .ok f → f.b1 = 2 * f.b0 ∧ f.b2 = f.b0) ∧
    (RndRbj.highPass p s c fc fs Q = .ok f → f.b1 = -(2 * f.b0) ∧ f.b2 = f.b0) ∧
    (RndRbj.bandPass p s c fc fs Q = .ok f → f.b1 = 0 ∧ f.b2 = -f.b0) := by
  have hd : ∀ a b, div p a b = .error .divByZero ∨ ∃ x, div p a b = .ok x := by
    intro a b
    by_cases h : b = 0
    · left
      simp [RndWin.div, Win.div, h, bind, Except.bind]
    · exact Or.inr ⟨_, div_ok h⟩
  have half : ∀ x a, rnd p (rnd p x / a) = 2 * rnd p (rnd p (rnd p x / 2) / a) := by
    intro x a
    have e : rnd p (rnd p x / 2) = rnd p x / 2 := by
      have := rnd_double p (rnd p x / 2)
      rw [mul_div_cancel₀ _ two_ne_zero, rnd_rnd hp] at this
      linarith
    rw [e, ← rnd_double]
    congr 1
    ring
  refine ⟨fun h => ?_, fun h => ?_, fun h => ?_⟩
  all_goals
    simp only [RndRbj.lowPass, RndRbj.highPass, RndRbj.bandPass, RndRbj.omega, RndRbj.alpha] at h
    rcases hd (rnd p (rnd p (2 * RndRbj.pi p) * fc)) fs with e | ⟨w, e⟩
    · simp [e, bind, Except.bind] at h
    rcases hd (s w) (rnd p (2 * Q)) with e' | ⟨al, e'⟩
    · simp [e, e', bind, Except.bind] at h
    simp only [e, e', bind, Except.bind, RndRbj.ofCoeffs] at h
    by_cases ha : rnd p (1 + al) = 0
    · simp [RndWin.div, Win.div, ha, bind, Except.bind] at h
    · simp only [div_ok ha, pure, Except.pure] at h
      have h := Except.ok.inj h
      subst h
      simp only [neg_mul, neg_div, rnd_neg, rnd_zero, zero_div, and_true]
      try first | exact half _ _ | exact congrArg Neg.neg (half _ _)

/-- A number with `p` bits of at least 1/2 is a multiple of 2^-p. -/
theorem multiple {x : ℝ} (h : IsFloat p x) (hx : 1 / 2 ≤ |x|) : ∃ z : ℤ, x = z * 2 ^ (-(p : ℤ)) := by
  obtain ⟨m, k, hm, rfl⟩ := h
  have hk : -(p : ℤ) ≤ k := by
    by_contra hk
    have hk : k ≤ -(p : ℤ) - 1 := by omega
    have h1 : (2 : ℝ) ^ k ≤ 2 ^ (-(p : ℤ) - 1) := zpow_le_zpow_right₀ (by norm_num) hk
    have h2 : |(m : ℝ)| < 2 ^ p := by exact_mod_cast hm
    rw [abs_mul, abs_of_pos (two_zpow_pos k)] at hx
    have h3 : |(m : ℝ)| * 2 ^ k < 2 ^ p * 2 ^ (-(p : ℤ) - 1) :=
      mul_lt_mul h2 h1 (two_zpow_pos k) (by positivity)
    have h4 : (2 : ℝ) ^ p * 2 ^ (-(p : ℤ) - 1) = 1 / 2 := by
      rw [← zpow_natCast, ← zpow_add₀ (by norm_num), show (p : ℤ) + (-(p : ℤ) - 1) = -1 by ring]
      norm_num
    linarith
  refine ⟨m * 2 ^ (k + p).toNat, ?_⟩
  push_cast
  rw [mul_assoc, ← zpow_natCast, ← zpow_add₀ (by norm_num), Int.toNat_of_nonneg (by omega)]
  congr 2
  ring

/-- A stable section of `p` bits whose gain at DC is small because its denominator there is not. -/
theorem small_gain {f : Biquad ℝ} (hst : f.stability = true) {z1 z2 : ℤ} (w1 : f.a1 = z1 * 2 ^ (-(p : ℤ)))
    (w2 : f.a2 = z2 * 2 ^ (-(p : ℤ))) (d : f.b1 = 2 * f.b0) (e : f.b2 = f.b0) (hb0 : 0 ≤ f.b0)
    (hb1 : 12 * f.b0 < u p) : ∃ g, GainAt f 0 g ∧ g < 1 / 3 := by
  have hu := u_pos p
  have hst' : |f.a2| < 1 ∧ |f.a1| < 1 + f.a2 := by simpa [Biquad.stability] using hst
  have pos : 0 < 1 + f.a1 + f.a2 := by linarith [(abs_lt.mp hst'.2).1]
  have hsum : u p ≤ 1 + f.a1 + f.a2 := by
    have e1 : (1 : ℝ) = ((2 ^ p : ℤ) : ℝ) * 2 ^ (-(p : ℤ)) := by
      push_cast
      rw [← zpow_natCast, ← zpow_add₀ (by norm_num)]
      norm_num
    have e3 : 1 + f.a1 + f.a2 = ((2 ^ p + z1 + z2 : ℤ) : ℝ) * u p := by
      rw [w1, w2]
      change _ = _ * 2 ^ (-(p : ℤ))
      push_cast
      push_cast at e1
      linear_combination e1
    rw [e3] at pos ⊢
    have : 0 < 2 ^ p + z1 + z2 := by
      have := (mul_pos_iff_of_pos_right hu).mp pos
      exact_mod_cast this
    have : (1 : ℝ) ≤ ((2 ^ p + z1 + z2 : ℤ) : ℝ) := by exact_mod_cast this
    nlinarith
  refine ⟨4 * f.b0 / (1 + f.a1 + f.a2), ⟨((4 * f.b0 / (1 + f.a1 + f.a2) : ℝ) : ℂ), ⟨?_, ?_⟩, ?_⟩, ?_⟩
  · rw [show Complex.exp ((0 : ℝ) * Complex.I) = 1 by simp]
    intro hd
    unfold denAt at hd
    have : (1 : ℝ) + f.a1 + f.a2 = 0 := by
      exact_mod_cast (by linear_combination hd : (1 : ℂ) + f.a1 + f.a2 = 0)
    linarith
  · rw [show Complex.exp ((0 : ℝ) * Complex.I) = 1 by simp]
    unfold numAt denAt
    rw [d, e]
    have : (4 * f.b0 / (1 + f.a1 + f.a2)) * (1 + f.a1 + f.a2) = 4 * f.b0 := by field_simp
    have : (((4 * f.b0 / (1 + f.a1 + f.a2) : ℝ) : ℂ)) * (1 + f.a1 + f.a2) = 4 * f.b0 := by exact_mod_cast this
    push_cast at this ⊢
    linear_combination -this
  · rw [Complex.norm_real, Real.norm_eq_abs, abs_of_nonneg (by positivity)]
  · rw [div_lt_iff₀ pos]
    linarith

theorem tiny (hp : 2 ≤ p) {kq kk : ℝ} (h1 : 0 ≤ kq) (h2 : kq < u p / 2) (h3 : 0 ≤ kk) (h4 : kk < u p / 2) :
    denominator p kq kk = 1 ∧ rnd p (1 / denominator p kq kk) = 1 ∧ second p kq kk 1 = 1 := by
  have hu := u_pos p
  have e1 : rnd p (1 + kq) = 1 := rnd_one_near hp (by linarith) (by linarith)
  have e2 : rnd p (1 + kk) = 1 := rnd_one_near hp (by linarith) (by linarith)
  have e3 : rnd p (1 - kq) = 1 := rnd_one_near hp (by linarith) (by linarith)
  have e4 : rnd p 1 = 1 := rnd_one (by omega)
  have e5 : denominator p kq kk = 1 := by rw [denominator, e1, e2]
  refine ⟨e5, by rw [e5, div_one, e4], by rw [second, e3, e2, mul_one, e4]⟩

end C135

open C135

variable {p : ℕ} {t : ℝ → ℝ} {fc fs Q : ℝ}

/-- Every coefficient of the three designs is within 132·2^-p / cos(π·fc/fs) of the exact design, whatever the quality; the
coefficients of the numerator even relatively, so that no cutoff makes the filter silent (compare C116). -/
theorem C135_accuracy_partial (hp : 24 ≤ p) (hq : p ≤ 53) (ht : TanLike p t) (h0 : 0 < fc) (h1 : fc < fs / 2) (hQ : 0 < Q)
    (hv : 1000 * 2 ^ (-(p : ℤ)) ≤ Real.cos (Real.pi * fc / fs)) :
    (∃ f g, RndZoelzer.lowPass p t fc fs Q = .ok f ∧ Zoelzer.lowPass fc fs Q = .ok g ∧
      Close (132 * (2 ^ (-(p : ℤ)) / Real.cos (Real.pi * fc / fs))) f g) ∧
    (∃ f g, RndZoelzer.highPass p t fc fs Q = .ok f ∧ Zoelzer.highPass fc fs Q = .ok g ∧
      Close (132 * (2 ^ (-(p : ℤ)) / Real.cos (Real.pi * fc / fs))) f g) ∧
    (∃ f g, RndZoelzer.bandPass p t fc fs Q = .ok f ∧ Zoelzer.bandPass fc fs Q = .ok g ∧
      Close (132 * (2 ^ (-(p : ℤ)) / Real.cos (Real.pi * fc / fs))) f g) := by
  obtain ⟨r0, -⟩ := setup hp hq ht h0 h1 hv rfl
  have hr := lt_of_lt_of_le (u_pos p) r0
  obtain ⟨⟨f1, a1, b1, c1, d1, e1⟩, ⟨f2, a2, b2, c2, d2, e2⟩, ⟨f3, a3, b3, c3, d3, e3⟩⟩ :=
    designs hp hq ht h0 h1 hQ hv rfl rfl
  obtain ⟨hK, k1, k2, k3⟩ := exact_designs (K := Real.tan (Real.pi * fc / fs)) h0 h1 hQ rfl rfl
  have hA := div_pos hK hQ
  have hB := mul_pos hK hK
  have hD : 0 < 1 + Real.tan (Real.pi * fc / fs) / Q + Real.tan (Real.pi * fc / fs) * Real.tan (Real.pi * fc / fs) := by
    linarith
  refine ⟨⟨f1, _, a1, k1, ?_⟩, ⟨f2, _, a2, k2, ?_⟩, ⟨f3, _, a3, k3, ?_⟩⟩
  · have := close_of hr rfl b1 (σ1 := 2) (σ2 := 1)
      (by rw [abs_of_pos (div_pos hB hD), div_le_iff₀ hD]; linarith) c1 d1 (by rw [one_mul, e1]) (by norm_num) (by norm_num)
    rwa [one_mul] at this
  · have := close_of hr rfl b2 (σ1 := -2) (σ2 := 1)
      (by rw [abs_of_pos (div_pos one_pos hD), div_le_iff₀ hD]; linarith) c2 (by rw [d2]; ring) (by rw [one_mul, e2])
      (by norm_num) (by norm_num)
    rwa [one_mul, neg_mul] at this
  · have := close_of hr rfl b3 (σ1 := 0) (σ2 := -1)
      (by rw [abs_of_pos (div_pos hA hD), div_le_iff₀ hD]; linarith) c3 (by rw [d3]; ring) (by rw [e3]; ring)
      (by norm_num) (by norm_num)
    rwa [zero_mul, neg_one_mul] at this

/-- With a cutoff and a quality that leave room for the rounding errors, the three designs are stable, and the filter says
so: `stability()` computed in the same type returns true. -/
theorem C135_stable_partial (hp : 24 ≤ p) (hq : p ≤ 53) (ht : TanLike p t) (h0 : 0 < fc) (h1 : fc < fs / 2) (hQ : 0 < Q)
    (hv : 1000 * 2 ^ (-(p : ℤ)) ≤ Real.cos (Real.pi * fc / fs)) {K D r : ℝ} (hK : K = Real.tan (Real.pi * fc / fs))
    (hD : D = 1 + K / Q + K * K) (hr : r = 2 ^ (-(p : ℤ)) / Real.cos (Real.pi * fc / fs))
    (low : 51 * r * D ≤ K * K) (high : 51 * r * D ≤ 1) (damped : 35 * r * D ≤ K / Q) :
    ∀ design ∈ [RndZoelzer.lowPass, RndZoelzer.highPass, RndZoelzer.bandPass],
      ∃ f, design p t fc fs Q = .ok f ∧ f.stability = true ∧ Rounded.biquadStability (rnd p) f = true := by
  obtain ⟨r0, r1, -, K', -, k2, hK0, -⟩ := setup hp hq ht h0 h1 hv hr
  rw [← hK] at k2
  subst k2
  have hu := u_pos p
  have hr0 := lt_of_lt_of_le hu r0
  have hA := div_pos hK0 hQ
  have hB := mul_pos hK0 hK0
  have hD0 : 0 < D := by rw [hD]; linarith
  have key : ∀ f, Shape p r K' Q f → f.stability = true ∧ Rounded.biquadStability (rnd p) f = true := by
    intro f hf
    have n1 := abs_le.mp hf.a1
    have n2 := abs_le.mp hf.a2
    rw [← hD] at n1 n2
    have l := (le_div_iff₀ hD0).mpr low
    have h := (le_div_iff₀ hD0).mpr high
    have d := (le_div_iff₀ hD0).mpr damped
    have q1 : 2 * (K' * K' - 1) / D = 2 * (K' * K' / D) - 2 * (1 / D) := by ring
    have q2 : (1 - K' / Q + K' * K') / D = 1 / D - K' / Q / D + K' * K' / D := by ring
    have q3 : 1 / D + K' / Q / D + K' * K' / D = 1 := by
      rw [← add_div, ← add_div, ← hD, div_self hD0.ne']
    rw [q1] at n1
    rw [q2] at n2
    generalize 1 / D = x at *
    generalize K' / Q / D = y at *
    generalize K' * K' / D = z at *
    have l2 : f.a2 < 1 := by linarith [n2.2]
    have l4 : |f.a1| < 1 + f.a2 - 2 * u p := by
      rw [abs_lt]
      constructor <;> linarith [n1.1, n1.2, n2.1, n2.2]
    have l3 : -1 < f.a2 := by linarith [abs_nonneg f.a1]
    have l5 := (rel p (x := 1 + f.a2) (by linarith)).1
    have l6 : |f.a1| < rnd p (1 + f.a2) := by nlinarith
    have l7 : |f.a2| < 1 := abs_lt.mpr ⟨l3, l2⟩
    have l8 : |f.a1| < 1 + f.a2 := by linarith
    unfold Biquad.stability Rounded.biquadStability
    simp [l6, l7, l8]
  obtain ⟨⟨f1, a1, b1, -⟩, ⟨f2, a2, b2, -⟩, ⟨f3, a3, b3, -⟩⟩ := designs hp hq ht h0 h1 hQ hv hr hK
  intro design hd
  simp only [List.mem_cons, List.not_mem_nil, or_false] at hd
  rcases hd with rfl | rfl | rfl
  · exact ⟨f1, a1, key f1 b1⟩
  · exact ⟨f2, a2, key f2 b2⟩
  · exact ⟨f3, a3, key f3 b3⟩

/-- At a quarter of the sample rate there is always room. -/
example (ht : TanLike 24 t) : ∃ f, RndZoelzer.lowPass 24 t 11025 44100 1 = .ok f ∧
    f.stability = true ∧ Rounded.biquadStability (rnd 24) f = true := by
  have e : Real.pi * 11025 / 44100 = Real.pi / 4 := by ring
  have h2 : 1 ≤ √2 := Real.one_le_sqrt.mpr (by norm_num)
  have hc : (2 : ℝ) ^ (-(24 : ℤ)) / (√2 / 2) ≤ 1 / 1000 := by
    rw [div_le_iff₀ (by linarith)]
    norm_num
    linarith
  refine C135_stable_partial (by norm_num) (by norm_num) ht (by norm_num) (by norm_num) (by norm_num) ?_ rfl rfl rfl ?_ ?_ ?_
    _ (by simp)
  · rw [e, Real.cos_pi_div_four]
    norm_num
    linarith
  all_goals
    push_cast
    rw [e, Real.tan_pi_div_four, Real.cos_pi_div_four]
    linarith

/-- The rejected frequencies are rejected exactly, whatever the tangent returns: a stable low-pass has gain 0 at the Nyquist
frequency, a stable high-pass at DC, a stable band-pass at both. -/
theorem C135_zeros (hp : 1 ≤ p) (t : ℝ → ℝ) (fc fs Q : ℝ) {f : Biquad ℝ} (hs : f.stability = true) :
    (RndZoelzer.lowPass p t fc fs Q = .ok f → GainAt f Real.pi 0) ∧
    (RndZoelzer.highPass p t fc fs Q = .ok f → GainAt f 0 0) ∧
    (RndZoelzer.bandPass p t fc fs Q = .ok f → GainAt f Real.pi 0 ∧ GainAt f 0 0) := by
  obtain ⟨h1, h2, h3⟩ := zoelzer_numerators hp t fc fs Q (f := f)
  refine ⟨fun h => ?_, fun h => ?_, fun h => ?_⟩
  · obtain ⟨-, b, c⟩ := h1 h
    exact (zero_gain hs).1 (by rw [b, c]; ring)
  · obtain ⟨-, b, c⟩ := h2 h
    exact (zero_gain hs).2 (by rw [b, c]; ring)
  · obtain ⟨-, b, c⟩ := h3 h
    exact ⟨(zero_gain hs).1 (by rw [b, c]; ring), (zero_gain hs).2 (by rw [b, c]; ring)⟩

/-- The same of the RBJ designs of C116. -/
theorem C135_zeros_rbj (hp : 1 ≤ p) (s c : ℝ → ℝ) (fc fs Q : ℝ) {f : Biquad ℝ} (hs : f.stability = true) :
    (RndRbj.lowPass p s c fc fs Q = .ok f → GainAt f Real.pi 0) ∧
    (RndRbj.highPass p s c fc fs Q = .ok f → GainAt f 0 0) ∧
    (RndRbj.bandPass p s c fc fs Q = .ok f → GainAt f Real.pi 0 ∧ GainAt f 0 0) := by
  obtain ⟨h1, h2, h3⟩ := rbj_numerators hp s c fc fs Q (f := f)
  refine ⟨fun h => ?_, fun h => ?_, fun h => ?_⟩
  · obtain ⟨b, c⟩ := h1 h
    exact (zero_gain hs).1 (by rw [b, c]; ring)
  · obtain ⟨b, c⟩ := h2 h
    exact (zero_gain hs).2 (by rw [b, c]; ring)
  · obtain ⟨b, c⟩ := h3 h
    exact ⟨(zero_gain hs).1 (by rw [b, c]; ring), (zero_gain hs).2 (by rw [b, c]; ring)⟩

/-- **Violation.**  The exact low-pass passes a constant unchanged (C17).  When the cutoff is so low that
16·tan²(π·fc/fs) ≤ 2^-p, the computed one is unstable or takes a constant to less than a third. -/
theorem C135_dc_violates (hp : 24 ≤ p) (hq : p ≤ 53) (ht : TanLike p t) (h0 : 0 < fc) (h1 : fc < fs / 2)
    (hQ : 8 * Real.tan (Real.pi * fc / fs) ≤ Q)
    (hlow : 16 * Real.tan (Real.pi * fc / fs) ^ 2 ≤ 2 ^ (-(p : ℤ))) :
    (∃ f, RndZoelzer.lowPass p t fc fs Q = .ok f ∧ (f.stability = true → ∃ g, GainAt f 0 g ∧ g < 1 / 3)) ∧
      ∃ g, Zoelzer.lowPass fc fs Q = .ok g ∧ GainAt g 0 1 := by
  obtain ⟨K, -, hK0, -, -, hK⟩ := zoelzer_K h0 h1
  rw [← hK] at hQ hlow
  have hQ0 : 0 < Q := by linarith
  have hu := u_pos p
  have hs := u_small hp
  change 16 * K ^ 2 ≤ u p at hlow
  have hfs : 0 < fs := by linarith
  have hpi := Real.pi_pos
  have hθ0 : 0 < Real.pi * fc / fs := by positivity
  have hθ1 : Real.pi * fc / fs < Real.pi / 2 := by
    rw [div_lt_iff₀ hfs]
    nlinarith
  have hc0 : 0 < Real.cos (Real.pi * fc / fs) := Real.cos_pos_of_mem_Ioo ⟨by linarith, hθ1⟩
  have hc : 0.99 ≤ Real.cos (Real.pi * fc / fs) := by
    have e : Real.sin (Real.pi * fc / fs) = K * Real.cos (Real.pi * fc / fs) := by
      rw [hK, Real.tan_eq_sin_div_cos]
      field_simp
    have e2 := Real.sin_sq_add_cos_sq (Real.pi * fc / fs)
    rw [e] at e2
    have m := mul_le_mul_of_nonneg_right hlow (sq_nonneg (Real.cos (Real.pi * fc / fs)))
    have := Real.cos_le_one (Real.pi * fc / fs)
    nlinarith
  have hv : 1000 * 2 ^ (-(p : ℤ)) ≤ Real.cos (Real.pi * fc / fs) := by
    change 1000 * u p ≤ _
    linarith
  refine ⟨?_, ?_⟩
  · obtain ⟨⟨f, a, b, c, d, e⟩, -⟩ := designs hp hq ht h0 h1 hQ0 hv rfl hK
    refine ⟨f, a, fun hst => ?_⟩
    have hr1 : 2 ^ (-(p : ℤ)) / Real.cos (Real.pi * fc / fs) ≤ 1 / 10000000 := by
      change u p / _ ≤ _
      rw [div_le_iff₀ hc0]
      linarith
    have hr0 : 0 < 2 ^ (-(p : ℤ)) / Real.cos (Real.pi * fc / fs) := div_pos hu hc0
    have n1 := abs_le.mp b.a1
    have n2 := abs_le.mp b.a2
    have fl := b.float
    generalize 2 ^ (-(p : ℤ)) / Real.cos (Real.pi * fc / fs) = r at *
    have hA0 := div_pos hK0 hQ0
    have hA : K / Q ≤ 1 / 8 := by
      rw [div_le_iff₀ hQ0]
      linarith
    have hB0 := mul_pos hK0 hK0
    have hB : 16 * (K * K) ≤ u p := by nlinarith
    generalize K / Q = A at *
    generalize K * K = B at *
    have hD : 0 < 1 + A + B := by linarith
    have hD1 : 1 + A + B ≤ 1.126 := by linarith
    have x1 : 2 * (B - 1) / (1 + A + B) ≤ -1.7 := by
      rw [div_le_iff₀ hD]
      linarith
    have x2 : 0.7 ≤ (1 - A + B) / (1 + A + B) := by
      rw [le_div_iff₀ hD]
      linarith
    have y1 : f.a1 ≤ -1 := by linarith [n1.2]
    have y2 : 1 / 2 ≤ f.a2 := by linarith [n2.1]
    obtain ⟨z1, w1⟩ := multiple fl.1 (by rw [abs_of_neg (by linarith)]; linarith)
    obtain ⟨z2, w2⟩ := multiple fl.2 (by rw [abs_of_pos (by linarith)]; linarith)
    have hb := abs_le.mp c
    have hq0 : 0 < B / (1 + A + B) := div_pos hB0 hD
    have hq1 : B / (1 + A + B) ≤ B := div_le_self hB0.le (by linarith)
    rw [abs_of_pos hq0] at hb
    have m := mul_le_mul_of_nonneg_right hr1 hq0.le
    refine small_gain hst w1 w2 d e (by linarith [hb.1]) ?_
    linarith [hb.2]
  · obtain ⟨g, hg, -, hd, -⟩ := C17_low_pass fc fs Q h0 h1 hQ0
    exact ⟨g, hg, hd⟩

/-- In `float` at 44100 samples per second: every cutoff up to 0.8 Hz. -/
example (ht : TanLike 24 t) (h0 : 0 < fc) (h1 : fc ≤ 0.8) :
    ∃ f, RndZoelzer.lowPass 24 t fc 44100 1 = .ok f ∧ (f.stability = true → ∃ g, GainAt f 0 g ∧ g < 1 / 3) := by
  have hpi := Real.pi_pos
  have h3 : Real.pi ≤ 3.1416 := Real.pi_lt_d4.le
  have a : Real.pi * fc / 44100 ≤ 3.1416 * 0.8 / 44100 :=
    div_le_div_of_nonneg_right (mul_le_mul h3 h1 h0.le (by norm_num)) (by norm_num)
  have a0 : 0 < Real.pi * fc / 44100 := by positivity
  have a1 : Real.pi * fc / 44100 < Real.pi / 2 := by linarith [Real.pi_gt_three]
  have b : Real.tan (Real.pi * fc / 44100) ≤ 0.000058 := by
    have hc : 0 < Real.cos (Real.pi * fc / 44100) := Real.cos_pos_of_mem_Ioo ⟨by linarith, a1⟩
    rw [Real.tan_eq_sin_div_cos, div_le_iff₀ hc]
    have s1 := Real.sin_le a0.le
    have c1 := Real.one_sub_sq_div_two_le_cos (x := Real.pi * fc / 44100)
    nlinarith
  have b0 : 0 ≤ Real.tan (Real.pi * fc / 44100) := Real.tan_nonneg_of_nonneg_of_le_pi_div_two a0.le a1.le
  refine (C135_dc_violates (by norm_num) (by norm_num) ht h0 (by linarith) (by linarith) ?_).1
  have := pow_le_pow_left₀ b0 b 2
  refine le_trans (mul_le_mul_of_nonneg_left this (by norm_num)) ?_
  norm_num

/-- **Violation.**  The exact designs are stable for every quality (C17).  When 4·tan(π·fc/fs) ≤ Q·2^-p and
4·tan²(π·fc/fs) ≤ 2^-p, the second feedback coefficient is exactly 1 in all three designs: none is stable, and
`stability()` returns false. -/
theorem C135_undamped_violates (hp : 24 ≤ p) (hq : p ≤ 53) (ht : TanLike p t) (h0 : 0 < fc) (h1 : fc < fs / 2) (hQ : 0 < Q)
    (hv : 1000 * 2 ^ (-(p : ℤ)) ≤ Real.cos (Real.pi * fc / fs))
    (hhigh : 4 * Real.tan (Real.pi * fc / fs) ≤ Q * 2 ^ (-(p : ℤ)))
    (hlow : 4 * Real.tan (Real.pi * fc / fs) ^ 2 ≤ 2 ^ (-(p : ℤ))) :
    ∀ design ∈ [RndZoelzer.lowPass, RndZoelzer.highPass, RndZoelzer.bandPass],
      ∃ f, design p t fc fs Q = .ok f ∧ f.a2 = 1 ∧ f.stability = false ∧ Rounded.biquadStability (rnd p) f = false := by
  obtain ⟨r0, r1, w, K, k1, k2, hK, -, k4⟩ := setup hp hq ht h0 h1 hv rfl
  rw [← k2] at hhigh hlow
  have j1 := kq_err (Q := Q) r0 r1 k4
  have j2 := kk_err r0 r1 k4
  have hu := u_pos p
  change 4 * K ≤ Q * u p at hhigh
  change 4 * K ^ 2 ≤ u p at hlow
  have hA0 := div_pos hK hQ
  have hB0 := mul_pos hK hK
  have hA : 4 * (K / Q) ≤ u p := by
    rw [mul_div_assoc', div_le_iff₀ hQ]
    linarith
  have hB : 4 * (K * K) ≤ u p := by linarith [sq K]
  unfold R at j1 j2
  rw [abs_of_pos hA0] at j1
  rw [abs_of_pos hB0] at j2
  have j1 := abs_le.mp j1
  have j2 := abs_le.mp j2
  have m1 := mul_le_mul_of_nonneg_right r1 hA0.le
  have m2 := mul_le_mul_of_nonneg_right r1 hB0.le
  obtain ⟨e1, e2, e3⟩ := tiny (p := p) (kq := rnd p (t w / Q)) (kk := rnd p (t w * t w)) (by omega) (by linarith [j1.1])
    (by linarith [j1.2]) (by linarith [j2.1]) (by linarith [j2.2])
  have hd : denominator p (rnd p (t w / Q)) (rnd p (t w * t w)) ≠ 0 := by rw [e1]; norm_num
  intro design hmem
  simp only [List.mem_cons, List.not_mem_nil, or_false] at hmem
  rcases hmem with rfl | rfl | rfl
  · simp only [RndZoelzer.lowPass, k1, bind, Except.bind, div_ok hQ.ne', div_ok hd, e2, e3]
    exact C116.unit_a2 (by omega) _ _ _ _
  · simp only [RndZoelzer.highPass, k1, bind, Except.bind, div_ok hQ.ne', div_ok hd, e2, e3]
    exact C116.unit_a2 (by omega) _ _ _ _
  · simp only [RndZoelzer.bandPass, k1, bind, Except.bind, div_ok hQ.ne', div_ok hd, e2, e3]
    exact C116.unit_a2 (by omega) _ _ _ _

/-- The library function exists. -/
example : TanLike 24 Real.tan := ⟨fun x => by simp⟩

end Edsp.Props
