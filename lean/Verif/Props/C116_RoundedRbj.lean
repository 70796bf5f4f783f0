import Verif.Lemmas.RoundedRbj
import Verif.Props.C16_Rbj

/-!
# C116: the RBJ designs computed in `float` or `double`

`RndRbj.lowPass p s c fc fs Q` (Model/RoundedRbj.lean) is the designer for numbers with `p` bits; `s` and `c` are the sine
and the cosine of the mathematical library.  `Rbj.lowPass fc fs Q` (Model/Designers.lean) is the same design in exact
arithmetic, the subject of C16.
-/

namespace Edsp.Props

open Edsp Edsp.Spec Edsp.RndWin Edsp.RndRbj Edsp.FloatL Edsp.RndWinL Edsp.RndRbjL

namespace C116

/-- Two filters at rest whose coefficients differ by at most `E`. -/
structure Near (E : ℝ) (f g : Biquad ℝ) : Prop where
  a0 : f.a0 = 1 ∧ g.a0 = 1
  a1 : |f.a1 - g.a1| ≤ E
  a2 : |f.a2 - g.a2| ≤ E
  b0 : |f.b0 - g.b0| ≤ E
  b1 : |f.b1 - g.b1| ≤ E
  b2 : |f.b2 - g.b2| ≤ E
  rest : f.w0 = 0 ∧ f.w1 = 0 ∧ g.w0 = 0 ∧ g.w1 = 0

/-- `n` is close enough to `N` for the quotient. -/
def Coef (p : ℕ) (Q α n N : ℝ) : Prop :=
  ∃ e M : ℝ, 0 ≤ e ∧ 0 ≤ M ∧ M ≤ 2 ∧ |n - N| ≤ e * (1 + α) ∧ |N| ≤ M * (1 + α) ∧
    1.05 * (e + M * (12.3 * (u p / Q) + 3 * u p)) + 2.1 * M * u p + 0.1 * u p ≤ 64 * (u p + u p / Q)

variable {p : ℕ} {s c : ℝ → ℝ} {fc fs Q : ℝ}

/-- The values every design computes first. -/
structure Setup (p : ℕ) (s c : ℝ → ℝ) (fc fs Q w al : ℝ) : Prop where
  omega : omega p fc fs = .ok w
  alpha : alpha p (s w) Q = .ok al
  cosine : |c w - Real.cos (2 * Real.pi * fc / fs)| ≤ 24 * u p
  near : |al - Real.sin (2 * Real.pi * fc / fs) / (2 * Q)| ≤
    12.3 * (u p / Q) + 3 * u p * (Real.sin (2 * Real.pi * fc / fs) / (2 * Q))

theorem setup (hp : 24 ≤ p) (hq : p ≤ 53) (hs : SinLike p s) (hc : CosLike p c) (h0 : 0 < fc) (h1 : fc < fs / 2)
    (hQ : 0 < Q) : ∃ w al, Setup p s c fc fs Q w al := by
  obtain ⟨w, k1, -, -, k2⟩ := omega_ok hp hq h0 h1
  obtain ⟨-, hsin, -, -⟩ := rbj_angle h0 h1
  have e1 : |s w - Real.sin (2 * Real.pi * fc / fs)| ≤ 24 * u p := by
    have a1 := hs.near w
    have a2 := Real.abs_sin_sub_sin_le w (2 * Real.pi * fc / fs)
    have a3 := abs_sub_le (s w) (Real.sin w) (Real.sin (2 * Real.pi * fc / fs))
    have : |s w - Real.sin w| ≤ u p := a1
    linarith
  have e2 : |c w - Real.cos (2 * Real.pi * fc / fs)| ≤ 24 * u p := by
    have a1 := hc.near w
    have a2 := Real.abs_cos_sub_cos_le w (2 * Real.pi * fc / fs)
    have a3 := abs_sub_le (c w) (Real.cos w) (Real.cos (2 * Real.pi * fc / fs))
    have : |c w - Real.cos w| ≤ u p := a1
    linarith
  obtain ⟨al, k3, k4⟩ := alpha_ok hp hQ hsin.le e1
  exact ⟨w, al, k1, k3, e2, k4⟩

section
variable {w al : ℝ}

theorem al_near {α : ℝ} (hQ : 0 < Q) (hα : 0 ≤ α) (h : |al - α| ≤ 12.3 * (u p / Q) + 3 * u p * α) :
    |al - α| ≤ (12.3 * (u p / Q) + 3 * u p) * (1 + α) := by
  have hu := u_pos p
  have hr : 0 < u p / Q := div_pos hu hQ
  have := mul_nonneg hr.le hα
  nlinarith

theorem coef_a1 (hp : 24 ≤ p) {α C : ℝ} (hQ : 0 < Q) (hα : 0 ≤ α) (hC : |C| ≤ 1) (h : |c w - C| ≤ 24 * u p) :
    Coef p Q α (rnd p (-2 * c w)) (-2 * C) := by
  have hu := u_pos p
  have hs := u_small hp
  have hr : 0 < u p / Q := div_pos hu hQ
  have h2 : |(-2 : ℝ)| = 2 := by norm_num
  refine ⟨50.1 * u p, 2, by linarith, by norm_num, le_rfl, ?_, ?_, by linarith⟩
  · have h1 : |-2 * c w - -2 * C| ≤ 48 * u p := by
      rw [show -2 * c w - -2 * C = -2 * (c w - C) by ring, abs_mul, h2]
      linarith
    have hN : |-2 * C| ≤ 2 := by
      rw [abs_mul, h2]
      linarith
    have := rnd_shift (p := p) (B := 2.01) h1 (by linarith)
    have hm := mul_nonneg hu.le hα
    linarith
  · rw [abs_mul, h2]
    linarith

theorem coef_a2 (hp : 24 ≤ p) {α : ℝ} (hQ : 0 < Q) (hv : u p + u p / Q ≤ 1 / 1000) (hα : 0 ≤ α)
    (h : |al - α| ≤ 12.3 * (u p / Q) + 3 * u p * α) :
    Coef p Q α (rnd p (1 - al)) (1 - α) ∧ Coef p Q α (rnd p (1 + al)) (1 + α) := by
  have hu := u_pos p
  have hs := u_small hp
  have hr : 0 < u p / Q := div_pos hu hQ
  have h' := al_near hQ hα h
  have hB : (12.3 * (u p / Q) + 3 * u p) * (1 + α) ≤ 0.02 * (1 + α) :=
    mul_le_mul_of_nonneg_right (by linarith) (by linarith)
  constructor
  · refine ⟨12.3 * (u p / Q) + 3 * u p + 1.02 * u p, 1, by linarith, by norm_num, by norm_num, ?_, ?_, by linarith⟩
    · have h1 : |1 - al - (1 - α)| ≤ (12.3 * (u p / Q) + 3 * u p) * (1 + α) := by
        rw [show 1 - al - (1 - α) = -(al - α) by ring, abs_neg]
        exact h'
      have hN : |1 - α| ≤ 1 + α := by rw [abs_le]; constructor <;> linarith
      have := rnd_shift (p := p) (B := 1.02 * (1 + α)) h1 (by linarith)
      linarith
    · rw [one_mul, abs_le]; constructor <;> linarith
  · refine ⟨12.3 * (u p / Q) + 3 * u p + 1.02 * u p, 1, by linarith, by norm_num, by norm_num, ?_, ?_, by linarith⟩
    · have h1 : |1 + al - (1 + α)| ≤ (12.3 * (u p / Q) + 3 * u p) * (1 + α) := by
        rw [show 1 + al - (1 + α) = al - α by ring]
        exact h'
      have hN : |1 + α| ≤ 1 + α := by rw [abs_le]; constructor <;> linarith
      have := rnd_shift (p := p) (B := 1.02 * (1 + α)) h1 (by linarith)
      linarith
    · rw [one_mul, abs_le]; constructor <;> linarith

/-- The numerators `1 - cos` and `1 + cos` (`σ = ∓1`) and their halves. -/
theorem coef_sum (hp : 24 ≤ p) {α C σ : ℝ} (hσ : |σ| = 1) (hQ : 0 < Q) (hα : 0 ≤ α) (hC : |C| ≤ 1)
    (h : |c w - C| ≤ 24 * u p) :
    Coef p Q α (rnd p (1 + σ * c w)) (1 + σ * C) ∧ Coef p Q α (rnd p (rnd p (1 + σ * c w) / 2)) ((1 + σ * C) / 2) := by
  have hu := u_pos p
  have hs := u_small hp
  have hr : 0 < u p / Q := div_pos hu hQ
  have h1 : |1 + σ * c w - (1 + σ * C)| ≤ 24 * u p := by
    rw [show 1 + σ * c w - (1 + σ * C) = σ * (c w - C) by ring, abs_mul, hσ, one_mul]
    exact h
  have hN : |1 + σ * C| ≤ 2 := by
    have := abs_add_le 1 (σ * C)
    rw [abs_mul, hσ, abs_one] at this
    linarith
  have h2 := rnd_shift (p := p) (B := 2.01) h1 (by linarith)
  have h3 : |rnd p (1 + σ * c w) / 2 - (1 + σ * C) / 2| ≤ 13.1 * u p := by
    rw [← sub_div, abs_div, abs_of_pos (by norm_num : (0 : ℝ) < 2)]
    linarith
  have hN2 : |(1 + σ * C) / 2| ≤ 1 := by
    rw [abs_div, abs_of_pos (by norm_num : (0 : ℝ) < 2)]
    linarith
  have h4 := rnd_shift (p := p) (B := 1.01) h3 (by linarith)
  have hm := mul_nonneg hu.le hα
  constructor
  · exact ⟨26.1 * u p, 2, by linarith, by norm_num, le_rfl, by nlinarith, by nlinarith, by linarith⟩
  · exact ⟨14.2 * u p, 1, by linarith, by norm_num, by norm_num, by nlinarith, by nlinarith, by linarith⟩

theorem Coef.neg {α n N : ℝ} (h : Coef p Q α n N) : Coef p Q α (-n) (-N) := by
  obtain ⟨e, M, k1, k2, k3, k4, k5, k6⟩ := h
  refine ⟨e, M, k1, k2, k3, ?_, by rwa [abs_neg], k6⟩
  rw [show -n - -N = -(n - N) by ring, abs_neg]
  exact k4

/-- The numerators of the band-pass. -/
theorem coef_band (hp : 24 ≤ p) {S : ℝ} (hQ : 0 < Q) (hS : 0 ≤ S) (hS1 : S ≤ 1)
    (h : |al - S / (2 * Q)| ≤ 12.3 * (u p / Q) + 3 * u p * (S / (2 * Q))) :
    Coef p Q (S / (2 * Q)) (rnd p (Q * al)) (Q * (S / (2 * Q))) := by
  have hu := u_pos p
  have hs := u_small hp
  have hr : 0 < u p / Q := div_pos hu hQ
  have hα : 0 ≤ S / (2 * Q) := by positivity
  have hm := mul_nonneg hu.le hα
  have e0 : Q * (S / (2 * Q)) = S / 2 := by field_simp
  have h1 : |Q * al - S / 2| ≤ 13.8 * u p := by
    rw [← e0, ← mul_sub, abs_mul, abs_of_pos hQ]
    have a := mul_le_mul_of_nonneg_left h hQ.le
    have b : Q * (12.3 * (u p / Q) + 3 * u p * (S / (2 * Q))) = 12.3 * u p + 1.5 * (u p * S) := by
      field_simp
      ring
    have d := mul_le_mul_of_nonneg_left hS1 hu.le
    linarith
  have hN : |S / 2| ≤ 1 / 2 := by rw [abs_of_nonneg (by linarith)]; linarith
  have h2 := rnd_shift (p := p) (B := 1) h1 (by linarith)
  rw [e0]
  exact ⟨14.8 * u p, 1, by linarith, by norm_num, by norm_num, by nlinarith, by linarith, by linarith⟩

theorem coef_zero {α : ℝ} (hQ : 0 < Q) : Coef p Q α 0 0 := by
  have hu := u_pos p
  have hr : 0 < u p / Q := div_pos hu hQ
  exact ⟨0, 0, le_rfl, le_rfl, by norm_num, by simp, by simp, by linarith⟩

/-- The five quotients. -/
theorem quotients (hp : 24 ≤ p) {α n1 n2 m0 m1 m2 N1 N2 M0 M1 M2 : ℝ} (hQ : 0 < Q) (hv : u p + u p / Q ≤ 1 / 1000)
    (hα : 0 ≤ α) (h : |al - α| ≤ 12.3 * (u p / Q) + 3 * u p * α) (c1 : Coef p Q α n1 N1) (c2 : Coef p Q α n2 N2)
    (d0 : Coef p Q α m0 M0) (d1 : Coef p Q α m1 M1) (d2 : Coef p Q α m2 M2) :
    ∃ f g, RndRbj.ofCoeffs p (rnd p (1 + al)) n1 n2 m0 m1 m2 = .ok f ∧ Biquad.ofCoeffs (1 + α) N1 N2 M0 M1 M2 = .ok g ∧
      Near (64 * (u p + u p / Q)) f g ∧ g.a1 = N1 / (1 + α) ∧ g.a2 = N2 / (1 + α) := by
  have hu := u_pos p
  have hr : 0 < u p / Q := div_pos hu hQ
  have h' := al_near hQ hα h
  have key : ∀ n N, Coef p Q α n N →
      ∃ A, div p n (rnd p (1 + al)) = .ok A ∧ |A - N / (1 + α)| ≤ 64 * (u p + u p / Q) := by
    rintro n N ⟨e, M, k1, k2, k3, k4, k5, k6⟩
    obtain ⟨A, j1, j2⟩ := norm_err hp k1 k2 k3 (by linarith) (by linarith) hα h' k4 k5
    exact ⟨A, j1, j2.trans k6⟩
  obtain ⟨A1, i1, j1⟩ := key _ _ c1
  obtain ⟨A2, i2, j2⟩ := key _ _ c2
  obtain ⟨B0, k0, l0⟩ := key _ _ d0
  obtain ⟨B1, k1, l1⟩ := key _ _ d1
  obtain ⟨B2, k2, l2⟩ := key _ _ d2
  refine ⟨{ b2 := B2, b1 := B1, b0 := B0, a2 := A2, a1 := A1, a0 := 1, w0 := 0, w1 := 0 },
    { b2 := M2 / (1 + α), b1 := M1 / (1 + α), b0 := M0 / (1 + α), a2 := N2 / (1 + α), a1 := N1 / (1 + α), a0 := 1,
      w0 := 0, w1 := 0 }, ?_, ?_, ⟨⟨rfl, rfl⟩, j1, j2, l0, l1, l2, rfl, rfl, rfl, rfl⟩, rfl, rfl⟩
  · unfold RndRbj.ofCoeffs
    simp only [i1, i2, k0, k1, k2, bind, Except.bind, pure, Except.pure]
  · unfold Biquad.ofCoeffs
    rw [if_neg (by linarith)]

end

/-- A `float` low-pass at 1 kHz for 44100 samples per second, quality 1/2 meets every hypothesis below. -/
theorem small_enough {p : ℕ} (hp : 24 ≤ p) {Q : ℝ} (hQ : 1 / 2 ≤ Q) : 2 ^ (-(p : ℤ)) * (1 + 1 / Q) ≤ (1 : ℝ) / 1000 := by
  have hu := u_pos p
  have hs := u_small hp
  have : 1 / Q ≤ 2 := by
    rw [div_le_iff₀ (by linarith)]
    linarith
  have := mul_le_mul_of_nonneg_left this hu.le
  show u p * (1 + 1 / Q) ≤ _
  linarith

/-- Close to the exact design, whose denominator is the one of the cookbook. -/
structure Denominator (E fc fs Q : ℝ) (f g : Biquad ℝ) : Prop where
  near : Near E f g
  a1 : g.a1 = -2 * Real.cos (2 * Real.pi * fc / fs) / (1 + Real.sin (2 * Real.pi * fc / fs) / (2 * Q))
  a2 : g.a2 = (1 - Real.sin (2 * Real.pi * fc / fs) / (2 * Q)) / (1 + Real.sin (2 * Real.pi * fc / fs) / (2 * Q))

/-- The four designs and the exact ones. -/
theorem core (hp : 24 ≤ p) (hq : p ≤ 53) (hs : SinLike p s) (hc : CosLike p c) (h0 : 0 < fc)
    (h1 : fc < fs / 2) (hQ : 0 < Q) (hv : 2 ^ (-(p : ℤ)) * (1 + 1 / Q) ≤ (1 : ℝ) / 1000)
    {E : ℝ} (hE' : E = 64 * (2 ^ (-(p : ℤ)) * (1 + 1 / Q))) :
    (∃ f g, RndRbj.lowPass p s c fc fs Q = .ok f ∧ Rbj.lowPass fc fs Q = .ok g ∧
      Denominator E fc fs Q f g) ∧
    (∃ f g, RndRbj.highPass p s c fc fs Q = .ok f ∧ Rbj.highPass fc fs Q = .ok g ∧
      Denominator E fc fs Q f g) ∧
    (∃ f g, RndRbj.bandPass p s c fc fs Q = .ok f ∧ Rbj.bandPass fc fs Q = .ok g ∧
      Denominator E fc fs Q f g) ∧
    (∃ f g, RndRbj.allPass p s c fc fs Q = .ok f ∧ Rbj.allPass fc fs Q = .ok g ∧
      Denominator E fc fs Q f g) := by
  obtain ⟨w, al, S⟩ := setup hp hq hs hc h0 h1 hQ
  obtain ⟨hfs, hsin, hc1, hc2⟩ := rbj_angle h0 h1
  have hE : 2 ^ (-(p : ℤ)) * (1 + 1 / Q) = u p + u p / Q := by
    show u p * (1 + 1 / Q) = _
    rw [mul_add, mul_one, mul_one_div]
  rw [hE] at hv hE'
  subst hE'
  have hα : 0 ≤ Real.sin (2 * Real.pi * fc / fs) / (2 * Q) := by positivity
  have hC : |Real.cos (2 * Real.pi * fc / fs)| ≤ 1 := Real.abs_cos_le_one _
  have A1 := coef_a1 (p := p) (Q := Q) (c := c) (w := w) hp hQ hα hC S.cosine
  obtain ⟨A2, A0⟩ := coef_a2 (p := p) hp hQ hv hα S.near
  have e1 : fdiv (2 * Real.pi * fc) fs = .ok (2 * Real.pi * fc / fs) := fdiv_ok _ hfs.ne'
  have e2 : fdiv (Real.sin (2 * Real.pi * fc / fs)) (2 * Q) = .ok (Real.sin (2 * Real.pi * fc / fs) / (2 * Q)) :=
    fdiv_ok _ (by positivity)
  refine ⟨?_, ?_, ?_, ?_⟩
  · obtain ⟨L1, L0⟩ := coef_sum (p := p) (Q := Q) (c := c) (w := w) (σ := -1) hp (by simp) hQ hα hC S.cosine
    simp only [neg_one_mul, ← sub_eq_add_neg] at L1 L0
    obtain ⟨f, g, k1, k2, k3, k4, k5⟩ := quotients hp hQ hv hα S.near A1 A2 L0 L1 L0
    refine ⟨f, g, ?_, ?_, k3, k4, k5⟩
    · simp only [RndRbj.lowPass, S.omega, S.alpha, bind, Except.bind]
      exact k1
    · simp only [Rbj.lowPass, e1, e2, bind, Except.bind]
      exact k2
  · obtain ⟨L1, L0⟩ := coef_sum (p := p) (Q := Q) (c := c) (w := w) (σ := 1) hp (by simp) hQ hα hC S.cosine
    simp only [one_mul] at L1 L0
    obtain ⟨f, g, k1, k2, k3, k4, k5⟩ := quotients hp hQ hv hα S.near A1 A2 L0 L1.neg L0
    refine ⟨f, g, ?_, ?_, k3, k4, k5⟩
    · simp only [RndRbj.highPass, S.omega, S.alpha, bind, Except.bind]
      exact k1
    · simp only [Rbj.highPass, e1, e2, bind, Except.bind]
      exact k2
  · have B := coef_band (p := p) hp hQ hsin.le (Real.sin_le_one _) S.near
    have B2 : Coef p Q (Real.sin (2 * Real.pi * fc / fs) / (2 * Q)) (rnd p (-Q * al))
        (-Q * (Real.sin (2 * Real.pi * fc / fs) / (2 * Q))) := by
      rw [neg_mul, neg_mul, rnd_neg]
      exact B.neg
    obtain ⟨f, g, k1, k2, k3, k4, k5⟩ := quotients hp hQ hv hα S.near A1 A2 B (coef_zero hQ) B2
    refine ⟨f, g, ?_, ?_, k3, k4, k5⟩
    · simp only [RndRbj.bandPass, S.omega, S.alpha, bind, Except.bind]
      exact k1
    · simp only [Rbj.bandPass, e1, e2, bind, Except.bind]
      exact k2
  · obtain ⟨f, g, k1, k2, k3, k4, k5⟩ := quotients hp hQ hv hα S.near A1 A2 A2 A1 A0
    refine ⟨f, g, ?_, ?_, k3, k4, k5⟩
    · simp only [RndRbj.allPass, S.omega, S.alpha, bind, Except.bind]
      exact k1
    · simp only [Rbj.allPass, e1, e2, bind, Except.bind]
      exact k2

theorem stable (hp : 24 ≤ p) (h0 : 0 < fc) (h1 : fc < fs / 2) (hQ : 0 < Q) {f g : Biquad ℝ}
    (h : Denominator (64 * (2 ^ (-(p : ℤ)) * (1 + 1 / Q))) fc fs Q f g)
    (hcos : 66 * (2 ^ (-(p : ℤ)) * (1 + 1 / Q)) * (1 + Real.sin (2 * Real.pi * fc / fs) / (2 * Q)) ≤
      1 - |Real.cos (2 * Real.pi * fc / fs)|)
    (hsin : 33 * (2 ^ (-(p : ℤ)) * (1 + 1 / Q)) * (1 + Real.sin (2 * Real.pi * fc / fs) / (2 * Q)) ≤
      Real.sin (2 * Real.pi * fc / fs) / (2 * Q)) :
    f.stability = true ∧ Rounded.biquadStability (rnd p) f = true := by
  obtain ⟨-, hs, hc1, hc2⟩ := rbj_angle h0 h1
  have hα : 0 < Real.sin (2 * Real.pi * fc / fs) / (2 * Q) := by positivity
  have n1 := abs_le.mp h.near.a1
  have n2 := abs_le.mp h.near.a2
  rw [h.a1] at n1
  rw [h.a2] at n2
  have hu := u_pos p
  have hsm := u_small hp
  have hv : u p ≤ 2 ^ (-(p : ℤ)) * (1 + 1 / Q) := by
    show u p ≤ u p * (1 + 1 / Q)
    have : 0 < 1 / Q := by positivity
    nlinarith
  generalize 2 ^ (-(p : ℤ)) * (1 + 1 / Q) = v at *
  generalize Real.sin (2 * Real.pi * fc / fs) / (2 * Q) = α at *
  generalize Real.cos (2 * Real.pi * fc / fs) = C at *
  have hD : 0 < 1 + α := by linarith
  have e2 : (1 - α) / (1 + α) = 1 - 2 * α / (1 + α) := by field_simp; ring
  have e3 : (1 - α) / (1 + α) = 2 / (1 + α) - 1 := by field_simp; ring
  have e1 : -2 * C / (1 + α) = -(2 * C / (1 + α)) := by ring
  have r1 : 66 * v ≤ (1 - |C|) / (1 + α) := by rw [le_div_iff₀ hD]; exact hcos
  have r2 : 33 * v ≤ α / (1 + α) := by rw [le_div_iff₀ hD]; exact hsin
  have r3 : (1 - |C|) / (1 + α) ≤ 1 / (1 + α) := by
    refine div_le_div_of_nonneg_right ?_ hD.le
    linarith [abs_nonneg C]
  have r4 : 2 * C / (1 + α) ≤ 2 / (1 + α) - 2 * ((1 - |C|) / (1 + α)) := by
    rw [show 2 / (1 + α) - 2 * ((1 - |C|) / (1 + α)) = 2 * |C| / (1 + α) by ring]
    exact div_le_div_of_nonneg_right (by linarith [le_abs_self C]) hD.le
  have r5 : -(2 / (1 + α) - 2 * ((1 - |C|) / (1 + α))) ≤ 2 * C / (1 + α) := by
    rw [show -(2 / (1 + α) - 2 * ((1 - |C|) / (1 + α))) = -(2 * |C|) / (1 + α) by ring]
    exact div_le_div_of_nonneg_right (by linarith [neg_abs_le C]) hD.le
  have e4 : 2 * α / (1 + α) = 2 * (α / (1 + α)) := by ring
  have e5 : 2 / (1 + α) = 2 * (1 / (1 + α)) := by ring
  have l2 : f.a2 < 1 := by linarith [n2.2]
  have l3 : -1 < f.a2 := by linarith [n2.1]
  have l4 : |f.a1| < 1 + f.a2 - 2 * u p := by
    rw [abs_lt]
    constructor <;> linarith [n1.1, n1.2, n2.1, n2.2]
  have l5 := (rel p (x := 1 + f.a2) (by linarith)).1
  have l6 : |f.a1| < rnd p (1 + f.a2) := by nlinarith
  unfold Biquad.stability Rounded.biquadStability
  have l7 : |f.a2| < 1 := abs_lt.mpr ⟨l3, l2⟩
  have l8 : |f.a1| < 1 + f.a2 := by linarith
  simp [l6, l7, l8]

/-- A correctly rounded cosine is good enough. -/
theorem correct (hp : 24 ≤ p) (hc : ∀ x, c x = rnd p (Real.cos x)) : CosLike p c where
  near x := by
    rw [hc]
    refine (rnd_err p _).trans ?_
    have := mul_le_mul_of_nonneg_left (Real.abs_cos_le_one x) (two_zpow_pos (-(p : ℤ))).le
    linarith
  range x := by
    rw [hc]
    exact abs_rnd_le (by omega) (rnd_one (by omega)) (Real.abs_cos_le_one x)
  zero := by rw [hc, Real.cos_zero, rnd_one (by omega)]

theorem cos_one (hp : 24 ≤ p) (hc : ∀ x, c x = rnd p (Real.cos x)) (h0 : 0 < fc) (h1 : fc < fs / 2) {w : ℝ}
    (k1 : (1 - 7.1 * u p) * (2 * Real.pi * fc / fs) ≤ w) (k2 : w ≤ (1 + 7.1 * u p) * (2 * Real.pi * fc / fs))
    (hlow : 2 * (2 * Real.pi * fc / fs) ^ 2 ≤ 2 ^ (-(p : ℤ))) : c w = 1 := by
  have hu := u_pos p
  have hs := u_small hp
  have hfs : 0 < fs := by linarith
  have hpi := Real.pi_pos
  have hO : 0 < 2 * Real.pi * fc / fs := by positivity
  change 2 * (2 * Real.pi * fc / fs) ^ 2 ≤ u p at hlow
  generalize 2 * Real.pi * fc / fs = O at *
  have a1 : 0 ≤ w := le_trans (mul_nonneg (by linarith) hO.le) k1
  have a2 : w ≤ 1.01 * O := k2.trans (mul_le_mul_of_nonneg_right (by linarith) hO.le)
  have a3 : w ^ 2 ≤ (1.01 * O) ^ 2 := pow_le_pow_left₀ a1 a2 2
  have a4 := Real.one_sub_sq_div_two_le_cos (x := w)
  rw [hc]
  refine rnd_one_near (by omega) ?_ ?_
  · nlinarith
  · linarith [Real.cos_le_one w]

theorem zero_numerator {a0 n1 n2 : ℝ} {f : Biquad ℝ} (h : RndRbj.ofCoeffs p a0 n1 n2 0 0 0 = .ok f) :
    f.b0 = 0 ∧ f.b1 = 0 ∧ f.b2 = 0 ∧ f.w0 = 0 ∧ f.w1 = 0 := by
  by_cases ha : a0 = 0
  · simp [RndRbj.ofCoeffs, RndWin.div, Win.div, ha, bind, Except.bind] at h
  · simp only [RndRbj.ofCoeffs, div_ok ha, bind, Except.bind, pure, Except.pure, zero_div, rnd_zero] at h
    have h := Except.ok.inj h
    subst h
    simp

theorem silent {f : Biquad ℝ} (z0 : f.b0 = 0) (z1 : f.b1 = 0) (z2 : f.b2 = 0) (z3 : f.w0 = 0) (z4 : f.w1 = 0)
    (x : ℕ → ℝ) (n : ℕ) : Rounded.biquadResponse (rnd p) f x n = 0 := by
  have hz : rnd p 0 = 0 := rnd_zero p
  have h : ∀ n, Rounded.biquadState (rnd p) f x n = f := by
    intro n
    induction n with
    | zero => rfl
    | succ n ih =>
      rw [Rounded.biquadState, ih]
      obtain ⟨b2, b1, b0, a2, a1, a0, w0, w1⟩ := f
      simp only at z0 z1 z2 z3 z4
      subst z0 z1 z2 z3 z4
      simp [Rounded.biquadTick, hz]
  rw [Rounded.biquadResponse, h]
  simp [Rounded.biquadTick, z0, z3, hz]

theorem alpha_tiny (hp : 24 ≤ p) (hs : ∀ x, s x = rnd p (Real.sin x)) (h0 : 0 < fc) (h1 : fc < fs / 2) (hQ : 0 < Q)
    {w : ℝ} (k1 : (1 - 7.1 * u p) * (2 * Real.pi * fc / fs) ≤ w) (k2 : w ≤ (1 + 7.1 * u p) * (2 * Real.pi * fc / fs))
    (hhigh : 2 * (2 * Real.pi * fc / fs) ≤ Q * 2 ^ (-(p : ℤ))) :
    ∃ al, alpha p (s w) Q = .ok al ∧ rnd p (1 + al) = 1 ∧ rnd p (1 - al) = 1 := by
  have hu := u_pos p
  have hsm := u_small hp
  have hfs : 0 < fs := by linarith
  have hpi := Real.pi_pos
  have hO : 0 < 2 * Real.pi * fc / fs := by positivity
  change 2 * (2 * Real.pi * fc / fs) ≤ Q * u p at hhigh
  generalize 2 * Real.pi * fc / fs = O at *
  have a1 : 0 ≤ w := le_trans (mul_nonneg (by linarith) hO.le) k1
  have a2 : w ≤ 1.01 * O := k2.trans (mul_le_mul_of_nonneg_right (by linarith) hO.le)
  have b1 : |s w| ≤ 1.01 * w := by
    rw [hs]
    have e := rnd_err' p (Real.sin w)
    have d := abs_add_le (rnd p (Real.sin w) - Real.sin w) (Real.sin w)
    rw [sub_add_cancel] at d
    have m : |Real.sin w| ≤ w := by
      have := Real.abs_sin_le_abs (x := w)
      rwa [abs_of_nonneg a1] at this
    have m2 := mul_le_mul hsm m (abs_nonneg _) (by norm_num)
    linarith
  have b2 : 1.99 * Q ≤ rnd p (2 * Q) := by
    have := (rel p (x := 2 * Q) (by linarith)).1
    have := mul_le_mul_of_nonneg_right hsm hQ.le
    linarith
  have b3 : 0 < rnd p (2 * Q) := by linarith
  refine ⟨_, div_ok b3.ne', ?_⟩
  have b4 : |s w / rnd p (2 * Q)| ≤ 0.26 * u p := by
    rw [abs_div, abs_of_pos b3, div_le_iff₀ b3]
    have := mul_le_mul_of_nonneg_right b2 hu.le
    nlinarith
  have b5 := rnd_err' p (s w / rnd p (2 * Q))
  have b6 : |rnd p (s w / rnd p (2 * Q))| ≤ 0.3 * u p := by
    have d := abs_add_le (rnd p (s w / rnd p (2 * Q)) - s w / rnd p (2 * Q)) (s w / rnd p (2 * Q))
    rw [sub_add_cancel] at d
    have m2 := mul_le_mul hsm b4 (abs_nonneg _) (by norm_num)
    linarith
  have b7 := abs_le.mp b6
  exact ⟨rnd_one_near (by omega) (by linarith [b7.1]) (by linarith [b7.2]),
    rnd_one_near (by omega) (by linarith [b7.2]) (by linarith [b7.1])⟩

theorem unit_a2 (hp : 1 ≤ p) (n1 m0 m1 m2 : ℝ) :
    ∃ f, RndRbj.ofCoeffs p 1 n1 1 m0 m1 m2 = .ok f ∧ f.a2 = 1 ∧ f.stability = false ∧
      Rounded.biquadStability (rnd p) f = false := by
  refine ⟨{ b2 := rnd p (m2 / 1), b1 := rnd p (m1 / 1), b0 := rnd p (m0 / 1), a2 := rnd p (1 / 1), a1 := rnd p (n1 / 1),
            a0 := 1, w0 := 0, w1 := 0 },
    by simp only [RndRbj.ofCoeffs, div_ok one_ne_zero, bind, Except.bind, pure, Except.pure], ?_⟩
  simp [Biquad.stability, Rounded.biquadStability, rnd_one hp]

end C116

open C116

variable {p : ℕ} {s c : ℝ → ℝ} {fc fs Q : ℝ}

/-- Every coefficient of the four designs is within 64·2^-p·(1 + 1/Q) of the exact design. -/
theorem C116_accuracy_partial (hp : 24 ≤ p) (hq : p ≤ 53) (hs : SinLike p s) (hc : CosLike p c) (h0 : 0 < fc)
    (h1 : fc < fs / 2) (hQ : 0 < Q) (hv : 2 ^ (-(p : ℤ)) * (1 + 1 / Q) ≤ (1 : ℝ) / 1000) :
    (∃ f g, RndRbj.lowPass p s c fc fs Q = .ok f ∧ Rbj.lowPass fc fs Q = .ok g ∧
      Near (64 * (2 ^ (-(p : ℤ)) * (1 + 1 / Q))) f g) ∧
    (∃ f g, RndRbj.highPass p s c fc fs Q = .ok f ∧ Rbj.highPass fc fs Q = .ok g ∧
      Near (64 * (2 ^ (-(p : ℤ)) * (1 + 1 / Q))) f g) ∧
    (∃ f g, RndRbj.bandPass p s c fc fs Q = .ok f ∧ Rbj.bandPass fc fs Q = .ok g ∧
      Near (64 * (2 ^ (-(p : ℤ)) * (1 + 1 / Q))) f g) ∧
    (∃ f g, RndRbj.allPass p s c fc fs Q = .ok f ∧ Rbj.allPass fc fs Q = .ok g ∧
      Near (64 * (2 ^ (-(p : ℤ)) * (1 + 1 / Q))) f g) := by
  obtain ⟨⟨f1, g1, a1, b1, c1⟩, ⟨f2, g2, a2, b2, c2⟩, ⟨f3, g3, a3, b3, c3⟩, ⟨f4, g4, a4, b4, c4⟩⟩ :=
    core hp hq hs hc h0 h1 hQ hv rfl
  exact ⟨⟨f1, g1, a1, b1, c1.near⟩, ⟨f2, g2, a2, b2, c2.near⟩, ⟨f3, g3, a3, b3, c3.near⟩, ⟨f4, g4, a4, b4, c4.near⟩⟩

/-- The hypotheses are met in `float` at 1 kHz and 44100 samples per second, for every quality from 1/2 on. -/
example (hs : SinLike 24 s) (hc : CosLike 24 c) (hQ : 1 / 2 ≤ Q) :
    ∃ f g, RndRbj.lowPass 24 s c 1000 44100 Q = .ok f ∧ Rbj.lowPass 1000 44100 Q = .ok g ∧
      Near (64 * (2 ^ (-(24 : ℤ)) * (1 + 1 / Q))) f g :=
  (C116_accuracy_partial (by norm_num) (by norm_num) hs hc (by norm_num) (by norm_num) (by linarith)
    (small_enough le_rfl hQ)).1

/-- With a cutoff and a quality that leave room for the rounding errors, the four designs are stable, and the filter says so:
`stability()` computed in the same type returns true. -/
theorem C116_stable_partial (hp : 24 ≤ p) (hq : p ≤ 53) (hs : SinLike p s) (hc : CosLike p c) (h0 : 0 < fc)
    (h1 : fc < fs / 2) (hQ : 0 < Q) (hv : 2 ^ (-(p : ℤ)) * (1 + 1 / Q) ≤ (1 : ℝ) / 1000)
    (hcos : 66 * (2 ^ (-(p : ℤ)) * (1 + 1 / Q)) * (1 + Real.sin (2 * Real.pi * fc / fs) / (2 * Q)) ≤
      1 - |Real.cos (2 * Real.pi * fc / fs)|)
    (hsin : 33 * (2 ^ (-(p : ℤ)) * (1 + 1 / Q)) * (1 + Real.sin (2 * Real.pi * fc / fs) / (2 * Q)) ≤
      Real.sin (2 * Real.pi * fc / fs) / (2 * Q)) :
    ∀ design ∈ [RndRbj.lowPass, RndRbj.highPass, RndRbj.bandPass, RndRbj.allPass],
      ∃ f, design p s c fc fs Q = .ok f ∧ f.stability = true ∧ Rounded.biquadStability (rnd p) f = true := by
  obtain ⟨⟨f1, g1, a1, b1, c1⟩, ⟨f2, g2, a2, b2, c2⟩, ⟨f3, g3, a3, b3, c3⟩, ⟨f4, g4, a4, b4, c4⟩⟩ :=
    core hp hq hs hc h0 h1 hQ hv rfl
  intro design hd
  simp only [List.mem_cons, List.not_mem_nil, or_false] at hd
  rcases hd with rfl | rfl | rfl | rfl
  · exact ⟨f1, a1, stable hp h0 h1 hQ c1 hcos hsin⟩
  · exact ⟨f2, a2, stable hp h0 h1 hQ c2 hcos hsin⟩
  · exact ⟨f3, a3, stable hp h0 h1 hQ c3 hcos hsin⟩
  · exact ⟨f4, a4, stable hp h0 h1 hQ c4 hcos hsin⟩

/-- At a quarter of the sample rate there is always room. -/
example (hs : SinLike 24 s) (hc : CosLike 24 c) : ∃ f, RndRbj.lowPass 24 s c 11025 44100 1 = .ok f ∧
    f.stability = true ∧ Rounded.biquadStability (rnd 24) f = true := by
  have e : 2 * Real.pi * 11025 / 44100 = Real.pi / 2 := by ring
  refine C116_stable_partial (by norm_num) (by norm_num) hs hc (by norm_num) (by norm_num) (by norm_num) (by norm_num)
    ?_ ?_ _ (by simp)
  · rw [e, Real.sin_pi_div_two, Real.cos_pi_div_two]
    norm_num
  · rw [e, Real.sin_pi_div_two]
    norm_num

/-- **Violation.**  The exact low-pass passes a constant unchanged (C16).  With a correctly rounded cosine, when the cutoff
is so low that 2·(2π·fc/fs)² ≤ 2^-p, the designed filter is silent: every output is 0, for every input. -/
theorem C116_silent_violates (hp : 24 ≤ p) (hq : p ≤ 53) (hs : SinLike p s) (hc : ∀ x, c x = rnd p (Real.cos x))
    (h0 : 0 < fc) (h1 : fc < fs / 2) (hQ : 0 < Q) (hv : 2 ^ (-(p : ℤ)) * (1 + 1 / Q) ≤ (1 : ℝ) / 1000)
    (hlow : 2 * (2 * Real.pi * fc / fs) ^ 2 ≤ 2 ^ (-(p : ℤ))) :
    (∃ f, RndRbj.lowPass p s c fc fs Q = .ok f ∧ ∀ x n, Rounded.biquadResponse (rnd p) f x n = 0) ∧
      ∃ g, Rbj.lowPass fc fs Q = .ok g ∧ GainAt g 0 1 := by
  have hcl := correct hp hc
  constructor
  · obtain ⟨⟨f, -, k, -, -⟩, -⟩ := C116_accuracy_partial hp hq hs hcl h0 h1 hQ hv
    refine ⟨f, k, ?_⟩
    obtain ⟨w, al, S⟩ := setup hp hq hs hcl h0 h1 hQ
    have hw : c w = 1 := by
      obtain ⟨w', j1, j2, j3, -⟩ := omega_ok hp hq h0 h1
      have : w' = w := Except.ok.inj (j1.symm.trans S.omega)
      subst this
      exact cos_one hp hc h0 h1 j2 j3 hlow
    have hz : rnd p 0 = 0 := rnd_zero p
    simp only [RndRbj.lowPass, S.omega, S.alpha, bind, Except.bind, hw, sub_self, hz, zero_div] at k
    obtain ⟨z0, z1, z2, z3, z4⟩ := zero_numerator k
    exact silent z0 z1 z2 z3 z4
  · obtain ⟨g, hg, -, hd, -⟩ := C16_low_pass fc fs Q h0 h1 hQ
    exact ⟨g, hg, hd⟩

/-- In `float` at 44100 samples per second: every cutoff up to 1 Hz. -/
example (hs : SinLike 24 s) (hc : ∀ x, c x = rnd 24 (Real.cos x)) (h0 : 0 < fc) (h1 : fc ≤ 1) :
    ∃ f, RndRbj.lowPass 24 s c fc 44100 1 = .ok f ∧ ∀ x n, Rounded.biquadResponse (rnd 24) f x n = 0 := by
  refine (C116_silent_violates (by norm_num) (by norm_num) hs hc h0 (by linarith) (by norm_num) (by norm_num) ?_).1
  have hpi := Real.pi_pos
  have h3 : Real.pi ≤ 3.1416 := Real.pi_lt_d4.le
  have a : 2 * Real.pi * fc / 44100 ≤ 2 * 3.1416 * 1 / 44100 := by
    refine div_le_div_of_nonneg_right ?_ (by norm_num)
    exact mul_le_mul (by linarith) h1 h0.le (by norm_num)
  have b := pow_le_pow_left₀ (by positivity) a 2
  refine le_trans (mul_le_mul_of_nonneg_left b (by norm_num)) ?_
  norm_num

/-- **Violation.**  The exact designs are stable for every quality (C16).  With a correctly rounded sine and any cosine,
when 2·(2π·fc/fs) ≤ Q·2^-p the second feedback coefficient is exactly 1 in all four designs: none is stable, and
`stability()` returns false. -/
theorem C116_undamped_violates (hp : 24 ≤ p) (hq : p ≤ 53) (hs : ∀ x, s x = rnd p (Real.sin x)) (c : ℝ → ℝ) (h0 : 0 < fc)
    (h1 : fc < fs / 2) (hQ : 0 < Q) (hhigh : 2 * (2 * Real.pi * fc / fs) ≤ Q * 2 ^ (-(p : ℤ))) :
    ∀ design ∈ [RndRbj.lowPass, RndRbj.highPass, RndRbj.bandPass, RndRbj.allPass],
      ∃ f, design p s c fc fs Q = .ok f ∧ f.a2 = 1 ∧ f.stability = false ∧
        Rounded.biquadStability (rnd p) f = false := by
  obtain ⟨w, j1, j2, j3, -⟩ := omega_ok hp hq h0 h1
  obtain ⟨al, k1, k2, k3⟩ := alpha_tiny hp hs h0 h1 hQ j2 j3 hhigh
  intro design hd
  simp only [List.mem_cons, List.not_mem_nil, or_false] at hd
  rcases hd with rfl | rfl | rfl | rfl
  · simp only [RndRbj.lowPass, j1, k1, bind, Except.bind, k2, k3]
    exact unit_a2 (by omega) _ _ _ _
  · simp only [RndRbj.highPass, j1, k1, bind, Except.bind, k2, k3]
    exact unit_a2 (by omega) _ _ _ _
  · simp only [RndRbj.bandPass, j1, k1, bind, Except.bind, k2, k3]
    exact unit_a2 (by omega) _ _ _ _
  · simp only [RndRbj.allPass, j1, k1, bind, Except.bind, k2, k3]
    exact unit_a2 (by omega) _ _ _ _

/-- In `float`, a resonance of quality 5000 at 1 Hz, 44100 samples per second. -/
example (hs : ∀ x, s x = rnd 24 (Real.sin x)) : ∃ f, RndRbj.bandPass 24 s c 1 44100 5000 = .ok f ∧ f.a2 = 1 ∧
    f.stability = false ∧ Rounded.biquadStability (rnd 24) f = false := by
  refine C116_undamped_violates (by norm_num) (by norm_num) hs c (by norm_num) (by norm_num) (by norm_num) ?_ _ (by simp)
  have h3 : Real.pi ≤ 3.1416 := Real.pi_lt_d4.le
  norm_num
  linarith

/-- The library functions exist. -/
example : SinLike 24 Real.sin := ⟨fun x => by simp⟩

end Edsp.Props
