import Verif.Model.RoundedRbj
import Verif.Lemmas.RoundedWindowPeaks

/-!
# Rounding errors of the RBJ designs
-/

namespace Edsp.RndRbjL
open Edsp Edsp.Spec Edsp.RndWin Edsp.RndRbj Edsp.FloatL Edsp.RndWinL

theorem div_ok {p : ℕ} {a b : ℝ} (h : b ≠ 0) : div p a b = .ok (rnd p (a / b)) := by
  simp [RndWin.div, Win.div, h, bind, Except.bind, pure, Except.pure]

theorem pi_err {p : ℕ} (hp : 24 ≤ p) (hq : p ≤ 53) :
    (1 - 5 * u p) * Real.pi ≤ RndRbj.pi p ∧ RndRbj.pi p ≤ (1 + 5 * u p) * Real.pi := by
  have hu := u_pos p
  have hl := u_large hq
  have h := lit_err hp hq 3.141592653589793238462643383279502884
  rw [abs_of_pos (by norm_num : (0 : ℝ) < 3.141592653589793238462643383279502884)] at h
  have h := abs_le.mp h
  have h1 := Real.pi_gt_d20
  have h2 := Real.pi_lt_d20
  unfold RndRbj.pi
  constructor <;> nlinarith [h.1, h.2]

theorem poly3_up {v : ℝ} (hu : 0 < v) (hs : v ≤ 1 / 16777216) : (1 + v) * ((1 + v) * (1 + 5 * v)) ≤ 1 + 7.1 * v := by
  have : v * v ≤ v * (1 / 16777216) := mul_le_mul_of_nonneg_left hs hu.le
  have : v * v * v ≤ v * v * (1 / 16777216) := mul_le_mul_of_nonneg_left hs (by positivity)
  nlinarith

theorem poly3_down {v : ℝ} (hu : 0 < v) (hs : v ≤ 1 / 16777216) : 1 - 7.1 * v ≤ (1 - v) * ((1 - v) * (1 - 5 * v)) := by
  have : v * v ≤ v * (1 / 16777216) := mul_le_mul_of_nonneg_left hs hu.le
  have : v * v * v ≤ v * v * (1 / 16777216) := mul_le_mul_of_nonneg_left hs (by positivity)
  have : 0 ≤ v * v * v := by positivity
  nlinarith

/-- The angle. -/
theorem omega_ok {p : ℕ} (hp : 24 ≤ p) (hq : p ≤ 53) {fc fs : ℝ} (h0 : 0 < fc) (h1 : fc < fs / 2) :
    ∃ w, omega p fc fs = .ok w ∧ (1 - 7.1 * u p) * (2 * Real.pi * fc / fs) ≤ w ∧
      w ≤ (1 + 7.1 * u p) * (2 * Real.pi * fc / fs) ∧ |w - 2 * Real.pi * fc / fs| ≤ 23 * u p := by
  have hu := u_pos p
  have hs := u_small hp
  have hfs : 0 < fs := by linarith
  have hπ := Real.pi_pos
  obtain ⟨a1, a2⟩ := pi_err hp hq
  have hr : rnd p (2 * RndRbj.pi p) = 2 * RndRbj.pi p := by
    rw [rnd_double]
    unfold RndRbj.pi lit
    rw [rnd_rnd (by omega)]
  have hP : 0 < RndRbj.pi p := lt_of_lt_of_le (mul_pos (by linarith) hπ) a1
  have hX : 0 ≤ 2 * RndRbj.pi p * fc := by positivity
  obtain ⟨b1, b2⟩ := rel p hX
  have hY : 0 ≤ rnd p (2 * RndRbj.pi p * fc) := le_trans (mul_nonneg (by linarith) hX) b1
  obtain ⟨c1, c2⟩ := rel p (div_nonneg hY hfs.le)
  have hE : 0 ≤ 2 * Real.pi * fc / fs := by positivity
  have d1 : (1 - u p) * (1 - 5 * u p) * (2 * Real.pi * fc / fs) ≤ rnd p (2 * RndRbj.pi p * fc) / fs := by
    rw [mul_div_assoc', div_le_div_iff_of_pos_right hfs]
    calc (1 - u p) * (1 - 5 * u p) * (2 * Real.pi * fc)
        = (1 - u p) * (2 * ((1 - 5 * u p) * Real.pi) * fc) := by ring
      _ ≤ (1 - u p) * (2 * RndRbj.pi p * fc) := by
          refine mul_le_mul_of_nonneg_left (mul_le_mul_of_nonneg_right ?_ h0.le) (by linarith)
          linarith
      _ ≤ _ := b1
  have d2 : rnd p (2 * RndRbj.pi p * fc) / fs ≤ (1 + u p) * (1 + 5 * u p) * (2 * Real.pi * fc / fs) := by
    rw [mul_div_assoc', div_le_div_iff_of_pos_right hfs]
    calc _ ≤ (1 + u p) * (2 * RndRbj.pi p * fc) := b2
      _ ≤ (1 + u p) * (2 * ((1 + 5 * u p) * Real.pi) * fc) := by
          refine mul_le_mul_of_nonneg_left (mul_le_mul_of_nonneg_right ?_ h0.le) (by linarith)
          linarith
      _ = _ := by ring
  have e1 : (1 - 7.1 * u p) * (2 * Real.pi * fc / fs) ≤ rnd p (rnd p (2 * RndRbj.pi p * fc) / fs) := by
    refine le_trans ?_ c1
    refine le_trans (mul_le_mul_of_nonneg_right (poly3_down hu hs) hE) ?_
    rw [mul_assoc, mul_assoc]
    rw [mul_assoc] at d1
    exact mul_le_mul_of_nonneg_left d1 (by linarith)
  have e2 : rnd p (rnd p (2 * RndRbj.pi p * fc) / fs) ≤ (1 + 7.1 * u p) * (2 * Real.pi * fc / fs) := by
    refine le_trans c2 ?_
    refine le_trans ?_ (mul_le_mul_of_nonneg_right (poly3_up hu hs) hE)
    rw [mul_assoc, mul_assoc]
    rw [mul_assoc] at d2
    exact mul_le_mul_of_nonneg_left d2 (by linarith)
  refine ⟨_, ?_, e1, e2, ?_⟩
  · unfold omega
    rw [hr, div_ok hfs.ne']
  · have hE2 : 2 * Real.pi * fc / fs ≤ Real.pi := by
      rw [div_le_iff₀ hfs]
      have := mul_le_mul_of_nonneg_left h1.le hπ.le
      linarith
    have h3 : Real.pi ≤ 3.1416 := Real.pi_lt_d4.le
    have k : u p * (2 * Real.pi * fc / fs) ≤ u p * 3.1416 := mul_le_mul_of_nonneg_left (hE2.trans h3) hu.le
    rw [abs_le]
    constructor <;> linarith

/-- A quotient of two rounded numbers against the quotient of the exact ones. -/
theorem quot {v e δ M D n N a : ℝ} (hv : 0 < v) (hs : v ≤ 1 / 16777216) (he : 0 ≤ e) (hM : 0 ≤ M)
    (hδ : 0 ≤ δ) (hδ2 : δ ≤ 1 / 50) (hD : 0 < D) (ha : |a - D| ≤ (δ + 1.02 * v) * D) (hn : |n - N| ≤ e * D)
    (hN : |N| ≤ M * D) : 0 < a ∧ |n / a - N / D| ≤ 1.021 * (e + M * (δ + 1.02 * v)) ∧
      |n / a| ≤ M + 1.021 * (e + M * (δ + 1.02 * v)) := by
  have ha' := abs_le.mp ha
  have hk : δ + 1.02 * v ≤ 0.0201 := by linarith
  have hk0 : 0 ≤ δ + 1.02 * v := by linarith
  have hkD : (δ + 1.02 * v) * D ≤ 0.0201 * D := mul_le_mul_of_nonneg_right hk hD.le
  have hapos : 0 < a := by linarith
  have hDa : D ≤ 1.021 * a := by linarith
  have e1 : n / a - N / D = ((n - N) * D - N * (a - D)) / (a * D) := by
    field_simp
    ring
  have e2 : |(n - N) * D - N * (a - D)| ≤ (e + M * (δ + 1.02 * v)) * D * D := by
    refine (abs_sub _ _).trans ?_
    rw [abs_mul, abs_mul, abs_of_pos hD]
    have := mul_le_mul_of_nonneg_right hn hD.le
    have := mul_le_mul hN ha (abs_nonneg _) (by positivity)
    linarith
  have hc : 0 ≤ e + M * (δ + 1.02 * v) := by positivity
  have e3 : |n / a - N / D| ≤ 1.021 * (e + M * (δ + 1.02 * v)) := by
    rw [e1, abs_div, abs_of_pos (mul_pos hapos hD), div_le_iff₀ (mul_pos hapos hD)]
    refine e2.trans ?_
    have := mul_le_mul_of_nonneg_left hDa (mul_nonneg hc hD.le)
    linarith
  refine ⟨hapos, e3, ?_⟩
  have e4 : |N / D| ≤ M := by
    rw [abs_div, abs_of_pos hD, div_le_iff₀ hD]
    exact hN
  have : |n / a| ≤ |n / a - N / D| + |N / D| := by
    have := abs_add_le (n / a - N / D) (N / D)
    rwa [sub_add_cancel] at this
  linarith

/-- One coefficient: the rounded quotient by the rounded `1 + alpha`. -/
theorem norm_err {p : ℕ} (hp : 24 ≤ p) {e δ M α al n N : ℝ} (he : 0 ≤ e) (hM : 0 ≤ M) (hM2 : M ≤ 2)
    (hδ : 0 ≤ δ) (hδ2 : δ ≤ 1 / 50) (hα : 0 ≤ α) (hal : |al - α| ≤ δ * (1 + α)) (hn : |n - N| ≤ e * (1 + α))
    (hN : |N| ≤ M * (1 + α)) :
    ∃ A, div p n (rnd p (1 + al)) = .ok A ∧ |A - N / (1 + α)| ≤ 1.05 * (e + M * δ) + 2.1 * M * u p + 0.1 * u p := by
  have hu := u_pos p
  have hs := u_small hp
  have hD : 0 < 1 + α := by linarith
  have ha : |rnd p (1 + al) - (1 + α)| ≤ (δ + 1.02 * u p) * (1 + α) := by
    have h1 := rnd_err p (1 + al)
    have h2 : |1 + al| ≤ (1 + δ) * (1 + α) := by
      have h := abs_le.mp hal
      rw [abs_le]
      constructor
      · have := mul_nonneg hδ hD.le
        nlinarith
      · linarith
    have h3 : |1 + al - (1 + α)| ≤ δ * (1 + α) := by
      rw [show 1 + al - (1 + α) = al - α by ring]
      exact hal
    have h4 := abs_sub_le (rnd p (1 + al)) (1 + al) (1 + α)
    have h5 : |1 + al| * u p ≤ (1.02 * (1 + α)) * u p := by
      refine mul_le_mul_of_nonneg_right (h2.trans ?_) hu.le
      exact mul_le_mul_of_nonneg_right (by linarith) hD.le
    have h6 : |rnd p (1 + al) - (1 + al)| ≤ |1 + al| * u p := by
      refine h1.trans (le_of_eq ?_)
      first | rfl | (rw [mul_comm])
    linarith
  obtain ⟨k1, k2, k3⟩ := quot hu hs he hM hδ hδ2 hD ha hn hN
  refine ⟨_, div_ok k1.ne', ?_⟩
  have h1 := rnd_err p (n / rnd p (1 + al))
  have h6 : |rnd p (n / rnd p (1 + al)) - n / rnd p (1 + al)| ≤ |n / rnd p (1 + al)| * u p := by
    refine h1.trans (le_of_eq ?_)
    first | rfl | (rw [mul_comm])
  have h7 := abs_sub_le (rnd p (n / rnd p (1 + al))) (n / rnd p (1 + al)) (N / (1 + α))
  have h8 := mul_le_mul_of_nonneg_right k3 hu.le
  have h9 : (M + 1.021 * (e + M * (δ + 1.02 * u p))) * u p ≤ M * u p + 0.01 * (e + M * δ) + 0.05 * u p := by
    have a1 := mul_le_mul_of_nonneg_left hs (mul_nonneg hM hδ)
    have a2 := mul_le_mul_of_nonneg_left hs he
    have a3 := mul_le_mul_of_nonneg_left hs (mul_nonneg hM hu.le)
    have a4 := mul_le_mul_of_nonneg_right hM2 hu.le
    have a5 := mul_nonneg hM hδ
    nlinarith
  have b0 := mul_nonneg hM hδ
  have b1 := mul_nonneg hM hu.le
  have b2 := mul_le_mul_of_nonneg_right hM2 hu.le
  nlinarith

theorem rnd_one_near {p : ℕ} (hp : 2 ≤ p) {x : ℝ} (h1 : 1 - u p / 2 < x) (h2 : x ≤ 1 + u p) : rnd p x = 1 := by
  have hu := u_pos p
  rcases le_or_gt 1 x with h | h
  · refine le_antisymm ?_ ?_
    · have := rnd_mono (p := p) (by omega) h2
      rwa [rnd_tie hp] at this
    · have := rnd_mono (p := p) (by omega) h
      rwa [rnd_one (by omega)] at this
  · have hP : (0 : ℝ) < 2 ^ p := by positivity
    have hu' : u p * 2 ^ p = 1 := by
      show (2 : ℝ) ^ (-(p : ℤ)) * 2 ^ p = 1
      rw [zpow_neg, zpow_natCast]
      exact inv_mul_cancel₀ hP.ne'
    have h3 := mul_lt_mul_of_pos_right h1 hP
    have h4 := mul_lt_mul_of_pos_right h hP
    have h5 : (2 : ℝ) ^ p = 2 * 2 ^ (p - 1) := by
      rw [← pow_succ', Nat.sub_add_cancel (by omega)]
    have h6 : (1 : ℝ) ≤ 2 ^ (p - 1) := one_le_pow₀ (by norm_num)
    have := RndWinL.rnd_near (p := p) (by omega) (2 ^ p) p (x := x) (by nlinarith) (by linarith) (by push_cast; nlinarith)
      (by push_cast; linarith)
    rw [this]
    push_cast
    exact div_self hP.ne'

theorem rnd_err' (p : ℕ) (x : ℝ) : |rnd p x - x| ≤ u p * |x| := rnd_err p x

/-- A rounded value against an approximated one. -/
theorem rnd_shift {p : ℕ} {x y e B : ℝ} (h : |x - y| ≤ e) (hB : |y| + e ≤ B) : |rnd p x - y| ≤ e + u p * B := by
  have hu := u_pos p
  have h1 := rnd_err' p x
  have h2 : |x| ≤ B := by
    have := abs_add_le (x - y) y
    rw [sub_add_cancel] at this
    linarith
  have h3 := mul_le_mul_of_nonneg_left h2 hu.le
  have h4 := abs_sub_le (rnd p x) x y
  linarith

theorem alpha_ok {p : ℕ} (hp : 24 ≤ p) {sn S Q : ℝ} (hQ : 0 < Q) (hS : 0 ≤ S) (h : |sn - S| ≤ 24 * u p) :
    ∃ al, alpha p sn Q = .ok al ∧ |al - S / (2 * Q)| ≤ 12.3 * (u p / Q) + 3 * u p * (S / (2 * Q)) := by
  have hu := u_pos p
  have hs := u_small hp
  have hD : 0 < 2 * Q := by linarith
  have hr : 0 < u p / Q := div_pos hu hQ
  have hM : 0 ≤ S / (2 * Q) := div_nonneg hS hD.le
  have ha : |rnd p (2 * Q) - 2 * Q| ≤ (0 + 1.02 * u p) * (2 * Q) := by
    have := rnd_err' p (2 * Q)
    rw [abs_of_pos hD] at this
    nlinarith
  have hn : |sn - S| ≤ 12 * (u p / Q) * (2 * Q) := by
    rw [show 12 * (u p / Q) * (2 * Q) = 24 * u p by field_simp; ring]
    exact h
  have hN : |S| ≤ S / (2 * Q) * (2 * Q) := by
    rw [div_mul_cancel₀ _ hD.ne', abs_of_nonneg hS]
  obtain ⟨k1, k2, k3⟩ := quot hu hs (e := 12 * (u p / Q)) (by linarith) hM le_rfl (by norm_num) hD ha hn hN
  refine ⟨_, div_ok k1.ne', ?_⟩
  have h1 := rnd_err' p (sn / rnd p (2 * Q))
  have h2 := mul_le_mul_of_nonneg_left k3 hu.le
  have h4 := abs_sub_le (rnd p (sn / rnd p (2 * Q))) (sn / rnd p (2 * Q)) (S / (2 * Q))
  have h5 : u p * (S / (2 * Q) + 1.021 * (12 * (u p / Q) + S / (2 * Q) * (0 + 1.02 * u p))) ≤
      u p * (S / (2 * Q)) * 1.5 + 0.01 * (u p / Q) := by
    have b1 := mul_le_mul_of_nonneg_right hs hr.le
    have b2 := mul_le_mul_of_nonneg_right hs (mul_nonneg hu.le hM)
    nlinarith
  nlinarith

end Edsp.RndRbjL
