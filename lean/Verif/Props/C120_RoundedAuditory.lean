import Verif.Lemmas.RoundedAuditory
import Verif.Props.C36_Converters

/-!
# C120: the converters of auditory scales in floating point arithmetic
-/

namespace Edsp.C120
open Edsp Edsp.Spec Edsp.RndAud Edsp.FloatL Edsp.RndWinL Edsp.RndConvL Edsp.RndAudL

theorem hertz2mel_near {p : ℕ} (hp : 24 ≤ p) {e : ℝ} (he : 0 ≤ e) (hl : e ≤ 1 / 1000) {L : ℝ → ℝ}
    (hL : Log1pLike e L) {f F d : ℝ} (hF : 0 ≤ F) (hd : 0 ≤ d) (hd' : d ≤ 1 / 2000) (hf : Within d f F) :
    ∃ m, hertz2mel p L f = .ok m ∧ Within (1.02 * (d + eps p + 3 * eps 53 + e)) m (1127.01048 * Real.log (1 + F / 700)) := by
  have hv := eps_pos 53
  have hw := eps_pos p
  have hvs := eps_dbl
  have hws := eps_small hp
  have h1 : Within (1.01 * eps 53 + d) (dbl (f / 700)) (F / 700) :=
    within_mono (near_rnd_of (within_div 700 hf)) (step hv.le le_rfl le_rfl (by linarith))
  obtain ⟨y0, h2⟩ := log1p_within (div_nonneg hF (by norm_num)) (by positivity) (by linarith) h1
  have h3 : Within (1.01 * e + 1.002 * (1.01 * eps 53 + d)) (L (dbl (f / 700))) (Real.log (1 + F / 700)) :=
    within_mono (within_trans he (hL.near _ (by linarith)) h2) (step he le_rfl le_rfl (by linarith))
  have h4 := within_mono (within_mul2 hv.le (near_rnd 53 1127.01048) h3) (step hv.le le_rfl le_rfl (by linarith))
  have h5 := within_mono (near_rnd_of (p := 53) h4) (step hv.le le_rfl le_rfl (by linarith))
  have h6 := within_mono (near_rnd_of (p := p) h5) (step hw.le le_rfl le_rfl (by linarith))
  refine ⟨_, ?_, within_mono h6 (by linarith)⟩
  simp only [hertz2mel, if_neg (by linarith : ¬ dbl (f / 700) ≤ -1), bind, Except.bind, pure, Except.pure]

theorem mel2hertz_near {p : ℕ} (hp : 24 ≤ p) {e : ℝ} (he : 0 ≤ e) (hl : e ≤ 1 / 1000) {E : ℝ → ℝ}
    (hE : Expm1Like e E) {m M d : ℝ} (hM : 0 ≤ M) (hd : 0 ≤ d) (hm : Within d m (1127.01048 * M))
    (hd' : (d + 3 * eps 53) * (1 + M) ≤ 1 / 200) :
    Within (1.03 * ((d + 3 * eps 53) * (1 + M) + eps p + eps 53 + e)) (mel2hertz p E m) (700 * (Real.exp M - 1)) := by
  have hv := eps_pos 53
  have hw := eps_pos p
  have hvs := eps_dbl
  have hws := eps_small hp
  have hd2 : d + 3 * eps 53 ≤ 1 / 200 := by nlinarith
  have h1 : Within (1.02 * eps 53) (dbl 1127.01048)⁻¹ (1127.01048)⁻¹ :=
    within_inv (by norm_num) hv.le (by linarith) (near_rnd 53 1127.01048)
  have h2 := within_mono (within_mul2 (by positivity) h1 hm) (step (by positivity) le_rfl le_rfl (by linarith))
  rw [mul_comm (dbl 1127.01048)⁻¹, ← div_eq_mul_inv, inv_mul_cancel_left₀ (by norm_num)] at h2
  have h3 : Within (d + 3 * eps 53) (dbl (m / dbl 1127.01048)) M :=
    within_mono (near_rnd_of (p := 53) h2) ((step hv.le le_rfl le_rfl (by linarith)).trans (by linarith))
  have h4 := expm1_within hM (by positivity) h3 (by linarith)
  have h5 := within_mono (within_trans he (hE.near _) h4) (step he le_rfl le_rfl (by linarith))
  have h6 := within_mono (near_rnd_of (p := 53) (within_mul' 700 h5)) (step hv.le le_rfl le_rfl (by linarith))
  have h7 := within_mono (near_rnd_of (p := p) h6) (step hw.le le_rfl le_rfl (by linarith))
  exact within_mono h7 (by nlinarith)

/-- **C120 (mel).**  Let `log1p` and `expm1` have relative errors of at most `e`.  For every frequency from 0 on, however
small, the mel value returned has a relative error of little more than a rounding to `p` bits, three roundings to 53 bits
and `e`; the frequency of a mel value `m ≥ 0` has a relative error that grows with `m / 1127`; a frequency converted there
and back keeps a relative error of that kind; 0 is 0. -/
theorem C120_mel {p : ℕ} (hp : 24 ≤ p) (hq : p ≤ 53) {e : ℝ} (he : 0 ≤ e) (hl : e ≤ 1 / 10000) {L E : ℝ → ℝ}
    (hL : Log1pLike e L) (hE : Expm1Like e E) :
    (∀ f, 0 ≤ f → ∃ m, hertz2mel p L f = .ok m ∧
      Within (1.02 * (2 ^ (-(p : ℤ)) + 3 * 2 ^ (-53 : ℤ) + e)) m (1127.01048 * Real.log (1 + f / 700))) ∧
    (∀ x, 0 ≤ x → 2 ^ (-53 : ℤ) * x ≤ 1 / 1000 →
      Within (1.03 * (2 ^ (-(p : ℤ)) + e + 2 ^ (-53 : ℤ) * (3 * x + 4))) (mel2hertz p E (1127.01048 * x))
        (700 * (Real.exp x - 1))) ∧
    (∀ f, 0 ≤ f → (2 ^ (-(p : ℤ)) + e) * Real.log (1 + f / 700) ≤ 1 / 2000 →
      ∃ m, hertz2mel p L f = .ok m ∧
        Within ((2 ^ (-(p : ℤ)) + 6 * 2 ^ (-53 : ℤ) + e) * (2.2 + 1.1 * Real.log (1 + f / 700))) (mel2hertz p E m) f) ∧
    hertz2mel p L 0 = .ok 0 ∧ mel2hertz p E 0 = 0 := by
  have hv := eps_pos 53
  have hw := eps_pos p
  have hvs := eps_dbl
  have hws := eps_small hp
  have hvw := eps_mono hq
  have first : ∀ f, 0 ≤ f → ∃ m, hertz2mel p L f = .ok m ∧
      Within (1.02 * (eps p + 3 * eps 53 + e)) m (1127.01048 * Real.log (1 + f / 700)) := by
    intro f hf
    have h0 : Within 0 f f := by unfold Within; rw [sub_self, abs_zero, zero_mul]
    obtain ⟨m, e1, e2⟩ := hertz2mel_near hp he (by linarith) hL hf le_rfl (by norm_num) h0
    exact ⟨m, e1, within_mono e2 (by linarith)⟩
  refine ⟨first, fun x hx hb => ?_, fun f hf hb => ?_, ?_, ?_⟩
  · have h0 : Within 0 (1127.01048 * x) (1127.01048 * x) := by unfold Within; rw [sub_self, abs_zero, zero_mul]
    have hb' : eps 53 * x ≤ 1 / 1000 := hb
    exact within_mono (mel2hertz_near hp he (by linarith) hE hx le_rfl h0 (by nlinarith))
      (by change _ ≤ 1.03 * (eps p + e + eps 53 * (3 * x + 4)); linarith)
  · obtain ⟨m, e1, e2⟩ := first f hf
    have hb' : (eps p + e) * Real.log (1 + f / 700) ≤ 1 / 2000 := hb
    have hy : 0 ≤ f / 700 := div_nonneg hf (by norm_num)
    have hx : 0 ≤ Real.log (1 + f / 700) := Real.log_nonneg (by linarith)
    have hr : 700 * (Real.exp (Real.log (1 + f / 700)) - 1) = f := by
      rw [Real.exp_log (by linarith)]; ring
    have h1 : eps 53 * Real.log (1 + f / 700) ≤ eps p * Real.log (1 + f / 700) := mul_le_mul_of_nonneg_right hvw hx
    have h2 : 0 ≤ e * Real.log (1 + f / 700) := mul_nonneg he hx
    have h3 : 0 ≤ eps 53 * Real.log (1 + f / 700) := mul_nonneg hv.le hx
    have h4 := mel2hertz_near hp he (by linarith) hE hx (by positivity) e2 (by nlinarith)
    rw [hr] at h4
    refine ⟨m, e1, within_mono h4 ?_⟩
    change _ ≤ (eps p + 6 * eps 53 + e) * (2.2 + 1.1 * Real.log (1 + f / 700))
    nlinarith
  · have l0 : L 0 = 0 := by
      have h : |L 0 - Real.log (1 + 0)| ≤ e * |Real.log (1 + 0)| := hL.near 0 (by norm_num)
      rw [add_zero, Real.log_one, abs_zero, mul_zero, sub_zero] at h
      exact abs_eq_zero.mp (le_antisymm h (abs_nonneg _))
    have : ¬ (0 : ℝ) ≤ -1 := by norm_num
    simp only [hertz2mel, zero_div, dbl, rnd_zero, if_neg this, l0, mul_zero, bind, Except.bind, pure, Except.pure]
  · have l0 : E 0 = 0 := by
      have h : |E 0 - (Real.exp 0 - 1)| ≤ e * |Real.exp 0 - 1| := hE.near 0
      rw [Real.exp_zero, sub_self, abs_zero, mul_zero, sub_zero] at h
      exact abs_eq_zero.mp (le_antisymm h (abs_nonneg _))
    simp only [mel2hertz, zero_div, dbl, rnd_zero, l0, mul_zero]

theorem hertz2erb_near {p : ℕ} (hp : 24 ≤ p) {e : ℝ} (he : 0 ≤ e) (hl : e ≤ 1 / 1000) {L : ℝ → ℝ}
    (hL : LogLike e L) {f : ℝ} (hf : 0 ≤ f) :
    ∃ x, hertz2erb p L f = .ok x ∧ |x - 21.4 * Real.logb 10 (1 + 4.37 * f / 1000)| ≤
      1.02 * (eps p + 2 * eps 53 + e) * (21.4 * Real.logb 10 (1 + 4.37 * f / 1000)) + 100 * eps 53 := by
  have hv := eps_pos 53
  have hw := eps_pos p
  have hvs := eps_dbl
  have hws := eps_small hp
  have hz : 0 ≤ 4.37 * f / 1000 := by positivity
  have h1 := within_mul f (near_rnd 53 4.37)
  have h2 := within_mono (near_rnd_of (p := 53) h1) (step hv.le le_rfl le_rfl (by linarith))
  have h3 := within_mono (near_rnd_of (p := 53) (within_div 1000 h2)) (step hv.le le_rfl le_rfl (by linarith))
  set z := 4.37 * f / 1000 with hzd
  set z' := dbl (dbl (dbl 4.37 * f) / 1000)
  have h4 : Within (3.1 * eps 53) (1 + z') (1 + z) := by
    have h : |z' - z| ≤ _ * |z| := h3
    unfold Within
    rw [add_sub_add_left_eq_sub, abs_of_pos (by linarith : 0 < 1 + z)]
    rw [abs_of_nonneg hz] at h
    nlinarith
  have h5 : Within (4.2 * eps 53) (dbl (1 + z')) (1 + z) :=
    within_mono (near_rnd_of (p := 53) h4) ((step hv.le le_rfl le_rfl (by linarith)).trans (by linarith))
  obtain ⟨y0, h6⟩ := logb_within (by linarith : 0 < 1 + z) (by linarith) (by positivity) h5
  have g0 : 0 ≤ Real.logb 10 (1 + z) := Real.logb_nonneg (by norm_num) (by linarith)
  have h7 : |L (dbl (1 + z')) - Real.logb 10 (dbl (1 + z'))| ≤ e * |Real.logb 10 (dbl (1 + z'))| := hL.near _ y0
  set g := Real.logb 10 (1 + z)
  set g' := Real.logb 10 (dbl (1 + z'))
  have h8 : |g'| ≤ g + 4.2 * eps 53 := by
    have : |g'| ≤ |g' - g| + |g| := by simpa using abs_add_le (g' - g) g
    rw [abs_of_nonneg g0] at this
    linarith
  have h9 : |L (dbl (1 + z')) - g| ≤ e * g + 4.3 * eps 53 := by
    have a := abs_sub_le (L (dbl (1 + z'))) g' g
    have b : e * |g'| ≤ e * (g + 4.2 * eps 53) := mul_le_mul_of_nonneg_left h8 he
    have c : e * eps 53 ≤ 1 / 1000 * eps 53 := mul_le_mul_of_nonneg_right hl hv.le
    linarith
  have h10 := within_mono (near_rnd_of (p := 53) (within_mul (L (dbl (1 + z'))) (near_rnd 53 21.4)))
    (step hv.le le_rfl le_rfl (by linarith))
  have h11 := within_mono (near_rnd_of (p := p) h10) (step hw.le le_rfl le_rfl (by linarith))
  refine ⟨rnd p (rnd 53 (rnd 53 21.4 * L (dbl (1 + z')))), ?_, ?_⟩
  · have y1 : ¬ dbl (1 + dbl (dbl (dbl 4.37 * f) / 1000)) ≤ 0 := not_le.2 y0
    simp only [hertz2erb, RndConv.log10, if_neg y1, bind, Except.bind, pure, Except.pure]
    rfl
  · set l := L (dbl (1 + z'))
    set r := rnd p (rnd 53 (rnd 53 21.4 * l))
    have a : |r - 21.4 * l| ≤ (1.01 * eps p + (1.01 * eps 53 + eps 53)) * |21.4 * l| := h11
    have b : |l| ≤ 1.001 * g + 5 * eps 53 := by
      have c : |l| ≤ |l - g| + |g| := by simpa using abs_add_le (l - g) g
      rw [abs_of_nonneg g0] at c
      nlinarith
    rw [abs_mul, abs_of_pos (by norm_num : (0 : ℝ) < 21.4)] at a
    have c : |r - 21.4 * g| ≤ |r - 21.4 * l| + 21.4 * |l - g| := by
      have := abs_sub_le r (21.4 * l) (21.4 * g)
      rwa [← mul_sub, abs_mul, abs_of_pos (by norm_num : (0 : ℝ) < 21.4)] at this
    have d : (1.01 * eps p + (1.01 * eps 53 + eps 53)) * (21.4 * |l|) ≤
        (1.01 * eps p + (1.01 * eps 53 + eps 53)) * (21.4 * (1.001 * g + 5 * eps 53)) :=
      mul_le_mul_of_nonneg_left (by linarith) (by positivity)
    have k1 : eps p * eps 53 ≤ 1 / 16777216 * eps 53 := mul_le_mul_of_nonneg_right hws hv.le
    have k2 : eps 53 * eps 53 ≤ 1 / 16777216 * eps 53 := mul_le_mul_of_nonneg_right (by linarith) hv.le
    have k3 : 0 ≤ eps p * g := mul_nonneg hw.le g0
    have k4 : 0 ≤ eps 53 * g := mul_nonneg hv.le g0
    have k5 : 0 ≤ e * g := mul_nonneg he g0
    linarith

theorem erb2hertz_near {p : ℕ} (hp : 24 ≤ p) {e : ℝ} (he : 0 ≤ e) {P : ℝ → ℝ}
    (hP : PowLike e P) {F x a s : ℝ} (hF : 0 ≤ F) (ha : |x / 21.4 - Real.logb 10 (1 + 4.37 * F / 1000)| ≤ a)
    (hs : a + 2.1 * eps 53 * (Real.logb 10 (1 + 4.37 * F / 1000) + a) ≤ s) (hs' : s ≤ 1 / 1000) :
    |erb2hertz p P x - F| ≤ 1.02 * (eps p + 5 * eps 53) * F + (1.02 * e + 5.1 * s) * (229 + F) := by
  have hv := eps_pos 53
  have hw := eps_pos p
  have hvs := eps_dbl
  have hws := eps_small hp
  have hz : 0 ≤ 4.37 * F / 1000 := by positivity
  have g0 : 0 ≤ Real.logb 10 (1 + 4.37 * F / 1000) := Real.logb_nonneg (by norm_num) (by linarith)
  have p10 : (10 : ℝ) ^ Real.logb 10 (1 + 4.37 * F / 1000) = 1 + 4.37 * F / 1000 :=
    Real.rpow_logb (by norm_num) (by norm_num) (by linarith)
  set g := Real.logb 10 (1 + 4.37 * F / 1000)
  have a0 : 0 ≤ a := (abs_nonneg _).trans ha
  have i1 : Within (1.02 * eps 53) (dbl 21.4)⁻¹ (21.4)⁻¹ :=
    within_inv (by norm_num) hv.le (by linarith) (near_rnd 53 21.4)
  have h1 := within_mul' x i1
  rw [← div_eq_mul_inv, ← div_eq_mul_inv] at h1
  have h2 : Within (2.1 * eps 53) (dbl (x / dbl 21.4)) (x / 21.4) :=
    within_mono (near_rnd_of (p := 53) h1) ((step hv.le le_rfl le_rfl (by linarith)).trans (by linarith))
  set t := dbl (x / dbl 21.4)
  have h2 : |t - x / 21.4| ≤ 2.1 * eps 53 * |x / 21.4| := h2
  have h3 : |t - g| ≤ s := by
    have b := abs_sub_le t (x / 21.4) g
    have c : |x / 21.4| ≤ g + a := by
      have : |x / 21.4| ≤ |x / 21.4 - g| + |g| := by simpa using abs_add_le (x / 21.4 - g) g
      rw [abs_of_nonneg g0] at this
      linarith
    have d : 2.1 * eps 53 * |x / 21.4| ≤ 2.1 * eps 53 * (g + a) := mul_le_mul_of_nonneg_left c (by positivity)
    linarith
  have s0 : 0 ≤ s := (abs_nonneg _).trans h3
  have h4 : Within (5 * s) ((10 : ℝ) ^ t) (1 + 4.37 * F / 1000) := by
    have h := pow_near (s := t - g) (by linarith)
    have : (10 : ℝ) ^ t = (10 : ℝ) ^ (t - g) * (1 + 4.37 * F / 1000) := by
      rw [← p10, ← Real.rpow_add (by norm_num), sub_add_cancel]
    unfold Within
    rw [this, show (10 : ℝ) ^ (t - g) * (1 + 4.37 * F / 1000) - (1 + 4.37 * F / 1000) =
      ((10 : ℝ) ^ (t - g) - 1) * (1 + 4.37 * F / 1000) by ring, abs_mul]
    exact mul_le_mul_of_nonneg_right (by linarith) (abs_nonneg _)
  have h5 : Within (1.01 * e + 5 * s) (P t) (1 + 4.37 * F / 1000) :=
    within_mono (within_trans he (hP.near t) h4) (step he le_rfl le_rfl (by linarith))
  have h5 : |P t - (1 + 4.37 * F / 1000)| ≤ (1.01 * e + 5 * s) * |1 + 4.37 * F / 1000| := h5
  rw [abs_of_pos (by linarith : 0 < 1 + 4.37 * F / 1000)] at h5
  have i2 : Within (1.02 * eps 53) (dbl 4.37)⁻¹ (4.37)⁻¹ :=
    within_inv (by norm_num) hv.le (by linarith) (near_rnd 53 4.37)
  have h6 := within_mono (near_rnd_of (p := 53) (within_mul 1000 (near_rnd 53 (P t - 1))))
    (step hv.le le_rfl le_rfl (by linarith))
  have h7 := within_mono (within_mul2 (by linarith) h6 i2) (step (by linarith) le_rfl le_rfl (by linarith))
  rw [← div_eq_mul_inv, ← div_eq_mul_inv] at h7
  have h8 := within_mono (near_rnd_of (p := 53) h7) (step hv.le le_rfl le_rfl (by linarith))
  have h9 := within_mono (near_rnd_of (p := p) h8) (step hw.le le_rfl le_rfl (by linarith))
  have h9 : Within (1.02 * (eps p + 5 * eps 53)) (erb2hertz p P x) ((P t - 1) * 1000 / 4.37) :=
    within_mono h9 (by linarith)
  have h9 : |erb2hertz p P x - (P t - 1) * 1000 / 4.37| ≤ 1.02 * (eps p + 5 * eps 53) * |(P t - 1) * 1000 / 4.37| := h9
  set r := erb2hertz p P x
  set q := (P t - 1) * 1000 / 4.37 with hq
  have h10 : |q - F| ≤ (1.01 * e + 5 * s) * (229 + F) := by
    have b : q - F = (P t - (1 + 4.37 * F / 1000)) * (1000 / 4.37) := by rw [hq]; ring
    rw [b, abs_mul, abs_of_pos (by norm_num : (0 : ℝ) < 1000 / 4.37)]
    have c := mul_le_mul_of_nonneg_right h5 (by norm_num : (0 : ℝ) ≤ 1000 / 4.37)
    refine c.trans ?_
    rw [mul_assoc]
    refine mul_le_mul_of_nonneg_left ?_ (by positivity)
    norm_num
    linarith
  have h11 : |q| ≤ F + (1.01 * e + 5 * s) * (229 + F) := by
    have : |q| ≤ |q - F| + |F| := by simpa using abs_add_le (q - F) F
    rw [abs_of_nonneg hF] at this
    linarith
  have h12 := abs_sub_le r q F
  have h13 : 1.02 * (eps p + 5 * eps 53) * |q| ≤ 1.02 * (eps p + 5 * eps 53) * (F + (1.01 * e + 5 * s) * (229 + F)) :=
    mul_le_mul_of_nonneg_left h11 (by positivity)
  have h14 : 1.02 * (eps p + 5 * eps 53) * ((1.01 * e + 5 * s) * (229 + F)) ≤ 1 / 1000 * ((1.01 * e + 5 * s) * (229 + F)) :=
    mul_le_mul_of_nonneg_right (by linarith) (by positivity)
  have h15 : 0 ≤ e * (229 + F) := by positivity
  have h16 : 0 ≤ s * (229 + F) := by positivity
  linarith

/-- **C120 (ERB).**  Let the decimal logarithm and the power have relative errors of at most `e`.  The ERB number of a
frequency from 0 on has a relative error of that order, plus an absolute error of 100 * 2^-53; the frequency of an ERB
number has an error relative to the frequency plus 229 Hz, and so has a frequency converted there and back. -/
theorem C120_erb {p : ℕ} (hp : 24 ≤ p) {e : ℝ} (he : 0 ≤ e) (hl : e ≤ 1 / 10000) {L P : ℝ → ℝ}
    (hL : LogLike e L) (hP : PowLike e P) :
    (∀ f, 0 ≤ f → ∃ x, hertz2erb p L f = .ok x ∧ |x - 21.4 * Real.logb 10 (1 + 4.37 * f / 1000)| ≤
      1.02 * (2 ^ (-(p : ℤ)) + 2 * 2 ^ (-53 : ℤ) + e) * (21.4 * Real.logb 10 (1 + 4.37 * f / 1000)) + 100 * 2 ^ (-53 : ℤ)) ∧
    (∀ f, 0 ≤ f → 2 ^ (-53 : ℤ) * Real.logb 10 (1 + 4.37 * f / 1000) ≤ 1 / 10000 →
      |erb2hertz p P (21.4 * Real.logb 10 (1 + 4.37 * f / 1000)) - f| ≤
        1.02 * (2 ^ (-(p : ℤ)) + 5 * 2 ^ (-53 : ℤ)) * f +
        (1.02 * e + 11 * 2 ^ (-53 : ℤ) * Real.logb 10 (1 + 4.37 * f / 1000)) * (229 + f)) ∧
    (∀ f, 0 ≤ f → (2 ^ (-(p : ℤ)) + 5 * 2 ^ (-53 : ℤ) + e) * Real.logb 10 (1 + 4.37 * f / 1000) ≤ 1 / 10000 →
      ∃ x, hertz2erb p L f = .ok x ∧ |erb2hertz p P x - f| ≤
        (2 ^ (-(p : ℤ)) + 30 * 2 ^ (-53 : ℤ) + e) * (1.1 + 5.5 * Real.logb 10 (1 + 4.37 * f / 1000)) * (229 + f)) := by
  have hv := eps_pos 53
  have hw := eps_pos p
  have hvs := eps_dbl
  have hws := eps_small hp
  refine ⟨fun f hf => hertz2erb_near hp he (by linarith) hL hf, fun f hf hb => ?_, fun f hf hb => ?_⟩
  · have g0 : 0 ≤ Real.logb 10 (1 + 4.37 * f / 1000) :=
      Real.logb_nonneg (by norm_num) (by linarith [(by positivity : 0 ≤ 4.37 * f / 1000)])
    have hb : eps 53 * Real.logb 10 (1 + 4.37 * f / 1000) ≤ 1 / 10000 := hb
    have h := erb2hertz_near (p := p) (x := 21.4 * Real.logb 10 (1 + 4.37 * f / 1000)) hp he hP hf
      (a := 0) (by rw [mul_div_cancel_left₀ _ (by norm_num), sub_self, abs_zero]) le_rfl (by linarith)
    refine h.trans ?_
    rw [zero_add, add_zero]
    change _ ≤ 1.02 * (eps p + 5 * eps 53) * f +
        (1.02 * e + 11 * eps 53 * Real.logb 10 (1 + 4.37 * f / 1000)) * (229 + f)
    have : 0 ≤ eps 53 * Real.logb 10 (1 + 4.37 * f / 1000) * (229 + f) := by positivity
    linarith
  · have g0 : 0 ≤ Real.logb 10 (1 + 4.37 * f / 1000) :=
      Real.logb_nonneg (by norm_num) (by linarith [(by positivity : 0 ≤ 4.37 * f / 1000)])
    have hb : (eps p + 5 * eps 53 + e) * Real.logb 10 (1 + 4.37 * f / 1000) ≤ 1 / 10000 := hb
    obtain ⟨x, e1, e2⟩ := hertz2erb_near hp he (by linarith) hL hf
    refine ⟨x, e1, ?_⟩
    set g := Real.logb 10 (1 + 4.37 * f / 1000)
    have k1 : 0 ≤ eps p * g := mul_nonneg hw.le g0
    have k2 : 0 ≤ eps 53 * g := mul_nonneg hv.le g0
    have k3 : 0 ≤ e * g := mul_nonneg he g0
    have ha : |x / 21.4 - g| ≤ 1.02 * ((eps p + 2 * eps 53 + e) * g) + 4.7 * eps 53 := by
      have : x / 21.4 - g = (x - 21.4 * g) / 21.4 := by ring
      rw [this, abs_div, abs_of_pos (by norm_num : (0 : ℝ) < 21.4), div_le_iff₀ (by norm_num)]
      linarith
    have hs : 1.02 * ((eps p + 2 * eps 53 + e) * g) + 4.7 * eps 53 +
        2.1 * eps 53 * (g + (1.02 * ((eps p + 2 * eps 53 + e) * g) + 4.7 * eps 53)) ≤
        1.02 * ((eps p + 5 * eps 53 + e) * g) + 5 * eps 53 := by
      have : eps 53 * (1.02 * ((eps p + 2 * eps 53 + e) * g) + 4.7 * eps 53) ≤ eps 53 * (1 / 1000) :=
        mul_le_mul_of_nonneg_left (by linarith) hv.le
      linarith
    have h := erb2hertz_near (p := p) hp he hP hf ha hs (by linarith)
    refine h.trans ?_
    have m1 : eps p * f ≤ eps p * (229 + f) := mul_le_mul_of_nonneg_left (by linarith) hw.le
    have m2 : eps 53 * f ≤ eps 53 * (229 + f) := mul_le_mul_of_nonneg_left (by linarith) hv.le
    have c : 1.02 * (eps p + 5 * eps 53) + (1.02 * e + 5.1 * (1.02 * ((eps p + 5 * eps 53 + e) * g) + 5 * eps 53)) ≤
        (eps p + 30 * eps 53 + e) * (1.1 + 5.5 * g) := by nlinarith
    have d := mul_le_mul_of_nonneg_right c (by linarith : 0 ≤ 229 + f)
    change _ ≤ (eps p + 30 * eps 53 + e) * (1.1 + 5.5 * g) * (229 + f)
    linarith

/-- **C120 (ERB, small frequencies).**  Unlike the mel value, the ERB number of a small frequency is lost: every frequency
from 0 to 2^-46 Hz has the ERB number 0 in `float` and `double`, and 0 is converted back to 0. -/
theorem C120_erb_small {p : ℕ} {e : ℝ} {L P : ℝ → ℝ} (hL : LogLike e L) (hP : P 0 = 1) {f : ℝ}
    (hf : 0 ≤ f) (hs : f ≤ 2 ^ (-46 : ℤ)) : hertz2erb p L f = .ok 0 ∧ erb2hertz p P 0 = 0 := by
  have hv := eps_pos 53
  have hvs := eps_dbl
  have hz : 0 ≤ 4.37 * f / 1000 := by positivity
  have h1 := within_mul f (near_rnd 53 4.37)
  have h2 := within_mono (near_rnd_of (p := 53) h1) (step hv.le le_rfl le_rfl (by linarith))
  have h3 := within_mono (near_rnd_of (p := 53) (within_div 1000 h2)) (step hv.le le_rfl le_rfl (by linarith))
  have h4 := within_le h3
  have z0 : 0 ≤ dbl (dbl (dbl 4.37 * f) / 1000) := by
    have a : ∀ x : ℝ, 0 ≤ x → 0 ≤ dbl x := fun x hx => by
      have := rnd_mono (p := 53) (by norm_num) hx
      rwa [rnd_zero] at this
    exact a _ (div_nonneg (a _ (mul_nonneg (a _ (by norm_num)) hf)) (by norm_num))
  have h5 : dbl (dbl (dbl 4.37 * f) / 1000) < 2 ^ ((0 : ℤ) - (53 : ℕ)) := by
    rw [abs_of_nonneg hz] at h4
    rw [abs_of_nonneg z0] at h4
    have h6 : (1 + (1.01 * eps 53 + (1.01 * eps 53 + eps 53))) * (4.37 * f / 1000) ≤ 1.01 * (4.37 * f / 1000) :=
      mul_le_mul_of_nonneg_right (by linarith) hz
    norm_num at hs ⊢
    linarith
  have h7 : dbl (1 + dbl (dbl (dbl 4.37 * f) / 1000)) = 1 :=
    rnd_absorb (e := 0) (by simpa using isFloat_int (p := 53) (by norm_num) (m := 1) 0 (by norm_num)) (by norm_num)
      (by norm_num) z0 h5
  have l1 : L 1 = 0 := by
    have h : |L 1 - Real.logb 10 1| ≤ e * |Real.logb 10 1| := hL.near 1 one_pos
    rw [Real.logb_one, abs_zero, mul_zero, sub_zero] at h
    exact abs_eq_zero.mp (le_antisymm h (abs_nonneg _))
  constructor
  · have : ¬ (1 : ℝ) ≤ 0 := by norm_num
    simp only [hertz2erb, h7, RndConv.log10, if_neg this, l1, mul_zero, dbl, rnd_zero, bind, Except.bind, pure, Except.pure]
  · simp only [erb2hertz, zero_div, dbl, rnd_zero, hP, sub_self, zero_mul]

set_option exponentiation.threshold 1000 in
theorem octaves440 : 8.78 < Real.logb 2 440 ∧ Real.logb 2 440 < 8.79 := by
  constructor
  · rw [Real.lt_logb_iff_rpow_lt (by norm_num) (by norm_num)]
    have e : ((2 : ℝ) ^ (8.78 : ℝ)) ^ (50 : ℕ) = 2 ^ (439 : ℕ) := by
      rw [← Real.rpow_natCast, ← Real.rpow_mul (by norm_num), ← Real.rpow_natCast]
      norm_num
    exact lt_of_pow_lt_pow_left₀ 50 (by norm_num) (by rw [e]; norm_num)
  · rw [Real.logb_lt_iff_lt_rpow (by norm_num) (by norm_num)]
    have e : ((2 : ℝ) ^ (8.79 : ℝ)) ^ (100 : ℕ) = 2 ^ (879 : ℕ) := by
      rw [← Real.rpow_natCast, ← Real.rpow_mul (by norm_num), ← Real.rpow_natCast]
      norm_num
    exact lt_of_pow_lt_pow_left₀ 100 (by positivity) (by rw [e]; norm_num)

theorem centP_within {p : ℕ} (hp : 24 ≤ p) {e : ℝ} (he : 0 ≤ e) (hl : e ≤ 1 / 1000) {L : ℝ → ℝ} (hL : LnLike e L) :
    Within (1.03 * (eps p + eps 53 + e)) (centP p L) (1200 / Real.log 2) := by
  have hv := eps_pos 53
  have hw := eps_pos p
  have hvs := eps_dbl
  have hws := eps_small hp
  have l2 : Real.log 2 ≠ 0 := (Real.log_pos (by norm_num)).ne'
  have h1 := within_mul' 1200 (within_inv l2 he (by linarith) (hL.near 2 (by norm_num)))
  rw [← div_eq_mul_inv, ← div_eq_mul_inv] at h1
  have h2 := within_mono (near_rnd_of (p := 53) h1) (step hv.le le_rfl le_rfl (by linarith))
  have h3 := within_mono (near_rnd_of (p := p) h2) (step hw.le le_rfl le_rfl (by linarith))
  exact within_mono h3 (by linarith)

theorem centQ_err {p : ℕ} (hp : 24 ≤ p) {e : ℝ} (he : 0 ≤ e) (hl : e ≤ 1 / 1000) {L : ℝ → ℝ} (hL : LnLike e L) :
    |centQ p L - (5700 - 1200 * Real.logb 2 440)| ≤ 23000 * (eps p + 2 * eps 53 + e) := by
  have hv := eps_pos 53
  have hw := eps_pos p
  have hvs := eps_dbl
  have hws := eps_small hp
  have h1 := within_mono (within_mul2 (by positivity) (centP_within hp he hl hL) (hL.near 440 (by norm_num)))
    (step (by positivity) le_rfl le_rfl (by linarith))
  have h2 := within_mono (near_rnd_of (p := 53) h1) (step hv.le le_rfl le_rfl (by linarith))
  have ex : 1200 / Real.log 2 * Real.log 440 = 1200 * Real.logb 2 440 := by rw [Real.logb]; ring
  rw [ex] at h2
  obtain ⟨o1, o2⟩ := octaves440
  set o := Real.logb 2 440
  set m := dbl (centP p L * L 440)
  have h2 : |m - 1200 * o| ≤ _ * |1200 * o| := h2
  rw [abs_of_pos (by linarith : 0 < 1200 * o)] at h2
  have h3 : |m - 1200 * o| ≤ 10550 * (1.06 * (eps p + 2 * eps 53) + 2.1 * e) := by
    refine h2.trans ?_
    have : (1.01 * eps 53 + (1.01 * (1.03 * (eps p + eps 53 + e)) + e)) * (1200 * o) ≤
      (1.01 * eps 53 + (1.01 * (1.03 * (eps p + eps 53 + e)) + e)) * 10550 := mul_le_mul_of_nonneg_left (by linarith) (by positivity)
    linarith
  have h4 : Within (1.01 * eps p + eps 53) (centQ p L) (5700 - m) :=
    within_mono (near_rnd_of (p := p) (near_rnd 53 (5700 - m))) (step hw.le le_rfl le_rfl (by linarith))
  have h4 : |centQ p L - (5700 - m)| ≤ (1.01 * eps p + eps 53) * |5700 - m| := h4
  have h5 : |5700 - m| ≤ 4900 := by
    rw [abs_le] at h3 ⊢
    constructor <;> linarith
  have h6 := abs_sub_le (centQ p L) (5700 - m) (5700 - 1200 * o)
  rw [sub_sub_sub_cancel_left, abs_sub_comm (1200 * o) m] at h6
  have h7 := h6.trans (add_le_add (h4.trans (mul_le_mul_of_nonneg_left h5 (by positivity : 0 ≤ 1.01 * eps p + eps 53))) h3)
  linarith

theorem hertz2cent_near {p : ℕ} (hp : 24 ≤ p) {e : ℝ} (he : 0 ≤ e) (hl : e ≤ 1 / 100000) {L Lp : ℝ → ℝ}
    (hL : LnLike e L) (hLp : LnLike e Lp) {f : ℝ} (hf : 0 < f) :
    ∃ c, hertz2cent p L Lp f = .ok c ∧ |c - (5700 + 1200 * Real.logb 2 (f / 440))| ≤
      (eps p + 2 * eps 53 + e) * (3.2 * |1200 * Real.logb 2 f| + 28000) := by
  have hv := eps_pos 53
  have hw := eps_pos p
  have hvs := eps_dbl
  have hws := eps_small hp
  have ok : hertz2cent p L Lp f = .ok (rnd p (rnd p (centP p L * Lp f) + centQ p L)) := by
    simp only [hertz2cent, RndAud.log, abs_of_pos hf, not_le.2 hf, if_false, bind, Except.bind, pure, Except.pure,
      Num.sign, not_lt.2 hf.le, one_mul]
  refine ⟨_, ok, ?_⟩
  have h1 := within_mono (within_mul2 (by positivity) (centP_within hp he (by linarith) hL) (hLp.near f hf))
    (step (by positivity) le_rfl le_rfl (by linarith))
  have h2 := within_mono (near_rnd_of (p := p) h1) (step hw.le le_rfl le_rfl (by linarith))
  have ex : 1200 / Real.log 2 * Real.log f = 1200 * Real.logb 2 f := by rw [Real.logb]; ring
  rw [ex] at h2
  have h3 := centQ_err hp he (by linarith) hL
  have h4 : Real.logb 2 (f / 440) = Real.logb 2 f - Real.logb 2 440 := Real.logb_div hf.ne' (by norm_num)
  obtain ⟨o1, o2⟩ := octaves440
  rw [h4]
  set o := Real.logb 2 440
  set t := 1200 * Real.logb 2 f
  set t' := rnd p (centP p L * Lp f)
  set q' := centQ p L
  have hs : 0 < eps p + 2 * eps 53 + e := by positivity
  have hss : eps p + 2 * eps 53 + e ≤ 1 / 50000 := by linarith
  have h2 : |t' - t| ≤ 2.1 * (eps p + 2 * eps 53 + e) * |t| := (within_mono h2 (by linarith) : Within _ t' t)
  have hT := abs_nonneg t
  have h5 : |t' + q' - (t + (5700 - 1200 * o))| ≤ 2.1 * (eps p + 2 * eps 53 + e) * |t| + 23000 * (eps p + 2 * eps 53 + e) := by
    have : t' + q' - (t + (5700 - 1200 * o)) = (t' - t) + (q' - (5700 - 1200 * o)) := by ring
    rw [this]
    exact (abs_add_le _ _).trans (add_le_add h2 h3)
  have h6 : |t + (5700 - 1200 * o)| ≤ |t| + 4850 := by
    refine (abs_add_le _ _).trans (add_le_add le_rfl ?_)
    rw [abs_le]
    constructor <;> linarith
  have h7 : |t' + q'| ≤ 1.01 * |t| + 4851 := by
    have a : |t' + q'| ≤ |t' + q' - (t + (5700 - 1200 * o))| + |t + (5700 - 1200 * o)| := by
      simpa using abs_add_le (t' + q' - (t + (5700 - 1200 * o))) (t + (5700 - 1200 * o))
    have b : (eps p + 2 * eps 53 + e) * |t| ≤ 1 / 50000 * |t| := mul_le_mul_of_nonneg_right hss hT
    linarith
  have h8 := rnd_err p (t' + q')
  have h8 : |rnd p (t' + q') - (t' + q')| ≤ eps p * |t' + q'| := h8
  have h9 : eps p * |t' + q'| ≤ eps p * (1.01 * |t| + 4851) := mul_le_mul_of_nonneg_left h7 hw.le
  have h10 := abs_sub_le (rnd p (t' + q')) (t' + q') (t + (5700 - 1200 * o))
  have h11 : 0 ≤ eps 53 * |t| := by positivity
  have h12 : 0 ≤ e * |t| := by positivity
  have h14 : 0 ≤ eps p * |t| := by positivity
  rw [show 5700 + 1200 * (Real.logb 2 f - o) = t + (5700 - 1200 * o) by simp only [t]; ring]
  have h13 := h10.trans (add_le_add (h8.trans h9) h5)
  linarith

theorem cent2hertz_near {p : ℕ} (hp : 24 ≤ p) {e : ℝ} (he : 0 ≤ e) (hl : e ≤ 1 / 100000) {L E : ℝ → ℝ}
    (hL : LnLike e L) (hE : ExpLike e E) {c C d : ℝ} (hc : 0 ≤ c) (hC : 0 ≤ C) (hd : 0 ≤ d) (hd' : d ≤ 1 / 1000)
    (h : |c - C| ≤ d * (C - (5700 - 1200 * Real.logb 2 440)))
    (hr : (d + 9 * (eps p + 2 * eps 53 + e)) * Real.log (440 * 2 ^ ((C - 5700) / 1200)) ≤ 1 / 200) :
    Within ((1.1 * d + 8.5 * (eps p + 2 * eps 53 + e)) * Real.log (440 * 2 ^ ((C - 5700) / 1200)) + 1.1 * (eps p + 2 * eps 53 + e))
      (cent2hertz p L E c) (440 * 2 ^ ((C - 5700) / 1200)) := by
  have hv := eps_pos 53
  have hw := eps_pos p
  have hvs := eps_dbl
  have hws := eps_small hp
  obtain ⟨o1, o2⟩ := octaves440
  have h3 := centQ_err hp he (by linarith) hL
  have l2 : 0 < Real.log 2 := Real.log_pos (by norm_num)
  have hH : (0 : ℝ) < 440 * 2 ^ ((C - 5700) / 1200) := by positivity
  have ex : (C - (5700 - 1200 * Real.logb 2 440)) / (1200 / Real.log 2) = Real.log (440 * 2 ^ ((C - 5700) / 1200)) := by
    rw [Real.log_mul (by norm_num) (by positivity), Real.log_rpow (by norm_num), Real.logb]
    field_simp
    ring
  set H := (440 : ℝ) * 2 ^ ((C - 5700) / 1200)
  set o := Real.logb 2 440
  set q' := centQ p L
  set s := eps p + 2 * eps 53 + e with hs
  have s0 : 0 < s := by positivity
  have ss : s ≤ 1 / 50000 := by linarith
  set N := C - (5700 - 1200 * o)
  have hN : 4836 ≤ N := by simp only [N]; linarith
  have h4 : Within (d + 4.8 * s) (c - q') N := by
    unfold Within
    rw [abs_of_pos (by linarith : 0 < N)]
    have : c - q' - N = (c - C) - (q' - (5700 - 1200 * o)) := by simp only [N]; ring
    rw [this]
    refine (abs_sub _ _).trans ?_
    have : 4836 * s ≤ N * s := mul_le_mul_of_nonneg_right hN s0.le
    linarith
  have h5 := within_mono (near_rnd_of (p := p) h4) (step hw.le le_rfl le_rfl (by linarith))
  have i1 := within_inv (div_pos (by norm_num) l2).ne' (by positivity) (by linarith) (centP_within hp he (by linarith) hL)
  have h6 := within_mono (within_mul2 (by positivity) h5 i1) (step (by positivity) le_rfl le_rfl (by linarith))
  rw [← div_eq_mul_inv, ← div_eq_mul_inv, ex] at h6
  have h7 := within_mono (near_rnd_of (p := p) h6) (step hw.le le_rfl le_rfl (by linarith))
  have h7 : Within (1.02 * d + 8.2 * s) (rnd p (rnd p (c - q') / centP p L)) (Real.log H) :=
    within_mono h7 (by linarith)
  have h7 : |rnd p (rnd p (c - q') / centP p L) - Real.log H| ≤ (1.02 * d + 8.2 * s) * |Real.log H| := h7
  have lH : 0 ≤ Real.log H := by
    rw [← ex]
    have : 0 < 1200 / Real.log 2 := by positivity
    exact div_nonneg (by linarith) this.le
  rw [abs_of_nonneg lH] at h7
  have k1 : 0 ≤ d * Real.log H := mul_nonneg hd lH
  have k2 : 0 ≤ s * Real.log H := mul_nonneg s0.le lH
  have h8 := exp_within h7 (by linarith)
  rw [Real.exp_log hH] at h8
  have h9 := within_mono (within_trans he (hE.near _) h8) (step he le_rfl le_rfl (by linarith))
  have h10 := within_mono (near_rnd_of (p := p) h9) (step hw.le le_rfl le_rfl (by linarith))
  have ok : cent2hertz p L E c = rnd p (E (rnd p (rnd p (c - q') / centP p L))) := by
    simp only [cent2hertz, abs_of_nonneg hc, Num.sign, not_lt.2 hc, if_false, one_mul]
    rfl
  rw [ok]
  exact within_mono h10 (by linarith)

/-- **C120 (cents).**  Let the natural logarithms (of `double` and of the type used) and the exponential have relative
errors of at most `e`, and let `s` be 2^-p + 2 * 2^-53 + e.  The cents of a positive frequency are off by at most `s` times
28000 plus 3.2 times 1200 log2 f; the frequency of `c ≥ 0` cents, and every frequency from 27.5 Hz on converted there and
back, has a relative error of a few `s` times its logarithm. -/
theorem C120_cent {p : ℕ} (hp : 24 ≤ p) {e : ℝ} (he : 0 ≤ e) (hl : e ≤ 1 / 100000) {L Lp E : ℝ → ℝ}
    (hL : LnLike e L) (hLp : LnLike e Lp) (hE : ExpLike e E) {s : ℝ} (hs : s = 2 ^ (-(p : ℤ)) + 2 * 2 ^ (-53 : ℤ) + e) :
    (∀ f, 0 < f → ∃ c, hertz2cent p L Lp f = .ok c ∧
      |c - (5700 + 1200 * Real.logb 2 (f / 440))| ≤ s * (3.2 * |1200 * Real.logb 2 f| + 28000)) ∧
    (∀ c, 0 ≤ c → s * Real.log (440 * 2 ^ ((c - 5700) / 1200)) ≤ 1 / 2000 →
      Within (s * (8.5 * Real.log (440 * 2 ^ ((c - 5700) / 1200)) + 1.1)) (cent2hertz p L E c) (440 * 2 ^ ((c - 5700) / 1200))) ∧
    (∀ f, 27.5 ≤ f → s * Real.log f ≤ 1 / 4000 → ∃ c, hertz2cent p L Lp f = .ok c ∧
      Within (s * (18 * Real.log f + 1.1)) (cent2hertz p L E c) f) := by
  have hv := eps_pos 53
  have hw := eps_pos p
  have hvs := eps_dbl
  have hws := eps_small hp
  have hs : s = eps p + 2 * eps 53 + e := hs
  have s0 : 0 < s := by rw [hs]; positivity
  have ss : s ≤ 1 / 50000 := by linarith
  obtain ⟨o1, o2⟩ := octaves440
  refine ⟨fun f hf => ?_, fun c hc hb => ?_, fun f hf hb => ?_⟩
  · rw [hs]
    exact hertz2cent_near hp he hl hL hLp hf
  · have := cent2hertz_near hp he hl hL hE hc hc le_rfl (by norm_num) (by rw [sub_self, abs_zero, zero_mul]) (d := 0)
      (by rw [← hs]; linarith)
    rw [← hs] at this
    exact within_mono this (le_of_eq (by ring))
  · have f0 : 0 < f := by linarith
    obtain ⟨c, e1, e2⟩ := hertz2cent_near hp he hl hL hLp f0
    rw [← hs] at e2
    refine ⟨c, e1, ?_⟩
    have lo : Real.logb 2 440 - 4 ≤ Real.logb 2 f := by
      have h : Real.logb 2 27.5 = Real.logb 2 440 - 4 := by
        rw [show (27.5 : ℝ) = 440 / 2 ^ (4 : ℝ) by norm_num, Real.logb_div (by norm_num) (by positivity),
          Real.logb_rpow (by norm_num) (by norm_num)]
      rw [← h]
      exact Real.logb_le_logb_of_le (by norm_num) (by norm_num) hf
    have hx : Real.logb 2 (f / 440) = Real.logb 2 f - Real.logb 2 440 := Real.logb_div f0.ne' (by norm_num)
    have hH : 440 * (2 : ℝ) ^ ((5700 + 1200 * Real.logb 2 (f / 440) - 5700) / 1200) = f := by
      rw [add_sub_cancel_left, mul_div_cancel_left₀ _ (by norm_num), Real.rpow_logb (by norm_num) (by norm_num) (by positivity)]
      field_simp
    have hlf : Real.logb 2 f ≤ 1.5 * Real.log f := by
      have l2 := Real.log_two_gt_d9
      have lf : 0 ≤ Real.log f := Real.log_nonneg (by linarith)
      rw [Real.logb, div_le_iff₀ (by linarith)]
      nlinarith
    rw [abs_of_pos (by linarith : 0 < 1200 * Real.logb 2 f)] at e2
    have k1 : s * Real.logb 2 f ≤ s * (1.5 * Real.log f) := mul_le_mul_of_nonneg_left hlf s0.le
    have e3 : |c - (5700 + 1200 * Real.logb 2 (f / 440))| ≤ 100 := by linarith
    have hC : 900 ≤ 5700 + 1200 * Real.logb 2 (f / 440) := by rw [hx]; linarith
    have hc : 0 ≤ c := by rw [abs_le] at e3; linarith
    have k2 : s * 5736 ≤ s * (1200 * Real.logb 2 f) := mul_le_mul_of_nonneg_left (by linarith) s0.le
    have := cent2hertz_near hp he hl hL hE hc (by linarith : 0 ≤ 5700 + 1200 * Real.logb 2 (f / 440))
      (by positivity : 0 ≤ 8.1 * s) (by linarith) (by rw [hx] at e2 ⊢; linarith) (by rw [hH, ← hs]; linarith)
    rw [hH, ← hs] at this
    have k3 : 0 ≤ s * Real.log f := mul_nonneg s0.le (Real.log_nonneg (by linarith))
    exact within_mono this (by linarith)

theorem raw_near {f : ℝ} (hf : 0 ≤ f) :
    (∃ q, div (dbl (dbl 26.81 * f)) (dbl (1960 + f)) = .ok q ∧ |dbl (q - dbl 0.53) - C36.rawBark f| ≤ 140 * eps 53) ∧
    -0.53 ≤ C36.rawBark f ∧ C36.rawBark f < 26.28 := by
  have hv := eps_pos 53
  have hvs := eps_dbl
  have h1 := within_mono (near_rnd_of (p := 53) (within_mul f (near_rnd 53 26.81))) (step hv.le le_rfl le_rfl (by linarith))
  have h2 := within_inv (by linarith : 1960 + f ≠ 0) hv.le (by linarith) (near_rnd 53 (1960 + f))
  have h3 := within_mono (within_mul2 (by linarith) h1 h2) (step (by linarith) le_rfl le_rfl (by linarith))
  rw [← div_eq_mul_inv, ← div_eq_mul_inv] at h3
  have h4 := within_mono (near_rnd_of (p := 53) h3) (step hv.le le_rfl le_rfl (by linarith))
  have hlt := C36.rawBark_lt hf
  have q0 : 0 ≤ 26.81 * f / (1960 + f) := by positivity
  have raw : C36.rawBark f = 26.81 * f / (1960 + f) - 0.53 := rfl
  have hne : dbl (1960 + f) ≠ 0 := (rnd_pos (by norm_num) (by linarith)).ne'
  refine ⟨⟨_, if_neg hne, ?_⟩, by rw [raw]; linarith, hlt⟩
  rw [raw] at hlt ⊢
  set q := 26.81 * f / (1960 + f)
  set q' := dbl (dbl (dbl 26.81 * f) / dbl (1960 + f))
  have h4 : |q' - q| ≤ _ * |q| := h4
  rw [abs_of_nonneg q0] at h4
  have h5 : |q' - q| ≤ 110 * eps 53 := by
    have : (1.01 * eps 53 + (1.01 * (1.01 * eps 53 + eps 53) + 1.02 * eps 53)) * q ≤
        (1.01 * eps 53 + (1.01 * (1.01 * eps 53 + eps 53) + 1.02 * eps 53)) * 26.81 :=
      mul_le_mul_of_nonneg_left (by linarith) (by linarith)
    linarith
  have h6 : |dbl 0.53 - 0.53| ≤ eps 53 * |0.53| := near_rnd 53 0.53
  rw [abs_of_pos (by norm_num : (0 : ℝ) < 0.53)] at h6
  have h7 : |q' - dbl 0.53 - (q - 0.53)| ≤ 111 * eps 53 := by
    have : q' - dbl 0.53 - (q - 0.53) = (q' - q) - (dbl 0.53 - 0.53) := by ring
    rw [this]
    exact (abs_sub _ _).trans (by linarith)
  have h8 : |q' - dbl 0.53| ≤ 27 := by
    rw [abs_le] at h7 ⊢
    constructor <;> linarith
  have h9 : |dbl (q' - dbl 0.53) - (q' - dbl 0.53)| ≤ eps 53 * |q' - dbl 0.53| := near_rnd 53 _
  have h10 := mul_le_mul_of_nonneg_left h8 hv.le
  have h11 := abs_sub_le (dbl (q' - dbl 0.53)) (q' - dbl 0.53) (q - 0.53)
  linarith

theorem corrected_lip (a b : ℝ) : |C36.corrected a - C36.corrected b| ≤ 1.22 * |a - b| := by
  have key : ∀ a b : ℝ, a ≤ b → 0 ≤ C36.corrected b - C36.corrected a ∧
      C36.corrected b - C36.corrected a ≤ 1.22 * (b - a) := by
    intro a b h
    unfold C36.corrected
    split_ifs <;> constructor <;> norm_num at * <;> linarith
  rcases le_total a b with h | h
  · obtain ⟨h1, h2⟩ := key a b h
    rw [abs_sub_comm, abs_of_nonneg h1, abs_sub_comm, abs_of_nonneg (sub_nonneg.2 h)]
    exact h2
  · obtain ⟨h1, h2⟩ := key b a h
    rw [abs_of_nonneg h1, abs_of_nonneg (sub_nonneg.2 h)]
    exact h2

theorem lit_near {x : ℝ} (hx : 0 ≤ x) : x - eps 53 * x ≤ dbl x ∧ dbl x ≤ x + eps 53 * x := by
  have h : |dbl x - x| ≤ eps 53 * |x| := near_rnd 53 x
  rw [abs_of_nonneg hx, abs_le] at h
  constructor <;> linarith

/-- A rounded value of known size. -/
theorem abs_rnd (p : ℕ) {x M : ℝ} (h : |x| ≤ M) : x - eps p * M ≤ rnd p x ∧ rnd p x ≤ x + eps p * M := by
  have h1 : |rnd p x - x| ≤ eps p * |x| := near_rnd p x
  have h2 := mul_le_mul_of_nonneg_left h (eps_pos p).le
  rw [abs_le] at h1
  constructor <;> linarith

/-- The last two operations of the corrected value. -/
theorem piece_near {b c k t M : ℝ} (hk : 0 ≤ k) (hk1 : k ≤ 1 / 4) (ht : |t| ≤ M) (hM : M ≤ 8) (hb : |b| ≤ 27) (hc : c = dbl k) :
    |dbl (b + dbl (c * dbl t)) - (b + k * t)| ≤ 37 * eps 53 := by
  have hv := eps_pos 53
  have hvs := eps_dbl
  subst hc
  have h1 := within_mono (within_mul2 hv.le (near_rnd 53 k) (near_rnd 53 t)) (step hv.le le_rfl le_rfl (by linarith))
  have h2 := within_mono (near_rnd_of (p := 53) h1) (step hv.le le_rfl le_rfl (by linarith))
  have h2 : |dbl (dbl k * dbl t) - k * t| ≤ _ * |k * t| := h2
  have h3 : |k * t| ≤ 2 := by
    rw [abs_mul, abs_of_nonneg hk]
    have := mul_le_mul hk1 (ht.trans hM) (abs_nonneg t) (by norm_num)
    linarith
  have h4 := mul_le_mul_of_nonneg_left h3 (by linarith : 0 ≤ 1.01 * eps 53 + (1.01 * eps 53 + eps 53))
  set x := dbl (dbl k * dbl t)
  have h5 : |x - k * t| ≤ 6.2 * eps 53 := by linarith
  have h6 : |b + x| ≤ 30 := by
    rw [abs_le] at *
    constructor <;> linarith
  obtain ⟨h7, h8⟩ := abs_rnd 53 h6
  rw [abs_le] at *
  constructor <;> linarith

theorem hertz2bark_near {p : ℕ} (hp : 24 ≤ p) {f : ℝ} (hf : 0 ≤ f) :
    ∃ z, hertz2bark p f = .ok z ∧ |z - C36.corrected (C36.rawBark f)| ≤
      eps p * |C36.corrected (C36.rawBark f)| + 230 * eps 53 := by
  have hv := eps_pos 53
  have hw := eps_pos p
  have hvs := eps_dbl
  have hws := eps_small hp
  obtain ⟨⟨q, e1, h1⟩, h2, h3⟩ := raw_near hf
  set b := dbl (q - dbl 0.53)
  have hl := corrected_lip b (C36.rawBark f)
  set Z := C36.corrected (C36.rawBark f)
  have hb : -0.54 ≤ b ∧ b ≤ 26.29 := by
    rw [abs_le] at h1
    constructor <;> linarith
  have hb' : |b| ≤ 27 := by rw [abs_le]; constructor <;> linarith
  obtain ⟨l1, l2⟩ := lit_near (x := 20.1) (by norm_num)
  -- any `r` near the corrected value will do
  have fin : ∀ r, |r - C36.corrected b| ≤ 45 * eps 53 → |rnd p r - Z| ≤ eps p * |Z| + 230 * eps 53 := by
    intro r hr
    have a : |r - Z| ≤ 220 * eps 53 := by
      have := abs_sub_le r (C36.corrected b) Z
      linarith
    have c : |rnd p r - r| ≤ eps p * |r| := near_rnd p r
    have d : |r| ≤ |Z| + 220 * eps 53 := by
      have : |r| ≤ |r - Z| + |Z| := by simpa using abs_add_le (r - Z) Z
      linarith
    have g := mul_le_mul_of_nonneg_left d hw.le
    have k := abs_sub_le (rnd p r) r Z
    have m : eps p * eps 53 ≤ 1 / 16777216 * eps 53 := mul_le_mul_of_nonneg_right hws hv.le
    linarith
  simp only [hertz2bark, e1, bind, Except.bind, pure, Except.pure]
  change ∃ z, (if b < 2 then Except.ok (rnd p (dbl (b + dbl (dbl 0.15 * dbl (2 - b)))))
    else if b > dbl 20.1 then Except.ok (rnd p (dbl (b + dbl (dbl 0.22 * dbl (b - dbl 20.1)))))
    else Except.ok (rnd p b)) = Except.ok z ∧ |z - Z| ≤ eps p * |Z| + 230 * eps 53
  by_cases c1 : b < 2
  · rw [if_pos c1]
    refine ⟨_, rfl, fin _ ?_⟩
    have h := piece_near (b := b) (c := dbl 0.15) (k := 0.15) (t := 2 - b) (M := 8) (by norm_num) (by norm_num)
      (by rw [abs_le]; constructor <;> linarith) le_rfl hb' rfl
    rw [C36.corrected, if_pos c1]
    linarith
  · rw [if_neg c1]
    by_cases c2 : b > dbl 20.1
    · rw [if_pos c2]
      refine ⟨_, rfl, fin _ ?_⟩
      have h := piece_near (b := b) (c := dbl 0.22) (k := 0.22) (t := b - dbl 20.1) (M := 8) (by norm_num) (by norm_num)
        (by rw [abs_le]; constructor <;> linarith) le_rfl hb' rfl
      set r := dbl (b + dbl (dbl 0.22 * dbl (b - dbl 20.1)))
      rw [C36.corrected, if_neg c1]
      rw [abs_le] at h ⊢
      split_ifs <;> constructor <;> linarith
    · rw [if_neg c2]
      refine ⟨_, rfl, fin _ ?_⟩
      rw [C36.corrected, if_neg c1, abs_le]
      split_ifs <;> constructor <;> linarith

/-- The inverse of the corrections. -/
noncomputable def uncorrected (z : ℝ) : ℝ :=
  if z < 2 then (20 * z - 6) / 17 else if z > 20.1 then (50 * z + 221.1) / 61 else z

theorem uncorrected_lip (a b : ℝ) : |uncorrected a - uncorrected b| ≤ 1.18 * |a - b| := by
  have key : ∀ a b : ℝ, a ≤ b → 0 ≤ uncorrected b - uncorrected a ∧ uncorrected b - uncorrected a ≤ 1.18 * (b - a) := by
    intro a b h
    unfold uncorrected
    split_ifs <;> constructor <;> norm_num at * <;> linarith
  rcases le_total a b with h | h
  · obtain ⟨h1, h2⟩ := key a b h
    rw [abs_sub_comm, abs_of_nonneg h1, abs_sub_comm, abs_of_nonneg (sub_nonneg.2 h)]
    exact h2
  · obtain ⟨h1, h2⟩ := key b a h
    rw [abs_of_nonneg h1, abs_of_nonneg (sub_nonneg.2 h)]
    exact h2

theorem barkOf_near {p : ℕ} (hp : 24 ≤ p) {z : ℝ} (h1 : -1 ≤ z) (h2 : z ≤ 27.7) :
    |barkOf p z - uncorrected z| ≤ 27.1 * eps p + 90 * eps 53 := by
  have hv := eps_pos 53
  have hw := eps_pos p
  have hvs := eps_dbl
  have hws := eps_small hp
  obtain ⟨l1, l2⟩ := lit_near (x := 20.1) (by norm_num)
  unfold barkOf uncorrected
  by_cases c1 : z < 2
  · rw [if_pos c1, if_pos c1]
    obtain ⟨a1, a2⟩ := abs_rnd 53 (x := 20 * z) (M := 40) (by rw [abs_le]; constructor <;> linarith)
    obtain ⟨b1, b2⟩ := abs_rnd 53 (x := dbl (20 * z) - 6) (M := 47) (by rw [abs_le]; constructor <;> linarith)
    obtain ⟨c1, c2⟩ := abs_rnd 53 (x := dbl (dbl (20 * z) - 6) / 17) (M := 3) (by rw [abs_le]; constructor <;> linarith)
    obtain ⟨d1, d2⟩ := abs_rnd p (x := dbl (dbl (dbl (20 * z) - 6) / 17)) (M := 4)
      (by rw [abs_le]; constructor <;> linarith)
    rw [abs_le]
    constructor <;> linarith
  · rw [if_neg c1, if_neg c1]
    by_cases c2 : z > dbl 20.1
    · rw [if_pos c2]
      obtain ⟨m1, m2⟩ := lit_near (x := 221.1) (by norm_num)
      obtain ⟨a1, a2⟩ := abs_rnd 53 (x := 50 * z) (M := 1385) (by rw [abs_le]; constructor <;> linarith)
      obtain ⟨b1, b2⟩ := abs_rnd 53 (x := dbl (50 * z) + dbl 221.1) (M := 1607) (by rw [abs_le]; constructor <;> linarith)
      obtain ⟨c3, c4⟩ := abs_rnd 53 (x := dbl (dbl (50 * z) + dbl 221.1) / 61) (M := 27)
        (by rw [abs_le]; constructor <;> linarith)
      obtain ⟨d1, d2⟩ := abs_rnd p (x := dbl (dbl (dbl (50 * z) + dbl 221.1) / 61)) (M := 27.1)
        (by rw [abs_le]; constructor <;> linarith)
      rw [abs_le]
      split_ifs <;> constructor <;> linarith
    · rw [if_neg c2, abs_le]
      split_ifs <;> constructor <;> linarith

/-- The quotient of the two expressions of line 54. -/
theorem quotient_near {N D f h : ℝ} (hf : 0 ≤ f) (h0 : 0 < h) (hs : h * (1960 + f) ≤ 525)
    (hNe : |N - 1960 * (26.81 * f / (1960 + f))| ≤ 1960 * h) (hDe : |D - 52547.6 / (1960 + f)| ≤ h) :
    D ≠ 0 ∧ |N / D - f| ≤ 1.02 * (h * (1960 + f) ^ 2 / 52547.6) := by
  have s0 : 0 < 1960 + f := by linarith
  have t0 : 0 < 52547.6 / (1960 + f) := by positivity
  obtain ⟨ρ, hρ⟩ : ∃ ρ, ρ = h * (1960 + f) / 52547.6 := ⟨_, rfl⟩
  have ρ0 : 0 < ρ := by rw [hρ]; positivity
  have ρ1 : ρ ≤ 1 / 100 := by rw [hρ, div_le_iff₀ (by norm_num)]; linarith
  have hDw : Within ρ D (52547.6 / (1960 + f)) := by
    unfold Within
    rw [abs_of_pos t0]
    refine hDe.trans (le_of_eq ?_)
    rw [hρ]
    field_simp
  have hDi := within_inv t0.ne' ρ0.le ρ1 hDw
  have hDi : |D⁻¹ - (52547.6 / (1960 + f))⁻¹| ≤ 1.02 * ρ * |(52547.6 / (1960 + f))⁻¹| := hDi
  have hDne : D ≠ 0 := by
    intro hc
    rw [hc] at hDw
    have hDw : |0 - 52547.6 / (1960 + f)| ≤ ρ * |52547.6 / (1960 + f)| := hDw
    rw [zero_sub, abs_neg, abs_of_pos t0] at hDw
    nlinarith
  refine ⟨hDne, ?_⟩
  have i0 : 0 < (1960 + f) / 52547.6 := by positivity
  rw [inv_div, abs_of_pos i0] at hDi
  have hDle : |D⁻¹| ≤ 1.02 * ((1960 + f) / 52547.6) := by
    have a : |D⁻¹| ≤ |D⁻¹ - (1960 + f) / 52547.6| + |(1960 + f) / 52547.6| := by
      simpa using abs_add_le (D⁻¹ - (1960 + f) / 52547.6) ((1960 + f) / 52547.6)
    rw [abs_of_pos i0] at a
    have c : 1.02 * ρ * ((1960 + f) / 52547.6) ≤ 0.0102 * ((1960 + f) / 52547.6) :=
      mul_le_mul_of_nonneg_right (by linarith) i0.le
    linarith
  have a : N / D - f = (N - 1960 * (26.81 * f / (1960 + f))) * D⁻¹ +
      1960 * (26.81 * f / (1960 + f)) * (D⁻¹ - (1960 + f) / 52547.6) := by
    rw [div_eq_mul_inv]
    field_simp
    ring
  have n0 : 0 ≤ 1960 * (26.81 * f / (1960 + f)) := by positivity
  rw [a]
  refine (abs_add_le _ _).trans ?_
  rw [abs_mul, abs_mul, abs_of_nonneg n0]
  have c := mul_le_mul hNe hDle (abs_nonneg _) (by positivity)
  have d := mul_le_mul_of_nonneg_left hDi n0
  have c' : 1960 * h * (1.02 * ((1960 + f) / 52547.6)) = 1.02 * ρ * 1960 := by rw [hρ]; ring
  have d' : 1960 * (26.81 * f / (1960 + f)) * (1.02 * ρ * ((1960 + f) / 52547.6)) = 1.02 * ρ * f := by
    field_simp
    ring
  have m : 1.02 * (h * (1960 + f) ^ 2 / 52547.6) = 1.02 * ρ * 1960 + 1.02 * ρ * f := by rw [hρ]; ring
  linarith

theorem bark2hertz_ok (p : ℕ) (z : ℝ) (hD : dbl (dbl 26.28 - barkOf p z) ≠ 0) :
    bark2hertz p z = .ok (rnd p (dbl (dbl (1960 * dbl (barkOf p z + dbl 0.53)) / dbl (dbl 26.28 - barkOf p z)))) := by
  simp only [bark2hertz, div, if_neg hD, bind, Except.bind, pure, Except.pure]

/-- The two last roundings. -/
theorem last_near {p : ℕ} (hp : 24 ≤ p) {q f X : ℝ} (hf : 0 ≤ f) (hX : 0 ≤ X) (h : |q - f| ≤ 1.02 * X) :
    |rnd p (dbl q) - f| ≤ 1.022 * X + 1.02 * (eps p + eps 53) * f := by
  have hv := eps_pos 53
  have hw := eps_pos p
  have hvs := eps_dbl
  have hws := eps_small hp
  have a : Within (1.01 * eps p + eps 53) (rnd p (dbl q)) q :=
    within_mono (near_rnd_of (p := p) (near_rnd 53 q)) (step hw.le le_rfl le_rfl (by linarith))
  have a : |rnd p (dbl q) - q| ≤ (1.01 * eps p + eps 53) * |q| := a
  have c : |q| ≤ f + 1.02 * X := by
    have : |q| ≤ |q - f| + |f| := by simpa using abs_add_le (q - f) f
    rw [abs_of_nonneg hf] at this
    linarith
  have d := a.trans (mul_le_mul_of_nonneg_left c (by positivity : 0 ≤ 1.01 * eps p + eps 53))
  have g := abs_sub_le (rnd p (dbl q)) q f
  have k : (1.01 * eps p + eps 53) * X ≤ 1 / 1000 * X := mul_le_mul_of_nonneg_right (by linarith) hX
  have o : 0 ≤ eps p * f := by positivity
  have o' : 0 ≤ eps 53 * f := by positivity
  linarith

/-- **C120 (cents of negative values).**  Both conversions take the sign of their argument along, to the last bit. -/
theorem C120_cent_sign (p : ℕ) (L Lp E : ℝ → ℝ) {x : ℝ} (hx : 0 < x) :
    cent2hertz p L E (-x) = -cent2hertz p L E x ∧
    ∃ c, hertz2cent p L Lp x = .ok c ∧ hertz2cent p L Lp (-x) = .ok (-c) := by
  have h1 : Num.sign (-x) = -1 := if_pos (by linarith)
  have h2 : Num.sign x = 1 := if_neg (by linarith)
  constructor
  · rw [cent2hertz, cent2hertz, abs_neg, h1, h2]; ring
  · refine ⟨rnd p (rnd p (centP p L * Lp x) + centQ p L), ?_, ?_⟩
    · rw [hertz2cent, h2, abs_of_pos hx, RndAud.log, if_neg (not_le.mpr hx)]
      simp only [bind, Except.bind, one_mul]; rfl
    · rw [hertz2cent, h1, abs_neg, abs_of_pos hx, RndAud.log, if_neg (not_le.mpr hx)]
      simp only [bind, Except.bind, neg_one_mul]; rfl

/-- **C120 (Bark).**  The Bark value of a frequency from 0 on, with the corrections at both ends, is off by a rounding to
`p` bits and at most 230 * 2^-53; a frequency converted there and back is off by at most
(2^-p / 800 + 2^-53 / 120) (1960 + f)^2 hertz plus a rounding. -/
theorem C120_bark {p : ℕ} (hp : 24 ≤ p) (hq : p ≤ 53) {f : ℝ} (hf : 0 ≤ f) :
    ∃ z, hertz2bark p f = .ok z ∧ |z - C36.corrected (26.81 * f / (1960 + f) - 0.53)| ≤
        2 ^ (-(p : ℤ)) * |C36.corrected (26.81 * f / (1960 + f) - 0.53)| + 230 * 2 ^ (-53 : ℤ) ∧
      (2 ^ (-(p : ℤ)) * (1960 + f) ≤ 1 → ∃ g, bark2hertz p z = .ok g ∧ |g - f| ≤
        (2 ^ (-(p : ℤ)) / 800 + 2 ^ (-53 : ℤ) / 120) * (1960 + f) ^ 2 + 1.02 * (2 ^ (-(p : ℤ)) + 2 ^ (-53 : ℤ)) * f) := by
  have hv := eps_pos 53
  have hw := eps_pos p
  have hvs := eps_dbl
  have hws := eps_small hp
  have hvw := eps_mono hq
  obtain ⟨z, e1, h1⟩ := hertz2bark_near hp hf
  refine ⟨z, e1, h1, fun hb => ?_⟩
  have hb : eps p * (1960 + f) ≤ 1 := hb
  change ∃ g, bark2hertz p z = .ok g ∧ |g - f| ≤
    (eps p / 800 + eps 53 / 120) * (1960 + f) ^ 2 + 1.02 * (eps p + eps 53) * f
  obtain ⟨-, r1, r2⟩ := raw_near hf
  have hZ : -0.16 ≤ C36.corrected (C36.rawBark f) ∧ C36.corrected (C36.rawBark f) ≤ 27.65 := by
    unfold C36.corrected
    split_ifs <;> constructor <;> linarith
  have hU : uncorrected (C36.corrected (C36.rawBark f)) = C36.rawBark f := C36.uncorrect _
  set Z := C36.corrected (C36.rawBark f)
  have hZ' : |Z| ≤ 27.65 := by rw [abs_le]; constructor <;> linarith
  have h2 : |z - Z| ≤ 27.65 * eps p + 230 * eps 53 := by
    have := mul_le_mul_of_nonneg_left hZ' hw.le
    linarith
  have hz : -1 ≤ z ∧ z ≤ 27.7 := by
    rw [abs_le] at h2
    constructor <;> linarith
  have h3 := barkOf_near hp hz.1 hz.2
  have h4 := uncorrected_lip z Z
  rw [hU] at h4
  have hD : 26.28 - C36.rawBark f = 52547.6 / (1960 + f) := by
    rw [C36.rawBark]; field_simp; ring
  have hN : C36.rawBark f + 0.53 = 26.81 * f / (1960 + f) := by rw [C36.rawBark]; ring
  set b := C36.rawBark f
  have h5 : |barkOf p z - b| ≤ 60 * eps p + 362 * eps 53 := by
    have := abs_sub_le (barkOf p z) (uncorrected z) b
    linarith
  have ok := bark2hertz_ok p z
  set B := barkOf p z
  obtain ⟨l1, l2⟩ := lit_near (x := 0.53) (by norm_num)
  obtain ⟨m1, m2⟩ := lit_near (x := 26.28) (by norm_num)
  rw [abs_le] at h5
  -- the numerator
  obtain ⟨n1, n2⟩ := abs_rnd 53 (x := B + dbl 0.53) (M := 27) (by rw [abs_le]; constructor <;> linarith)
  obtain ⟨n3, n4⟩ := abs_rnd 53 (x := 1960 * dbl (B + dbl 0.53)) (M := 1960 * 27.1)
    (by rw [abs_le]; constructor <;> linarith)
  -- the denominator
  obtain ⟨d1, d2⟩ := abs_rnd 53 (x := dbl 26.28 - B) (M := 27) (by rw [abs_le]; constructor <;> linarith)
  set N := dbl (1960 * dbl (B + dbl 0.53))
  set D := dbl (dbl 26.28 - B)
  change _ ≤ N at n3
  change N ≤ _ at n4
  change _ ≤ D at d1
  change D ≤ _ at d2
  set h := 60 * eps p + 420 * eps 53 with hh
  have hNe : |N - 1960 * (b + 0.53)| ≤ 1960 * h := by rw [abs_le]; constructor <;> linarith
  have hDe : |D - (26.28 - b)| ≤ h := by rw [abs_le]; constructor <;> linarith
  rw [hD] at hDe
  rw [hN] at hNe
  have h0 : 0 < h := by positivity
  have hsm : h * (1960 + f) ≤ 525 := by
    have := mul_le_mul_of_nonneg_right (by linarith : h ≤ 480 * eps p) (by linarith : 0 ≤ 1960 + f)
    linarith
  obtain ⟨hDne, hq⟩ := quotient_near hf h0 hsm hNe hDe
  refine ⟨_, ok hDne, (last_near hp hf (by positivity) hq).trans ?_⟩
  refine add_le_add ?_ le_rfl
  rw [mul_div_assoc', div_le_iff₀ (by norm_num)]
  have := mul_le_mul_of_nonneg_right (by rw [hh]; linarith : 1.022 * h ≤ (eps p / 800 + eps 53 / 120) * 52547.6)
    (sq_nonneg (1960 + f))
  linarith

/-- Exact functions meet the conditions, with any error allowed; 440 Hz. -/
example : Log1pLike (2 ^ (-23 : ℤ)) (fun x => Real.log (1 + x)) ∧ Expm1Like (2 ^ (-23 : ℤ)) (fun x => Real.exp x - 1) ∧
    LnLike (2 ^ (-23 : ℤ)) Real.log ∧ ExpLike (2 ^ (-23 : ℤ)) Real.exp ∧ (2 : ℝ) ^ (-23 : ℤ) ≤ 1 / 100000 ∧
    (2 : ℝ) ^ (-(24 : ℤ)) * (1960 + 440) ≤ 1 ∧
    ((2 : ℝ) ^ (-(24 : ℤ)) + 2 * 2 ^ (-53 : ℤ) + 2 ^ (-23 : ℤ)) * Real.log 440 ≤ 1 / 4000 ∧
    ((2 : ℝ) ^ (-(24 : ℤ)) + 2 ^ (-23 : ℤ)) * Real.log (1 + 440 / 700) ≤ 1 / 2000 ∧
    ((2 : ℝ) ^ (-(24 : ℤ)) + 5 * 2 ^ (-53 : ℤ) + 2 ^ (-23 : ℤ)) * Real.logb 10 (1 + 4.37 * 440 / 1000) ≤ 1 / 10000 := by
  have w : ∀ x : ℝ, Within (2 ^ (-23 : ℤ)) x x := fun x => by unfold Within; rw [sub_self, abs_zero]; positivity
  have h1 : Real.log 440 ≤ 439 := (Real.log_le_sub_one_of_pos (by norm_num)).trans (by norm_num)
  have h2 : Real.log (1 + 440 / 700) ≤ 1 := (Real.log_le_sub_one_of_pos (by norm_num)).trans (by norm_num)
  have h3 : Real.logb 10 (1 + 4.37 * 440 / 1000) ≤ 1 := by
    rw [Real.logb_le_iff_le_rpow (by norm_num) (by norm_num)]
    norm_num
  refine ⟨⟨fun x _ => w _⟩, ⟨fun x => w _⟩, ⟨fun x _ => w _⟩, ⟨fun x => w _⟩, by norm_num, by norm_num, ?_, ?_, ?_⟩
  · norm_num; linarith
  · norm_num at h2 ⊢; linarith
  · norm_num at h3 ⊢; linarith

end Edsp.C120
