import Verif.Props.C16_Rbj
import Mathlib.Analysis.SpecialFunctions.Log.Base

/-!
# C17: the Zoelzer designs

Low-pass, high-pass, band-pass and both shelves with a boost (`gainDb ≥ 0`) have the prescribed
gains.  With a cut (`gainDb < 0`) the claim is false: the low shelf *boosts* by the same number of
decibels, and the high shelf hands the constructor the coefficients in the wrong places.
-/

namespace Edsp.Props

open Edsp Edsp.Spec

/-- `K = tan(π fc / fs)` is defined and positive, and gives sine and cosine of the design
frequency. -/
theorem zoelzer_K {fc fs : ℝ} (h0 : 0 < fc) (h1 : fc < fs / 2) :
    ∃ K : ℝ, (fdiv (Real.pi * fc) fs >>= ctan) = .ok K ∧ 0 < K ∧
      (1 + K ^ 2) * Real.cos (2 * Real.pi * fc / fs) = 1 - K ^ 2 ∧
      (1 + K ^ 2) * Real.sin (2 * Real.pi * fc / fs) = 2 * K ∧
      K = Real.tan (Real.pi * fc / fs) := by
  have hfs : 0 < fs := by linarith
  have hpos : 0 < Real.pi * fc / fs := by have := Real.pi_pos; positivity
  have hlt : Real.pi * fc / fs < Real.pi / 2 := by
    rw [div_lt_iff₀ hfs]; nlinarith [Real.pi_pos]
  have hs : 0 < Real.sin (Real.pi * fc / fs) :=
    Real.sin_pos_of_pos_of_lt_pi hpos (by linarith [Real.pi_pos])
  have hc : 0 < Real.cos (Real.pi * fc / fs) := Real.cos_pos_of_mem_Ioo ⟨by linarith, hlt⟩
  have hsq := Real.sin_sq_add_cos_sq (Real.pi * fc / fs)
  have hw : 2 * Real.pi * fc / fs = 2 * (Real.pi * fc / fs) := by ring
  refine ⟨Real.sin (Real.pi * fc / fs) / Real.cos (Real.pi * fc / fs), ?_, by positivity, ?_, ?_,
    (Real.tan_eq_sin_div_cos _).symm⟩
  · rw [fdiv_ok _ hfs.ne']
    simp only [bind, Except.bind, ctan]
    rw [if_neg hc.ne']
  · rw [hw, Real.cos_two_mul]
    field_simp
    nlinarith
  · rw [hw, Real.sin_two_mul]
    field_simp
    nlinarith

/-- Normalised coefficients describe the same section as the unnormalised ones. -/
theorem ofCoeffs_norm {D : ℝ} (hD : D ≠ 0) (a1 a2 b0 b1 b2 : ℝ) :
    Biquad.ofCoeffs 1 (a1 * (1 / D)) (a2 * (1 / D)) (b0 * (1 / D)) (b1 * (1 / D)) (b2 * (1 / D)) =
      Biquad.ofCoeffs D a1 a2 b0 b1 b2 := by
  unfold Biquad.ofCoeffs
  rw [if_neg one_ne_zero, if_neg hD]
  congr 1
  simp only [Biquad.mk.injEq]
  refine ⟨?_, ?_, ?_, ?_, ?_, ?_⟩ <;> first | ring | simp

/-- The gain at a frequency is a function of the section. -/
theorem gain_unique {f : Biquad ℝ} {w g g' : ℝ} (h : GainAt f w g) (h' : GainAt f w g') : g = g' := by
  obtain ⟨x, ⟨hd, hx⟩, rfl⟩ := h
  obtain ⟨y, ⟨_, hy⟩, rfl⟩ := h'
  rw [hx] at hy
  rw [mul_right_cancel₀ hd hy]

/-- **C17**, low-pass: stable, gain 1 at DC, 0 at Nyquist, `Q` at the cutoff. -/
theorem C17_low_pass (fc fs Q : ℝ) (h0 : 0 < fc) (h1 : fc < fs / 2) (hQ : 0 < Q) :
    ∃ f, Zoelzer.lowPass fc fs Q = .ok f ∧ f.stability = true ∧ GainAt f 0 1 ∧
      GainAt f Real.pi 0 ∧ GainAt f (2 * Real.pi * fc / fs) Q := by
  obtain ⟨K, hK, hKp, hcos, hsin, _⟩ := zoelzer_K h0 h1
  have hq : 0 < K / Q := by positivity
  have hD : 0 < 1 + K / Q + K * K := by positivity
  have e : Zoelzer.lowPass fc fs Q =
      Biquad.ofCoeffs (1 + K / Q + K * K) (2 * (K * K - 1)) (1 - K / Q + K * K)
        (K * K) (2 * (K * K)) (K * K) := by
    unfold Zoelzer.lowPass
    rw [← bind_assoc, hK]
    simp only [bind, Except.bind]
    rw [fdiv_ok _ hQ.ne']
    simp only []
    rw [fdiv_ok _ hD.ne']
    simp only []
    rw [← ofCoeffs_norm hD.ne']
    congr 1; ring
  rw [e]
  obtain ⟨f, hf, hst⟩ := Response.stable_of (a0 := 1 + K / Q + K * K) (a1 := 2 * (K * K - 1))
    (a2 := 1 - K / Q + K * K) (b0 := K * K) (b1 := 2 * (K * K)) (b2 := K * K) hD
    (by rw [abs_lt]; constructor <;> nlinarith) (by rw [abs_lt]; constructor <;> nlinarith)
  refine ⟨f, hf, hst, ?_, ?_, ?_⟩
  · exact Response.gain_dc hf zero_le_one (by intro h; nlinarith) (by ring)
  · exact Response.gain_nyquist hf le_rfl (by intro h; linarith) (by ring)
  · have hp : 0 < 1 + K ^ 2 := by positivity
    set w := 2 * Real.pi * fc / fs
    have hs : 0 < Real.sin w := by
      by_contra h; push Not at h; nlinarith
    have er : (1 + K / Q + K * K + (1 - K / Q + K * K)) * Real.cos w + 2 * (K * K - 1) = 0 := by
      linear_combination 2 * hcos
    have ei : (1 + K / Q + K * K - (1 - K / Q + K * K)) * Real.sin w = 2 * (K / Q) * Real.sin w := by
      ring
    refine Response.gain_at (h := -(Q : ℂ) * Complex.I) hf ?_ ?_ (by simp [abs_of_pos hQ])
    · rw [er, ei]
      have : 2 * (K / Q) * Real.sin w ≠ 0 := by positivity
      have : ((2 * (K / Q) * Real.sin w : ℝ) : ℂ) ≠ 0 := by exact_mod_cast this
      simpa using this
    · have en : (K * K + K * K) * Real.cos w + 2 * (K * K) = Q * (2 * (K / Q) * Real.sin w) := by
        have : Q * (2 * (K / Q) * Real.sin w) = 2 * K * Real.sin w := by field_simp
        rw [this]
        apply mul_left_cancel₀ hp.ne'
        linear_combination (2 * K ^ 2) * hcos - (2 * K) * hsin
      rw [er, ei, en, show K * K - K * K = 0 by ring]
      push_cast
      linear_combination (2 * (K : ℂ) * (Q * (1 / Q)) * Complex.sin w) * Complex.I_sq

/-- **C17**, high-pass: stable, gain 0 at DC, 1 at Nyquist, `Q` at the cutoff. -/
theorem C17_high_pass (fc fs Q : ℝ) (h0 : 0 < fc) (h1 : fc < fs / 2) (hQ : 0 < Q) :
    ∃ f, Zoelzer.highPass fc fs Q = .ok f ∧ f.stability = true ∧ GainAt f 0 0 ∧
      GainAt f Real.pi 1 ∧ GainAt f (2 * Real.pi * fc / fs) Q := by
  obtain ⟨K, hK, hKp, hcos, hsin, _⟩ := zoelzer_K h0 h1
  have hq : 0 < K / Q := by positivity
  have hD : 0 < 1 + K / Q + K * K := by positivity
  have e : Zoelzer.highPass fc fs Q =
      Biquad.ofCoeffs (1 + K / Q + K * K) (2 * (K * K - 1)) (1 - K / Q + K * K) 1 (-2) 1 := by
    unfold Zoelzer.highPass
    rw [← bind_assoc, hK]
    simp only [bind, Except.bind]
    rw [fdiv_ok _ hQ.ne']
    simp only []
    rw [fdiv_ok _ hD.ne']
    simp only []
    rw [← ofCoeffs_norm hD.ne']
    congr 1; ring
  rw [e]
  obtain ⟨f, hf, hst⟩ := Response.stable_of (a0 := 1 + K / Q + K * K) (a1 := 2 * (K * K - 1))
    (a2 := 1 - K / Q + K * K) (b0 := 1) (b1 := -2) (b2 := 1) hD
    (by rw [abs_lt]; constructor <;> nlinarith) (by rw [abs_lt]; constructor <;> nlinarith)
  refine ⟨f, hf, hst, ?_, ?_, ?_⟩
  · exact Response.gain_dc hf le_rfl (by intro h; nlinarith) (by ring)
  · exact Response.gain_nyquist hf zero_le_one (by intro h; linarith) (by ring)
  · have hp : 0 < 1 + K ^ 2 := by positivity
    set w := 2 * Real.pi * fc / fs
    have hs : 0 < Real.sin w := by
      by_contra h; push Not at h; nlinarith
    have er : (1 + K / Q + K * K + (1 - K / Q + K * K)) * Real.cos w + 2 * (K * K - 1) = 0 := by
      linear_combination 2 * hcos
    have ei : (1 + K / Q + K * K - (1 - K / Q + K * K)) * Real.sin w = 2 * (K / Q) * Real.sin w := by
      ring
    refine Response.gain_at (h := (Q : ℂ) * Complex.I) hf ?_ ?_ (by simp [abs_of_pos hQ])
    · rw [er, ei]
      have : 2 * (K / Q) * Real.sin w ≠ 0 := by positivity
      have : ((2 * (K / Q) * Real.sin w : ℝ) : ℂ) ≠ 0 := by exact_mod_cast this
      simpa using this
    · have en : ((1 : ℝ) + 1) * Real.cos w + -2 = -(Q * (2 * (K / Q) * Real.sin w)) := by
        have : Q * (2 * (K / Q) * Real.sin w) = 2 * K * Real.sin w := by field_simp
        rw [this]
        apply mul_left_cancel₀ hp.ne'
        linear_combination 2 * hcos + (2 * K) * hsin
      rw [er, ei, en, show (1 : ℝ) - 1 = 0 by ring]
      push_cast
      linear_combination -(2 * (K : ℂ) * (Q * (1 / Q)) * Complex.sin w) * Complex.I_sq

/-- **C17**, band-pass: stable, gain 0 at DC and at Nyquist, 1 at the centre. -/
theorem C17_band_pass (fc fs Q : ℝ) (h0 : 0 < fc) (h1 : fc < fs / 2) (hQ : 0 < Q) :
    ∃ f, Zoelzer.bandPass fc fs Q = .ok f ∧ f.stability = true ∧ GainAt f 0 0 ∧
      GainAt f Real.pi 0 ∧ GainAt f (2 * Real.pi * fc / fs) 1 := by
  obtain ⟨K, hK, hKp, hcos, hsin, _⟩ := zoelzer_K h0 h1
  have hq : 0 < K / Q := by positivity
  have hD : 0 < 1 + K / Q + K * K := by positivity
  have e : Zoelzer.bandPass fc fs Q =
      Biquad.ofCoeffs (1 + K / Q + K * K) (2 * (K * K - 1)) (1 - K / Q + K * K)
        (K / Q) 0 (-(K / Q)) := by
    unfold Zoelzer.bandPass
    rw [← bind_assoc, hK]
    simp only [bind, Except.bind]
    rw [fdiv_ok _ hQ.ne']
    simp only []
    rw [fdiv_ok _ hD.ne']
    simp only []
    rw [← ofCoeffs_norm hD.ne']
    congr 1 <;> ring
  rw [e]
  obtain ⟨f, hf, hst⟩ := Response.stable_of (a0 := 1 + K / Q + K * K) (a1 := 2 * (K * K - 1))
    (a2 := 1 - K / Q + K * K) (b0 := K / Q) (b1 := 0) (b2 := -(K / Q)) hD
    (by rw [abs_lt]; constructor <;> nlinarith) (by rw [abs_lt]; constructor <;> nlinarith)
  refine ⟨f, hf, hst, ?_, ?_, ?_⟩
  · exact Response.gain_dc hf le_rfl (by intro h; nlinarith) (by ring)
  · exact Response.gain_nyquist hf le_rfl (by intro h; linarith) (by ring)
  · have hp : 0 < 1 + K ^ 2 := by positivity
    set w := 2 * Real.pi * fc / fs
    have hs : 0 < Real.sin w := by
      by_contra h; push Not at h; nlinarith
    have er : (1 + K / Q + K * K + (1 - K / Q + K * K)) * Real.cos w + 2 * (K * K - 1) = 0 := by
      linear_combination 2 * hcos
    have ei : (1 + K / Q + K * K - (1 - K / Q + K * K)) * Real.sin w = 2 * (K / Q) * Real.sin w := by
      ring
    refine Response.gain_at (h := 1) hf ?_ ?_ (by simp)
    · rw [er, ei]
      have : 2 * (K / Q) * Real.sin w ≠ 0 := by positivity
      have : ((2 * (K / Q) * Real.sin w : ℝ) : ℂ) ≠ 0 := by exact_mod_cast this
      simpa using this
    · rw [er, ei]; push_cast; ring

/-- The gain in decibels as a ratio: positive, and its square root splits. -/
theorem zoelzer_V (g : ℝ) : 0 < Zoelzer.db2mag g := Real.rpow_pos_of_pos (by norm_num) _

/-- **C17**, low shelf, boost: stable, gain `10^(gainDb/20)` at DC, 1 at Nyquist. -/
theorem C17_low_shelf_boost_partial (fc fs gainDb : ℝ) (h0 : 0 < fc) (h1 : fc < fs / 2)
    (hg : 0 ≤ gainDb) :
    ∃ f, Zoelzer.lowShelf fc fs gainDb = .ok f ∧ f.stability = true ∧
      GainAt f 0 ((10 : ℝ) ^ (gainDb / 20)) ∧ GainAt f Real.pi 1 := by
  obtain ⟨K, hK, hKp, _⟩ := zoelzer_K h0 h1
  have hV := zoelzer_V gainDb
  have hr : 0 < Real.sqrt 2 * K := by positivity
  have hD : 0 < 1 + Real.sqrt 2 * K + K * K := by positivity
  have e : Zoelzer.lowShelf fc fs gainDb =
      Biquad.ofCoeffs (1 + Real.sqrt 2 * K + K * K) (2 * (K * K - 1)) (1 - Real.sqrt 2 * K + K * K)
        (1 + Real.sqrt (2 * Zoelzer.db2mag gainDb) * K + Zoelzer.db2mag gainDb * K * K)
        (2 * (Zoelzer.db2mag gainDb * K * K - 1))
        (1 - Real.sqrt (2 * Zoelzer.db2mag gainDb) * K + Zoelzer.db2mag gainDb * K * K) := by
    unfold Zoelzer.lowShelf
    rw [← bind_assoc, hK]
    simp only [bind, Except.bind, ge_iff_le, hg, if_true]
    rw [fdiv_ok _ hD.ne']
    simp only []
    rw [← ofCoeffs_norm hD.ne']
  rw [e]
  change ∃ f, _ ∧ _ ∧ GainAt f 0 (Zoelzer.db2mag gainDb) ∧ _
  set V := Zoelzer.db2mag gainDb
  obtain ⟨f, hf, hst⟩ := Response.stable_of (a0 := 1 + Real.sqrt 2 * K + K * K)
    (a1 := 2 * (K * K - 1)) (a2 := 1 - Real.sqrt 2 * K + K * K)
    (b0 := 1 + Real.sqrt (2 * V) * K + V * K * K) (b1 := 2 * (V * K * K - 1))
    (b2 := 1 - Real.sqrt (2 * V) * K + V * K * K) hD
    (by rw [abs_lt]; constructor <;> nlinarith) (by rw [abs_lt]; constructor <;> nlinarith)
  refine ⟨f, hf, hst, ?_, ?_⟩
  · exact Response.gain_dc hf hV.le (by intro h; nlinarith) (by ring)
  · exact Response.gain_nyquist hf zero_le_one (by intro h; linarith) (by ring)

/-- **C17**, low shelf, cut: the section is stable with gain 1 at Nyquist, but its gain at DC is
`10^(-gainDb/20)`: asking for a cut of any size yields a boost of that size. -/
theorem C17_low_shelf_cut_violates (fc fs gainDb : ℝ) (h0 : 0 < fc) (h1 : fc < fs / 2)
    (hg : gainDb < 0) :
    ∃ f, Zoelzer.lowShelf fc fs gainDb = .ok f ∧ f.stability = true ∧
      GainAt f 0 ((10 : ℝ) ^ (-gainDb / 20)) ∧ GainAt f Real.pi 1 ∧
      ¬ GainAt f 0 ((10 : ℝ) ^ (gainDb / 20)) := by
  obtain ⟨K, hK, hKp, _⟩ := zoelzer_K h0 h1
  have hV := zoelzer_V gainDb
  have hr : 0 < Real.sqrt (2 * Zoelzer.db2mag gainDb) * K := by positivity
  have hD : 0 < 1 + Real.sqrt (2 * Zoelzer.db2mag gainDb) * K + Zoelzer.db2mag gainDb * K * K := by
    positivity
  have e : Zoelzer.lowShelf fc fs gainDb =
      Biquad.ofCoeffs (1 + Real.sqrt (2 * Zoelzer.db2mag gainDb) * K + Zoelzer.db2mag gainDb * K * K)
        (2 * (Zoelzer.db2mag gainDb * K * K - 1))
        (1 - Real.sqrt (2 * Zoelzer.db2mag gainDb) * K + Zoelzer.db2mag gainDb * K * K)
        (1 + Real.sqrt 2 * K + K * K) (2 * (K * K - 1)) (1 - Real.sqrt 2 * K + K * K) := by
    unfold Zoelzer.lowShelf
    rw [← bind_assoc, hK]
    simp only [bind, Except.bind, ge_iff_le, not_le.mpr hg, if_false]
    rw [fdiv_ok _ hD.ne']
    simp only []
    rw [← ofCoeffs_norm hD.ne']
  rw [e]
  have hinv : (10 : ℝ) ^ (-gainDb / 20) * Zoelzer.db2mag gainDb = 1 := by
    unfold Zoelzer.db2mag
    rw [← Real.rpow_add (by norm_num)]
    rw [show -gainDb / 20 + gainDb / 20 = 0 by ring, Real.rpow_zero]
  have hW : (0 : ℝ) < (10 : ℝ) ^ (-gainDb / 20) := Real.rpow_pos_of_pos (by norm_num) _
  set W := (10 : ℝ) ^ (-gainDb / 20)
  have hlt : Zoelzer.db2mag gainDb < 1 :=
    Real.rpow_lt_one_of_one_lt_of_neg (by norm_num) (by linarith)
  change ∃ f, _ ∧ _ ∧ _ ∧ _ ∧ ¬ GainAt f 0 (Zoelzer.db2mag gainDb)
  set V := Zoelzer.db2mag gainDb
  have hVK : 0 < V * K * K := by positivity
  obtain ⟨f, hf, hst⟩ := Response.stable_of (a0 := 1 + Real.sqrt (2 * V) * K + V * K * K)
    (a1 := 2 * (V * K * K - 1)) (a2 := 1 - Real.sqrt (2 * V) * K + V * K * K)
    (b0 := 1 + Real.sqrt 2 * K + K * K) (b1 := 2 * (K * K - 1))
    (b2 := 1 - Real.sqrt 2 * K + K * K) hD
    (by rw [abs_lt]; constructor <;> linarith) (by rw [abs_lt]; constructor <;> linarith)
  have hdc : GainAt f 0 W :=
    Response.gain_dc hf hW.le (by intro h; linarith) (by linear_combination -(4 * K * K) * hinv)
  refine ⟨f, hf, hst, hdc, ?_, ?_⟩
  · exact Response.gain_nyquist hf zero_le_one (by intro h; linarith) (by ring)
  · intro h
    have := gain_unique hdc h
    rw [this] at hinv
    nlinarith

/-- **C17**, high shelf, boost: stable, gain 1 at DC, `10^(gainDb/20)` at Nyquist. -/
theorem C17_high_shelf_boost_partial (fc fs gainDb : ℝ) (h0 : 0 < fc) (h1 : fc < fs / 2)
    (hg : 0 ≤ gainDb) :
    ∃ f, Zoelzer.highShelf fc fs gainDb = .ok f ∧ f.stability = true ∧
      GainAt f 0 1 ∧ GainAt f Real.pi ((10 : ℝ) ^ (gainDb / 20)) := by
  obtain ⟨K, hK, hKp, _⟩ := zoelzer_K h0 h1
  have hV := zoelzer_V gainDb
  have hr : 0 < Real.sqrt 2 * K := by positivity
  have hD : 0 < 1 + Real.sqrt 2 * K + K * K := by positivity
  have e : Zoelzer.highShelf fc fs gainDb =
      Biquad.ofCoeffs (1 + Real.sqrt 2 * K + K * K) (2 * (K * K - 1)) (1 - Real.sqrt 2 * K + K * K)
        (Zoelzer.db2mag gainDb + Real.sqrt (2 * Zoelzer.db2mag gainDb) * K + K * K)
        (2 * (K * K - Zoelzer.db2mag gainDb))
        (Zoelzer.db2mag gainDb - Real.sqrt (2 * Zoelzer.db2mag gainDb) * K + K * K) := by
    unfold Zoelzer.highShelf
    rw [← bind_assoc, hK]
    simp only [bind, Except.bind, ge_iff_le, hg, if_true]
    rw [fdiv_ok _ hD.ne']
    simp only []
    rw [← ofCoeffs_norm hD.ne']
  rw [e]
  change ∃ f, _ ∧ _ ∧ _ ∧ GainAt f Real.pi (Zoelzer.db2mag gainDb)
  set V := Zoelzer.db2mag gainDb
  obtain ⟨f, hf, hst⟩ := Response.stable_of (a0 := 1 + Real.sqrt 2 * K + K * K)
    (a1 := 2 * (K * K - 1)) (a2 := 1 - Real.sqrt 2 * K + K * K)
    (b0 := V + Real.sqrt (2 * V) * K + K * K) (b1 := 2 * (K * K - V))
    (b2 := V - Real.sqrt (2 * V) * K + K * K) hD
    (by rw [abs_lt]; constructor <;> nlinarith) (by rw [abs_lt]; constructor <;> nlinarith)
  refine ⟨f, hf, hst, ?_, ?_⟩
  · exact Response.gain_dc hf zero_le_one (by intro h; nlinarith) (by ring)
  · exact Response.gain_nyquist hf hV.le (by intro h; linarith) (by ring)

/-- **C17**, high shelf, cut: neither the gain at DC nor the gain at Nyquist is the prescribed one.
Cutoff a quarter of the sample rate, cut to one half: the gain at DC is 5/8 (prescribed 1) and at
Nyquist 1/8 (prescribed 1/2). -/
theorem C17_high_shelf_cut_violates :
    ∃ gainDb : ℝ, gainDb < 0 ∧ (10 : ℝ) ^ (gainDb / 20) = 1 / 2 ∧
      ∃ f, Zoelzer.highShelf 1 4 gainDb = .ok f ∧ GainAt f 0 (5 / 8) ∧ GainAt f Real.pi (1 / 8) ∧
        ¬ GainAt f 0 1 ∧ ¬ GainAt f Real.pi (1 / 2) := by
  have hl : Real.logb 10 (1 / 2) < 0 := Real.logb_neg (by norm_num) (by norm_num) (by norm_num)
  have hV : (10 : ℝ) ^ (20 * Real.logb 10 (1 / 2) / 20) = 1 / 2 := by
    rw [show 20 * Real.logb 10 (1 / 2) / 20 = Real.logb 10 (1 / 2) by ring]
    exact Real.rpow_logb (by norm_num) (by norm_num) (by norm_num)
  refine ⟨20 * Real.logb 10 (1 / 2), by linarith, hV, ?_⟩
  have hneg : ¬ (0 ≤ 20 * Real.logb 10 (1 / 2)) := by linarith
  obtain ⟨K, hK, hKp, _, _, hKt⟩ := zoelzer_K (fc := 1) (fs := 4) (by norm_num) (by norm_num)
  have hK1 : K = 1 := by
    rw [hKt, show Real.pi * 1 / 4 = Real.pi / 4 by ring, Real.tan_pi_div_four]
  subst hK1
  have hD : (0 : ℝ) < 1 / 2 + Real.sqrt (2 * (1 / 2)) * 1 + 1 * 1 := by positivity
  have h1 : Real.sqrt (2 * (1 / 2)) = 1 := by rw [show (2 : ℝ) * (1 / 2) = 1 by norm_num]; simp
  have e : Zoelzer.highShelf 1 4 (20 * Real.logb 10 (1 / 2)) =
      Biquad.ofCoeffs ((1 + Real.sqrt 2 * 1 + 1 * 1) * (1 / (5 / 2)))
        (2 * (1 * 1 - 1) * (1 / (5 / 2))) ((1 - Real.sqrt 2 * 1 + 1 * 1) * (1 / (5 / 2)))
        (2 * (1 * 1 - 1 / 2) * (1 / (5 / 2))) (2 * (1 * 1 - 1 / 2) * (1 / (5 / 2)))
        ((1 / 2 - Real.sqrt (2 * (1 / 2)) * 1 + 1 * 1) * (1 / (5 / 2))) := by
    unfold Zoelzer.highShelf
    rw [← bind_assoc, hK]
    have hVd : Zoelzer.db2mag (20 * Real.logb 10 (1 / 2)) = 1 / 2 := hV
    rw [hVd]
    simp only [bind, Except.bind, ge_iff_le, hneg, if_false]
    rw [fdiv_ok _ hD.ne']
    have : (1 / 2 + Real.sqrt (2 * (1 / 2)) * 1 + 1 * 1 : ℝ) = 5 / 2 := by rw [h1]; norm_num
    rw [this]
  rw [e, h1]
  have hs2 : 0 < Real.sqrt 2 := by positivity
  have hne : (1 + Real.sqrt 2 * 1 + 1 * 1) * (1 / (5 / 2 : ℝ)) ≠ 0 := by positivity
  obtain ⟨f, hf⟩ : ∃ f, Biquad.ofCoeffs ((1 + Real.sqrt 2 * 1 + 1 * 1) * (1 / (5 / 2)))
        (2 * (1 * 1 - 1) * (1 / (5 / 2))) ((1 - Real.sqrt 2 * 1 + 1 * 1) * (1 / (5 / 2)))
        (2 * (1 * 1 - 1 / 2) * (1 / (5 / 2))) (2 * (1 * 1 - 1 / 2) * (1 / (5 / 2)))
        ((1 / 2 - 1 * 1 + 1 * 1) * (1 / (5 / 2))) = .ok f := by
    unfold Biquad.ofCoeffs; rw [if_neg hne]; exact ⟨_, rfl⟩
  have hdc : GainAt f 0 (5 / 8) :=
    Response.gain_dc hf (by norm_num) (by intro h; linarith) (by ring)
  have hny : GainAt f Real.pi (1 / 8) :=
    Response.gain_nyquist hf (by norm_num) (by intro h; linarith) (by ring)
  refine ⟨f, hf, hdc, hny, ?_, ?_⟩
  · intro h; have := gain_unique hdc h; norm_num at this
  · intro h; have := gain_unique hny h; norm_num at this

/-- A 6 dB low shelf boost at 1 kHz, 44.1 kHz meets the hypotheses. -/
example : ∃ f, Zoelzer.lowShelf 1000 44100 6 = .ok f ∧ f.stability = true := by
  obtain ⟨f, h1, h2, _⟩ := C17_low_shelf_boost_partial 1000 44100 6 (by norm_num) (by norm_num)
    (by norm_num)
  exact ⟨f, h1, h2⟩

end Edsp.Props
