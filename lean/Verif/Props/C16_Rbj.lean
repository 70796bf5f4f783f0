import Verif.Model.Designers
import Verif.Lemmas.Response

/-!
# C16: the RBJ designs

Every statement: for every sample rate, cutoff strictly between 0 and half the sample rate, and
quality factor `Q > 0`, the designer returns a filter (no fault) which is stable and has the
prescribed gains.  `GainAt f w g` (Spec/Response.lean): the transfer function of `f` at `e^{iw}`
has modulus `g`; `w = 0` is DC, `w = π` is Nyquist, `w = 2π fc/fs` is the design frequency.
-/

namespace Edsp.Props

open Edsp Edsp.Spec

/-- The angular design frequency is strictly between 0 and π: sine positive, cosine inside. -/
theorem rbj_angle {fc fs : ℝ} (h0 : 0 < fc) (h1 : fc < fs / 2) :
    0 < fs ∧ 0 < Real.sin (2 * Real.pi * fc / fs) ∧
      -1 < Real.cos (2 * Real.pi * fc / fs) ∧ Real.cos (2 * Real.pi * fc / fs) < 1 := by
  have hfs : 0 < fs := by linarith
  have hpos : 0 < 2 * Real.pi * fc / fs := by have := Real.pi_pos; positivity
  have hlt : 2 * Real.pi * fc / fs < Real.pi := by
    rw [div_lt_iff₀ hfs]; nlinarith [Real.pi_pos]
  have hs := Real.sin_pos_of_pos_of_lt_pi hpos hlt
  have hsq := Real.sin_sq_add_cos_sq (2 * Real.pi * fc / fs)
  refine ⟨hfs, hs, ?_, ?_⟩ <;> nlinarith

theorem fdiv_ok (a : ℝ) {b : ℝ} (h : b ≠ 0) : fdiv a b = .ok (a / b) := by
  unfold fdiv; rw [if_neg h]

/-- **C16**, low-pass: stable, gain 1 at DC, 0 at Nyquist, `Q` at the cutoff. -/
theorem C16_low_pass (fc fs Q : ℝ) (h0 : 0 < fc) (h1 : fc < fs / 2) (hQ : 0 < Q) :
    ∃ f, Rbj.lowPass fc fs Q = .ok f ∧ f.stability = true ∧ GainAt f 0 1 ∧
      GainAt f Real.pi 0 ∧ GainAt f (2 * Real.pi * fc / fs) Q := by
  obtain ⟨hfs, hs, hc1, hc2⟩ := rbj_angle h0 h1
  have hsq := Real.sin_sq_add_cos_sq (2 * Real.pi * fc / fs)
  unfold Rbj.lowPass
  rw [fdiv_ok _ hfs.ne']
  simp only [bind, Except.bind]
  rw [fdiv_ok _ (by positivity)]
  set w := 2 * Real.pi * fc / fs
  set s := Real.sin w with hsd
  set c := Real.cos w with hcd
  have hα : 0 < s / (2 * Q) := by positivity
  have hαQ : s / (2 * Q) * Q * 2 = s := by field_simp
  set α := s / (2 * Q)
  simp only []
  obtain ⟨f, hf, hst⟩ := Response.stable_of (a0 := 1 + α) (a1 := -2 * c) (a2 := 1 - α)
    (b0 := (1 - c) / 2) (b1 := 1 - c) (b2 := (1 - c) / 2) (by linarith)
    (by rw [abs_lt]; constructor <;> linarith) (by rw [abs_lt]; constructor <;> linarith)
  refine ⟨f, hf, hst, ?_, ?_, ?_⟩
  · exact Response.gain_dc hf zero_le_one (by intro h; linarith) (by ring)
  · exact Response.gain_nyquist hf le_rfl (by intro h; linarith) (by ring)
  · refine Response.gain_at (h := -(Q : ℂ) * Complex.I) hf ?_ ?_ (by simp [abs_of_pos hQ])
    · rw [← hcd, ← hsd, show (1 + α + (1 - α)) * c + -2 * c = 0 by ring]
      have : (1 + α - (1 - α)) * s ≠ 0 := by
        have : 0 < 2 * α * s := by positivity
        intro h; linarith
      simpa using this
    · rw [← hcd, ← hsd, show (1 + α + (1 - α)) * c + -2 * c = 0 by ring,
        show ((1 - c) / 2 + (1 - c) / 2) * c + (1 - c) = s * (2 * α * Q) by
          rw [show 2 * α * Q = s by linarith]; linarith,
        show (1 - c) / 2 - (1 - c) / 2 = 0 by ring]
      push_cast
      linear_combination (2 * (α : ℂ) * Q * s) * Complex.I_sq

/-- **C16**, high-pass: stable, gain 0 at DC, 1 at Nyquist, `Q` at the cutoff. -/
theorem C16_high_pass (fc fs Q : ℝ) (h0 : 0 < fc) (h1 : fc < fs / 2) (hQ : 0 < Q) :
    ∃ f, Rbj.highPass fc fs Q = .ok f ∧ f.stability = true ∧ GainAt f 0 0 ∧
      GainAt f Real.pi 1 ∧ GainAt f (2 * Real.pi * fc / fs) Q := by
  obtain ⟨hfs, hs, hc1, hc2⟩ := rbj_angle h0 h1
  have hsq := Real.sin_sq_add_cos_sq (2 * Real.pi * fc / fs)
  unfold Rbj.highPass
  rw [fdiv_ok _ hfs.ne']
  simp only [bind, Except.bind]
  rw [fdiv_ok _ (by positivity)]
  set w := 2 * Real.pi * fc / fs
  set s := Real.sin w with hsd
  set c := Real.cos w with hcd
  have hα : 0 < s / (2 * Q) := by positivity
  have hαQ : s / (2 * Q) * Q * 2 = s := by field_simp
  set α := s / (2 * Q)
  simp only []
  obtain ⟨f, hf, hst⟩ := Response.stable_of (a0 := 1 + α) (a1 := -2 * c) (a2 := 1 - α)
    (b0 := (1 + c) / 2) (b1 := -(1 + c)) (b2 := (1 + c) / 2) (by linarith)
    (by rw [abs_lt]; constructor <;> linarith) (by rw [abs_lt]; constructor <;> linarith)
  refine ⟨f, hf, hst, ?_, ?_, ?_⟩
  · exact Response.gain_dc hf le_rfl (by intro h; linarith) (by ring)
  · exact Response.gain_nyquist hf zero_le_one (by intro h; linarith) (by ring)
  · refine Response.gain_at (h := (Q : ℂ) * Complex.I) hf ?_ ?_ (by simp [abs_of_pos hQ])
    · rw [← hcd, ← hsd, show (1 + α + (1 - α)) * c + -2 * c = 0 by ring]
      have : (1 + α - (1 - α)) * s ≠ 0 := by
        have : 0 < 2 * α * s := by positivity
        intro h; linarith
      simpa using this
    · rw [← hcd, ← hsd, show (1 + α + (1 - α)) * c + -2 * c = 0 by ring,
        show ((1 + c) / 2 + (1 + c) / 2) * c + -(1 + c) = -(s * (2 * α * Q)) by
          rw [show 2 * α * Q = s by linarith]; linarith,
        show (1 + c) / 2 - (1 + c) / 2 = 0 by ring]
      push_cast
      linear_combination -(2 * (α : ℂ) * Q * s) * Complex.I_sq

/-- **C16**, band-pass (constant skirt gain): stable, gain 0 at DC and at Nyquist, `Q` at the
centre. -/
theorem C16_band_pass (fc fs Q : ℝ) (h0 : 0 < fc) (h1 : fc < fs / 2) (hQ : 0 < Q) :
    ∃ f, Rbj.bandPass fc fs Q = .ok f ∧ f.stability = true ∧ GainAt f 0 0 ∧
      GainAt f Real.pi 0 ∧ GainAt f (2 * Real.pi * fc / fs) Q := by
  obtain ⟨hfs, hs, hc1, hc2⟩ := rbj_angle h0 h1
  unfold Rbj.bandPass
  rw [fdiv_ok _ hfs.ne']
  simp only [bind, Except.bind]
  rw [fdiv_ok _ (by positivity)]
  set w := 2 * Real.pi * fc / fs
  set s := Real.sin w with hsd
  set c := Real.cos w with hcd
  have hα : 0 < s / (2 * Q) := by positivity
  set α := s / (2 * Q)
  simp only []
  obtain ⟨f, hf, hst⟩ := Response.stable_of (a0 := 1 + α) (a1 := -2 * c) (a2 := 1 - α)
    (b0 := Q * α) (b1 := 0) (b2 := -Q * α) (by linarith)
    (by rw [abs_lt]; constructor <;> linarith) (by rw [abs_lt]; constructor <;> linarith)
  refine ⟨f, hf, hst, ?_, ?_, ?_⟩
  · exact Response.gain_dc hf le_rfl (by intro h; linarith) (by ring)
  · exact Response.gain_nyquist hf le_rfl (by intro h; linarith) (by ring)
  · refine Response.gain_at (h := (Q : ℂ)) hf ?_ ?_ (by simp [abs_of_pos hQ])
    · rw [← hcd, ← hsd, show (1 + α + (1 - α)) * c + -2 * c = 0 by ring]
      have : (1 + α - (1 - α)) * s ≠ 0 := by
        have : 0 < 2 * α * s := by positivity
        intro h; linarith
      simpa using this
    · rw [← hcd, ← hsd]; push_cast; ring

/-- **C16**, all-pass: stable, gain 1 at every frequency. -/
theorem C16_all_pass (fc fs Q : ℝ) (h0 : 0 < fc) (h1 : fc < fs / 2) (hQ : 0 < Q) :
    ∃ f, Rbj.allPass fc fs Q = .ok f ∧ f.stability = true ∧ ∀ w, GainAt f w 1 := by
  obtain ⟨hfs, hs, hc1, hc2⟩ := rbj_angle h0 h1
  unfold Rbj.allPass
  rw [fdiv_ok _ hfs.ne']
  simp only [bind, Except.bind]
  rw [fdiv_ok _ (by positivity)]
  set w := 2 * Real.pi * fc / fs
  set s := Real.sin w
  set c := Real.cos w
  have hα : 0 < s / (2 * Q) := by positivity
  set α := s / (2 * Q)
  simp only []
  obtain ⟨f, hf, hst⟩ := Response.stable_of (a0 := 1 + α) (a1 := -2 * c) (a2 := 1 - α)
    (b0 := 1 - α) (b1 := -2 * c) (b2 := 1 + α) (by linarith)
    (by rw [abs_lt]; constructor <;> linarith) (by rw [abs_lt]; constructor <;> linarith)
  refine ⟨f, hf, hst, fun v => ?_⟩
  -- denominator `x + iy`, numerator `x - iy`
  have hden := Response.denAt_ne_zero hst (z := Complex.exp (v * Complex.I))
    (Complex.norm_exp_ofReal_mul_I v)
  set x := (1 + α + (1 - α)) * Real.cos v + -2 * c with hx
  set y := (1 + α - (1 - α)) * Real.sin v with hy
  have hne : ((x : ℂ) + (y : ℂ) * Complex.I) ≠ 0 := by
    intro h
    apply hden
    have hp := Response.poly_exp (1 + α) (-2 * c) (1 - α) v
    rw [← hx, ← hy, h, mul_zero] at hp
    have ha : ((1 + α : ℝ) : ℂ) ≠ 0 := by
      have : (1 + α) ≠ 0 := by linarith
      exact_mod_cast this
    have he := Complex.exp_ne_zero (v * Complex.I)
    unfold Biquad.ofCoeffs at hf
    rw [if_neg (by linarith)] at hf
    injection hf with hf
    rw [← hf]
    simp only [denAt]
    have hz : ((1 + α : ℝ) : ℂ) * Complex.exp (v * Complex.I) ^ 2 *
        (1 + ((-2 * c / (1 + α) : ℝ) : ℂ) * (Complex.exp (v * Complex.I))⁻¹ +
        (((1 - α) / (1 + α) : ℝ) : ℂ) * ((Complex.exp (v * Complex.I))⁻¹) ^ 2) = 0 := by
      rw [← hp]
      push_cast
      push_cast at ha
      field_simp
    rcases mul_eq_zero.mp hz with h | h
    · rcases mul_eq_zero.mp h with h | h
      · exact absurd h ha
      · exact absurd h (pow_ne_zero 2 he)
    · exact h
  refine Response.gain_at (h := ((x : ℂ) - y * Complex.I) / ((x : ℂ) + y * Complex.I)) hf hne ?_ ?_
  · rw [← hx, ← hy, div_mul_cancel₀ _ hne]
    rw [show (1 - α + (1 + α)) * Real.cos v + -2 * c = x by rw [hx]; ring,
      show (1 - α - (1 + α)) * Real.sin v = -y by rw [hy]; ring]
    push_cast; ring
  · rw [norm_div]
    have : ‖(x : ℂ) - y * Complex.I‖ = ‖(x : ℂ) + y * Complex.I‖ := by
      have e : (x : ℂ) - y * Complex.I = (starRingEnd ℂ) ((x : ℂ) + y * Complex.I) := by
        simp [sub_eq_add_neg]
      rw [e, Complex.norm_conj]
    rw [this, div_self (norm_ne_zero_iff.mpr hne)]

/-- **C16**, low shelf of `gainDb` decibels: stable, gain `10^(gainDb/20)` at DC, 1 at Nyquist, and
half the decibels at the design frequency. -/
theorem C16_low_shelf (fc fs Q gainDb : ℝ) (h0 : 0 < fc) (h1 : fc < fs / 2) (hQ : 0 < Q) :
    ∃ f, Rbj.lowShelf fc fs Q gainDb = .ok f ∧ f.stability = true ∧
      GainAt f 0 ((10 : ℝ) ^ (gainDb / 20)) ∧ GainAt f Real.pi 1 ∧
      GainAt f (2 * Real.pi * fc / fs) ((10 : ℝ) ^ (gainDb / 40)) := by
  obtain ⟨hfs, hs, hc1, hc2⟩ := rbj_angle h0 h1
  have hsq := Real.sin_sq_add_cos_sq (2 * Real.pi * fc / fs)
  have hp : (0 : ℝ) < (10 : ℝ) ^ (gainDb / 20) := Real.rpow_pos_of_pos (by norm_num) _
  have hA : 0 < Real.sqrt ((10 : ℝ) ^ (gainDb / 20)) := Real.sqrt_pos.mpr hp
  have hA2 : Real.sqrt ((10 : ℝ) ^ (gainDb / 20)) ^ 2 = (10 : ℝ) ^ (gainDb / 20) :=
    Real.sq_sqrt hp.le
  have hA4 : Real.sqrt ((10 : ℝ) ^ (gainDb / 20)) = (10 : ℝ) ^ (gainDb / 40) := by
    rw [Real.sqrt_eq_rpow, ← Real.rpow_mul (by norm_num)]; congr 1; ring
  unfold Rbj.lowShelf
  rw [fdiv_ok _ hfs.ne']
  simp only [bind, Except.bind]
  rw [fdiv_ok _ hQ.ne']
  set A := Real.sqrt ((10 : ℝ) ^ (gainDb / 20))
  set w := 2 * Real.pi * fc / fs
  set s := Real.sin w with hsd
  set c := Real.cos w with hcd
  have hβ : 0 < Real.sqrt A / Q := div_pos (Real.sqrt_pos.mpr hA) hQ
  set β := Real.sqrt A / Q
  simp only []
  have hβs : 0 < β * s := by positivity
  have hAc : 0 < A * (1 + c) := by apply mul_pos hA; linarith
  obtain ⟨f, hf, hst⟩ := Response.stable_of
    (a0 := (A + 1) + (A - 1) * c + β * s) (a1 := -2 * ((A - 1) + (A + 1) * c))
    (a2 := (A + 1) + (A - 1) * c - β * s) (b0 := A * ((A + 1) - (A - 1) * c + β * s))
    (b1 := 2 * A * ((A - 1) - (A + 1) * c)) (b2 := A * ((A + 1) - (A - 1) * c - β * s))
    (by linarith) (by rw [abs_lt]; constructor <;> linarith)
    (by rw [abs_lt]; constructor <;> linarith)
  rw [← hA2, ← hA4]
  refine ⟨f, hf, hst, ?_, ?_, ?_⟩
  · exact Response.gain_dc hf (by positivity) (by intro h; linarith) (by ring)
  · exact Response.gain_nyquist hf zero_le_one (by intro h; linarith) (by ring)
  · have hne : ((-(A - 1) : ℝ) : ℂ) + (β : ℂ) * Complex.I ≠ 0 := by
      intro h
      have := congrArg Complex.im h
      simp at this; linarith
    have hss : (0 : ℝ) < 2 * s ^ 2 := by positivity
    have ed1 : ((A + 1) + (A - 1) * c + β * s + ((A + 1) + (A - 1) * c - β * s)) * c
        + -2 * ((A - 1) + (A + 1) * c) = 2 * s ^ 2 * -(A - 1) := by linear_combination (2 * (A - 1)) * hsq
    have ed2 : ((A + 1) + (A - 1) * c + β * s - ((A + 1) + (A - 1) * c - β * s)) * s
        = 2 * s ^ 2 * β := by ring
    have en1 : (A * ((A + 1) - (A - 1) * c + β * s) + A * ((A + 1) - (A - 1) * c - β * s)) * c
        + 2 * A * ((A - 1) - (A + 1) * c) = 2 * s ^ 2 * (A * (A - 1)) := by
      linear_combination (-2 * A * (A - 1)) * hsq
    have en2 : (A * ((A + 1) - (A - 1) * c + β * s) - A * ((A + 1) - (A - 1) * c - β * s)) * s
        = 2 * s ^ 2 * (A * β) := by ring
    refine Response.gain_at (h := A * (((A - 1 : ℝ) : ℂ) + β * Complex.I) /
      (((-(A - 1) : ℝ) : ℂ) + (β : ℂ) * Complex.I)) hf ?_ ?_ ?_
    · rw [← hcd, ← hsd, ed1, ed2]
      have : ((2 * s ^ 2 * -(A - 1) : ℝ) : ℂ) + ((2 * s ^ 2 * β : ℝ) : ℂ) * Complex.I
          = ((2 * s ^ 2 : ℝ) : ℂ) * (((-(A - 1) : ℝ) : ℂ) + (β : ℂ) * Complex.I) := by
        push_cast; ring
      rw [this]
      exact mul_ne_zero (by exact_mod_cast hss.ne') hne
    · rw [← hcd, ← hsd, ed1, ed2, en1, en2]
      have : ((2 * s ^ 2 * -(A - 1) : ℝ) : ℂ) + ((2 * s ^ 2 * β : ℝ) : ℂ) * Complex.I
          = (((-(A - 1) : ℝ) : ℂ) + (β : ℂ) * Complex.I) * ((2 * s ^ 2 : ℝ) : ℂ) := by
        push_cast; ring
      rw [this, ← mul_assoc (_ / _), div_mul_cancel₀ _ hne]
      push_cast; ring
    · rw [norm_div, norm_mul]
      have e1 : ‖((A - 1 : ℝ) : ℂ) + β * Complex.I‖ = ‖((-(A - 1) : ℝ) : ℂ) + (β : ℂ) * Complex.I‖ := by
        have : ((-(A - 1) : ℝ) : ℂ) + (β : ℂ) * Complex.I
            = -((starRingEnd ℂ) (((A - 1 : ℝ) : ℂ) + β * Complex.I)) := by
          rw [map_add, map_mul, Complex.conj_ofReal, Complex.conj_ofReal, Complex.conj_I]
          push_cast; ring
        rw [this, norm_neg, Complex.norm_conj]
      rw [e1, mul_div_assoc, div_self (norm_ne_zero_iff.mpr hne), mul_one]
      simp [abs_of_pos hA]

/-- **C16**, high shelf of `gainDb` decibels: stable, gain 1 at DC, `10^(gainDb/20)` at Nyquist, and
half the decibels at the design frequency. -/
theorem C16_high_shelf (fc fs Q gainDb : ℝ) (h0 : 0 < fc) (h1 : fc < fs / 2) (hQ : 0 < Q) :
    ∃ f, Rbj.highShelf fc fs Q gainDb = .ok f ∧ f.stability = true ∧
      GainAt f 0 1 ∧ GainAt f Real.pi ((10 : ℝ) ^ (gainDb / 20)) ∧
      GainAt f (2 * Real.pi * fc / fs) ((10 : ℝ) ^ (gainDb / 40)) := by
  obtain ⟨hfs, hs, hc1, hc2⟩ := rbj_angle h0 h1
  have hsq := Real.sin_sq_add_cos_sq (2 * Real.pi * fc / fs)
  have hp : (0 : ℝ) < (10 : ℝ) ^ (gainDb / 20) := Real.rpow_pos_of_pos (by norm_num) _
  have hA : 0 < Real.sqrt ((10 : ℝ) ^ (gainDb / 20)) := Real.sqrt_pos.mpr hp
  have hA2 : Real.sqrt ((10 : ℝ) ^ (gainDb / 20)) ^ 2 = (10 : ℝ) ^ (gainDb / 20) :=
    Real.sq_sqrt hp.le
  have hA4 : Real.sqrt ((10 : ℝ) ^ (gainDb / 20)) = (10 : ℝ) ^ (gainDb / 40) := by
    rw [Real.sqrt_eq_rpow, ← Real.rpow_mul (by norm_num)]; congr 1; ring
  unfold Rbj.highShelf
  rw [fdiv_ok _ hfs.ne']
  simp only [bind, Except.bind]
  rw [fdiv_ok _ hQ.ne']
  set A := Real.sqrt ((10 : ℝ) ^ (gainDb / 20))
  set w := 2 * Real.pi * fc / fs
  set s := Real.sin w with hsd
  set c := Real.cos w with hcd
  have hβ : 0 < Real.sqrt A / Q := div_pos (Real.sqrt_pos.mpr hA) hQ
  set β := Real.sqrt A / Q
  simp only []
  have hβs : 0 < β * s := by positivity
  have hAc : 0 < A * (1 - c) := by apply mul_pos hA; linarith
  obtain ⟨f, hf, hst⟩ := Response.stable_of
    (a0 := (A + 1) - (A - 1) * c + β * s) (a1 := 2 * ((A - 1) - (A + 1) * c))
    (a2 := (A + 1) - (A - 1) * c - β * s) (b0 := A * ((A + 1) + (A - 1) * c + β * s))
    (b1 := -2 * A * ((A - 1) + (A + 1) * c)) (b2 := A * ((A + 1) + (A - 1) * c - β * s))
    (by linarith) (by rw [abs_lt]; constructor <;> linarith)
    (by rw [abs_lt]; constructor <;> linarith)
  rw [← hA2, ← hA4]
  refine ⟨f, hf, hst, ?_, ?_, ?_⟩
  · exact Response.gain_dc hf zero_le_one (by intro h; linarith) (by ring)
  · exact Response.gain_nyquist hf (by positivity) (by intro h; linarith) (by ring)
  · have hne : ((A - 1 : ℝ) : ℂ) + (β : ℂ) * Complex.I ≠ 0 := by
      intro h
      have := congrArg Complex.im h
      simp at this; linarith
    have hss : (0 : ℝ) < 2 * s ^ 2 := by positivity
    have ed1 : ((A + 1) - (A - 1) * c + β * s + ((A + 1) - (A - 1) * c - β * s)) * c
        + 2 * ((A - 1) - (A + 1) * c) = 2 * s ^ 2 * (A - 1) := by linear_combination (-2 * (A - 1)) * hsq
    have ed2 : ((A + 1) - (A - 1) * c + β * s - ((A + 1) - (A - 1) * c - β * s)) * s
        = 2 * s ^ 2 * β := by ring
    have en1 : (A * ((A + 1) + (A - 1) * c + β * s) + A * ((A + 1) + (A - 1) * c - β * s)) * c
        + -2 * A * ((A - 1) + (A + 1) * c) = 2 * s ^ 2 * (A * -(A - 1)) := by
      linear_combination (2 * A * (A - 1)) * hsq
    have en2 : (A * ((A + 1) + (A - 1) * c + β * s) - A * ((A + 1) + (A - 1) * c - β * s)) * s
        = 2 * s ^ 2 * (A * β) := by ring
    refine Response.gain_at (h := A * (((-(A - 1) : ℝ) : ℂ) + β * Complex.I) /
      (((A - 1 : ℝ) : ℂ) + (β : ℂ) * Complex.I)) hf ?_ ?_ ?_
    · rw [← hcd, ← hsd, ed1, ed2]
      have : ((2 * s ^ 2 * (A - 1) : ℝ) : ℂ) + ((2 * s ^ 2 * β : ℝ) : ℂ) * Complex.I
          = ((2 * s ^ 2 : ℝ) : ℂ) * (((A - 1 : ℝ) : ℂ) + (β : ℂ) * Complex.I) := by
        push_cast; ring
      rw [this]
      exact mul_ne_zero (by exact_mod_cast hss.ne') hne
    · rw [← hcd, ← hsd, ed1, ed2, en1, en2]
      have : ((2 * s ^ 2 * (A - 1) : ℝ) : ℂ) + ((2 * s ^ 2 * β : ℝ) : ℂ) * Complex.I
          = (((A - 1 : ℝ) : ℂ) + (β : ℂ) * Complex.I) * ((2 * s ^ 2 : ℝ) : ℂ) := by
        push_cast; ring
      rw [this, ← mul_assoc (_ / _), div_mul_cancel₀ _ hne]
      push_cast; ring
    · rw [norm_div, norm_mul]
      have e1 : ‖((-(A - 1) : ℝ) : ℂ) + (β : ℂ) * Complex.I‖ = ‖((A - 1 : ℝ) : ℂ) + (β : ℂ) * Complex.I‖ := by
        have : ((-(A - 1) : ℝ) : ℂ) + (β : ℂ) * Complex.I
            = -((starRingEnd ℂ) (((A - 1 : ℝ) : ℂ) + β * Complex.I)) := by
          rw [map_add, map_mul, Complex.conj_ofReal, Complex.conj_ofReal, Complex.conj_I]
          push_cast; ring
        rw [this, norm_neg, Complex.norm_conj]
      rw [e1, mul_div_assoc, div_self (norm_ne_zero_iff.mpr hne), mul_one]
      simp [abs_of_pos hA]

/-- A 1 kHz low-pass at 44.1 kHz with `Q = 0.7` meets the hypotheses. -/
example : ∃ f, Rbj.lowPass 1000 44100 (7 / 10) = .ok f ∧ f.stability = true := by
  obtain ⟨f, h1, h2, _⟩ := C16_low_pass 1000 44100 (7 / 10) (by norm_num) (by norm_num) (by norm_num)
  exact ⟨f, h1, h2⟩

end Edsp.Props
