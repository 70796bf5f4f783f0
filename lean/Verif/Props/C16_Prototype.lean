import Verif.Spec.Prototype
import Verif.Props.C17_Zoelzer

/-!
# C16/C17: every design is the bilinear image of its textbook analog prototype

This determines the whole frequency response (not only the gains at three frequencies), e.g. the
low-pass is the image of `1 / (s² + s/Q + 1)`.
-/

namespace Edsp.Props

open Edsp Edsp.Spec

/-- Coefficients that are, up to a factor, those of the bilinear image. -/
theorem bilinear_of {a0 a1 a2 b0 b1 b2 K r : ℝ} {n d : ℝ × ℝ × ℝ} {f : Biquad ℝ}
    (h : Biquad.ofCoeffs a0 a1 a2 b0 b1 b2 = .ok f) (hK : K ≠ 0) (hr : r ≠ 0)
    (ha0 : r * a0 = d.1 + d.2.1 * K + d.2.2 * K ^ 2) (ha1 : r * a1 = 2 * (d.2.2 * K ^ 2 - d.1))
    (ha2 : r * a2 = d.1 - d.2.1 * K + d.2.2 * K ^ 2)
    (hb0 : r * b0 = n.1 + n.2.1 * K + n.2.2 * K ^ 2) (hb1 : r * b1 = 2 * (n.2.2 * K ^ 2 - n.1))
    (hb2 : r * b2 = n.1 - n.2.1 * K + n.2.2 * K ^ 2) : BilinearOf f K n d := by
  intro z hz hz1 hd
  obtain ⟨n2, n1, n0⟩ := n
  obtain ⟨d2, d1, d0⟩ := d
  simp only at ha0 ha1 ha2 hb0 hb1 hb2
  have hz1' : z + 1 ≠ 0 := by intro h; exact hz1 (by linear_combination h)
  have hKc : (K : ℂ) ≠ 0 := by exact_mod_cast hK
  have hrc : (r : ℂ) ≠ 0 := by exact_mod_cast hr
  have key : ∀ q2 q1 q0 c0 c1 c2 : ℝ, r * c0 = q2 + q1 * K + q0 * K ^ 2 →
      r * c1 = 2 * (q0 * K ^ 2 - q2) → r * c2 = q2 - q1 * K + q0 * K ^ 2 →
      (r : ℂ) * ((c0 : ℂ) * z ^ 2 + c1 * z + c2) =
        (K * (z + 1)) ^ 2 * quadAt (q2, q1, q0) ((z - 1) / (K * (z + 1))) := by
    intro q2 q1 q0 c0 c1 c2 h0 h1 h2
    have e0 : (r : ℂ) * c0 = q2 + q1 * K + q0 * K ^ 2 := by exact_mod_cast h0
    have e1 : (r : ℂ) * c1 = 2 * (q0 * K ^ 2 - q2) := by exact_mod_cast h1
    have e2 : (r : ℂ) * c2 = q2 - q1 * K + q0 * K ^ 2 := by exact_mod_cast h2
    have : (K * (z + 1)) ^ 2 * quadAt (q2, q1, q0) ((z - 1) / (K * (z + 1))) =
        q2 * (z - 1) ^ 2 + q1 * (z - 1) * (K * (z + 1)) + q0 * (K * (z + 1)) ^ 2 := by
      unfold quadAt; field_simp
    rw [this]
    linear_combination z ^ 2 * e0 + z * e1 + e2
  have kd := key d2 d1 d0 a0 a1 a2 ha0 ha1 ha2
  have kn := key n2 n1 n0 b0 b1 b2 hb0 hb1 hb2
  have hKz : ((K : ℂ) * (z + 1)) ^ 2 ≠ 0 := pow_ne_zero 2 (mul_ne_zero hKc hz1')
  apply Response.transfer_of h hz
  · intro h0
    rw [h0, mul_zero] at kd
    exact (mul_ne_zero hKz hd) kd.symm
  · apply mul_left_cancel₀ hrc
    rw [kn]
    rw [show (r : ℂ) * (quadAt (n2, n1, n0) ((z - 1) / (K * (z + 1))) /
        quadAt (d2, d1, d0) ((z - 1) / (K * (z + 1))) * (a0 * z ^ 2 + a1 * z + a2)) =
        quadAt (n2, n1, n0) ((z - 1) / (K * (z + 1))) /
        quadAt (d2, d1, d0) ((z - 1) / (K * (z + 1))) * (r * (a0 * z ^ 2 + a1 * z + a2)) by ring, kd]
    field_simp

section Rbj

variable (fc fs Q : ℝ) (h0 : 0 < fc) (h1 : fc < fs / 2) (hQ : 0 < Q)
include h0 h1 hQ

/-- **C16**: the low-pass is the bilinear image of `1 / (s² + s/Q + 1)`. -/
theorem C16_low_pass_prototype : ∃ f, Rbj.lowPass fc fs Q = .ok f ∧
    BilinearOf f (Real.tan (Real.pi * fc / fs)) (0, 0, 1) (1, 1 / Q, 1) := by
  obtain ⟨f, hf, -⟩ := C16_low_pass fc fs Q h0 h1 hQ
  refine ⟨f, hf, ?_⟩
  obtain ⟨K, -, hKp, hc, hs, rfl⟩ := zoelzer_K h0 h1
  have hfs : 0 < fs := by linarith
  have hp : (1 + Real.tan (Real.pi * fc / fs) ^ 2) ≠ 0 := by positivity
  unfold Rbj.lowPass at hf
  rw [fdiv_ok _ hfs.ne'] at hf
  simp only [bind, Except.bind] at hf
  rw [fdiv_ok _ (by positivity)] at hf
  have ha : Real.sin (2 * Real.pi * fc / fs) / (2 * Q) = Real.sin (2 * Real.pi * fc / fs) * (1 / Q) / 2 := by
    field_simp
  refine bilinear_of hf hKp.ne' hp ?_ ?_ ?_ ?_ ?_ ?_ <;> simp only [] <;> (try rw [ha])
  · linear_combination (1 / Q / 2) * hs
  · linear_combination -2 * hc
  · linear_combination -(1 / Q / 2) * hs
  · linear_combination -(1 / 2) * hc
  · linear_combination -hc
  · linear_combination -(1 / 2) * hc

/-- **C16**: the high-pass is the bilinear image of `s² / (s² + s/Q + 1)`. -/
theorem C16_high_pass_prototype : ∃ f, Rbj.highPass fc fs Q = .ok f ∧
    BilinearOf f (Real.tan (Real.pi * fc / fs)) (1, 0, 0) (1, 1 / Q, 1) := by
  obtain ⟨f, hf, -⟩ := C16_high_pass fc fs Q h0 h1 hQ
  refine ⟨f, hf, ?_⟩
  obtain ⟨K, -, hKp, hc, hs, rfl⟩ := zoelzer_K h0 h1
  have hfs : 0 < fs := by linarith
  have hp : (1 + Real.tan (Real.pi * fc / fs) ^ 2) ≠ 0 := by positivity
  unfold Rbj.highPass at hf
  rw [fdiv_ok _ hfs.ne'] at hf
  simp only [bind, Except.bind] at hf
  rw [fdiv_ok _ (by positivity)] at hf
  have ha : Real.sin (2 * Real.pi * fc / fs) / (2 * Q) = Real.sin (2 * Real.pi * fc / fs) * (1 / Q) / 2 := by
    field_simp
  refine bilinear_of hf hKp.ne' hp ?_ ?_ ?_ ?_ ?_ ?_ <;> simp only [] <;> (try rw [ha])
  · linear_combination (1 / Q / 2) * hs
  · linear_combination -2 * hc
  · linear_combination -(1 / Q / 2) * hs
  · linear_combination (1 / 2) * hc
  · linear_combination -hc
  · linear_combination (1 / 2) * hc

/-- **C16**: the band-pass is the bilinear image of `s / (s² + s/Q + 1)`. -/
theorem C16_band_pass_prototype : ∃ f, Rbj.bandPass fc fs Q = .ok f ∧
    BilinearOf f (Real.tan (Real.pi * fc / fs)) (0, 1, 0) (1, 1 / Q, 1) := by
  obtain ⟨f, hf, -⟩ := C16_band_pass fc fs Q h0 h1 hQ
  refine ⟨f, hf, ?_⟩
  obtain ⟨K, -, hKp, hc, hs, rfl⟩ := zoelzer_K h0 h1
  have hfs : 0 < fs := by linarith
  have hp : (1 + Real.tan (Real.pi * fc / fs) ^ 2) ≠ 0 := by positivity
  unfold Rbj.bandPass at hf
  rw [fdiv_ok _ hfs.ne'] at hf
  simp only [bind, Except.bind] at hf
  rw [fdiv_ok _ (by positivity)] at hf
  have ha : Real.sin (2 * Real.pi * fc / fs) / (2 * Q) = Real.sin (2 * Real.pi * fc / fs) * (1 / Q) / 2 := by
    field_simp
  have hq1 : Q * (1 / Q) = 1 := by field_simp
  refine bilinear_of hf hKp.ne' hp ?_ ?_ ?_ ?_ ?_ ?_ <;> simp only [] <;> (try rw [ha])
  · linear_combination (1 / Q / 2) * hs
  · linear_combination -2 * hc
  · linear_combination -(1 / Q / 2) * hs
  · linear_combination (Q * (1 / Q) / 2) * hs + Real.tan (Real.pi * fc / fs) * hq1
  · ring
  · linear_combination -(Q * (1 / Q) / 2) * hs - Real.tan (Real.pi * fc / fs) * hq1

/-- **C16**: the all-pass is the bilinear image of `(s² - s/Q + 1) / (s² + s/Q + 1)`. -/
theorem C16_all_pass_prototype : ∃ f, Rbj.allPass fc fs Q = .ok f ∧
    BilinearOf f (Real.tan (Real.pi * fc / fs)) (1, -(1 / Q), 1) (1, 1 / Q, 1) := by
  obtain ⟨f, hf, -⟩ := C16_all_pass fc fs Q h0 h1 hQ
  refine ⟨f, hf, ?_⟩
  obtain ⟨K, -, hKp, hc, hs, rfl⟩ := zoelzer_K h0 h1
  have hfs : 0 < fs := by linarith
  have hp : (1 + Real.tan (Real.pi * fc / fs) ^ 2) ≠ 0 := by positivity
  unfold Rbj.allPass at hf
  rw [fdiv_ok _ hfs.ne'] at hf
  simp only [bind, Except.bind] at hf
  rw [fdiv_ok _ (by positivity)] at hf
  have ha : Real.sin (2 * Real.pi * fc / fs) / (2 * Q) = Real.sin (2 * Real.pi * fc / fs) * (1 / Q) / 2 := by
    field_simp
  refine bilinear_of hf hKp.ne' hp ?_ ?_ ?_ ?_ ?_ ?_ <;> simp only [] <;> (try rw [ha])
  · linear_combination (1 / Q / 2) * hs
  · linear_combination -2 * hc
  · linear_combination -(1 / Q / 2) * hs
  · linear_combination -(1 / Q / 2) * hs
  · linear_combination -2 * hc
  · linear_combination (1 / Q / 2) * hs

/-- **C16**: with `A = 10^(gainDb/40)` the low shelf is the bilinear image of
`A (s² + (√A/Q) s + A) / (A s² + (√A/Q) s + 1)`. -/
theorem C16_low_shelf_prototype (gainDb A : ℝ) (hA : A = (10 : ℝ) ^ (gainDb / 40)) :
    ∃ f, Rbj.lowShelf fc fs Q gainDb = .ok f ∧
    BilinearOf f (Real.tan (Real.pi * fc / fs)) (A, A * (Real.sqrt A / Q), A * A)
      (A, Real.sqrt A / Q, 1) := by
  obtain ⟨f, hf, -⟩ := C16_low_shelf fc fs Q gainDb h0 h1 hQ
  refine ⟨f, hf, ?_⟩
  obtain ⟨K, -, hKp, hc, hs, rfl⟩ := zoelzer_K h0 h1
  have hfs : 0 < fs := by linarith
  have hA4 : Real.sqrt ((10 : ℝ) ^ (gainDb / 20)) = A := by
    rw [hA, Real.sqrt_eq_rpow, ← Real.rpow_mul (by norm_num)]; congr 1; ring
  have hp : (1 + Real.tan (Real.pi * fc / fs) ^ 2) / 2 ≠ 0 := by positivity
  unfold Rbj.lowShelf at hf
  rw [fdiv_ok _ hfs.ne', hA4] at hf
  simp only [bind, Except.bind] at hf
  rw [fdiv_ok _ hQ.ne'] at hf
  refine bilinear_of hf hKp.ne' hp ?_ ?_ ?_ ?_ ?_ ?_ <;> simp only []
  · linear_combination ((A - 1) / 2) * hc + (Real.sqrt A / Q / 2) * hs
  · linear_combination (-(A + 1)) * hc
  · linear_combination ((A - 1) / 2) * hc - (Real.sqrt A / Q / 2) * hs
  · linear_combination (-A * (A - 1) / 2) * hc + (A * (Real.sqrt A / Q) / 2) * hs
  · linear_combination (-A * (A + 1)) * hc
  · linear_combination (-A * (A - 1) / 2) * hc - (A * (Real.sqrt A / Q) / 2) * hs

/-- **C16**: with `A = 10^(gainDb/40)` the high shelf is the bilinear image of
`A (A s² + (√A/Q) s + 1) / (s² + (√A/Q) s + A)`. -/
theorem C16_high_shelf_prototype (gainDb A : ℝ) (hA : A = (10 : ℝ) ^ (gainDb / 40)) :
    ∃ f, Rbj.highShelf fc fs Q gainDb = .ok f ∧
    BilinearOf f (Real.tan (Real.pi * fc / fs)) (A * A, A * (Real.sqrt A / Q), A)
      (1, Real.sqrt A / Q, A) := by
  obtain ⟨f, hf, -⟩ := C16_high_shelf fc fs Q gainDb h0 h1 hQ
  refine ⟨f, hf, ?_⟩
  obtain ⟨K, -, hKp, hc, hs, rfl⟩ := zoelzer_K h0 h1
  have hfs : 0 < fs := by linarith
  have hA4 : Real.sqrt ((10 : ℝ) ^ (gainDb / 20)) = A := by
    rw [hA, Real.sqrt_eq_rpow, ← Real.rpow_mul (by norm_num)]; congr 1; ring
  have hp : (1 + Real.tan (Real.pi * fc / fs) ^ 2) / 2 ≠ 0 := by positivity
  unfold Rbj.highShelf at hf
  rw [fdiv_ok _ hfs.ne', hA4] at hf
  simp only [bind, Except.bind] at hf
  rw [fdiv_ok _ hQ.ne'] at hf
  refine bilinear_of hf hKp.ne' hp ?_ ?_ ?_ ?_ ?_ ?_ <;> simp only []
  · linear_combination (-(A - 1) / 2) * hc + (Real.sqrt A / Q / 2) * hs
  · linear_combination (-(A + 1)) * hc
  · linear_combination (-(A - 1) / 2) * hc - (Real.sqrt A / Q / 2) * hs
  · linear_combination (A * (A - 1) / 2) * hc + (A * (Real.sqrt A / Q) / 2) * hs
  · linear_combination (-A * (A + 1)) * hc
  · linear_combination (A * (A - 1) / 2) * hc - (A * (Real.sqrt A / Q) / 2) * hs

end Rbj

section Zoelzer

/-- **C17**: the low-pass is the bilinear image of `1 / (s² + s/Q + 1)`. -/
theorem C17_low_pass_prototype (fc fs Q : ℝ) (h0 : 0 < fc) (h1 : fc < fs / 2) (hQ : 0 < Q) :
    ∃ f, Zoelzer.lowPass fc fs Q = .ok f ∧
    BilinearOf f (Real.tan (Real.pi * fc / fs)) (0, 0, 1) (1, 1 / Q, 1) := by
  obtain ⟨f, hf, -⟩ := C17_low_pass fc fs Q h0 h1 hQ
  refine ⟨f, hf, ?_⟩
  obtain ⟨K, hK, hKp, -, -, hKt⟩ := zoelzer_K h0 h1
  rw [← hKt]
  have hD : 0 < 1 + K / Q + K * K := by positivity
  unfold Zoelzer.lowPass at hf
  rw [← bind_assoc, hK] at hf
  simp only [bind, Except.bind] at hf
  rw [fdiv_ok _ hQ.ne'] at hf
  simp only [] at hf
  rw [fdiv_ok _ hD.ne'] at hf
  simp only [] at hf
  refine bilinear_of hf hKp.ne' hD.ne' ?_ ?_ ?_ ?_ ?_ ?_ <;> simp only [] <;> field_simp <;> ring

/-- **C17**: the high-pass is the bilinear image of `s² / (s² + s/Q + 1)`. -/
theorem C17_high_pass_prototype (fc fs Q : ℝ) (h0 : 0 < fc) (h1 : fc < fs / 2) (hQ : 0 < Q) :
    ∃ f, Zoelzer.highPass fc fs Q = .ok f ∧
    BilinearOf f (Real.tan (Real.pi * fc / fs)) (1, 0, 0) (1, 1 / Q, 1) := by
  obtain ⟨f, hf, -⟩ := C17_high_pass fc fs Q h0 h1 hQ
  refine ⟨f, hf, ?_⟩
  obtain ⟨K, hK, hKp, -, -, hKt⟩ := zoelzer_K h0 h1
  rw [← hKt]
  have hD : 0 < 1 + K / Q + K * K := by positivity
  unfold Zoelzer.highPass at hf
  rw [← bind_assoc, hK] at hf
  simp only [bind, Except.bind] at hf
  rw [fdiv_ok _ hQ.ne'] at hf
  simp only [] at hf
  rw [fdiv_ok _ hD.ne'] at hf
  simp only [] at hf
  refine bilinear_of hf hKp.ne' hD.ne' ?_ ?_ ?_ ?_ ?_ ?_ <;> simp only [] <;> field_simp <;> ring

/-- **C17**: the band-pass is the bilinear image of `(s/Q) / (s² + s/Q + 1)`. -/
theorem C17_band_pass_prototype (fc fs Q : ℝ) (h0 : 0 < fc) (h1 : fc < fs / 2) (hQ : 0 < Q) :
    ∃ f, Zoelzer.bandPass fc fs Q = .ok f ∧
    BilinearOf f (Real.tan (Real.pi * fc / fs)) (0, 1 / Q, 0) (1, 1 / Q, 1) := by
  obtain ⟨f, hf, -⟩ := C17_band_pass fc fs Q h0 h1 hQ
  refine ⟨f, hf, ?_⟩
  obtain ⟨K, hK, hKp, -, -, hKt⟩ := zoelzer_K h0 h1
  rw [← hKt]
  have hD : 0 < 1 + K / Q + K * K := by positivity
  unfold Zoelzer.bandPass at hf
  rw [← bind_assoc, hK] at hf
  simp only [bind, Except.bind] at hf
  rw [fdiv_ok _ hQ.ne'] at hf
  simp only [] at hf
  rw [fdiv_ok _ hD.ne'] at hf
  simp only [] at hf
  refine bilinear_of hf hKp.ne' hD.ne' ?_ ?_ ?_ ?_ ?_ ?_ <;> simp only [] <;> field_simp <;> ring

/-- **C17**: a boosting low shelf is, with `V = 10^(gainDb/20)`, the bilinear image of
`(s² + √(2V) s + V) / (s² + √2 s + 1)`. -/
theorem C17_low_shelf_boost_prototype_partial (fc fs gainDb : ℝ) (h0 : 0 < fc) (h1 : fc < fs / 2) (hg : 0 ≤ gainDb) :
    ∃ f, Zoelzer.lowShelf fc fs gainDb = .ok f ∧
    BilinearOf f (Real.tan (Real.pi * fc / fs)) (1, Real.sqrt (2 * (10 : ℝ) ^ (gainDb / 20)), (10 : ℝ) ^ (gainDb / 20)) (1, Real.sqrt 2, 1) := by
  obtain ⟨f, hf, -⟩ := C17_low_shelf_boost_partial fc fs gainDb h0 h1 hg
  refine ⟨f, hf, ?_⟩
  obtain ⟨K, hK, hKp, -, -, hKt⟩ := zoelzer_K h0 h1
  rw [← hKt]
  have hD : 0 < 1 + Real.sqrt 2 * K + K * K := by positivity
  unfold Zoelzer.lowShelf at hf
  rw [← bind_assoc, hK] at hf
  simp only [bind, Except.bind, ge_iff_le, hg, if_true] at hf
  rw [fdiv_ok _ hD.ne'] at hf
  simp only [] at hf
  change BilinearOf f K (1, Real.sqrt (2 * Zoelzer.db2mag gainDb), Zoelzer.db2mag gainDb) (1, Real.sqrt 2, 1)
  set V := Zoelzer.db2mag gainDb
  refine bilinear_of hf hKp.ne' hD.ne' ?_ ?_ ?_ ?_ ?_ ?_ <;> simp only [] <;> field_simp

/-- **C17**: a boosting high shelf is, with `V = 10^(gainDb/20)`, the bilinear image of
`(V s² + √(2V) s + 1) / (s² + √2 s + 1)`. -/
theorem C17_high_shelf_boost_prototype_partial (fc fs gainDb : ℝ) (h0 : 0 < fc) (h1 : fc < fs / 2) (hg : 0 ≤ gainDb) :
    ∃ f, Zoelzer.highShelf fc fs gainDb = .ok f ∧
    BilinearOf f (Real.tan (Real.pi * fc / fs)) ((10 : ℝ) ^ (gainDb / 20), Real.sqrt (2 * (10 : ℝ) ^ (gainDb / 20)), 1) (1, Real.sqrt 2, 1) := by
  obtain ⟨f, hf, -⟩ := C17_high_shelf_boost_partial fc fs gainDb h0 h1 hg
  refine ⟨f, hf, ?_⟩
  obtain ⟨K, hK, hKp, -, -, hKt⟩ := zoelzer_K h0 h1
  rw [← hKt]
  have hD : 0 < 1 + Real.sqrt 2 * K + K * K := by positivity
  unfold Zoelzer.highShelf at hf
  rw [← bind_assoc, hK] at hf
  simp only [bind, Except.bind, ge_iff_le, hg, if_true] at hf
  rw [fdiv_ok _ hD.ne'] at hf
  simp only [] at hf
  change BilinearOf f K (Zoelzer.db2mag gainDb, Real.sqrt (2 * Zoelzer.db2mag gainDb), 1) (1, Real.sqrt 2, 1)
  set V := Zoelzer.db2mag gainDb
  refine bilinear_of hf hKp.ne' hD.ne' ?_ ?_ ?_ ?_ ?_ ?_ <;> simp only [] <;> field_simp

end Zoelzer

/-- The prototype says something: with `fs = 4, fc = 1, Q = 1` (`K = 1`) the value of the
RBJ low-pass at `z = i` (a quarter of the sample rate) is `-i`. -/
example : ∃ f, Rbj.lowPass 1 4 1 = .ok f ∧ TransferAt f Complex.I (-Complex.I) := by
  obtain ⟨f, hf, h⟩ := C16_low_pass_prototype 1 4 1 (by norm_num) (by norm_num) (by norm_num)
  refine ⟨f, hf, ?_⟩
  rw [show Real.pi * 1 / 4 = Real.pi / 4 by ring, Real.tan_pi_div_four] at h
  have hne : Complex.I ≠ -1 := by
    intro h; have := congrArg Complex.re h; simp at this
  have h1 : Complex.I + 1 ≠ 0 := by intro h; exact hne (by linear_combination h)
  have e : (Complex.I - 1) / (((1 : ℝ) : ℂ) * (Complex.I + 1)) = Complex.I := by
    rw [div_eq_iff (by simpa using h1)]
    push_cast; linear_combination -Complex.I_sq
  have hq : quadAt (1, 1 / 1, 1) Complex.I = Complex.I := by
    unfold quadAt; push_cast; linear_combination Complex.I_sq
  have := h Complex.I Complex.I_ne_zero hne (by rw [e, hq]; exact Complex.I_ne_zero)
  rw [e, hq] at this
  convert this using 1
  unfold quadAt; push_cast
  simp

end Edsp.Props
