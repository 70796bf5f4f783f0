import Verif.Lemmas.BandMaps
import Verif.Spec.Band

/-! Helper lemmas: the constants of the band transformers in terms of the pre-warped edges. -/

namespace Edsp.BandL

open Edsp Edsp.Spec Edsp.LayoutL Edsp.BilinearL

theorem tan_facts {x : ℝ} (h0 : 0 < x) (h1 : x < Real.pi) :
    0 < Real.tan (x / 2) ∧ 0 < Real.cos (x / 2) ∧ 0 < Real.sin x := by
  refine ⟨Real.tan_pos_of_pos_of_lt_pi_div_two (by linarith) (by linarith),
    Real.cos_pos_of_mem_Ioo ⟨by linarith, by linarith⟩, Real.sin_pos_of_pos_of_lt_pi h0 h1⟩

theorem tan_half_strict {x y : ℝ} (h0 : 0 < x) (hxy : x < y) (h1 : y < Real.pi) :
    Real.tan (x / 2) < Real.tan (y / 2) :=
  Real.tan_lt_tan_of_nonneg_of_lt_pi_div_two (by linarith) (by linarith) (by linarith)

/-- `cos w` and `sin w` from `t = tan (w/2)`. -/
theorem cos_sin_tan {w : ℝ} (h : Real.cos (w / 2) ≠ 0) :
    Real.cos w = (1 - Real.tan (w / 2) ^ 2) / (1 + Real.tan (w / 2) ^ 2) ∧
      Real.sin w = 2 * Real.tan (w / 2) / (1 + Real.tan (w / 2) ^ 2) := by
  have hc : Real.cos w = Real.cos (w / 2) ^ 2 - Real.sin (w / 2) ^ 2 := by
    rw [← Real.cos_two_mul']; congr 1; ring
  have hs : Real.sin w = 2 * Real.sin (w / 2) * Real.cos (w / 2) := by
    rw [← Real.sin_two_mul]; congr 1; ring
  have h1 := Real.cos_sq_add_sin_sq (w / 2)
  have h2 : (1 : ℝ) + Real.tan (w / 2) ^ 2 ≠ 0 := by positivity
  rw [Real.tan_eq_sin_div_cos] at *
  have h3 : 1 + (Real.sin (w / 2) / Real.cos (w / 2)) ^ 2 = 1 / Real.cos (w / 2) ^ 2 := by
    field_simp; linarith
  rw [h3, hc, hs]
  constructor
  · field_simp
  · field_simp

structure Params (t1 t2 : ℝ) (B : BandParams) : Prop where
  a_eq : B.a = (1 - t1 * t2) / (1 + t1 * t2)
  b_eq : B.b = (1 + t1 * t2) / (t2 - t1)

theorem params_pos {t1 t2 : ℝ} (h1 : 0 < t1) (h2 : t1 < t2) {B : BandParams} (h : Params t1 t2 B) :
    |B.a| < 1 ∧ 0 < B.b := by
  have hP : 0 < t1 * t2 := mul_pos h1 (by linarith)
  refine ⟨?_, ?_⟩
  · rw [h.a_eq, abs_div, abs_of_pos (show 0 < 1 + t1 * t2 by linarith), div_lt_one (by linarith), abs_lt]
    constructor <;> linarith
  · rw [h.b_eq]; exact div_pos (by linarith) (by linarith)

/-- The constructor of both transformers. -/
theorem bandInit_ok {fs fc bw : ℝ} (h : BandOk fs fc bw) :
    ∃ B, bandInit (fc / fs) (bw / fs) = .ok B ∧ B.wc2 = bandLo fs fc bw ∧ B.wc = bandHi fs fc bw ∧
      Params (Real.tan (bandLo fs fc bw / 2)) (Real.tan (bandHi fs fc bw / 2)) B ∧
      0 < bandLo fs fc bw ∧ bandLo fs fc bw < bandHi fs fc bw ∧ bandHi fs fc bw < Real.pi := by
  have hfs := h.fs_pos
  have e1 : 2 * Real.pi * (fc / fs) - 2 * Real.pi * (bw / fs) / 2 = bandLo fs fc bw := by
    unfold bandLo; field_simp
  have e2 : bandLo fs fc bw + 2 * Real.pi * (bw / fs) = bandHi fs fc bw := by
    unfold bandLo bandHi; field_simp; ring
  have hlt : bandLo fs fc bw < bandHi fs fc bw := by
    rw [← e2]
    have := Real.pi_pos
    have := h.bw_pos
    have : 0 < 2 * Real.pi * (bw / fs) := by positivity
    linarith
  have hlo := h.lo
  have hhi := h.hi
  set lo := bandLo fs fc bw
  set hi := bandHi fs fc bw
  have hlo0 : 0 < lo := lt_of_lt_of_le (by norm_num) hlo
  have hhi0 : hi < Real.pi := lt_of_le_of_lt hhi (by norm_num)
  obtain ⟨t1, c1, -⟩ := tan_facts hlo0 (by linarith)
  obtain ⟨t2, c2, -⟩ := tan_facts (show 0 < hi by linarith) hhi0
  have ht := tan_half_strict hlo0 hlt hhi0
  have hcd : Real.cos ((hi - lo) * (1 / 2)) =
      Real.cos (hi / 2) * Real.cos (lo / 2) * (1 + Real.tan (lo / 2) * Real.tan (hi / 2)) := by
    rw [show (hi - lo) * (1 / 2) = hi / 2 - lo / 2 by ring, Real.cos_sub, Real.tan_eq_sin_div_cos,
      Real.tan_eq_sin_div_cos]
    field_simp
  have hcs : Real.cos ((hi + lo) * (1 / 2)) =
      Real.cos (hi / 2) * Real.cos (lo / 2) * (1 - Real.tan (lo / 2) * Real.tan (hi / 2)) := by
    rw [show (hi + lo) * (1 / 2) = hi / 2 + lo / 2 by ring, Real.cos_add, Real.tan_eq_sin_div_cos,
      Real.tan_eq_sin_div_cos]
    field_simp
  have hsd : Real.sin ((hi - lo) * (1 / 2)) =
      Real.cos (hi / 2) * Real.cos (lo / 2) * (Real.tan (hi / 2) - Real.tan (lo / 2)) := by
    rw [show (hi - lo) * (1 / 2) = hi / 2 - lo / 2 by ring, Real.sin_sub, Real.tan_eq_sin_div_cos,
      Real.tan_eq_sin_div_cos]
    field_simp
  have hP : 0 < 1 + Real.tan (lo / 2) * Real.tan (hi / 2) := by positivity
  have hcdne : Real.cos ((hi - lo) * (1 / 2)) ≠ 0 := by rw [hcd]; positivity
  have hsdpos : 0 < Real.tan (hi / 2) - Real.tan (lo / 2) := by linarith
  have hfrac : Real.sin ((hi - lo) * (1 / 2)) / Real.cos ((hi - lo) * (1 / 2)) =
      (Real.tan (hi / 2) - Real.tan (lo / 2)) / (1 + Real.tan (lo / 2) * Real.tan (hi / 2)) := by
    rw [hsd, hcd]; field_simp
  refine ⟨⟨lo, hi, (1 - Real.tan (lo / 2) * Real.tan (hi / 2)) / (1 + Real.tan (lo / 2) * Real.tan (hi / 2)),
    (1 + Real.tan (lo / 2) * Real.tan (hi / 2)) / (Real.tan (hi / 2) - Real.tan (lo / 2))⟩, ?_, rfl, rfl,
    ⟨rfl, rfl⟩, hlo0, hlt, hhi0⟩
  unfold bandInit
  simp only [e1, e2]
  rw [if_neg (not_lt.mpr hlo), if_neg (not_lt.mpr hhi)]
  unfold fdiv ctan
  rw [if_neg hcdne, if_neg hcdne]
  simp only [bind, Except.bind, pure, Except.pure, hfrac]
  rw [if_neg (by positivity)]
  simp only []
  congr 1
  congr 1
  · rw [hcs, hcd]; field_simp
  · field_simp

/-- The frequency map on the circle, band-pass. -/
theorem pass_value {t1 t2 : ℝ} (h1 : 0 < t1) (h2 : t1 < t2) {B : BandParams} (h : Params t1 t2 B)
    {w : ℝ} (h0 : 0 < w) (hpi : w < Real.pi) :
    B.b * (B.a - Real.cos w) / Real.sin w = passFreq t1 t2 (Real.tan (w / 2)) := by
  obtain ⟨ht, hc, -⟩ := tan_facts h0 hpi
  obtain ⟨e1, e2⟩ := cos_sin_tan hc.ne'
  have hP : 0 < 1 + t1 * t2 := by have := mul_pos h1 (h1.trans h2); linarith
  have hD : 0 < t2 - t1 := by linarith
  have hq : (0 : ℝ) < 1 + Real.tan (w / 2) ^ 2 := by positivity
  rw [e1, e2, h.a_eq, h.b_eq]
  unfold passFreq
  field_simp
  ring

/-- The frequency map on the circle, band-stop: the map of the code has an additional factor `b²`. -/
theorem stop_value {t1 t2 : ℝ} (h1 : 0 < t1) (h2 : t1 < t2) {B : BandParams} (h : Params t1 t2 B)
    {w : ℝ} (h0 : 0 < w) (hpi : w < Real.pi) :
    Real.cos w - B.a = 2 * (t1 * t2 - Real.tan (w / 2) ^ 2) /
        ((1 + t1 * t2) * (1 + Real.tan (w / 2) ^ 2)) ∧
      (t1 * t2 ≠ Real.tan (w / 2) ^ 2 → B.b * Real.sin w / (Real.cos w - B.a) =
        ((1 + t1 * t2) / (t2 - t1)) ^ 2 * stopFreq t1 t2 (Real.tan (w / 2))) := by
  obtain ⟨ht, hc, -⟩ := tan_facts h0 hpi
  obtain ⟨e1, e2⟩ := cos_sin_tan hc.ne'
  have hP : 0 < 1 + t1 * t2 := by have := mul_pos h1 (h1.trans h2); linarith
  have hD : 0 < t2 - t1 := by linarith
  have hq : (0 : ℝ) < 1 + Real.tan (w / 2) ^ 2 := by positivity
  have e3 : Real.cos w - B.a = 2 * (t1 * t2 - Real.tan (w / 2) ^ 2) /
        ((1 + t1 * t2) * (1 + Real.tan (w / 2) ^ 2)) := by
    rw [e1, h.a_eq]
    field_simp
    ring
  refine ⟨e3, ?_⟩
  intro hne
  have hne' : t1 * t2 - Real.tan (w / 2) ^ 2 ≠ 0 := sub_ne_zero.mpr hne
  rw [e3, e2, h.b_eq]
  unfold stopFreq
  field_simp

theorem fdiv_ok {a b : ℝ} (hb : b ≠ 0) : fdiv a b = .ok (a / b) := by unfold fdiv; rw [if_neg hb]

/-- The normalisation frequency of the band-pass transformer. -/
theorem bpW_ok {B : BandParams} {lo hi : ℝ} (h2 : B.wc2 = lo) (h1 : B.wc = hi) (h0 : 0 < lo)
    (hlt : lo < hi) (hpi : hi < Real.pi) :
    bpW B 0 = .ok (2 * Real.arctan (Real.sqrt (Real.tan (lo / 2) + Real.tan (hi / 2)))) ∧
      0 < 2 * Real.arctan (Real.sqrt (Real.tan (lo / 2) + Real.tan (hi / 2))) ∧
      2 * Real.arctan (Real.sqrt (Real.tan (lo / 2) + Real.tan (hi / 2))) < Real.pi ∧
      Real.tan (2 * Real.arctan (Real.sqrt (Real.tan (lo / 2) + Real.tan (hi / 2))) / 2) =
        Real.sqrt (Real.tan (lo / 2) + Real.tan (hi / 2)) := by
  obtain ⟨t1, c1, -⟩ := tan_facts h0 (hlt.trans hpi)
  obtain ⟨t2, c2, -⟩ := tan_facts (h0.trans hlt) hpi
  have hT : 0 < Real.sqrt (Real.tan (lo / 2) + Real.tan (hi / 2)) := Real.sqrt_pos.mpr (by linarith)
  refine ⟨?_, ?_, ?_, ?_⟩
  · unfold bpW ctan
    rw [h1, h2, show (hi + 0) * (1 / 2) = hi / 2 by ring, show (lo + 0) * (1 / 2) = lo / 2 by ring,
      if_neg c1.ne', if_neg c2.ne']
    simp only [bind, Except.bind, pure, Except.pure, ← Real.tan_eq_sin_div_cos]
    rw [if_neg (by linarith), add_comm]
  · have := Real.arctan_pos.mpr hT; linarith
  · have := Real.arctan_lt_pi_div_two (Real.sqrt (Real.tan (lo / 2) + Real.tan (hi / 2))); linarith
  · rw [mul_div_cancel_left₀ _ two_ne_zero, Real.tan_arctan]

end Edsp.BandL
