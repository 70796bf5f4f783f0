import Verif.Lemmas.BandEdges

/-! Helper lemmas: the response of band-pass, band-stop and band-shelf designs in terms of the
prototype on the imaginary axis. -/

namespace Edsp.BandL

open Edsp Edsp.Spec Edsp.LayoutL Edsp.BilinearL

theorem V_of_ne {n d : ℂ → ℂ} {m : Nat} {P : Nat → ℂ} {Z : Nat → Pt} {s : Option (ℝ × Option ℝ)} {z : ℂ}
    (h : d z ≠ 0) : V n d m P Z s z = MA m P Z s (n z / d z) := by unfold V; rw [if_neg h]

theorem V_of_eq {n d : ℂ → ℂ} {m : Nat} {P : Nat → ℂ} {Z : Nat → Pt} {s : Option (ℝ × Option ℝ)} {z : ℂ}
    (h : d z = 0) : V n d m P Z s z = MI m Z s := by unfold V; rw [if_pos h]

theorem exp_zero_I : Complex.exp (((0 : ℝ) : ℂ) * Complex.I) = 1 := by simp

/-- The second parameter of both transformers. -/
theorem params_b {fs fc bw : ℝ} (hB : BandOk fs fc bw) {B : BandParams}
    (hpar : Params (Real.tan (bandLo fs fc bw / 2)) (Real.tan (bandHi fs fc bw / 2)) B) :
    B.b = 1 / Real.tan (Real.pi * bw / fs) := by
  obtain ⟨-, -, -, -, -, h0, hlt, hpi⟩ := bandInit_ok hB
  obtain ⟨t1, c1, -⟩ := tan_facts h0 (hlt.trans hpi)
  obtain ⟨t2, c2, -⟩ := tan_facts (h0.trans hlt) hpi
  have hfs := hB.fs_pos
  rw [hpar.b_eq, show Real.pi * bw / fs = bandHi fs fc bw / 2 - bandLo fs fc bw / 2 by
    unfold bandLo bandHi; field_simp; ring]
  rw [Real.tan_eq_sin_div_cos (_ - _), Real.sin_sub, Real.cos_sub, Real.tan_eq_sin_div_cos,
    Real.tan_eq_sin_div_cos, one_div_div]
  have := c1.ne'
  have := c2.ne'
  field_simp

section
variable {N m : Nat} {a : Layout} {P : Nat → ℂ} {Z : Nat → Pt} {s : Option (ℝ × Option ℝ)}
  (hold : Holds N a ((List.range m).map fun k => (some (P k), Z k))
      (s.map fun q => (some (q.1 : ℂ), q.2.map Complex.ofReal)))
  (hpos : 0 < m + s.toList.length) (hN : 2 * m + s.toList.length ≤ N)
  (hP : ∀ k < m, (P k).re < 0 ∧ (P k).im ≠ 0) (hZ : ∀ k < m, ∀ c, Z k = some c → c.re ≤ 0)
  {dbg : Bool} {fs fc bw : ℝ} (hs : ∀ q, s = some q → q.1 < 0 ∧ (∀ c, q.2 = some c → c ≤ 0) ∧
    (dbg = true → q.1 ≠ -(1 / Real.tan (Real.pi * bw / fs)) ∧
      q.2 ≠ some (-(1 / Real.tan (Real.pi * bw / fs)))))
  (hB : BandOk fs fc bw)
include hold hpos hN hP hZ hs hB

/-- The part common to the band-pass and the band-shelf designs. -/
theorem bp_common : ∃ B D, bandInit (fc / fs) (bw / fs) = .ok B ∧ B.wc2 = bandLo fs fc bw ∧
    B.wc = bandHi fs fc bw ∧ bandPairs dbg (bpMap B) id a (Layout.new (2 * N)) = .ok D ∧
    ∃ v : ℝ → ℝ, (∀ w0 g : ℝ, 0 ≤ g → v w0 ≠ 0 →
        ∃ c, makeCascade (2 * N) { D with w := w0, gain := g } = .ok c ∧
          c.num = 2 * m + s.toList.length ∧ (∀ f ∈ active c, f.stability = true) ∧
          ∀ w : ℝ, ChainGainAt (active c) w (g * (v w / v w0))) ∧
      (∀ w, 0 < w → w < Real.pi → v w = MA m P Z s (Complex.I *
        (passFreq (Real.tan (bandLo fs fc bw / 2)) (Real.tan (bandHi fs fc bw / 2)) (Real.tan (w / 2)) : ℝ))) ∧
      v 0 = MI m Z s ∧ v Real.pi = MI m Z s := by
  obtain ⟨B, hB1, hB2, hB3, hpar, h0, hlt, hpi⟩ := bandInit_ok hB
  obtain ⟨t1, -, -⟩ := tan_facts h0 (hlt.trans hpi)
  have ht := tan_half_strict h0 hlt hpi
  obtain ⟨ha, hb⟩ := params_pos t1 ht hpar
  obtain ⟨D, hD1, hD2⟩ := band_chain hold hpos hN hP hZ (b := B.b)
    (fun q hq => ⟨(hs q hq).1, (hs q hq).2.1⟩)
    (bp_root ha hb) keeps_id (dbg := dbg) (fun hd q hq => by rw [params_b hB hpar]; exact (hs q hq).2.2 hd)
    (fun w hY h => by
      rcases mul_eq_zero.mp h with h | h
      · exact hb.ne' (by exact_mod_cast h)
      · exact no_common ha h hY)
  refine ⟨B, D, hB1, hB2, hB3, hD1, fun w => V (fun z => B.b * qX B.a z) qY m P Z s
    (Complex.exp (w * Complex.I)), hD2, ?_, ?_, ?_⟩
  · intro w hw0 hwpi
    obtain ⟨hY, hq⟩ := bp_circle (a := B.a) (b := B.b) (w := w) (tan_facts hw0 hwpi).2.2.ne'
    simp only
    rw [V_of_ne hY, hq, pass_value t1 ht hpar hw0 hwpi]
  · simp only
    rw [exp_zero_I]
    exact V_of_eq (by simp [qY])
  · simp only
    rw [Complex.exp_pi_mul_I]
    exact V_of_eq (by simp [qY])

theorem bandpass_chain (hw : a.w = 0) (hgain : 0 ≤ a.gain) {ref : ℝ}
    (href : ref = MA m P Z s (Complex.I *
      (passFreq (Real.tan (bandLo fs fc bw / 2)) (Real.tan (bandHi fs fc bw / 2))
        (Real.sqrt (Real.tan (bandLo fs fc bw / 2) + Real.tan (bandHi fs fc bw / 2))) : ℝ)))
    (hr0 : ref ≠ 0) :
    ∃ d c, bandPassTransform dbg (fc / fs) (bw / fs) a (Layout.new (2 * N)) = .ok d ∧
      makeCascade (2 * N) d = .ok c ∧ c.num = 2 * m + s.toList.length ∧
      (∀ f ∈ active c, f.stability = true) ∧
      (∀ w, 0 < w → w < Real.pi → ChainGainAt (active c) w (a.gain * (MA m P Z s (Complex.I *
        (passFreq (Real.tan (bandLo fs fc bw / 2)) (Real.tan (bandHi fs fc bw / 2))
          (Real.tan (w / 2)) : ℝ)) / ref))) ∧
      ChainGainAt (active c) 0 (a.gain * (MI m Z s / ref)) ∧
      ChainGainAt (active c) Real.pi (a.gain * (MI m Z s / ref)) := by
  obtain ⟨B, D, hB1, hB2, hB3, hD, v, hv, hv1, hv2, hv3⟩ := bp_common hold hpos hN hP hZ hs hB
  obtain ⟨-, -, -, -, -, h0, hlt, hpi⟩ := bandInit_ok hB
  obtain ⟨w1, w2, w3, w4⟩ := bpW_ok hB2 hB3 h0 hlt hpi
  set w0 := 2 * Real.arctan (Real.sqrt (Real.tan (bandLo fs fc bw / 2) + Real.tan (bandHi fs fc bw / 2)))
  have hvw : v w0 = ref := by rw [hv1 w0 w2 w3, w4, href]
  obtain ⟨c, c1, c2, c3, c4⟩ := hv w0 a.gain hgain (by rw [hvw]; exact hr0)
  rw [hvw] at c4
  refine ⟨_, c, ?_, c1, c2, c3, ?_, ?_, ?_⟩
  · unfold bandPassTransform
    rw [hB1]
    simp only [bind, Except.bind, hD, hw, w1, pure, Except.pure]
  · intro w hw0 hwpi
    rw [← hv1 w hw0 hwpi]; exact c4 w
  · rw [← hv2]; exact c4 0
  · rw [← hv3]; exact c4 Real.pi

theorem bandshelf_chain (hr0 : MI m Z s ≠ 0) :
    ∃ d c, bandShelfTransform dbg (fc / fs) (bw / fs) a (Layout.new (2 * N)) = .ok d ∧
      makeCascade (2 * N) d = .ok c ∧ c.num = 2 * m + s.toList.length ∧
      (∀ f ∈ active c, f.stability = true) ∧
      (∀ w, 0 < w → w < Real.pi → ChainGainAt (active c) w (MA m P Z s (Complex.I *
        (passFreq (Real.tan (bandLo fs fc bw / 2)) (Real.tan (bandHi fs fc bw / 2))
          (Real.tan (w / 2)) : ℝ)) / MI m Z s)) ∧
      ChainGainAt (active c) 0 1 ∧ ChainGainAt (active c) Real.pi 1 := by
  obtain ⟨B, D, hB1, hB2, hB3, hD, v, hv, hv1, hv2, hv3⟩ := bp_common hold hpos hN hP hZ hs hB
  have hvw : v (if fc / fs < 1 / 4 then Real.pi else 0) = MI m Z s := by
    split_ifs
    · exact hv3
    · exact hv2
  obtain ⟨c, c1, c2, c3, c4⟩ := hv (if fc / fs < 1 / 4 then Real.pi else 0) 1 zero_le_one
    (by rw [hvw]; exact hr0)
  rw [hvw] at c4
  refine ⟨_, c, ?_, c1, c2, c3, ?_, ?_, ?_⟩
  · unfold bandShelfTransform
    rw [hB1]
    simp only [bind, Except.bind, hD, pure, Except.pure]
  · intro w hw0 hwpi
    have := c4 w
    rwa [hv1 w hw0 hwpi, one_mul] at this
  · have := c4 0
    rwa [hv2, div_self hr0, one_mul] at this
  · have := c4 Real.pi
    rwa [hv3, div_self hr0, one_mul] at this

theorem bandstop_chain (hw : a.w = 0) (hgain : 0 ≤ a.gain) (hr0 : MA m P Z s 0 ≠ 0) :
    ∃ d c, bandStopTransform dbg (fc / fs) (bw / fs) a (Layout.new (2 * N)) = .ok d ∧
      makeCascade (2 * N) d = .ok c ∧ c.num = 2 * m + s.toList.length ∧
      (∀ f ∈ active c, f.stability = true) ∧
      (∀ w, 0 < w → w < Real.pi →
        Real.tan (bandLo fs fc bw / 2) * Real.tan (bandHi fs fc bw / 2) ≠ Real.tan (w / 2) ^ 2 →
        ChainGainAt (active c) w (a.gain * (MA m P Z s (Complex.I *
        (((1 + Real.tan (bandLo fs fc bw / 2) * Real.tan (bandHi fs fc bw / 2)) /
            (Real.tan (bandHi fs fc bw / 2) - Real.tan (bandLo fs fc bw / 2))) ^ 2 *
          stopFreq (Real.tan (bandLo fs fc bw / 2)) (Real.tan (bandHi fs fc bw / 2))
          (Real.tan (w / 2)) : ℝ)) / MA m P Z s 0))) ∧
      (∀ w, 0 < w → w < Real.pi →
        Real.tan (bandLo fs fc bw / 2) * Real.tan (bandHi fs fc bw / 2) = Real.tan (w / 2) ^ 2 →
        ChainGainAt (active c) w (a.gain * (MI m Z s / MA m P Z s 0))) ∧
      ChainGainAt (active c) 0 a.gain ∧ ChainGainAt (active c) Real.pi a.gain := by
  obtain ⟨B, hB1, hB2, hB3, hpar, h0, hlt, hpi⟩ := bandInit_ok hB
  obtain ⟨t1, -, -⟩ := tan_facts h0 (hlt.trans hpi)
  have ht := tan_half_strict h0 hlt hpi
  obtain ⟨ha, hb⟩ := params_pos t1 ht hpar
  obtain ⟨D, hD1, hD2⟩ := band_chain hold hpos hN hP hZ (b := B.b)
    (fun q hq => ⟨(hs q hq).1, (hs q hq).2.1⟩)
    (bs_root ha hb) keeps_bsFix (dbg := dbg) (fun hd q hq => by rw [params_b hB hpar]; exact (hs q hq).2.2 hd)
    (fun w hX h => by
      rcases mul_eq_zero.mp h with h | h
      · exact hb.ne' (by exact_mod_cast h)
      · exact no_common ha hX h)
  have hX1 : qX B.a 1 ≠ 0 := fun h => no_common ha h (by simp [qY])
  have hXm : qX B.a (-1) ≠ 0 := fun h => no_common ha h (by simp [qY])
  have hv0 : V (fun z => B.b * qY z) (qX B.a) m P Z s (Complex.exp (((0 : ℝ) : ℂ) * Complex.I)) =
      MA m P Z s 0 := by
    rw [exp_zero_I, V_of_ne hX1]; simp [qY]
  have hvpi : V (fun z => B.b * qY z) (qX B.a) m P Z s (Complex.exp ((Real.pi : ℂ) * Complex.I)) =
      MA m P Z s 0 := by
    rw [Complex.exp_pi_mul_I, V_of_ne hXm]; simp [qY]
  have hvw : V (fun z => B.b * qY z) (qX B.a) m P Z s
      (Complex.exp (((if fc / fs < 1 / 4 then Real.pi else a.w : ℝ) : ℂ) * Complex.I)) = MA m P Z s 0 := by
    rw [hw]
    split_ifs
    · exact hvpi
    · exact hv0
  obtain ⟨c, c1, c2, c3, c4⟩ := hD2 (if fc / fs < 1 / 4 then Real.pi else a.w) a.gain hgain
    (by rw [hvw]; exact hr0)
  rw [hvw] at c4
  refine ⟨_, c, ?_, c1, c2, c3, ?_, ?_, ?_, ?_⟩
  · unfold bandStopTransform
    rw [hB1]
    simp only [bind, Except.bind, hD1, pure, Except.pure]
  · intro w hw0 hwpi hne
    obtain ⟨e1, e2⟩ := stop_value t1 ht hpar hw0 hwpi
    have hden : (0 : ℝ) < 1 + Real.tan (bandLo fs fc bw / 2) * Real.tan (bandHi fs fc bw / 2) := by
      have := mul_pos t1 (t1.trans ht); linarith
    have hcne : Real.cos w - B.a ≠ 0 := by
      rw [e1]
      refine div_ne_zero (mul_ne_zero two_ne_zero (sub_ne_zero.mpr hne)) ?_
      positivity
    obtain ⟨g1, g2⟩ := bs_circle (b := B.b) hcne
    rw [← e2 hne, ← g2, ← V_of_ne (n := fun z => (B.b : ℂ) * qY z) g1]
    exact c4 w
  · intro w hw0 hwpi heq
    obtain ⟨e1, -⟩ := stop_value t1 ht hpar hw0 hwpi
    rw [heq, sub_self, mul_zero, zero_div] at e1
    have : qX B.a (Complex.exp (w * Complex.I)) = 0 := by
      rw [(circle_XY B.a w).1, e1]; simp
    rw [← V_of_eq (n := fun z => (B.b : ℂ) * qY z) (P := P) this]
    exact c4 w
  · have := c4 0
    rwa [hv0, div_self hr0, mul_one] at this
  · have := c4 Real.pi
    rwa [hvpi, div_self hr0, mul_one] at this

end

end Edsp.BandL
