import Verif.Lemmas.BandChains
import Verif.Props.C57_Chebyshev

/-! # C71, C72, C73: band-pass, band-stop and band-shelf designs

`t₁ = tan(lo/2)`, `t₂ = tan(hi/2)` are the pre-warped band edges and `t = tan(w/2)`. -/

namespace Edsp.Props

open Edsp Edsp.Spec Edsp.LayoutL Edsp.BilinearL Edsp.AnalogL Edsp.BandL

/-- Pre-warped lower edge. -/
noncomputable abbrev tLo (fs fc bw : ℝ) : ℝ := Real.tan (bandLo fs fc bw / 2)
/-- Pre-warped upper edge. -/
noncomputable abbrev tHi (fs fc bw : ℝ) : ℝ := Real.tan (bandHi fs fc bw / 2)

theorem edges_pos {fs fc bw : ℝ} (h : BandOk fs fc bw) :
    0 < tLo fs fc bw ∧ tLo fs fc bw < tHi fs fc bw ∧ 0 < bandLo fs fc bw ∧
      bandLo fs fc bw < bandHi fs fc bw ∧ bandHi fs fc bw < Real.pi := by
  obtain ⟨-, -, -, -, -, h0, hlt, hpi⟩ := bandInit_ok h
  exact ⟨(tan_facts h0 (hlt.trans hpi)).1, tan_half_strict h0 hlt hpi, h0, hlt, hpi⟩

theorem band_fdiv {fs fc bw : ℝ} (h : BandOk fs fc bw) :
    fdiv fc fs = .ok (fc / fs) ∧ fdiv bw fs = .ok (bw / fs) :=
  ⟨fdiv_ok h.fs_pos.ne', fdiv_ok h.fs_pos.ne'⟩

/-- A band of 4 kHz around 12 kHz, sampled at 48 kHz. -/
theorem bandOk_example : BandOk 48000 12000 4000 := by
  have h3 := Real.two_le_pi
  refine ⟨by norm_num, by norm_num, ?_, ?_⟩
  · unfold bandLo; norm_num; linarith
  · unfold bandHi
    have : 2 * Real.pi * (12000 + 4000 / 2) / 48000 = Real.pi * (7 / 12) := by ring
    rw [this]; norm_num; linarith

theorem pass_lo {t1 t2 : ℝ} (h : 0 < t1) (h2 : t1 < t2) : passFreq t1 t2 t1 = -1 := by
  unfold passFreq
  have : t2 - t1 ≠ 0 := by linarith
  field_simp; ring

theorem pass_hi {t1 t2 : ℝ} (h : 0 < t1) (h2 : t1 < t2) : passFreq t1 t2 t2 = 1 := by
  unfold passFreq
  have : t2 - t1 ≠ 0 := by linarith
  have : t2 ≠ 0 := by linarith
  field_simp

theorem pass_centre {t1 t2 t : ℝ} (h : t ^ 2 = t1 * t2) : passFreq t1 t2 t = 0 := by
  unfold passFreq; rw [h]; simp

theorem stop_lo {t1 t2 : ℝ} (h : 0 < t1) (h2 : t1 < t2) : stopFreq t1 t2 t1 = 1 := by
  unfold stopFreq
  have : t2 - t1 ≠ 0 := by linarith
  have e : t1 * t2 - t1 ^ 2 = t1 * (t2 - t1) := by ring
  rw [e, div_self]; positivity

theorem stop_hi {t1 t2 : ℝ} (h : 0 < t1) (h2 : t1 < t2) : stopFreq t1 t2 t2 = -1 := by
  unfold stopFreq
  have h3 : t2 - t1 ≠ 0 := by linarith
  have h4 : t2 ≠ 0 := by linarith
  have e : t1 * t2 - t2 ^ 2 = -(t2 * (t2 - t1)) := by ring
  rw [e, div_neg, div_self]; exact mul_ne_zero h4 h3

/-- Inside the band the mapped frequency has modulus at most 1. -/
theorem pass_inside {t1 t2 t : ℝ} (h : 0 < t1) (h2 : t1 < t2) (ha : t1 ≤ t) (hb : t ≤ t2) :
    |passFreq t1 t2 t| ≤ 1 := by
  have ht : 0 < t := by linarith
  have hd : 0 < t * (t2 - t1) := mul_pos ht (by linarith)
  unfold passFreq
  rw [abs_div, abs_of_pos hd, div_le_one hd, abs_le]
  constructor <;> nlinarith [mul_nonneg (sub_nonneg.mpr ha) (sub_nonneg.mpr hb)]

/-- Outside the band it has modulus at least 1. -/
theorem pass_outside {t1 t2 t : ℝ} (h : 0 < t1) (h2 : t1 < t2) (ht : 0 < t) (ho : t ≤ t1 ∨ t2 ≤ t) :
    1 ≤ |passFreq t1 t2 t| := by
  have hd : 0 < t * (t2 - t1) := mul_pos ht (by linarith)
  unfold passFreq
  rw [abs_div, abs_of_pos hd, le_div_iff₀ hd, one_mul, le_abs]
  rcases ho with h' | h'
  · right; nlinarith
  · left; nlinarith

theorem oddSingle_release {n : Nat} {r : ℝ} (hr : r < 0) {z : Option ℝ} (hz : ∀ c, z = some c → c ≤ 0)
    {dbg : Bool} (hd : n % 2 = 1 → dbg = false) {b : ℝ} :
    ∀ q, oddSingle n r z = some q → q.1 < 0 ∧ (∀ c, q.2 = some c → c ≤ 0) ∧
      (dbg = true → q.1 ≠ -b ∧ q.2 ≠ some (-b)) := by
  intro q hq
  unfold oddSingle at hq
  split at hq
  · rename_i h
    injection hq with hq; subst hq; exact ⟨hr, hz, fun h' => by rw [hd h] at h'; cases h'⟩
  · cases hq

/-- **C71, Butterworth band-pass (partial).** For every order `1 ≤ n ≤ N` (release build or even
order) and every band strictly inside `(0, fs/2)` the design succeeds with `n` stable sections; its
gain is `g₀ / √(1 + Ω^(2n))` with the textbook `Ω = (t² − t₁t₂)/(t(t₂ − t₁))` and one constant `g₀`,
and 0 at frequency 0 and at Nyquist.

Missing from the full statement: `g₀ = 1`.  The code normalises at the frequency with
`t = √(t₁ + t₂)` instead of `√(t₁t₂)`, which gives the value of `g₀` shown. -/
theorem C71_butterworth_bandpass_partial (dbg : Bool) {N n : Nat} (hn : 1 ≤ n) (hN : n ≤ N)
    (hd : n % 2 = 1 → dbg = false) {fs fc bw : ℝ} (hB : BandOk fs fc bw) :
    ∃ c, Butterworth.bandPass dbg N n fs fc bw = .ok c ∧ c.num = n ∧
      (∀ g ∈ active c, g.stability = true) ∧
      (∀ w : ℝ, 0 < w → w < Real.pi → ChainGainAt (active c) w
        (Real.sqrt (1 + passFreq (tLo fs fc bw) (tHi fs fc bw)
            (Real.sqrt (tLo fs fc bw + tHi fs fc bw)) ^ (2 * n)) /
          Real.sqrt (1 + passFreq (tLo fs fc bw) (tHi fs fc bw) (Real.tan (w / 2)) ^ (2 * n)))) ∧
      ChainGainAt (active c) 0 0 ∧ ChainGainAt (active c) Real.pi 0 := by
  obtain ⟨e1, e2⟩ := band_fdiv hB
  obtain ⟨a, ha, haw, hag, hold⟩ := butter_analog hN hd
  have hlen := oddSingle_len n (-1) none
  have hpos : ∀ y : ℝ, 0 < Real.sqrt (1 + y ^ (2 * n)) := by
    intro y
    have : 0 ≤ y ^ (2 * n) := by rw [pow_mul]; positivity
    exact Real.sqrt_pos.mpr (by linarith)
  obtain ⟨d, c, hd', hc, hnum, hst, hgain, h0, hpi⟩ := bandpass_chain hold (by omega) (by omega)
    (fun k hk => butter_pole_lhp hk) (by intro k _ c hc; cases hc)
    (oddSingle_release (by norm_num) (by intro c hc; cases hc) hd) hB haw
    (by rw [hag]; norm_num) rfl
    (by rw [butter_MA n (by omega)]; exact (one_div_pos.mpr (hpos _)).ne')
  refine ⟨c, ?_, by rw [hnum, hlen.2], hst, ?_, ?_, ?_⟩
  · unfold Butterworth.bandPass
    rw [e1, e2, ha]
    simp only [bind, Except.bind, hd', hc]
  · intro w hw0 hwpi
    have := hgain w hw0 hwpi
    rw [hag, one_mul, butter_MA n (by omega), butter_MA n (by omega), div_div_div_eq, one_mul, mul_one] at this
    exact this
  · rw [MI_allpole n (by omega), zero_div, mul_zero] at h0
    exact h0
  · rw [MI_allpole n (by omega), zero_div, mul_zero] at hpi
    exact hpi

example : ∃ c, Butterworth.bandPass true 8 2 48000 12000 4000 = .ok c ∧ c.num = 2 ∧
    ChainGainAt (active c) 0 0 := by
  obtain ⟨c, h1, h2, -, -, h3, -⟩ := C71_butterworth_bandpass_partial true (N := 8) (n := 2)
    (by norm_num) (by norm_num) (by norm_num) bandOk_example
  exact ⟨c, h1, h2, h3⟩

/-- **C71, shape of the Butterworth band-pass (partial).** The gain at the centre (`t² = t₁t₂`) is the
largest one, both band edges are exactly 3 dB (a factor `1/√2`) below it, inside the band the gain stays
within these 3 dB and outside it is at least 3 dB down.  Missing: the gain at the centre is not 1
(`C71_centre_gain_violates`). -/
theorem C71_butterworth_bandpass_edges_partial (dbg : Bool) {N n : Nat} (hn : 1 ≤ n) (hN : n ≤ N)
    (hd : n % 2 = 1 → dbg = false) {fs fc bw : ℝ} (hB : BandOk fs fc bw) :
    ∃ c, Butterworth.bandPass dbg N n fs fc bw = .ok c ∧ ∃ g0 : ℝ, 0 < g0 ∧
      (∀ w, 0 < w → w < Real.pi → Real.tan (w / 2) ^ 2 = tLo fs fc bw * tHi fs fc bw →
        ChainGainAt (active c) w g0) ∧
      ChainGainAt (active c) (bandLo fs fc bw) (g0 / Real.sqrt 2) ∧
      ChainGainAt (active c) (bandHi fs fc bw) (g0 / Real.sqrt 2) ∧
      (∀ w, bandLo fs fc bw ≤ w → w ≤ bandHi fs fc bw →
        ∃ g, ChainGainAt (active c) w g ∧ g0 / Real.sqrt 2 ≤ g ∧ g ≤ g0) ∧
      (∀ w, 0 ≤ w → w ≤ Real.pi → w ≤ bandLo fs fc bw ∨ bandHi fs fc bw ≤ w →
        ∃ g, ChainGainAt (active c) w g ∧ g ≤ g0 / Real.sqrt 2) := by
  obtain ⟨c, hc, -, -, hg, hz, hpi⟩ := C71_butterworth_bandpass_partial dbg hn hN hd hB
  obtain ⟨t1, t12, w0, wlt, wpi⟩ := edges_pos hB
  have hmono : ∀ {x y : ℝ}, 0 < x → x ≤ y → y < Real.pi → Real.tan (x / 2) ≤ Real.tan (y / 2) := by
    intro x y hx hxy hy
    exact Real.strictMonoOn_tan.monotoneOn ⟨by linarith, by linarith⟩ ⟨by linarith, by linarith⟩
      (by linarith)
  set g0 := Real.sqrt (1 + passFreq (tLo fs fc bw) (tHi fs fc bw)
            (Real.sqrt (tLo fs fc bw + tHi fs fc bw)) ^ (2 * n)) with hg0
  have hg0p : 0 < g0 := by
    apply Real.sqrt_pos.mpr
    rw [pow_mul]; positivity
  have hs2 : (0 : ℝ) < Real.sqrt 2 := by positivity
  have hp2 : ∀ x : ℝ, 0 ≤ x ^ (2 * n) := fun x => by rw [pow_mul]; positivity
  have hpp : ∀ x : ℝ, 0 < Real.sqrt (1 + x ^ (2 * n)) := fun x =>
    Real.sqrt_pos.mpr (by linarith [hp2 x])
  refine ⟨c, hc, g0, hg0p, ?_, ?_, ?_, ?_, ?_⟩
  · intro w hw0 hwpi hw
    have := hg w hw0 hwpi
    rw [pass_centre hw, zero_pow (by omega)] at this
    simpa using this
  · have := hg _ w0 (wlt.trans wpi)
    rw [pass_lo t1 t12, pow_mul, neg_one_sq, one_pow, one_add_one_eq_two] at this
    exact this
  · have := hg _ (w0.trans wlt) wpi
    rw [pass_hi t1 t12, one_pow, one_add_one_eq_two] at this
    exact this
  · intro w hw1 hw2
    refine ⟨_, hg w (by linarith) (by linarith), ?_, ?_⟩
    · apply div_le_div_of_nonneg_left hg0p.le (hpp _)
      apply Real.sqrt_le_sqrt
      have hin := pass_inside t1 t12 (hmono w0 hw1 (by linarith)) (hmono (by linarith) hw2 wpi)
      have := pow_le_one₀ (n := 2 * n) (abs_nonneg _) hin
      rw [pow_mul, sq_abs, ← pow_mul] at this
      linarith
    · rw [div_le_iff₀ (hpp _)]
      have : 1 ≤ Real.sqrt (1 + passFreq (tLo fs fc bw) (tHi fs fc bw) (Real.tan (w / 2)) ^ (2 * n)) := by
        rw [Real.one_le_sqrt]; linarith [hp2 (passFreq (tLo fs fc bw) (tHi fs fc bw) (Real.tan (w / 2)))]
      nlinarith
  · intro w hw1 hw2 ho
    rcases hw1.eq_or_lt with rfl | hw1
    · exact ⟨0, hz, by positivity⟩
    rcases hw2.eq_or_lt with rfl | hw2
    · exact ⟨0, hpi, by positivity⟩
    refine ⟨_, hg w hw1 hw2, ?_⟩
    apply div_le_div_of_nonneg_left hg0p.le hs2
    apply Real.sqrt_le_sqrt
    have hout := pass_outside t1 t12 (tan_facts hw1 hw2).1
      (ho.imp (fun h => hmono hw1 h (wlt.trans wpi)) (fun h => hmono (w0.trans wlt) h hw2))
    have := one_le_pow₀ (n := 2 * n) hout
    rw [pow_mul, sq_abs, ← pow_mul] at this
    linarith

example : ∃ c, Butterworth.bandPass false 8 3 48000 12000 4000 = .ok c ∧ ∃ g0 : ℝ, 0 < g0 ∧
    ChainGainAt (active c) (bandLo 48000 12000 4000) (g0 / Real.sqrt 2) := by
  obtain ⟨c, h1, g0, h2, -, h3, -⟩ := C71_butterworth_bandpass_edges_partial false (N := 8) (n := 3)
    (by norm_num) (by norm_num) (by norm_num) bandOk_example
  exact ⟨c, h1, g0, h2, h3⟩

/-- A band centred at a quarter of the sample rate has `t₁t₂ = 1`. -/
theorem quarter_product {fs bw : ℝ} (hB : BandOk fs (fs / 4) bw) :
    tLo fs (fs / 4) bw * tHi fs (fs / 4) bw = 1 := by
  obtain ⟨t1, t12, w0, wlt, wpi⟩ := edges_pos hB
  have hfs := hB.fs_pos
  have e : bandHi fs (fs / 4) bw / 2 = Real.pi / 2 - bandLo fs (fs / 4) bw / 2 := by
    unfold bandHi bandLo; field_simp; ring
  show Real.tan _ * Real.tan _ = 1
  rw [e, Real.tan_pi_div_two_sub]
  exact mul_inv_cancel₀ t1.ne'

/-- **C71 is violated: a band-pass amplifies its pass band.** For every band centred at a quarter of
the sample rate, every order and every bandwidth, the gain of the Butterworth band-pass at its centre
is strictly above 1. -/
theorem C71_centre_gain_violates (dbg : Bool) {N n : Nat} (hn : 1 ≤ n) (hN : n ≤ N)
    (hd : n % 2 = 1 → dbg = false) {fs bw : ℝ} (hB : BandOk fs (fs / 4) bw) :
    ∃ c, Butterworth.bandPass dbg N n fs (fs / 4) bw = .ok c ∧
      ∃ g, 1 < g ∧ ChainGainAt (active c) (2 * Real.pi * (fs / 4) / fs) g := by
  obtain ⟨c, hc, -, -, hg, -⟩ := C71_butterworth_bandpass_partial dbg hn hN hd hB
  obtain ⟨t1, t12, w0, wlt, wpi⟩ := edges_pos hB
  have hq := quarter_product hB
  have hfs := hB.fs_pos
  have hpi := Real.pi_pos
  have e : 2 * Real.pi * (fs / 4) / fs = Real.pi / 2 := by field_simp; ring
  have ht : Real.tan (Real.pi / 2 / 2) = 1 := by
    rw [show Real.pi / 2 / 2 = Real.pi / 4 by ring, Real.tan_pi_div_four]
  have := hg (Real.pi / 2) (by linarith) (by linarith)
  have hcen : passFreq (tLo fs (fs / 4) bw) (tHi fs (fs / 4) bw) 1 = 0 :=
    pass_centre (by rw [hq]; norm_num)
  rw [ht, hcen, zero_pow (show 2 * n ≠ 0 by omega), add_zero, Real.sqrt_one, div_one] at this
  refine ⟨c, hc, _, ?_, by rw [e]; exact this⟩
  rw [Real.lt_sqrt (by norm_num)]
  have hne : passFreq (tLo fs (fs / 4) bw) (tHi fs (fs / 4) bw)
      (Real.sqrt (tLo fs (fs / 4) bw + tHi fs (fs / 4) bw)) ≠ 0 := by
    unfold passFreq
    rw [Real.sq_sqrt (by linarith), hq]
    set x := tLo fs (fs / 4) bw
    set y := tHi fs (fs / 4) bw
    have h1 : 1 < x + y := by nlinarith [sq_nonneg (x - y)]
    apply div_ne_zero (by linarith)
    exact mul_ne_zero (Real.sqrt_pos.mpr (by linarith)).ne' (by linarith)
  have : 0 < passFreq (tLo fs (fs / 4) bw) (tHi fs (fs / 4) bw)
      (Real.sqrt (tLo fs (fs / 4) bw + tHi fs (fs / 4) bw)) ^ (2 * n) := by
    rw [pow_mul]; positivity
  linarith

example : ∃ c, Butterworth.bandPass true 8 2 48000 (48000 / 4) 4000 = .ok c ∧
    ∃ g, 1 < g ∧ ChainGainAt (active c) (2 * Real.pi * (48000 / 4) / 48000) g :=
  C71_centre_gain_violates true (by norm_num) (by norm_num) (by norm_num)
    (by norm_num; exact bandOk_example)

/-- **C71, Chebyshev I band-pass (partial).** `n` stable sections, and the gain is
`κ / √(1 + (10^(r/10) − 1) · Tₙ(Ω)²)` with the textbook `Ω` and one constant `κ > 0`; it is 0 at
frequency 0 and at Nyquist, and inside the band it stays within `r` dB of `κ`.  Missing: `κ` is not 1. -/
theorem C71_chebyshev1_bandpass_partial (dbg : Bool) {N n : Nat} (hn : 1 ≤ n) (hN : n ≤ N)
    (hd : n % 2 = 1 → dbg = false) {r : ℝ} (hr : 0 < r) {fs fc bw : ℝ} (hB : BandOk fs fc bw) :
    ∃ c, ChebyshevI.bandPass dbg N n fs fc bw r = .ok c ∧ c.num = n ∧
      (∀ g ∈ active c, g.stability = true) ∧ ∃ κ : ℝ, 0 < κ ∧
      (∀ w : ℝ, 0 < w → w < Real.pi → ChainGainAt (active c) w
        (κ / Real.sqrt (1 + ((10 : ℝ) ^ (r / 10) - 1) *
          chebT n (passFreq (tLo fs fc bw) (tHi fs fc bw) (Real.tan (w / 2))) ^ 2))) ∧
      ChainGainAt (active c) 0 0 ∧ ChainGainAt (active c) Real.pi 0 ∧
      ∀ w, bandLo fs fc bw ≤ w → w ≤ bandHi fs fc bw → ∃ g, ChainGainAt (active c) w g ∧
        κ * (10 : ℝ) ^ (-r / 20) ≤ g ∧ g ≤ κ := by
  obtain ⟨e1, e2⟩ := band_fdiv hB
  obtain ⟨a, v, hv, ha, haw, hag, hold, hM0, hgn⟩ := cheb1_setup dbg hn hN hd hr
  have hlen := oddSingle_len n (-Real.sinh v) none
  have hsh : 0 < Real.sinh v := Real.sinh_pos_iff.mpr hv
  have hq := (eps_ok hr).2
  set M0 := MA (n / 2) (ChebyshevI.pole v n) (fun _ => none) (oddSingle n (-Real.sinh v) none) 0
  set Y := passFreq (tLo fs fc bw) (tHi fs fc bw) (Real.sqrt (tLo fs fc bw + tHi fs fc bw)) with hY
  set M := fun y : ℝ => MA (n / 2) (ChebyshevI.pole v n) (fun _ => none)
    (oddSingle n (-Real.sinh v) none) (Complex.I * y) with hM
  have hS : ∀ y : ℝ, 0 < Real.sqrt (1 + ((10 : ℝ) ^ (r / 10) - 1) * chebT n y ^ 2) := by
    intro y; apply Real.sqrt_pos.mpr; positivity
  have hprod : ∀ y : ℝ, a.gain * (M y / M0) =
      1 / Real.sqrt (1 + ((10 : ℝ) ^ (r / 10) - 1) * chebT n y ^ 2) := hgn
  have hMy : ∀ y, M y ≠ 0 := by
    intro y h
    have := hprod y
    rw [h, zero_div, mul_zero] at this
    exact (one_div_pos.mpr (hS y)).ne this
  have hag' : 0 < a.gain := by
    rcases hag.eq_or_lt with h | h
    · exfalso
      have := hprod 0
      rw [← h, zero_mul] at this
      exact (one_div_pos.mpr (hS 0)).ne this
    · exact h
  obtain ⟨d, c, hd', hc, hnum, hst, hgain, h0, hpi⟩ := bandpass_chain hold (by omega) (by omega)
    (fun k hk => cheb_pole_lhp hk hv) (by intro k _ c hc; cases hc)
    (oddSingle_release (by linarith) (by intro c hc; cases hc) hd) hB haw
    hag (ref := M Y) rfl (hMy Y)
  have hratio : ∀ y : ℝ, a.gain * (M y / M Y) =
      a.gain * Real.sqrt (1 + ((10 : ℝ) ^ (r / 10) - 1) * chebT n Y ^ 2) /
        Real.sqrt (1 + ((10 : ℝ) ^ (r / 10) - 1) * chebT n y ^ 2) := by
    intro y
    have p1 := hprod y
    have p2 := hprod Y
    have hMYn := hMy Y
    have hs := (hS y).ne'
    have hsY := (hS Y).ne'
    have q1 : M y = M0 / (a.gain * Real.sqrt (1 + ((10 : ℝ) ^ (r / 10) - 1) * chebT n y ^ 2)) := by
      field_simp at p1 ⊢; linarith
    have q2 : M Y = M0 / (a.gain * Real.sqrt (1 + ((10 : ℝ) ^ (r / 10) - 1) * chebT n Y ^ 2)) := by
      field_simp at p2 ⊢; linarith
    rw [q1, q2]
    field_simp
  have hall : ∀ w : ℝ, 0 < w → w < Real.pi → ChainGainAt (active c) w
      (a.gain * Real.sqrt (1 + ((10 : ℝ) ^ (r / 10) - 1) * chebT n Y ^ 2) /
        Real.sqrt (1 + ((10 : ℝ) ^ (r / 10) - 1) *
          chebT n (passFreq (tLo fs fc bw) (tHi fs fc bw) (Real.tan (w / 2))) ^ 2)) := by
    intro w hw0 hwpi
    rw [← hratio]
    exact hgain w hw0 hwpi
  obtain ⟨t1, t12, w0, wlt, wpi⟩ := edges_pos hB
  have hκ : 0 < a.gain * Real.sqrt (1 + ((10 : ℝ) ^ (r / 10) - 1) * chebT n Y ^ 2) := mul_pos hag' (hS Y)
  refine ⟨c, ?_, by rw [hnum, hlen.2], hst, _, hκ, hall, ?_, ?_, ?_⟩
  · unfold ChebyshevI.bandPass
    rw [e1, e2, ha]
    simp only [bind, Except.bind, hd', hc]
  · rw [MI_allpole n (by omega), zero_div, mul_zero] at h0
    exact h0
  · rw [MI_allpole n (by omega), zero_div, mul_zero] at hpi
    exact hpi
  · intro w hw1 hw2
    have hmono : ∀ {x y : ℝ}, 0 < x → x ≤ y → y < Real.pi → Real.tan (x / 2) ≤ Real.tan (y / 2) := by
      intro x y hx hxy hy
      exact Real.strictMonoOn_tan.monotoneOn ⟨by linarith, by linarith⟩ ⟨by linarith, by linarith⟩
        (by linarith)
    refine ⟨_, hall w (by linarith) (by linarith), ?_⟩
    obtain ⟨r1, r2⟩ := cheb1_ripple (n := n) hr
      (pass_inside t1 t12 (hmono w0 hw1 (by linarith)) (hmono (by linarith) hw2 wpi))
    rw [div_eq_mul_one_div (a.gain * _)]
    exact ⟨mul_le_mul_of_nonneg_left r1 hκ.le, mul_le_of_le_one_right hκ.le r2⟩

example : ∃ c, ChebyshevI.bandPass true 8 2 48000 12000 4000 1 = .ok c ∧ c.num = 2 := by
  obtain ⟨c, h1, h2, -⟩ := C71_chebyshev1_bandpass_partial true (N := 8) (n := 2)
    (by norm_num) (by norm_num) (by norm_num) (r := 1) (by norm_num) bandOk_example
  exact ⟨c, h1, h2⟩

/-- The factor by which the band-stop transform scales the textbook frequency. -/
noncomputable abbrev stopScale (fs fc bw : ℝ) : ℝ :=
  ((1 + tLo fs fc bw * tHi fs fc bw) / (tHi fs fc bw - tLo fs fc bw)) ^ 2

theorem stopScale_pos {fs fc bw : ℝ} (hB : BandOk fs fc bw) : 0 < stopScale fs fc bw := by
  obtain ⟨t1, t12, -⟩ := edges_pos hB
  have : 0 < tLo fs fc bw * tHi fs fc bw := mul_pos t1 (t1.trans t12)
  have : 0 < tHi fs fc bw - tLo fs fc bw := by linarith
  unfold stopScale; positivity

/-- **C72, Butterworth band-stop (partial).** `n` stable sections, gain exactly 1 at frequency 0 and at
Nyquist, exactly 0 at the centre (`t² = t₁t₂`), and elsewhere `1 / √(1 + (s Ω)^(2n))` with the textbook
`Ω = t(t₂ − t₁)/(t₁t₂ − t²)`.  Missing from the full statement: the factor `s` should be 1. -/
theorem C72_butterworth_bandstop_partial (dbg : Bool) {N n : Nat} (hn : 1 ≤ n) (hN : n ≤ N)
    (hd : n % 2 = 1 → dbg = false) {fs fc bw : ℝ} (hB : BandOk fs fc bw) :
    ∃ c, Butterworth.bandStop dbg N n fs fc bw = .ok c ∧ c.num = n ∧
      (∀ g ∈ active c, g.stability = true) ∧
      (∀ w : ℝ, 0 < w → w < Real.pi → tLo fs fc bw * tHi fs fc bw ≠ Real.tan (w / 2) ^ 2 →
        ChainGainAt (active c) w (1 / Real.sqrt (1 + (stopScale fs fc bw *
          stopFreq (tLo fs fc bw) (tHi fs fc bw) (Real.tan (w / 2))) ^ (2 * n)))) ∧
      (∀ w : ℝ, 0 < w → w < Real.pi → tLo fs fc bw * tHi fs fc bw = Real.tan (w / 2) ^ 2 →
        ChainGainAt (active c) w 0) ∧
      ChainGainAt (active c) 0 1 ∧ ChainGainAt (active c) Real.pi 1 := by
  obtain ⟨e1, e2⟩ := band_fdiv hB
  obtain ⟨a, ha, haw, hag, hold⟩ := butter_analog hN hd
  have hlen := oddSingle_len n (-1) none
  have hM0 : MA (n / 2) (Butterworth.pole n) (fun _ => none) (oddSingle n (-1) none) 0 = 1 := by
    have := butter_MA n (by omega) 0
    rw [Complex.ofReal_zero, mul_zero] at this
    rw [this, zero_pow (by omega)]; simp
  obtain ⟨d, c, hd', hc, hnum, hst, hgain, hcen, h0, hpi⟩ := bandstop_chain hold (by omega) (by omega)
    (fun k hk => butter_pole_lhp hk) (by intro k _ c hc; cases hc)
    (oddSingle_release (by norm_num) (by intro c hc; cases hc) hd) hB haw
    (by rw [hag]; norm_num) (by rw [hM0]; exact one_ne_zero)
  rw [hag] at h0 hpi
  refine ⟨c, ?_, by rw [hnum, hlen.2], hst, ?_, ?_, h0, hpi⟩
  · unfold Butterworth.bandStop
    rw [e1, e2, ha]
    simp only [bind, Except.bind, hd', hc]
  · intro w hw0 hwpi hne
    have := hgain w hw0 hwpi hne
    rw [hag, one_mul, hM0, div_one, butter_MA n (by omega)] at this
    exact this
  · intro w hw0 hwpi heq
    have := hcen w hw0 hwpi heq
    rw [MI_allpole n (by omega), zero_div, mul_zero] at this
    exact this

example : ∃ c, Butterworth.bandStop true 8 2 48000 12000 4000 = .ok c ∧ c.num = 2 ∧
    ChainGainAt (active c) 0 1 := by
  obtain ⟨c, h1, h2, -, -, -, h3, -⟩ := C72_butterworth_bandstop_partial true (N := 8) (n := 2)
    (by norm_num) (by norm_num) (by norm_num) bandOk_example
  exact ⟨c, h1, h2, h3⟩

/-- `s = 1` exactly when the bandwidth is a quarter of the sample rate. -/
theorem stopScale_eq_one {fs fc bw : ℝ} (hB : BandOk fs fc bw) :
    stopScale fs fc bw = 1 ↔ bw = fs / 4 := by
  obtain ⟨t1, t12, w0, wlt, wpi⟩ := edges_pos hB
  have hfs := hB.fs_pos
  have hpi := Real.pi_pos
  have hp : 0 < 1 + tLo fs fc bw * tHi fs fc bw := by
    have := mul_pos t1 (t1.trans t12); linarith
  have hdpos : 0 < tHi fs fc bw - tLo fs fc bw := by linarith
  have hD : bandHi fs fc bw / 2 - bandLo fs fc bw / 2 = Real.pi * bw / fs := by
    unfold bandHi bandLo; field_simp; ring
  have c1 : Real.cos (bandLo fs fc bw / 2) ≠ 0 :=
    (Real.cos_pos_of_mem_Ioo ⟨by linarith, by linarith⟩).ne'
  have c2 : Real.cos (bandHi fs fc bw / 2) ≠ 0 :=
    (Real.cos_pos_of_mem_Ioo ⟨by linarith, by linarith⟩).ne'
  -- the difference of the two warped edges is the tangent of half the bandwidth
  have htan : tHi fs fc bw - tLo fs fc bw = 1 + tLo fs fc bw * tHi fs fc bw ↔
      Real.sin (Real.pi * bw / fs) = Real.cos (Real.pi * bw / fs) := by
    rw [← hD, Real.sin_sub, Real.cos_sub]
    show Real.tan _ - Real.tan _ = 1 + Real.tan _ * Real.tan _ ↔ _
    rw [Real.tan_eq_sin_div_cos, Real.tan_eq_sin_div_cos]
    constructor
    · intro h; field_simp at h; linarith
    · intro h; field_simp; linarith
  have hb0 : 0 < Real.pi * bw / fs := by have := hB.bw_pos; positivity
  have hb1 : Real.pi * bw / fs < Real.pi / 2 := by rw [← hD]; linarith
  have hsc : Real.sin (Real.pi * bw / fs) = Real.cos (Real.pi * bw / fs) ↔ bw = fs / 4 := by
    constructor
    · intro h
      rw [← Real.sin_pi_div_two_sub] at h
      have := Real.injOn_sin ⟨by linarith, by linarith⟩ ⟨by linarith, by linarith⟩ h
      have h4 : Real.pi * bw / fs = Real.pi / 4 := by linarith
      field_simp at h4
      linarith
    · rintro rfl
      rw [show Real.pi * (fs / 4) / fs = Real.pi / 4 by field_simp]
      rw [Real.sin_pi_div_four, Real.cos_pi_div_four]
  rw [← hsc, ← htan]
  unfold stopScale
  rw [pow_eq_one_iff_of_nonneg (by positivity) two_ne_zero, div_eq_one_iff_eq hdpos.ne']
  exact ⟨fun h => h.symm, fun h => h.symm⟩

/-- **C72 is violated: the band edges are not at −3 dB.** For every order and every band whose width is
not exactly a quarter of the sample rate, the gain of the Butterworth band-stop at both edges differs
from `1/√2`. -/
theorem C72_edges_violates (dbg : Bool) {N n : Nat} (hn : 1 ≤ n) (hN : n ≤ N)
    (hd : n % 2 = 1 → dbg = false) {fs fc bw : ℝ} (hB : BandOk fs fc bw) (hbw : bw ≠ fs / 4) :
    ∃ c, Butterworth.bandStop dbg N n fs fc bw = .ok c ∧ ∃ g, g ≠ 1 / Real.sqrt 2 ∧
      ChainGainAt (active c) (bandLo fs fc bw) g ∧ ChainGainAt (active c) (bandHi fs fc bw) g := by
  obtain ⟨c, hc, -, -, hg, -⟩ := C72_butterworth_bandstop_partial dbg hn hN hd hB
  obtain ⟨t1, t12, w0, wlt, wpi⟩ := edges_pos hB
  have hs := stopScale_pos hB
  have hs1 : stopScale fs fc bw ≠ 1 := fun h => hbw ((stopScale_eq_one hB).mp h)
  refine ⟨c, hc, 1 / Real.sqrt (1 + stopScale fs fc bw ^ (2 * n)), ?_, ?_, ?_⟩
  · intro h
    have h1 : 0 < 1 + stopScale fs fc bw ^ (2 * n) := by positivity
    rw [one_div, one_div, inv_inj] at h
    rw [Real.sqrt_inj h1.le (by norm_num)] at h
    have : stopScale fs fc bw ^ (2 * n) = 1 := by linarith
    exact hs1 ((pow_eq_one_iff_of_nonneg hs.le (by omega)).mp this)
  · have := hg _ w0 (wlt.trans wpi) (by
      intro h
      have : tLo fs fc bw * (tHi fs fc bw - tLo fs fc bw) = 0 := by
        rw [mul_sub, h]; ring
      rcases mul_eq_zero.mp this with h | h <;> linarith)
    rw [stop_lo t1 t12, mul_one] at this
    exact this
  · have := hg _ (w0.trans wlt) wpi (by
      intro h
      have : tHi fs fc bw * (tHi fs fc bw - tLo fs fc bw) = 0 := by
        have h' : tLo fs fc bw * tHi fs fc bw = tHi fs fc bw ^ 2 := h
        rw [mul_sub]; linarith
      rcases mul_eq_zero.mp this with h | h <;> linarith)
    rw [stop_hi t1 t12, mul_neg_one, pow_mul, neg_sq, ← pow_mul] at this
    exact this

example : ∃ c, Butterworth.bandStop true 8 2 48000 12000 4000 = .ok c ∧ ∃ g, g ≠ 1 / Real.sqrt 2 ∧
    ChainGainAt (active c) (bandLo 48000 12000 4000) g ∧
    ChainGainAt (active c) (bandHi 48000 12000 4000) g :=
  C72_edges_violates true (by norm_num) (by norm_num) (by norm_num) bandOk_example (by norm_num)

/-- **C72, Chebyshev I band-stop (partial).** The same with
`1 / √(1 + (10^(r/10) − 1) · Tₙ(s Ω)²)`; at frequency 0 and at Nyquist the argument of `Tₙ` is 0, and at
the centre the gain is 0. -/
theorem C72_chebyshev1_bandstop_partial (dbg : Bool) {N n : Nat} (hn : 1 ≤ n) (hN : n ≤ N)
    (hd : n % 2 = 1 → dbg = false) {r : ℝ} (hr : 0 < r) {fs fc bw : ℝ} (hB : BandOk fs fc bw) :
    ∃ c, ChebyshevI.bandStop dbg N n fs fc bw r = .ok c ∧ c.num = n ∧
      (∀ g ∈ active c, g.stability = true) ∧
      (∀ w : ℝ, 0 < w → w < Real.pi → tLo fs fc bw * tHi fs fc bw ≠ Real.tan (w / 2) ^ 2 →
        ChainGainAt (active c) w (1 / Real.sqrt (1 + ((10 : ℝ) ^ (r / 10) - 1) *
          chebT n (stopScale fs fc bw *
            stopFreq (tLo fs fc bw) (tHi fs fc bw) (Real.tan (w / 2))) ^ 2))) ∧
      (∀ w : ℝ, 0 < w → w < Real.pi → tLo fs fc bw * tHi fs fc bw = Real.tan (w / 2) ^ 2 →
        ChainGainAt (active c) w 0) ∧
      ChainGainAt (active c) 0 (1 / Real.sqrt (1 + ((10 : ℝ) ^ (r / 10) - 1) * chebT n 0 ^ 2)) ∧
      ChainGainAt (active c) Real.pi
        (1 / Real.sqrt (1 + ((10 : ℝ) ^ (r / 10) - 1) * chebT n 0 ^ 2)) := by
  obtain ⟨e1, e2⟩ := band_fdiv hB
  obtain ⟨a, v, hv, ha, haw, hag, hold, hM0, hgn⟩ := cheb1_setup dbg hn hN hd hr
  have hlen := oddSingle_len n (-Real.sinh v) none
  have hsh : 0 < Real.sinh v := Real.sinh_pos_iff.mpr hv
  obtain ⟨d, c, hd', hc, hnum, hst, hgain, hcen, h0, hpi⟩ := bandstop_chain hold (by omega) (by omega)
    (fun k hk => cheb_pole_lhp hk hv) (by intro k _ c hc; cases hc)
    (oddSingle_release (by linarith) (by intro c hc; cases hc) hd) hB haw hag hM0
  have hgz : a.gain = 1 / Real.sqrt (1 + ((10 : ℝ) ^ (r / 10) - 1) * chebT n 0 ^ 2) := by
    have := hgn 0
    rwa [Complex.ofReal_zero, mul_zero, div_self hM0, mul_one] at this
  refine ⟨c, ?_, by rw [hnum, hlen.2], hst, ?_, ?_, by rw [← hgz]; exact h0, by rw [← hgz]; exact hpi⟩
  · unfold ChebyshevI.bandStop
    rw [e1, e2, ha]
    simp only [bind, Except.bind, hd', hc]
  · intro w hw0 hwpi hne
    have := hgain w hw0 hwpi hne
    rw [hgn] at this
    exact this
  · intro w hw0 hwpi heq
    have := hcen w hw0 hwpi heq
    rw [MI_allpole n (by omega), zero_div, mul_zero] at this
    exact this

example : ∃ c, ChebyshevI.bandStop true 8 2 48000 12000 4000 1 = .ok c ∧ c.num = 2 := by
  obtain ⟨c, h1, h2, -⟩ := C72_chebyshev1_bandstop_partial true (N := 8) (n := 2)
    (by norm_num) (by norm_num) (by norm_num) (r := 1) (by norm_num) bandOk_example
  exact ⟨c, h1, h2⟩

theorem cheb2_zero_re {n : Nat} : ∀ k < n / 2, ∀ c : ℂ,
    (some (Complex.I * ((Real.cos ((2 * (k : ℝ) + 1) * Real.pi / (2 * n)) : ℝ) : ℂ)⁻¹) : Option ℂ) = some c →
      c.re ≤ 0 := by
  intro k hk c hc
  injection hc with hc
  rw [← hc, ← Complex.ofReal_inv]
  generalize (Real.cos ((2 * (k : ℝ) + 1) * Real.pi / (2 * n)))⁻¹ = t
  simp

/-- **C72, Chebyshev II band-stop (partial).** With `x = 1/(s Ω)` the gain is
`|Tₙ(x)| / √(Tₙ(x)² + 10^(r/10) − 1)` (`x = 0` at the centre), and 1 at frequency 0 and at Nyquist. -/
theorem C72_chebyshev2_bandstop_partial (dbg : Bool) {N n : Nat} (hn : 1 ≤ n) (hN : n ≤ N)
    (hd : n % 2 = 1 → dbg = false) {r : ℝ} (hr : 0 < r) {fs fc bw : ℝ} (hB : BandOk fs fc bw) :
    ∃ c, ChebyshevII.bandStop dbg N n fs fc bw r = .ok c ∧ c.num = n ∧
      (∀ g ∈ active c, g.stability = true) ∧
      (∀ w : ℝ, 0 < w → w < Real.pi → ChainGainAt (active c) w
        (|chebT n (1 / (stopScale fs fc bw *
            stopFreq (tLo fs fc bw) (tHi fs fc bw) (Real.tan (w / 2))))| /
          Real.sqrt (chebT n (1 / (stopScale fs fc bw *
            stopFreq (tLo fs fc bw) (tHi fs fc bw) (Real.tan (w / 2)))) ^ 2 +
              ((10 : ℝ) ^ (r / 10) - 1)))) ∧
      ChainGainAt (active c) 0 1 ∧ ChainGainAt (active c) Real.pi 1 := by
  obtain ⟨e1, e2⟩ := band_fdiv hB
  obtain ⟨a, v, hv, hsq, ha, haw, hag, hold⟩ := cheb2_analog hn hN hd hr
  have hlen := oddSingle_len n (1 / -Real.sinh v) none
  have hsh : 0 < Real.sinh v := Real.sinh_pos_iff.mpr hv
  obtain ⟨K, hK, hK0, hKy, hKi⟩ := cheb2_MA n hn hv
  have hneg : 1 / -Real.sinh v < 0 := one_div_neg.mpr (by linarith)
  obtain ⟨d, c, hd', hc, hnum, hst, hgain, hcen, h0, hpi⟩ := bandstop_chain hold (by omega) (by omega)
    (fun k hk => cheb2_pole_lhp hk hv) cheb2_zero_re
    (oddSingle_release hneg (by intro c hc; cases hc) hd) hB haw (by rw [hag]; norm_num)
    (by rw [hK0]; exact hK.ne')
  rw [hag] at h0 hpi
  obtain ⟨t1, t12, -⟩ := edges_pos hB
  refine ⟨c, ?_, by rw [hnum, hlen.2], hst, ?_, h0, hpi⟩
  · unfold ChebyshevII.bandStop
    rw [e1, e2, ha]
    simp only [bind, Except.bind, hd', hc]
  · intro w hw0 hwpi
    by_cases heq : tLo fs fc bw * tHi fs fc bw = Real.tan (w / 2) ^ 2
    · have := hcen w hw0 hwpi heq
      rw [hag, one_mul, hKi, hK0, mul_comm K, mul_div_assoc, div_self hK.ne', mul_one, hsq] at this
      have ez : stopFreq (tLo fs fc bw) (tHi fs fc bw) (Real.tan (w / 2)) = 0 := by
        unfold stopFreq; rw [heq]; simp
      rw [ez, mul_zero, div_zero]
      exact this
    · have := hgain w hw0 hwpi heq
      have hne : stopScale fs fc bw * stopFreq (tLo fs fc bw) (tHi fs fc bw) (Real.tan (w / 2)) ≠ 0 := by
        refine mul_ne_zero (stopScale_pos hB).ne' ?_
        unfold stopFreq
        refine div_ne_zero (mul_ne_zero (tan_facts hw0 hwpi).1.ne' (by linarith)) (sub_ne_zero.mpr heq)
      rw [hag, one_mul, hKy _ hne, hK0, mul_div_assoc, mul_comm K, div_mul_cancel₀ _ hK.ne', hsq] at this
      exact this

example : ∃ c, ChebyshevII.bandStop true 8 2 48000 12000 4000 40 = .ok c ∧
    ChainGainAt (active c) Real.pi 1 := by
  obtain ⟨c, h1, -, -, -, -, h2⟩ := C72_chebyshev2_bandstop_partial true (N := 8) (n := 2)
    (by norm_num) (by norm_num) (by norm_num) (r := 40) (by norm_num) bandOk_example
  exact ⟨c, h1, h2⟩

/-- **C71, Chebyshev II band-pass (partial).** Provided the normalisation frequency is not a zero of
the response, the gain is `κ |Tₙ(x)| / √(Tₙ(x)² + 10^(r/10) − 1)` with `x = 1/Ω`, for one constant
`κ > 0`, wherever `Ω ≠ 0`, and `κ` at the centre.  Missing: `κ = 1`. -/
theorem C71_chebyshev2_bandpass_partial (dbg : Bool) {N n : Nat} (hn : 1 ≤ n) (hN : n ≤ N)
    (hd : n % 2 = 1 → dbg = false) {r : ℝ} (hr : 0 < r) {fs fc bw : ℝ} (hB : BandOk fs fc bw)
    (hΩ : passFreq (tLo fs fc bw) (tHi fs fc bw) (Real.sqrt (tLo fs fc bw + tHi fs fc bw)) ≠ 0)
    (hT : chebT n (1 / passFreq (tLo fs fc bw) (tHi fs fc bw)
      (Real.sqrt (tLo fs fc bw + tHi fs fc bw))) ≠ 0) :
    ∃ c, ChebyshevII.bandPass dbg N n fs fc bw r = .ok c ∧ c.num = n ∧
      (∀ g ∈ active c, g.stability = true) ∧ ∃ κ : ℝ, 0 < κ ∧
      (∀ w : ℝ, 0 < w → w < Real.pi →
        passFreq (tLo fs fc bw) (tHi fs fc bw) (Real.tan (w / 2)) ≠ 0 → ChainGainAt (active c) w
        (κ * (|chebT n (1 / passFreq (tLo fs fc bw) (tHi fs fc bw) (Real.tan (w / 2)))| /
          Real.sqrt (chebT n (1 / passFreq (tLo fs fc bw) (tHi fs fc bw) (Real.tan (w / 2))) ^ 2 +
              ((10 : ℝ) ^ (r / 10) - 1))))) ∧
      (∀ w : ℝ, 0 < w → w < Real.pi →
        passFreq (tLo fs fc bw) (tHi fs fc bw) (Real.tan (w / 2)) = 0 → ChainGainAt (active c) w κ) ∧
      ChainGainAt (active c) 0
        (κ * (|chebT n 0| / Real.sqrt (chebT n 0 ^ 2 + ((10 : ℝ) ^ (r / 10) - 1)))) ∧
      ChainGainAt (active c) Real.pi
        (κ * (|chebT n 0| / Real.sqrt (chebT n 0 ^ 2 + ((10 : ℝ) ^ (r / 10) - 1)))) := by
  obtain ⟨e1, e2⟩ := band_fdiv hB
  obtain ⟨a, v, hv, hsq, ha, haw, hag, hold⟩ := cheb2_analog hn hN hd hr
  have hlen := oddSingle_len n (1 / -Real.sinh v) none
  have hsh : 0 < Real.sinh v := Real.sinh_pos_iff.mpr hv
  obtain ⟨K, hK, hK0, hKy, hKi⟩ := cheb2_MA n hn hv
  have hneg : 1 / -Real.sinh v < 0 := one_div_neg.mpr (by linarith)
  have hq := (eps_ok hr).2
  set Y := passFreq (tLo fs fc bw) (tHi fs fc bw) (Real.sqrt (tLo fs fc bw + tHi fs fc bw)) with hY
  have hκ0 : 0 < |chebT n (1 / Y)| / Real.sqrt (chebT n (1 / Y) ^ 2 + ((10 : ℝ) ^ (r / 10) - 1)) := by
    have : 0 < |chebT n (1 / Y)| := abs_pos.mpr hT
    have : 0 < Real.sqrt (chebT n (1 / Y) ^ 2 + ((10 : ℝ) ^ (r / 10) - 1)) :=
      Real.sqrt_pos.mpr (by positivity)
    positivity
  set κ0 := |chebT n (1 / Y)| / Real.sqrt (chebT n (1 / Y) ^ 2 + ((10 : ℝ) ^ (r / 10) - 1)) with hk
  have href := hKy Y hΩ
  rw [hsq] at href
  obtain ⟨d, c, hd', hc, hnum, hst, hgain, h0, hpi⟩ := bandpass_chain hold (by omega) (by omega)
    (fun k hk => cheb2_pole_lhp hk hv) cheb2_zero_re
    (oddSingle_release hneg (by intro c hc; cases hc) hd) hB haw (by rw [hag]; norm_num)
    href.symm (mul_pos hK hκ0).ne'
  refine ⟨c, ?_, by rw [hnum, hlen.2], hst, 1 / κ0, one_div_pos.mpr hκ0, ?_, ?_, ?_, ?_⟩
  · unfold ChebyshevII.bandPass
    rw [e1, e2, ha]
    simp only [bind, Except.bind, hd', hc]
  · intro w hw0 hwpi hne
    have := hgain w hw0 hwpi
    rw [hag, one_mul, hKy _ hne, hsq, mul_div_mul_left _ _ hK.ne'] at this
    rw [one_div_mul_eq_div]
    exact this
  · intro w hw0 hwpi hze
    have := hgain w hw0 hwpi
    rw [hze, Complex.ofReal_zero, mul_zero, hag, one_mul, hK0, ← div_div, div_self hK.ne'] at this
    exact this
  · rw [hag, one_mul, hKi, hsq, mul_div_mul_left _ _ hK.ne'] at h0
    rw [one_div_mul_eq_div]
    exact h0
  · rw [hag, one_mul, hKi, hsq, mul_div_mul_left _ _ hK.ne'] at hpi
    rw [one_div_mul_eq_div]
    exact hpi

theorem quarter_pass_ne {fs bw : ℝ} (hB : BandOk fs (fs / 4) bw) :
    passFreq (tLo fs (fs / 4) bw) (tHi fs (fs / 4) bw)
      (Real.sqrt (tLo fs (fs / 4) bw + tHi fs (fs / 4) bw)) ≠ 0 := by
  obtain ⟨t1, t12, -⟩ := edges_pos hB
  have hq := quarter_product hB
  unfold passFreq
  rw [Real.sq_sqrt (by linarith), hq]
  have h1 : 1 < tLo fs (fs / 4) bw + tHi fs (fs / 4) bw := by
    nlinarith [sq_nonneg (tLo fs (fs / 4) bw - tHi fs (fs / 4) bw)]
  apply div_ne_zero (by linarith)
  exact mul_ne_zero (Real.sqrt_pos.mpr (by linarith)).ne' (by linarith)

example : ∃ c, ChebyshevII.bandPass false 8 1 48000 (48000 / 4) 4000 40 = .ok c ∧ c.num = 1 := by
  have hB : BandOk 48000 (48000 / 4) 4000 := by norm_num; exact bandOk_example
  have hne := quarter_pass_ne hB
  obtain ⟨c, h1, h2, -⟩ := C71_chebyshev2_bandpass_partial false (N := 8) (n := 1)
    (by norm_num) (by norm_num) (by norm_num) (r := 40) (by norm_num) hB hne
    (by unfold chebT; simpa using hne)
  exact ⟨c, h1, h2⟩

/-- **C71/C72 are violated in debug builds for every odd order.** -/
theorem C71_odd_debug_violates {N n : Nat} (hN : n ≤ N) (hodd : n % 2 = 1) {fs fc bw : ℝ}
    (hB : BandOk fs fc bw) :
    Butterworth.bandPass true N n fs fc bw = .error .assertion ∧
      Butterworth.bandStop true N n fs fc bw = .error .assertion := by
  obtain ⟨e1, e2⟩ := band_fdiv hB
  unfold Butterworth.bandPass Butterworth.bandStop
  rw [e1, e2, C19_odd_debug_violates hN hodd]
  exact ⟨rfl, rfl⟩

example : Butterworth.bandPass true 8 3 48000 12000 4000 = .error .assertion :=
  (C71_odd_debug_violates (by norm_num) (by norm_num) bandOk_example).1

/-- The same for the Chebyshev designs of both kinds. -/
theorem C71_cheb_odd_debug_violates {N n : Nat} (hN : n ≤ N) (hodd : n % 2 = 1) {r : ℝ} (hr : 0 < r)
    {fs fc bw : ℝ} (hB : BandOk fs fc bw) :
    ChebyshevI.bandPass true N n fs fc bw r = .error .assertion ∧
      ChebyshevI.bandStop true N n fs fc bw r = .error .assertion ∧
      ChebyshevII.bandPass true N n fs fc bw r = .error .assertion ∧
      ChebyshevII.bandStop true N n fs fc bw r = .error .assertion := by
  obtain ⟨e1, e2⟩ := band_fdiv hB
  obtain ⟨h1, h2⟩ := cheb_analog_odd_debug hN hodd hr
  unfold ChebyshevI.bandPass ChebyshevI.bandStop ChebyshevII.bandPass ChebyshevII.bandStop
  rw [e1, e2, h1, h2]
  exact ⟨rfl, rfl, rfl, rfl⟩

example : ChebyshevII.bandStop true 8 3 48000 12000 4000 40 = .error .assertion :=
  (C71_cheb_odd_debug_violates (by norm_num) (by norm_num) (by norm_num) bandOk_example).2.2.2

/-- **C73, Butterworth band shelf.** For every order, every band strictly inside `(0, fs/2)` and every
gain in dB (odd orders in a debug build: unless the gain or its inverse is
`(1 / tan (π bw/fs))^(2n)`, see `C73_odd_debug_violates`) the design succeeds with `n`
stable sections; with `G = 10^(gain/20)` and the textbook `Ω` its gain is
`√((G + Ω^(2n)) / (1/G + Ω^(2n)))`: exactly `G` at the centre, `√G` at both edges, and 1 at frequency 0
and at Nyquist. -/
theorem C73_butterworth_band_shelf_partial (dbg : Bool) {N n : Nat} (hn : 1 ≤ n) (hN : n ≤ N) (gainDb : ℝ)
    {fs fc bw : ℝ} (hB : BandOk fs fc bw)
    (hd : n % 2 = 1 → dbg = true →
      (10 : ℝ) ^ (gainDb / 20) ≠ (1 / Real.tan (Real.pi * bw / fs)) ^ (2 * n) ∧
      1 / (10 : ℝ) ^ (gainDb / 20) ≠ (1 / Real.tan (Real.pi * bw / fs)) ^ (2 * n)) :
    ∃ c, Butterworth.bandShelf dbg N n fs fc bw gainDb = .ok c ∧ c.num = n ∧
      (∀ g ∈ active c, g.stability = true) ∧
      (∀ w : ℝ, 0 < w → w < Real.pi → ChainGainAt (active c) w
        (Real.sqrt (((10 : ℝ) ^ (gainDb / 20) +
            passFreq (tLo fs fc bw) (tHi fs fc bw) (Real.tan (w / 2)) ^ (2 * n)) /
          (1 / (10 : ℝ) ^ (gainDb / 20) +
            passFreq (tLo fs fc bw) (tHi fs fc bw) (Real.tan (w / 2)) ^ (2 * n))))) ∧
      (∀ w, 0 < w → w < Real.pi → Real.tan (w / 2) ^ 2 = tLo fs fc bw * tHi fs fc bw →
        ChainGainAt (active c) w ((10 : ℝ) ^ (gainDb / 20))) ∧
      ChainGainAt (active c) (bandLo fs fc bw) (Real.sqrt ((10 : ℝ) ^ (gainDb / 20))) ∧
      ChainGainAt (active c) (bandHi fs fc bw) (Real.sqrt ((10 : ℝ) ^ (gainDb / 20))) ∧
      ChainGainAt (active c) 0 1 ∧ ChainGainAt (active c) Real.pi 1 := by
  obtain ⟨e1, e2⟩ := band_fdiv hB
  obtain ⟨a, g, hg, hgp, ha, haw, hag, hold⟩ := shelf_analog hn hN dbg gainDb
  have hlen := oddSingle_len n (-(1 / g)) (some (-g))
  have hgi : 0 < 1 / g := one_div_pos.mpr hg
  have hG : (0 : ℝ) < (10 : ℝ) ^ (gainDb / 20) := by positivity
  have hrel : ∀ q, oddSingle n (-(1 / g)) (some (-g)) = some q → q.1 < 0 ∧ (∀ c, q.2 = some c → c ≤ 0) ∧
      (dbg = true → q.1 ≠ -(1 / Real.tan (Real.pi * bw / fs)) ∧
        q.2 ≠ some (-(1 / Real.tan (Real.pi * bw / fs)))) := by
    intro q hq
    unfold oddSingle at hq
    split at hq
    · rename_i hodd
      injection hq with hq; subst hq
      refine ⟨by linarith, by intro c hc; injection hc with hc; linarith, fun hdb => ?_⟩
      obtain ⟨d1, d2⟩ := hd hodd hdb
      refine ⟨fun h => d2 ?_, fun h => d1 ?_⟩
      · rw [← neg_inj.mp h, one_div_pow, hgp]
      · injection h with h
        rw [← neg_inj.mp h, hgp]
    · cases hq
  obtain ⟨d, c, hd', hc, hnum, hst, hgain, h0, hpi⟩ := bandshelf_chain hold (by omega) (by omega)
    (fun k hk => polar_lhp hgi (shelf_theta hk).1 (shelf_theta hk).2)
    (by
      intro k hk c hc
      injection hc with hc
      rw [← hc]
      exact (polar_lhp hg (shelf_theta hk).1 (shelf_theta hk).2).1.le)
    hrel hB (by rw [MI_finite]; exact one_ne_zero)
  obtain ⟨t1, t12, w0, wlt, wpi⟩ := edges_pos hB
  have hall : ∀ w : ℝ, 0 < w → w < Real.pi → ChainGainAt (active c) w
        (Real.sqrt (((10 : ℝ) ^ (gainDb / 20) +
            passFreq (tLo fs fc bw) (tHi fs fc bw) (Real.tan (w / 2)) ^ (2 * n)) /
          (1 / (10 : ℝ) ^ (gainDb / 20) +
            passFreq (tLo fs fc bw) (tHi fs fc bw) (Real.tan (w / 2)) ^ (2 * n)))) := by
    intro w hw0 hwpi
    have := hgain w hw0 hwpi
    rw [MI_finite, div_one, shelf_MA n hn hg, one_div_pow, hgp, ← Real.sqrt_div] at this
    · exact this
    · have : 0 ≤ passFreq (tLo fs fc bw) (tHi fs fc bw) (Real.tan (w / 2)) ^ (2 * n) := by
        rw [pow_mul]; positivity
      positivity
  have hedge : ((10 : ℝ) ^ (gainDb / 20) + 1) / (1 / (10 : ℝ) ^ (gainDb / 20) + 1) =
      (10 : ℝ) ^ (gainDb / 20) := by
    have : 1 + (10 : ℝ) ^ (gainDb / 20) ≠ 0 := by positivity
    field_simp
    ring
  refine ⟨c, ?_, by rw [hnum, hlen.2], hst, hall, ?_, ?_, ?_, h0, hpi⟩
  · unfold Butterworth.bandShelf
    rw [e1, e2, ha]
    simp only [bind, Except.bind, hd', hc]
  · intro w hw0 hwpi hw
    have := hall w hw0 hwpi
    rw [pass_centre hw, zero_pow (by omega), add_zero, add_zero, div_div_eq_mul_div, div_one,
      Real.sqrt_mul_self hG.le] at this
    exact this
  · have := hall _ w0 (wlt.trans wpi)
    rw [pass_lo t1 t12, pow_mul, neg_one_sq, one_pow, hedge] at this
    exact this
  · have := hall _ (w0.trans wlt) wpi
    rw [pass_hi t1 t12, one_pow, hedge] at this
    exact this

example : ∃ c, Butterworth.bandShelf true 8 2 48000 12000 4000 6 = .ok c ∧
    ChainGainAt (active c) (bandLo 48000 12000 4000) (Real.sqrt ((10 : ℝ) ^ (6 / 20 : ℝ))) := by
  obtain ⟨c, h1, -, -, -, -, h2, -⟩ := C73_butterworth_band_shelf_partial true (N := 8) (n := 2)
    (by norm_num) (by norm_num) 6 bandOk_example (by norm_num)
  exact ⟨c, h1, h2⟩

/-- An odd order, 0 dB, in both builds: here `1 / tan (π bw/fs) = √3 + 2 ≠ 1`. -/
example (dbg : Bool) : ∃ c, Butterworth.bandShelf dbg 8 3 48000 12000 4000 0 = .ok c ∧
    ChainGainAt (active c) (bandLo 48000 12000 4000) 1 := by
  have ht : Real.tan (Real.pi * 4000 / 48000) < 1 := by
    rw [← Real.tan_pi_div_four]
    have := Real.pi_pos
    exact Real.tan_lt_tan_of_nonneg_of_lt_pi_div_two (by positivity) (by linarith) (by linarith)
  have ht0 : 0 < Real.tan (Real.pi * 4000 / 48000) := by
    have := Real.pi_pos
    exact Real.tan_pos_of_pos_of_lt_pi_div_two (by positivity) (by linarith)
  have h1 : 1 < (1 / Real.tan (Real.pi * 4000 / 48000)) ^ (2 * 3) :=
    one_lt_pow₀ ((one_lt_div ht0).mpr ht) (by norm_num)
  obtain ⟨c, h1, -, -, -, -, h2, -⟩ := C73_butterworth_band_shelf_partial dbg (N := 8) (n := 3)
    (by norm_num) (by norm_num) 0 bandOk_example (fun _ _ => by
      simp only [zero_div, Real.rpow_zero, div_one]; exact ⟨h1.ne, h1.ne⟩)
  refine ⟨c, h1, ?_⟩
  simpa using h2

/-- **C73 is violated in debug builds for odd orders when the gain, or its inverse, is
`(1 / tan (π bw/fs))^(2n)`**: one image of the single pole or zero is then 0, which the contract check on
the pairs rejects. -/
theorem C73_odd_debug_violates {N n : Nat} (hN : n ≤ N) (hodd : n % 2 = 1) (gainDb : ℝ) {fs fc bw : ℝ}
    (hB : BandOk fs fc bw)
    (h : (10 : ℝ) ^ (gainDb / 20) = (1 / Real.tan (Real.pi * bw / fs)) ^ (2 * n) ∨
      1 / (10 : ℝ) ^ (gainDb / 20) = (1 / Real.tan (Real.pi * bw / fs)) ^ (2 * n)) :
    Butterworth.bandShelf true N n fs fc bw gainDb = .error .assertion := by
  obtain ⟨e1, e2⟩ := band_fdiv hB
  obtain ⟨a, g, hg, hgp, ha, haw, hag, hold⟩ := shelf_analog (by omega) hN true gainDb
  obtain ⟨B, hB1, -, -, hpar, h0, hlt, hpi⟩ := bandInit_ok hB
  obtain ⟨t1, -, -⟩ := tan_facts h0 (hlt.trans hpi)
  have ht := tan_half_strict h0 hlt hpi
  obtain ⟨hpa, hpb⟩ := params_pos t1 ht hpar
  have hbe := params_b hB hpar
  have hgi : 0 < 1 / g := one_div_pos.mpr hg
  have hn2 : 2 * n ≠ 0 := by omega
  rw [← hbe] at h
  rw [show oddSingle n (-(1 / g)) (some (-g)) = some (-(1 / g), some (-g)) by
    unfold oddSingle; rw [if_pos hodd]] at hold
  have hfail := band_single_fails (fix := id) hold (by omega)
    (fun k hk => (polar_lhp hgi (shelf_theta hk).1 (shelf_theta hk).2).1)
    (by
      intro k hk c hc
      injection hc with hc
      rw [← hc]
      exact (polar_lhp hg (shelf_theta hk).1 (shelf_theta hk).2).1.le)
    ⟨by simp only; linarith, by intro c hc; injection hc with hc; linarith⟩ (bp_root hpa hpb) (by
      rcases h with h | h
      · right
        rw [← hgp] at h
        rw [(pow_left_inj₀ hg.le hpb.le hn2).mp h]
      · left
        rw [← hgp, ← one_div_pow] at h
        rw [(pow_left_inj₀ hgi.le hpb.le hn2).mp h])
  unfold Butterworth.bandShelf bandShelfTransform
  rw [e1, e2, ha]
  simp only [bind, Except.bind, hB1, hfail]

/-- At 0 dB this is a bandwidth of a quarter of the sampling rate. -/
example : Butterworth.bandShelf true 8 3 48000 12000 12000 0 = .error .assertion := by
  refine C73_odd_debug_violates (by norm_num) (by norm_num) 0 ?_ (Or.inl ?_)
  · refine ⟨by norm_num, by norm_num, ?_, ?_⟩
    · have := Real.two_le_pi; unfold bandLo; linarith
    · have := Real.two_le_pi; unfold bandHi; linarith
  · rw [show Real.pi * 12000 / 48000 = Real.pi / 4 by ring, Real.tan_pi_div_four]
    simp

end Edsp.Props
