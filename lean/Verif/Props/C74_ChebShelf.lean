import Mathlib.Analysis.SpecialFunctions.Log.Base
import Verif.Lemmas.ChebShelf
import Verif.Props.C71_Bands

/-! # C74: Chebyshev shelves

`H = 10^(gain/20)` is the requested gain, `Hb` the gain `ripple` dB closer to 1, and `T n` the Chebyshev
polynomial. -/

namespace Edsp.Props

open Edsp Edsp.Spec Edsp.LayoutL Edsp.BilinearL Edsp.AnalogL Edsp.BandL

theorem ofDb_pos (d : ℝ) : 0 < ofDb d := Real.rpow_pos_of_pos (by norm_num) _

theorem db2mag_neg (d : ℝ) : Zoelzer.db2mag (-d) = 1 / ofDb d := by
  unfold Zoelzer.db2mag ofDb
  rw [neg_div, Real.rpow_neg (by norm_num), one_div]

theorem levels {gainDb r : ℝ} (hr : 0 < r) (hr2 : r < |gainDb|) :
    (1 < ofDb (edgeDb gainDb r) ∧ ofDb (edgeDb gainDb r) < ofDb gainDb) ∨
      (ofDb gainDb < ofDb (edgeDb gainDb r) ∧ ofDb (edgeDb gainDb r) < 1) := by
  have h := shelf_levels hr hr2
  rw [db2mag_neg, db2mag_neg] at h
  have p1 := ofDb_pos gainDb
  have p2 := ofDb_pos (edgeDb gainDb r)
  rcases h with ⟨h1, h2⟩ | ⟨h1, h2⟩
  · left
    refine ⟨?_, ?_⟩
    · rwa [div_lt_one p2] at h2
    · rwa [one_div_lt_one_div p1 p2] at h1
  · right
    refine ⟨?_, ?_⟩
    · rwa [one_div_lt_one_div p2 p1] at h2
    · rwa [lt_div_iff₀ p2, one_mul] at h1

theorem shelf_q_pos {H Hb : ℝ} (hH : 0 < H) (hHb : 0 < Hb) (h : (1 < Hb ∧ Hb < H) ∨ (H < Hb ∧ Hb < 1)) :
    0 < (H ^ 2 - Hb ^ 2) / (Hb ^ 2 - 1) := by
  rcases h with ⟨h1, h2⟩ | ⟨h1, h2⟩
  · exact div_pos (by nlinarith) (by nlinarith)
  · exact div_pos_of_neg_of_neg (by nlinarith) (by nlinarith)

theorem rippleShelf_zero {H Hb : ℝ} (hH : 0 < H) : rippleShelf H Hb 0 = H := by
  unfold rippleShelf
  simp [Real.sqrt_sq hH.le]

theorem rippleShelf_one {H Hb T : ℝ} (hH : 0 < H) (hHb : 0 < Hb)
    (h : (1 < Hb ∧ Hb < H) ∨ (H < Hb ∧ Hb < 1)) (hT : T ^ 2 = 1) : rippleShelf H Hb T = Hb := by
  have hq := shelf_q_pos hH hHb h
  have hd : Hb ^ 2 - 1 ≠ 0 := by
    rcases h with ⟨h1, h2⟩ | ⟨h1, h2⟩ <;> nlinarith
  have hn : H ^ 2 - 1 ≠ 0 := by
    rcases h with ⟨h1, h2⟩ | ⟨h1, h2⟩ <;> nlinarith
  unfold rippleShelf
  rw [hT, mul_one]
  have e : (H ^ 2 + (H ^ 2 - Hb ^ 2) / (Hb ^ 2 - 1)) / (1 + (H ^ 2 - Hb ^ 2) / (Hb ^ 2 - 1)) = Hb ^ 2 := by
    rw [div_eq_iff (by positivity)]
    field_simp
    ring
  rw [e, Real.sqrt_sq hHb.le]

/-- On the plateau (`T² ≤ 1`) the gain lies between the edge gain and the requested gain. -/
theorem rippleShelf_plateau {H Hb T : ℝ} (hH : 0 < H) (hHb : 0 < Hb)
    (h : (1 < Hb ∧ Hb < H) ∨ (H < Hb ∧ Hb < 1)) (hT : T ^ 2 ≤ 1) :
    min H Hb ≤ rippleShelf H Hb T ∧ rippleShelf H Hb T ≤ max H Hb := by
  have hq := shelf_q_pos hH hHb h
  set q := (H ^ 2 - Hb ^ 2) / (Hb ^ 2 - 1) with hqd
  have hd : Hb ^ 2 - 1 ≠ 0 := by
    rcases h with ⟨h1, h2⟩ | ⟨h1, h2⟩ <;> nlinarith
  have hqe : q * (Hb ^ 2 - 1) = H ^ 2 - Hb ^ 2 := by rw [hqd]; field_simp
  have hden : 0 < 1 + q * T ^ 2 := by positivity
  have hT0 := sq_nonneg T
  have hqT : q * T ^ 2 ≤ q := by nlinarith
  have hX : 0 ≤ q * T ^ 2 := by positivity
  unfold rippleShelf
  rw [← hqd]
  rcases h with ⟨h1, h2⟩ | ⟨h1, h2⟩
  · rw [min_eq_right h2.le, max_eq_left h2.le]
    constructor
    · apply Real.le_sqrt_of_sq_le
      rw [le_div_iff₀ hden]
      have := mul_nonneg (sub_nonneg.mpr hqT) (show 0 ≤ Hb ^ 2 - 1 by nlinarith)
      linarith
    · rw [Real.sqrt_le_left hH.le, div_le_iff₀ hden]
      have := mul_nonneg hX (show 0 ≤ H ^ 2 - 1 by nlinarith)
      linarith
  · rw [min_eq_left h1.le, max_eq_right h1.le]
    constructor
    · apply Real.le_sqrt_of_sq_le
      rw [le_div_iff₀ hden]
      have := mul_nonneg hX (show 0 ≤ 1 - H ^ 2 by nlinarith)
      linarith
    · rw [Real.sqrt_le_left hHb.le, div_le_iff₀ hden]
      have := mul_nonneg (sub_nonneg.mpr hqT) (show 0 ≤ 1 - Hb ^ 2 by nlinarith)
      linarith

/-- Beyond the edge (`T² ≥ 1`) it lies between 1 and the edge gain. -/
theorem rippleShelf_beyond {H Hb T : ℝ} (hH : 0 < H) (hHb : 0 < Hb)
    (h : (1 < Hb ∧ Hb < H) ∨ (H < Hb ∧ Hb < 1)) (hT : 1 ≤ T ^ 2) :
    min 1 Hb ≤ rippleShelf H Hb T ∧ rippleShelf H Hb T ≤ max 1 Hb := by
  have hq := shelf_q_pos hH hHb h
  set q := (H ^ 2 - Hb ^ 2) / (Hb ^ 2 - 1) with hqd
  have hd : Hb ^ 2 - 1 ≠ 0 := by
    rcases h with ⟨h1, h2⟩ | ⟨h1, h2⟩ <;> nlinarith
  have hqe : q * (Hb ^ 2 - 1) = H ^ 2 - Hb ^ 2 := by rw [hqd]; field_simp
  have hden : 0 < 1 + q * T ^ 2 := by positivity
  have hqT : q ≤ q * T ^ 2 := by nlinarith
  unfold rippleShelf
  rw [← hqd]
  rcases h with ⟨h1, h2⟩ | ⟨h1, h2⟩
  · rw [min_eq_left h1.le, max_eq_right h1.le]
    constructor
    · apply Real.le_sqrt_of_sq_le
      rw [le_div_iff₀ hden]
      nlinarith
    · rw [Real.sqrt_le_left hHb.le, div_le_iff₀ hden]
      have := mul_nonneg (sub_nonneg.mpr hqT) (show 0 ≤ Hb ^ 2 - 1 by nlinarith)
      linarith
  · rw [min_eq_right h2.le, max_eq_left h2.le]
    constructor
    · apply Real.le_sqrt_of_sq_le
      rw [le_div_iff₀ hden]
      have := mul_nonneg (sub_nonneg.mpr hqT) (show 0 ≤ 1 - Hb ^ 2 by nlinarith)
      linarith
    · rw [Real.sqrt_le_left zero_le_one, div_le_iff₀ hden]
      nlinarith

/-- The number `(H² − Hb²) / (Hb² − 1)` of the textbook formula. -/
noncomputable def shelfRatio (gainDb r : ℝ) : ℝ :=
  (ofDb gainDb ^ 2 - ofDb (edgeDb gainDb r) ^ 2) / (ofDb (edgeDb gainDb r) ^ 2 - 1)

/-- The prototype and its response. -/
theorem cheb_shelf_setup (dbg : Bool) {N n : Nat} (hn : 1 ≤ n) (hN : n ≤ N) {gainDb r : ℝ} (hr : 0 < r)
    (hr2 : r < |gainDb|) :
    ∃ a u v, 0 < u ∧ 0 < v ∧ u ≠ v ∧
      ChebyshevI.shelfAnalog dbg N n gainDb r (Layout.new N) = .ok a ∧
      ChebyshevII.shelfAnalog dbg N n gainDb r (Layout.new N) = .ok a ∧ a.w = Real.pi ∧ a.gain = 1 ∧
      Holds N a ((List.range (n / 2)).map fun k =>
          (some (ChebyshevI.shelfRoot u n k), some (ChebyshevI.shelfRoot v n k)))
        ((oddSingle n (-Real.sinh u) (some (-Real.sinh v))).map
          fun q => (some (q.1 : ℂ), q.2.map Complex.ofReal)) ∧
      (∀ y : ℝ, MA (n / 2) (ChebyshevI.shelfRoot u n) (fun k => some (ChebyshevI.shelfRoot v n k))
        (oddSingle n (-Real.sinh u) (some (-Real.sinh v))) (Complex.I * y) =
        rippleShelf (ofDb gainDb) (ofDb (edgeDb gainDb r)) (chebT n y)) ∧
      Real.sinh (n * u) ^ 2 * shelfRatio gainDb r = 1 ∧
      Real.sinh (n * v) ^ 2 * shelfRatio gainDb r = ofDb gainDb ^ 2 := by
  obtain ⟨eps, u, v, heps, hu, hv, hsv, hsu, hsq, p1, p2⟩ := shelfParams_ok hn hr hr2
  obtain ⟨h1, h2⟩ := cheb_shelf_holds hN dbg (gainDb := gainDb) (r := r) (u := u) (v := v)
  obtain ⟨a, ha, haw, hag, hold⟩ := h1 p1
  have hlev := levels hr hr2
  have hH := ofDb_pos gainDb
  have hHb := ofDb_pos (edgeDb gainDb r)
  rw [db2mag_neg] at hsu hsq
  rw [db2mag_neg] at hsq
  set H := ofDb gainDb
  set Hb := ofDb (edgeDb gainDb r)
  have hH1 : H ≠ 1 := by rcases hlev with ⟨h1, h2⟩ | ⟨h1, h2⟩ <;> intro h <;> linarith
  have hd : Hb ^ 2 - 1 ≠ 0 := by
    rcases hlev with ⟨h1, h2⟩ | ⟨h1, h2⟩ <;> nlinarith
  have hd' : 1 - Hb ^ 2 ≠ 0 := by
    intro h; exact hd (by linarith)
  have hq : (H ^ 2 - Hb ^ 2) / (Hb ^ 2 - 1) = H ^ 2 * eps ^ 2 := by
    rw [hsq]
    have e1 : (1 / Hb) ^ 2 - 1 = (1 - Hb ^ 2) / Hb ^ 2 := by field_simp
    have e2 : (1 / H) ^ 2 - (1 / Hb) ^ 2 = (Hb ^ 2 - H ^ 2) / (H ^ 2 * Hb ^ 2) := by field_simp
    rw [e1, e2]
    rw [div_eq_iff hd]
    field_simp
    ring
  refine ⟨a, u, v, hu, hv, ?_, ha, ?_, haw, hag, hold, ?_, ?_, ?_⟩
  · intro huv
    rw [huv, hsv] at hsu
    field_simp at hsu
    exact hH1 hsu
  · rw [← ha]
    unfold ChebyshevI.shelfAnalog ChebyshevII.shelfAnalog
    rw [p1, p2]
  · intro y
    rw [shelf_cheb_MA n hn, hsv, hsu, ← Real.sqrt_div (by positivity)]
    unfold rippleShelf
    congr 1
    change (chebT n y ^ 2 + (1 / eps) ^ 2) / (chebT n y ^ 2 + (1 / H / eps) ^ 2) = _
    rw [hq]
    have hx : 0 < 1 + H ^ 2 * eps ^ 2 * chebT n y ^ 2 := by positivity
    have hx2 : 0 < chebT n y ^ 2 + (1 / H / eps) ^ 2 := by positivity
    rw [div_eq_div_iff hx2.ne' hx.ne']
    field_simp
    ring
  · change Real.sinh (n * u) ^ 2 * ((H ^ 2 - Hb ^ 2) / (Hb ^ 2 - 1)) = 1
    rw [hq, hsu]
    field_simp
  · change Real.sinh (n * v) ^ 2 * ((H ^ 2 - Hb ^ 2) / (Hb ^ 2 - 1)) = H ^ 2
    rw [hq, hsv]
    field_simp

theorem shelf_zeros {n : Nat} {v : ℝ} (hv : 0 < v) : ∀ k < n / 2, ∀ c,
    (some (ChebyshevI.shelfRoot v n k) : Pt) = some c → c.re ≤ 0 := by
  intro k hk c hc
  injection hc with hc
  rw [← hc]
  exact (shelfRoot_lhp hk hv).1.le

/-- **C74, Chebyshev low shelf (partial).** For every order `1 ≤ n ≤ N` (every build), every gain and
every ripple with `0 < ripple < |gain|` dB, and every cutoff strictly between 0 and Nyquist the design
succeeds, uses `⌈n/2⌉` stable sections and has the textbook gain at every `|w| < π`, 1 at Nyquist;
at the cutoff the gain is exactly `ripple` dB closer to 1 than requested.  The Chebyshev II design is the
same filter.  Missing: ripples that are not smaller than `|gain|`, and 0 dB, where the property is violated. -/
theorem C74_low_shelf_partial (dbg : Bool) {N n : Nat} (hn : 1 ≤ n) (hN : n ≤ N) {gainDb r : ℝ}
    (hr : 0 < r) (hr2 : r < |gainDb|) {fs fc : ℝ} (h0 : 0 < fc) (h1 : fc < fs / 2) :
    ∃ c, ChebyshevI.lowShelf dbg N n fs fc gainDb r = .ok c ∧
      ChebyshevII.lowShelf dbg N n fs fc gainDb r = .ok c ∧ c.num = (n + 1) / 2 ∧
      (∀ g ∈ active c, g.stability = true) ∧
      (∀ w : ℝ, |w| < Real.pi → ChainGainAt (active c) w
        (rippleShelf (ofDb gainDb) (ofDb (edgeDb gainDb r))
          (chebT n (Real.tan (w / 2) / Real.tan (Real.pi * (fc / fs)))))) ∧
      ChainGainAt (active c) (2 * Real.pi * fc / fs) (ofDb (edgeDb gainDb r)) ∧
      ChainGainAt (active c) Real.pi 1 := by
  obtain ⟨e, hf0, hf1⟩ := fdiv_cutoff h0 h1
  obtain ⟨a, u, v, hu, hv, -, ha, ha2, haw, hag, hold, hM, hqu, hqv⟩ := cheb_shelf_setup dbg hn hN hr hr2
  have hlen := oddSingle_len n (-Real.sinh u) (some (-Real.sinh v))
  have hsu := Real.sinh_pos_iff.mpr hu
  have hsv := Real.sinh_pos_iff.mpr hv
  obtain ⟨d, c, hd', hc, hnum, hst, hgain, hpi⟩ := lowpass_chain hold (by omega) (by omega)
    (fun k hk => shelfRoot_lhp hk hu) (shelf_zeros hv)
    (oddSingle_neg (by linarith) (by intro c hc; injection hc with hc; linarith))
    (by rw [hag]; norm_num) dbg hf0 hf1 (ref := 1) (Or.inr ⟨haw, (MI_finite _ _ _ _ _).symm⟩) one_ne_zero
  have hall : ∀ w : ℝ, |w| < Real.pi → ChainGainAt (active c) w
        (rippleShelf (ofDb gainDb) (ofDb (edgeDb gainDb r))
          (chebT n (Real.tan (w / 2) / Real.tan (Real.pi * (fc / fs))))) := by
    intro w hw
    have := hgain w hw
    rwa [hag, one_mul, div_one, hM] at this
  refine ⟨c, ?_, ?_, by rw [hnum, hlen.1], hst, hall, ?_, ?_⟩
  · unfold ChebyshevI.lowShelf
    rw [e, ha]
    simp only [bind, Except.bind, hd', hc]
  · unfold ChebyshevII.lowShelf
    rw [e, ha2]
    simp only [bind, Except.bind, hd', hc]
  · have hpi := Real.pi_pos
    have e2 : 2 * Real.pi * fc / fs = 2 * (Real.pi * (fc / fs)) := by ring
    have hlt : Real.pi * (fc / fs) < Real.pi / 2 := by nlinarith
    have hgt : 0 < Real.pi * (fc / fs) := by positivity
    have htan := Real.tan_pos_of_pos_of_lt_pi_div_two hgt hlt
    have := hall (2 * Real.pi * fc / fs) (by rw [e2, abs_of_pos (by positivity)]; linarith)
    rw [e2, mul_div_cancel_left₀ _ two_ne_zero, div_self htan.ne', chebT_one,
      rippleShelf_one (ofDb_pos _) (ofDb_pos _) (levels hr hr2) (one_pow 2)] at this
    rw [e2]; exact this
  · rw [hag, MI_finite] at hpi
    simpa using hpi

example : ∃ c, ChebyshevI.lowShelf true 8 3 48000 1000 6 1 = .ok c ∧ c.num = 2 ∧
    ChainGainAt (active c) Real.pi 1 := by
  obtain ⟨c, h1, -, h2, -, -, -, h3⟩ := C74_low_shelf_partial true (N := 8) (n := 3) (by norm_num)
    (by norm_num) (gainDb := 6) (r := 1) (by norm_num) (by norm_num) (fs := 48000) (fc := 1000)
    (by norm_num) (by norm_num)
  exact ⟨c, h1, h2, h3⟩

/-- **C74, ripple (partial).** Up to the cutoff the gain of the low shelf stays between the edge gain and
the requested gain; above it between the edge gain and 1. For odd orders it is the requested gain at
frequency 0. -/
theorem C74_low_shelf_ripple_partial (dbg : Bool) {N n : Nat} (hn : 1 ≤ n) (hN : n ≤ N) {gainDb r : ℝ}
    (hr : 0 < r) (hr2 : r < |gainDb|) {fs fc : ℝ} (h0 : 0 < fc) (h1 : fc < fs / 2) :
    ∃ c, ChebyshevI.lowShelf dbg N n fs fc gainDb r = .ok c ∧
      (∀ w, 0 ≤ w → w ≤ 2 * Real.pi * fc / fs → ∃ g, ChainGainAt (active c) w g ∧
        min (ofDb gainDb) (ofDb (edgeDb gainDb r)) ≤ g ∧ g ≤ max (ofDb gainDb) (ofDb (edgeDb gainDb r))) ∧
      (∀ w, 2 * Real.pi * fc / fs ≤ w → w < Real.pi → ∃ g, ChainGainAt (active c) w g ∧
        min 1 (ofDb (edgeDb gainDb r)) ≤ g ∧ g ≤ max 1 (ofDb (edgeDb gainDb r))) ∧
      (n % 2 = 1 → ChainGainAt (active c) 0 (ofDb gainDb)) := by
  obtain ⟨c, hc, -, -, -, hall, -⟩ := C74_low_shelf_partial dbg hn hN hr hr2 h0 h1
  obtain ⟨-, hf0, hf1⟩ := fdiv_cutoff h0 h1
  have hpi := Real.pi_pos
  have e : 2 * Real.pi * fc / fs = 2 * (Real.pi * (fc / fs)) := by ring
  have hlt : Real.pi * (fc / fs) < Real.pi / 2 := by nlinarith
  have hgt : 0 < Real.pi * (fc / fs) := by positivity
  have htan := Real.tan_pos_of_pos_of_lt_pi_div_two hgt hlt
  have hmono := Real.strictMonoOn_tan.monotoneOn
  refine ⟨c, hc, ?_, ?_, ?_⟩
  · intro w hw0 hw
    rw [e] at hw
    refine ⟨_, hall w (by rw [abs_of_nonneg hw0]; linarith),
      rippleShelf_plateau (ofDb_pos _) (ofDb_pos _) (levels hr hr2) (chebT_le_one n ?_)⟩
    have h1 : Real.tan (w / 2) ≤ Real.tan (Real.pi * (fc / fs)) :=
      hmono ⟨by linarith, by linarith⟩ ⟨by linarith, by linarith⟩ (by linarith)
    have h2 : 0 ≤ Real.tan (w / 2) := Real.tan_nonneg_of_nonneg_of_le_pi_div_two (by linarith) (by linarith)
    rw [abs_of_nonneg (by positivity), div_le_one htan]
    exact h1
  · intro w hw hwpi
    rw [e] at hw
    refine ⟨_, hall w (by rw [abs_of_pos (by linarith)]; exact hwpi),
      rippleShelf_beyond (ofDb_pos _) (ofDb_pos _) (levels hr hr2) ?_⟩
    have h1 : Real.tan (Real.pi * (fc / fs)) ≤ Real.tan (w / 2) :=
      hmono ⟨by linarith, by linarith⟩ ⟨by linarith, by linarith⟩ (by linarith)
    have h2 : 1 ≤ |Real.tan (w / 2) / Real.tan (Real.pi * (fc / fs))| := by
      rw [abs_of_pos (div_pos (by linarith) htan), le_div_iff₀ htan, one_mul]
      exact h1
    have := Polynomial.Chebyshev.one_le_abs_eval_T_real n h2
    have h3 := one_le_pow₀ this (n := 2)
    rw [sq_abs] at h3
    exact h3
  · intro hodd
    have := hall 0 (by simpa using hpi)
    have hz : chebT n 0 = 0 := by
      have := (cheb_zero_sq n).1 hodd
      exact pow_eq_zero_iff two_ne_zero |>.mp this
    rw [zero_div, Real.tan_zero, zero_div, hz, rippleShelf_zero (ofDb_pos _)] at this
    exact this

example : ∃ c, ChebyshevI.lowShelf true 8 3 48000 1000 6 1 = .ok c ∧
    ChainGainAt (active c) 0 (ofDb 6) := by
  obtain ⟨c, h1, -, -, h2⟩ := C74_low_shelf_ripple_partial true (N := 8) (n := 3) (by norm_num)
    (by norm_num) (gainDb := 6) (r := 1) (by norm_num) (by norm_num) (fs := 48000) (fc := 1000)
    (by norm_num) (by norm_num)
  exact ⟨c, h1, h2 (by norm_num)⟩

/-- **C74, Chebyshev high shelf (partial).** The same with `tan(π fc/fs)/tan(w/2)`; 1 at frequency 0. -/
theorem C74_high_shelf_partial (dbg : Bool) {N n : Nat} (hn : 1 ≤ n) (hN : n ≤ N) {gainDb r : ℝ}
    (hr : 0 < r) (hr2 : r < |gainDb|) {fs fc : ℝ} (h0 : 0 < fc) (h1 : fc < fs / 2) :
    ∃ c, ChebyshevI.highShelf dbg N n fs fc gainDb r = .ok c ∧
      ChebyshevII.highShelf dbg N n fs fc gainDb r = .ok c ∧ c.num = (n + 1) / 2 ∧
      (∀ g ∈ active c, g.stability = true) ∧
      (∀ w : ℝ, w ≠ 0 → |w| < Real.pi → ChainGainAt (active c) w
        (rippleShelf (ofDb gainDb) (ofDb (edgeDb gainDb r))
          (chebT n (Real.tan (Real.pi * (fc / fs)) / Real.tan (w / 2))))) ∧
      ChainGainAt (active c) 0 1 ∧
      ChainGainAt (active c) Real.pi (rippleShelf (ofDb gainDb) (ofDb (edgeDb gainDb r)) (chebT n 0)) := by
  obtain ⟨e, hf0, hf1⟩ := fdiv_cutoff h0 h1
  obtain ⟨a, u, v, hu, hv, -, ha, ha2, haw, hag, hold, hM, hqu, hqv⟩ := cheb_shelf_setup dbg hn hN hr hr2
  have hlen := oddSingle_len n (-Real.sinh u) (some (-Real.sinh v))
  have hsu := Real.sinh_pos_iff.mpr hu
  have hsv := Real.sinh_pos_iff.mpr hv
  obtain ⟨d, c, hd', hc, hnum, hst, hgain, hpi, hz⟩ := highpass_chain hold (by omega) (by omega)
    (fun k hk => shelfRoot_lhp hk hu) (shelf_zeros hv)
    (oddSingle_neg (by linarith) (by intro c hc; injection hc with hc; linarith))
    (by rw [hag]; norm_num) dbg hf0 hf1 (ref := 1) (Or.inr ⟨haw, (MI_finite _ _ _ _ _).symm⟩) one_ne_zero
  refine ⟨c, ?_, ?_, by rw [hnum, hlen.1], hst, ?_, ?_, ?_⟩
  · unfold ChebyshevI.highShelf
    rw [e, ha]
    simp only [bind, Except.bind, hd', hc]
  · unfold ChebyshevII.highShelf
    rw [e, ha2]
    simp only [bind, Except.bind, hd', hc]
  · intro w hw0 hw
    have := hgain w hw0 hw
    rw [hag, one_mul, div_one, hM] at this
    have e2 : rippleShelf (ofDb gainDb) (ofDb (edgeDb gainDb r))
        (chebT n (-(Real.tan (Real.pi * (fc / fs)) / Real.tan (w / 2)))) =
        rippleShelf (ofDb gainDb) (ofDb (edgeDb gainDb r))
        (chebT n (Real.tan (Real.pi * (fc / fs)) / Real.tan (w / 2))) := by
      unfold rippleShelf
      rw [show chebT n (-(Real.tan (Real.pi * (fc / fs)) / Real.tan (w / 2))) ^ 2 =
        chebT n (Real.tan (Real.pi * (fc / fs)) / Real.tan (w / 2)) ^ 2 from cheb_neg_sq n _]
    rwa [e2] at this
  · rw [hag, MI_finite] at hz
    simpa using hz
  · have h0' := hM 0
    rw [Complex.ofReal_zero, mul_zero] at h0'
    rw [hag, one_mul, div_one, h0'] at hpi
    exact hpi

example : ∃ c, ChebyshevI.highShelf false 8 2 48000 1000 (-6) 1 = .ok c ∧ ChainGainAt (active c) 0 1 := by
  obtain ⟨c, h1, -, -, -, -, h2, -⟩ := C74_high_shelf_partial false (N := 8) (n := 2) (by norm_num)
    (by norm_num) (gainDb := -6) (r := 1) (by norm_num) (by norm_num) (fs := 48000) (fc := 1000)
    (by norm_num) (by norm_num)
  exact ⟨c, h1, h2⟩

/-- **C74, Chebyshev band shelf (partial).** The same around a band: with the textbook band-pass
frequency `Ω`, the edge gain exactly at both edges and 1 at frequency 0 and at Nyquist (odd orders in a
debug build: unless an image of the single pole or zero is 0, see `C74_odd_debug_violates`). -/
theorem C74_band_shelf_partial (dbg : Bool) {N n : Nat} (hn : 1 ≤ n) (hN : n ≤ N)
    {gainDb r : ℝ}
    (hr : 0 < r) (hr2 : r < |gainDb|) {fs fc bw : ℝ} (hB : BandOk fs fc bw)
    (hd : n % 2 = 1 → dbg = true →
      Real.sinh (n * Real.arsinh (1 / Real.tan (Real.pi * bw / fs))) ^ 2 * shelfRatio gainDb r ≠ 1 ∧
      Real.sinh (n * Real.arsinh (1 / Real.tan (Real.pi * bw / fs))) ^ 2 * shelfRatio gainDb r ≠
        ofDb gainDb ^ 2) :
    ∃ c, ChebyshevI.bandShelf dbg N n fs fc bw gainDb r = .ok c ∧
      ChebyshevII.bandShelf dbg N n fs fc bw gainDb r = .ok c ∧ c.num = n ∧
      (∀ g ∈ active c, g.stability = true) ∧
      (∀ w : ℝ, 0 < w → w < Real.pi → ChainGainAt (active c) w
        (rippleShelf (ofDb gainDb) (ofDb (edgeDb gainDb r))
          (chebT n (passFreq (tLo fs fc bw) (tHi fs fc bw) (Real.tan (w / 2)))))) ∧
      ChainGainAt (active c) (bandLo fs fc bw) (ofDb (edgeDb gainDb r)) ∧
      ChainGainAt (active c) (bandHi fs fc bw) (ofDb (edgeDb gainDb r)) ∧
      ChainGainAt (active c) 0 1 ∧ ChainGainAt (active c) Real.pi 1 := by
  obtain ⟨e1, e2⟩ := band_fdiv hB
  obtain ⟨a, u, v, hu, hv, huv, ha, ha2, haw, hag, hold, hM, hqu, hqv⟩ := cheb_shelf_setup dbg hn hN hr hr2
  have hlen := oddSingle_len n (-Real.sinh u) (some (-Real.sinh v))
  have hsu := Real.sinh_pos_iff.mpr hu
  have hsv := Real.sinh_pos_iff.mpr hv
  obtain ⟨d, c, hd', hc, hnum, hst, hgain, h0, hpi⟩ := bandshelf_chain hold (by omega) (by omega)
    (fun k hk => shelfRoot_lhp hk hu) (shelf_zeros hv)
    (by
      intro q hq
      unfold oddSingle at hq
      split at hq
      · rename_i hodd
        injection hq with hq; subst hq
        refine ⟨by simp only; linarith, by intro c hc; injection hc with hc; linarith, fun hdb => ?_⟩
        obtain ⟨d1, d2⟩ := hd hodd hdb
        refine ⟨fun h => d1 ?_, fun h => d2 ?_⟩
        · rw [← neg_inj.mp h, Real.arsinh_sinh, hqu]
        · injection h with h
          rw [← neg_inj.mp h, Real.arsinh_sinh, hqv]
      · cases hq)
    hB (by rw [MI_finite]; exact one_ne_zero)
  obtain ⟨t1, t12, w0, wlt, wpi⟩ := edges_pos hB
  have hall : ∀ w : ℝ, 0 < w → w < Real.pi → ChainGainAt (active c) w
        (rippleShelf (ofDb gainDb) (ofDb (edgeDb gainDb r))
          (chebT n (passFreq (tLo fs fc bw) (tHi fs fc bw) (Real.tan (w / 2))))) := by
    intro w hw0 hwpi
    have := hgain w hw0 hwpi
    rwa [MI_finite, div_one, hM] at this
  refine ⟨c, ?_, ?_, by rw [hnum, hlen.2], hst, hall, ?_, ?_, h0, hpi⟩
  · unfold ChebyshevI.bandShelf
    rw [e1, e2, ha]
    simp only [bind, Except.bind, hd', hc]
  · unfold ChebyshevII.bandShelf
    rw [e1, e2, ha2]
    simp only [bind, Except.bind, hd', hc]
  · have := hall _ w0 (wlt.trans wpi)
    rw [pass_lo t1 t12, rippleShelf_one (ofDb_pos _) (ofDb_pos _) (levels hr hr2)] at this
    · exact this
    · have h := cheb_neg_sq n 1
      change chebT n (-1) ^ 2 = chebT n 1 ^ 2 at h
      rw [h, chebT_one, one_pow]
  · have := hall _ (w0.trans wlt) wpi
    rw [pass_hi t1 t12, rippleShelf_one (ofDb_pos _) (ofDb_pos _) (levels hr hr2)] at this
    · exact this
    · rw [chebT_one, one_pow]

example : ∃ c, ChebyshevII.bandShelf true 8 2 48000 12000 4000 6 1 = .ok c ∧
    ChainGainAt (active c) (bandLo 48000 12000 4000) (ofDb (edgeDb 6 1)) := by
  obtain ⟨c, -, h1, -, -, -, h2, -⟩ := C74_band_shelf_partial true (N := 8) (n := 2) (by norm_num)
    (by norm_num) (gainDb := 6) (r := 1) (by norm_num) (by norm_num) bandOk_example (by norm_num)
  exact ⟨c, h1, h2⟩

/-- **C74 is violated in debug builds for band shelves of odd order** whose single pole or zero has 0 as
an image: the contract check on the pairs fails. -/
theorem C74_odd_debug_violates {N n : Nat} (hN : n ≤ N) (hodd : n % 2 = 1) {gainDb r : ℝ} (hr : 0 < r)
    (hr2 : r < |gainDb|) {fs fc bw : ℝ} (hB : BandOk fs fc bw)
    (h : Real.sinh (n * Real.arsinh (1 / Real.tan (Real.pi * bw / fs))) ^ 2 * shelfRatio gainDb r = 1 ∨
      Real.sinh (n * Real.arsinh (1 / Real.tan (Real.pi * bw / fs))) ^ 2 * shelfRatio gainDb r =
        ofDb gainDb ^ 2) :
    ChebyshevI.bandShelf true N n fs fc bw gainDb r = .error .assertion ∧
      ChebyshevII.bandShelf true N n fs fc bw gainDb r = .error .assertion := by
  obtain ⟨e1, e2⟩ := band_fdiv hB
  obtain ⟨a, u, v, hu, hv, huv, ha, ha2, haw, hag, hold, hM, hqu, hqv⟩ :=
    cheb_shelf_setup true (show 1 ≤ n by omega) hN hr hr2
  obtain ⟨B, hB1, -, -, hpar, h0, hlt, hpi⟩ := bandInit_ok hB
  obtain ⟨t1, -, -⟩ := tan_facts h0 (hlt.trans hpi)
  have ht := tan_half_strict h0 hlt hpi
  obtain ⟨hpa, hpb⟩ := params_pos t1 ht hpar
  have hbe := params_b hB hpar
  have hsu := Real.sinh_pos_iff.mpr hu
  have hsv := Real.sinh_pos_iff.mpr hv
  have hn : (0 : ℝ) < n := by
    have : 0 < n := by omega
    exact_mod_cast this
  have hq : 0 < shelfRatio gainDb r := shelf_q_pos (ofDb_pos _) (ofDb_pos _) (levels hr hr2)
  have key : ∀ x : ℝ, 0 < x →
      Real.sinh (n * Real.arsinh B.b) ^ 2 * shelfRatio gainDb r =
        Real.sinh (n * x) ^ 2 * shelfRatio gainDb r → Real.sinh x = B.b := by
    intro x hx hh
    have h1 := mul_right_cancel₀ hq.ne' hh
    have hb := Real.arsinh_pos_iff.mpr hpb
    have h2 := (pow_left_inj₀ (Real.sinh_pos_iff.mpr (mul_pos hn hb)).le
      (Real.sinh_pos_iff.mpr (mul_pos hn hx)).le two_ne_zero).mp h1
    have h3 := mul_left_cancel₀ hn.ne' (Real.sinh_injective h2)
    rw [← h3, Real.sinh_arsinh]
  rw [← hbe] at h
  rw [show oddSingle n (-Real.sinh u) (some (-Real.sinh v)) = some (-Real.sinh u, some (-Real.sinh v)) by
    unfold oddSingle; rw [if_pos hodd]] at hold
  have hfail := band_single_fails (fix := id) hold (by omega)
    (fun k hk => (shelfRoot_lhp hk hu).1) (shelf_zeros hv)
    ⟨by simp only; linarith, by intro c hc; injection hc with hc; linarith⟩ (bp_root hpa hpb) (by
      rcases h with h | h
      · left
        simp only
        rw [key u hu (by rw [h, hqu])]
      · right
        simp only
        rw [key v hv (by rw [h, hqv])])
  unfold ChebyshevI.bandShelf ChebyshevII.bandShelf bandShelfTransform
  rw [e1, e2, ha, ha2]
  simp only [bind, Except.bind, hB1, hfail]
  exact ⟨trivial, trivial⟩

/-- Order 1, bandwidth `fs/4`, a boost of `10 log10 3` dB (amplitude `√3`) with edges at amplitude `√2`. -/
example : ChebyshevI.bandShelf true 8 1 48000 12000 12000 (10 * Real.logb 10 3)
    (10 * Real.logb 10 (3 / 2)) = .error .assertion := by
  have h2 : 0 < Real.logb 10 2 := Real.logb_pos (by norm_num) (by norm_num)
  have h3 : Real.logb 10 (3 / 2) = Real.logb 10 3 - Real.logb 10 2 :=
    Real.logb_div (by norm_num) (by norm_num)
  have h32 : 0 < Real.logb 10 (3 / 2) := Real.logb_pos (by norm_num) (by norm_num)
  have hsq : ∀ x : ℝ, 0 < x → ofDb (10 * Real.logb 10 x) ^ 2 = x := by
    intro x hx
    unfold ofDb
    rw [← Real.rpow_natCast, ← Real.rpow_mul (by norm_num)]
    rw [show 10 * Real.logb 10 x / 20 * ((2 : ℕ) : ℝ) = Real.logb 10 x by push_cast; ring]
    exact Real.rpow_logb (by norm_num) (by norm_num) hx
  refine (C74_odd_debug_violates (by norm_num) (by norm_num) (by linarith) ?_ ?_ (Or.inl ?_)).1
  · rw [abs_of_pos (by linarith)]; linarith
  · refine ⟨by norm_num, by norm_num, ?_, ?_⟩
    · have := Real.two_le_pi; unfold bandLo; linarith
    · have := Real.two_le_pi; unfold bandHi; linarith
  · rw [show Real.pi * 12000 / 48000 = Real.pi / 4 by ring, Real.tan_pi_div_four]
    have he : edgeDb (10 * Real.logb 10 3) (10 * Real.logb 10 (3 / 2)) = 10 * Real.logb 10 2 := by
      unfold edgeDb; rw [if_pos (by linarith), h3]; ring
    unfold shelfRatio
    rw [he, hsq 3 (by norm_num), hsq 2 (by norm_num), Nat.cast_one, one_mul, Real.sinh_arsinh]
    norm_num

/-- **C74 is violated at 0 dB.** A shelf of 0 dB, which should change nothing, divides by 0 for every
order and every ripple that is not negative. -/
theorem C74_zero_gain_violates (dbg : Bool) {N n : Nat} (hn : 1 ≤ n) (hN : n ≤ N) {r : ℝ} (hr : 0 ≤ r)
    {fs fc : ℝ} (h0 : 0 < fc) (h1 : fc < fs / 2) :
    ChebyshevI.lowShelf dbg N n fs fc 0 r = .error .divByZero ∧
      ChebyshevII.lowShelf dbg N n fs fc 0 r = .error .divByZero := by
  obtain ⟨e, -, -⟩ := fdiv_cutoff h0 h1
  have hn' : (n : ℝ) ≠ 0 := by
    have : n ≠ 0 := by omega
    exact_mod_cast this
  have hz : Zoelzer.db2mag 0 = 1 := by unfold Zoelzer.db2mag; simp
  have ed : fdiv (1 : ℝ) 0 = .error .divByZero := by unfold fdiv; rw [if_pos rfl]
  have en : fdiv 1 (n : ℝ) = .ok (1 / n) := by unfold fdiv; rw [if_neg hn']
  have p1 : ChebyshevI.shelfParams n 0 r = .error .divByZero := by
    unfold ChebyshevI.shelfParams
    simp only [neg_zero, abs_zero, hr, if_true, lt_irrefl, if_false, sub_zero, hz, ne_eq, not_true_eq_false]
    rw [if_neg (by omega)]
    simp only [bind, Except.bind, pure, Except.pure, sub_self, ne_eq, OfNat.ofNat_ne_zero, not_false_eq_true,
      zero_pow, ed]
  have p2 : ChebyshevII.shelfParams n 0 r = .error .divByZero := by
    unfold ChebyshevII.shelfParams
    simp only [neg_zero, abs_zero, hr, if_true, lt_irrefl, if_false, sub_zero, hz, ne_eq, not_true_eq_false, en]
    simp only [bind, Except.bind, pure, Except.pure, sub_self, ne_eq, OfNat.ofNat_ne_zero, not_false_eq_true,
      zero_pow, ed]
  unfold ChebyshevI.lowShelf ChebyshevII.lowShelf ChebyshevI.shelfAnalog ChebyshevII.shelfAnalog
  rw [e, p1, p2, if_neg (by omega)]
  exact ⟨rfl, rfl⟩

example : ChebyshevI.lowShelf true 8 3 48000 1000 0 1 = .error .divByZero :=
  (C74_zero_gain_violates true (by norm_num) (by norm_num) (by norm_num) (by norm_num) (by norm_num)).1

/-- **C74 is violated by a ripple that is not smaller than the cut.** For every cut, every such ripple and
every odd order the gain at frequency 0 is not the one requested. -/
theorem C74_large_ripple_violates (dbg : Bool) {N n : Nat} (hn : 1 ≤ n) (hN : n ≤ N) (hodd : n % 2 = 1)
    {gainDb r : ℝ} (hg : gainDb < 0) (hr : -gainDb ≤ r) {fs fc : ℝ} (h0 : 0 < fc) (h1 : fc < fs / 2) :
    ∃ c g, ChebyshevI.lowShelf dbg N n fs fc gainDb r = .ok c ∧ ChainGainAt (active c) 0 g ∧
      g ≠ ofDb gainDb := by
  obtain ⟨e, hf0, hf1⟩ := fdiv_cutoff h0 h1
  have hn' : (0 : ℝ) < n := by
    have : 0 < n := by omega
    exact_mod_cast this
  set G := Zoelzer.db2mag (-gainDb) with hGd
  have hG1 : 1 < G := by
    rw [hGd]; unfold Zoelzer.db2mag
    exact Real.one_lt_rpow (by norm_num) (by linarith)
  set eps := G - 1 with hepsd
  have heps : 0 < eps := by linarith
  set ex := Real.sqrt (1 + 1 / eps ^ 2) with hexd
  have hex : 0 < ex := Real.sqrt_pos.mpr (by positivity)
  have hexsq : ex ^ 2 = 1 + 1 / eps ^ 2 := Real.sq_sqrt (by positivity)
  have hex1 : 1 < ex := by
    rw [hexd, Real.lt_sqrt (by norm_num)]
    have : 0 < 1 / eps ^ 2 := by positivity
    linarith
  set B := G / eps + ex with hBd
  have hB1 : 1 < B := by
    have : 0 < G / eps := by positivity
    linarith
  set C := 1 / eps + ex with hCd
  have hC1 : 1 < C := by
    have : 0 < 1 / eps := by positivity
    linarith
  set u := Real.log B / n with hud
  set v := Real.log C / n with hvd
  have hu : 0 < u := div_pos (Real.log_pos hB1) hn'
  have hv : 0 < v := div_pos (Real.log_pos hC1) hn'
  have hz : Zoelzer.db2mag 0 = 1 := by unfold Zoelzer.db2mag; simp
  have hpow : ∀ {x : ℝ}, 1 < x → fpow x (1 / n) = .ok (Real.exp (Real.log x / n)) := by
    intro x hx
    unfold fpow
    rw [if_neg (by linarith), Real.rpow_def_of_pos (by linarith)]
    congr 2; ring
  have p1 : ChebyshevI.shelfParams n gainDb r = .ok (u, v) := by
    unfold ChebyshevI.shelfParams
    simp only []
    rw [abs_of_pos (show 0 < -gainDb by linarith), if_pos hr, if_neg (by omega), if_neg (show ¬ -gainDb < 0 by linarith), sub_self, hz,
      if_neg (by simp), Real.one_rpow, ← hGd]
    have d1 : fdiv 1 ((G - 1) ^ 2) = .ok (1 / eps ^ 2) := by
      unfold fdiv; rw [if_neg (pow_pos heps 2).ne']
    have d2 : Stat.fsqrt (1 + 1 / eps ^ 2) = .ok ex := by
      unfold Stat.fsqrt; rw [if_neg (by have : 0 < 1 / eps ^ 2 := by positivity
                                        linarith)]
    have d3 : fdiv 1 (n : ℝ) = .ok (1 / n) := by unfold fdiv; rw [if_neg hn'.ne']
    have d4 : fdiv G (G - 1) = .ok (G / eps) := by unfold fdiv; rw [if_neg heps.ne']
    have d5 : fdiv 1 (G - 1) = .ok (1 / eps) := by unfold fdiv; rw [if_neg heps.ne']
    have d6 : ∀ x : ℝ, fdiv (Real.exp x) 1 = .ok (Real.exp x) := by
      intro x; unfold fdiv; rw [if_neg one_ne_zero, div_one]
    simp only [bind, Except.bind, pure, Except.pure, d1, d2, d3, d4, d5, one_mul]
    rw [← hBd, ← hCd, hpow hB1, hpow hC1]
    simp only [d6, flog_exp]
    rfl
  obtain ⟨a, ha, haw, hag, hold⟩ := (cheb_shelf_holds hN dbg (gainDb := gainDb) (r := r) (u := u) (v := v)).1 p1
  have hsu := Real.sinh_pos_iff.mpr hu
  have hsv := Real.sinh_pos_iff.mpr hv
  have hlen := oddSingle_len n (-Real.sinh u) (some (-Real.sinh v))
  obtain ⟨d, c, hd', hc, hnum, hst, hgain, hpi⟩ := lowpass_chain hold (by omega) (by omega)
    (fun k hk => shelfRoot_lhp hk hu) (shelf_zeros hv)
    (oddSingle_neg (by linarith) (by intro c hc; injection hc with hc; linarith))
    (by rw [hag]; norm_num) dbg hf0 hf1 (ref := 1) (Or.inr ⟨haw, (MI_finite _ _ _ _ _).symm⟩) one_ne_zero
  have hw0 := hgain 0 (by simpa using Real.pi_pos)
  rw [hag, one_mul, div_one, zero_div, Real.tan_zero, zero_div, shelf_cheb_MA n (by omega),
    (cheb_zero_sq n).1 hodd, zero_add, zero_add, Real.sqrt_sq, Real.sqrt_sq] at hw0
  · refine ⟨c, _, ?_, hw0, ?_⟩
    · unfold ChebyshevI.lowShelf
      rw [e, ha]
      simp only [bind, Except.bind, hd', hc]
    · have s1 : n * u = Real.log B := by rw [hud]; field_simp
      have s2 : n * v = Real.log C := by rw [hvd]; field_simp
      have hH : ofDb gainDb = 1 / G := by
        rw [hGd, db2mag_neg, one_div_one_div]
      have hCe : Real.sinh (Real.log C) = 1 / eps := by
        have : Real.log C = Real.arsinh (1 / eps) := by
          unfold Real.arsinh
          rw [hCd, hexd, one_div_pow]
        rw [this, Real.sinh_arsinh]
      rw [s1, s2, hCe, hH]
      intro h
      have hS : Real.sinh (Real.log B) = G / eps := by
        have hp : 0 < Real.sinh (Real.log B) := Real.sinh_pos_iff.mpr (Real.log_pos hB1)
        rw [div_eq_div_iff hp.ne' (by linarith)] at h
        field_simp at h ⊢
        linarith
      have h2 := Real.sinh_sub_cosh (Real.log B)
      have h3 := Real.sinh_add_cosh (Real.log B)
      rw [Real.exp_log (by linarith)] at h3
      have h4 : Real.cosh (Real.log B) = ex := by rw [hS, hBd] at h3; linarith
      have h5 := Real.cosh_sq (Real.log B)
      rw [h4, hexsq, hS] at h5
      have h6 : (1 : ℝ) = G ^ 2 := by field_simp at h5; linarith
      nlinarith
  · exact (Real.sinh_pos_iff.mpr (by positivity)).le
  · exact (Real.sinh_pos_iff.mpr (by positivity)).le

example : ∃ c g, ChebyshevI.lowShelf true 8 3 48000 1000 (-3) 3 = .ok c ∧ ChainGainAt (active c) 0 g ∧
    g ≠ ofDb (-3) :=
  C74_large_ripple_violates true (by norm_num) (by norm_num) (by norm_num) (by norm_num) (by norm_num)
    (by norm_num) (by norm_num)

/-- **C74 is violated by a ripple that is not smaller than the boost.** For every order, every boost and
every such ripple the design succeeds (odd orders: unless its real zero is mapped to infinity, which
divides by 0), but the gain is not the one requested at the innermost extremum of the shelf, or is above
0 dB at the cutoff, where it should be `ripple` dB or more below the requested gain. -/
theorem C74_large_ripple_boost_violates (dbg : Bool) {N n : Nat} (hn : 1 ≤ n) (hN : n ≤ N)
    {gainDb r : ℝ} (hg : 0 < gainDb) (hr : gainDb ≤ r) {fs fc : ℝ} (h0 : 0 < fc) (h1 : fc < fs / 2)
    (hreg : n % 2 = 1 → Real.tan (Real.pi * (fc / fs)) *
      Real.sinh (Real.arsinh (1 / (1 - 1 / ofDb gainDb)) / n) ≠ 1) :
    ∃ c g0 g1, ChebyshevI.lowShelf dbg N n fs fc gainDb r = .ok c ∧
      ChebyshevII.lowShelf dbg N n fs fc gainDb r = .ok c ∧
      ChainGainAt (active c)
        (2 * Real.arctan (Real.cos (Real.pi / (2 * n)) * Real.tan (Real.pi * (fc / fs)))) g0 ∧
      ChainGainAt (active c) (2 * Real.pi * fc / fs) g1 ∧ ¬ (g0 = ofDb gainDb ∧ g1 ≤ 1) := by
  obtain ⟨e, hf0, hf1⟩ := fdiv_cutoff h0 h1
  have hn' : (0 : ℝ) < n := by
    have : 0 < n := by omega
    exact_mod_cast this
  set G := Zoelzer.db2mag (-gainDb) with hGd
  have hG0 : 0 < G := Real.rpow_pos_of_pos (by norm_num) _
  have hG1 : G < 1 := by
    rw [hGd]; unfold Zoelzer.db2mag
    exact Real.rpow_lt_one_of_one_lt_of_neg (by norm_num) (by linarith)
  have hGH : 1 / ofDb gainDb = G := (db2mag_neg gainDb).symm
  have hH : ofDb gainDb = 1 / G := by rw [← hGH, one_div_one_div]
  set k := 1 / (1 - G) with hkd
  have hk : 0 < k := one_div_pos.mpr (by linarith)
  have hkG : G * k = k - 1 := by
    rw [hkd]
    have : 1 - G ≠ 0 := by linarith
    field_simp
    ring
  have hk1 : 1 < k := by nlinarith
  set ex := Real.sqrt (1 + k ^ 2) with hexd
  have hexsq : ex ^ 2 = 1 + k ^ 2 := Real.sq_sqrt (by positivity)
  have hexk : k < ex := by rw [hexd, Real.lt_sqrt hk.le]; linarith
  set B := -(k - 1) + ex with hBd
  have hB1 : 1 < B := by linarith
  set C := -k + ex with hCd
  have hC0 : 0 < C := by linarith
  set u := Real.log B / n with hud
  have hu : 0 < u := div_pos (Real.log_pos hB1) hn'
  set v := Real.log C / n with hvd
  have hCa : Real.log C = -Real.arsinh k := by
    rw [← Real.arsinh_neg]
    unfold Real.arsinh
    rw [hCd, hexd, neg_sq]
  have hv : v = -(Real.arsinh k / n) := by rw [hvd, hCa, neg_div]
  have hz : Zoelzer.db2mag 0 = 1 := by unfold Zoelzer.db2mag; simp
  have hpow : ∀ {x : ℝ}, 0 < x → fpow x (1 / n) = .ok (Real.exp (Real.log x / n)) := by
    intro x hx
    unfold fpow
    rw [if_neg (by linarith), Real.rpow_def_of_pos hx]
    congr 2; ring
  have hne : G - 1 ≠ 0 := by linarith
  have hk2 : 1 / (G - 1) ^ 2 = k ^ 2 := by
    rw [hkd, one_div_pow]
    congr 1
    ring
  have d1 : fdiv 1 ((G - 1) ^ 2) = .ok (k ^ 2) := by
    unfold fdiv; rw [if_neg (pow_ne_zero 2 hne), hk2]
  have d2 : Stat.fsqrt (1 + k ^ 2) = .ok ex := by
    unfold Stat.fsqrt; rw [if_neg (by have : 0 < k ^ 2 := by positivity
                                      linarith)]
  have d3 : fdiv 1 (n : ℝ) = .ok (1 / n) := by unfold fdiv; rw [if_neg hn'.ne']
  have hkn : 1 / (G - 1) = -k := by
    rw [hkd, ← neg_sub, one_div_neg_eq_neg_one_div]
  have d4 : fdiv G (G - 1) = .ok (-(k - 1)) := by
    unfold fdiv; rw [if_neg hne, ← hkG, div_eq_mul_one_div, hkn, mul_neg]
  have d5 : fdiv 1 (G - 1) = .ok (-k) := by unfold fdiv; rw [if_neg hne, hkn]
  have d6 : ∀ x : ℝ, fdiv (Real.exp x) 1 = .ok (Real.exp x) := by
    intro x; unfold fdiv; rw [if_neg one_ne_zero, div_one]
  have p1 : ChebyshevI.shelfParams n gainDb r = .ok (u, v) := by
    unfold ChebyshevI.shelfParams
    simp only []
    rw [abs_neg, abs_of_pos hg, if_pos hr, if_neg (by omega), if_pos (show -gainDb < 0 by linarith),
      sub_self, hz, if_neg (by simp), Real.one_rpow, ← hGd]
    simp only [bind, Except.bind, pure, Except.pure, d1, d2, d3, d4, d5, one_mul]
    rw [← hBd, ← hCd, hpow (by linarith), hpow hC0]
    simp only [d6, flog_exp]
    rfl
  have p2 : ChebyshevII.shelfParams n gainDb r = .ok (u, v) := by
    unfold ChebyshevII.shelfParams
    simp only []
    rw [abs_neg, abs_of_pos hg, if_pos hr, if_pos (show -gainDb < 0 by linarith), sub_self, hz, d3,
      ← hGd]
    simp only [bind, Except.bind]
    rw [if_neg (by simp)]
    simp only [bind, Except.bind, pure, Except.pure, d1, d2, d3, d4, d5, one_mul, Real.one_rpow]
    rw [← hBd, ← hCd, hpow (by linarith), hpow hC0]
    simp only [d6, flog_exp]
    rfl
  obtain ⟨a, ha, haw, hag, hold⟩ := (cheb_shelf_holds hN dbg (gainDb := gainDb) (r := r) (u := u) (v := v)).1 p1
  have ha2 : ChebyshevII.shelfAnalog dbg N n gainDb r (Layout.new N) = .ok a := by
    rw [← ha]
    unfold ChebyshevI.shelfAnalog ChebyshevII.shelfAnalog
    rw [p1, p2]
  have hsu := Real.sinh_pos_iff.mpr hu
  have hpi := Real.pi_pos
  have hlt : Real.pi * (fc / fs) < Real.pi / 2 := by nlinarith
  have hgt : 0 < Real.pi * (fc / fs) := by positivity
  have htan := Real.tan_pos_of_pos_of_lt_pi_div_two hgt hlt
  have hlen := oddSingle_len n (-Real.sinh u) (some (-Real.sinh v))
  obtain ⟨d, c, hd', hc, hnum, hst, hgain, -⟩ := lowpass_chain_reg hold (by omega) (by omega)
    (fun k hk => shelfRoot_lhp hk hu)
    (by rw [hag]; norm_num) dbg hf0 hf1
    (by
      intro j hj x hx h
      injection hx with hx
      have him := (shelfRoot_lhp hj (v := 1) one_pos).2
      have him' : (ChebyshevI.shelfRoot v n j).im ≠ 0 := by
        simp only [ChebyshevI.shelfRoot] at him ⊢
        exact mul_ne_zero (left_ne_zero_of_mul him) (Real.cosh_pos v).ne'
      have := congrArg Complex.im h
      rw [← hx, Complex.sub_im, Complex.im_ofReal_mul, Complex.one_im, Complex.zero_im, zero_sub,
        neg_eq_zero] at this
      exact mul_ne_zero htan.ne' him' this)
    (by
      intro q hq
      unfold oddSingle at hq
      split at hq
      · rename_i hodd
        injection hq with hq; subst hq
        refine ⟨by simp only; linarith, ?_⟩
        intro x hx h
        simp only [Option.map_some] at hx
        injection hx with hx
        rw [← hx] at h
        refine hreg hodd ?_
        rw [hGH, ← hkd]
        rw [hv, Real.sinh_neg, neg_neg] at h
        have h' : (1 : ℂ) - ((Real.tan (Real.pi * (fc / fs)) * Real.sinh (Real.arsinh k / n) : ℝ) : ℂ) = 0 := by
          rw [Complex.ofReal_mul]; exact h
        have : 1 - Real.tan (Real.pi * (fc / fs)) * Real.sinh (Real.arsinh k / n) = 0 := by
          exact_mod_cast h'
        linarith
      · cases hq)
    (ref := 1) (Or.inr ⟨haw, (MI_finite _ _ _ _ _).symm⟩) one_ne_zero
  have hval : ∀ w : ℝ, |w| < Real.pi → ChainGainAt (active c) w
      (Real.sqrt (chebT n (Real.tan (w / 2) / Real.tan (Real.pi * (fc / fs))) ^ 2 + k ^ 2) /
        Real.sqrt (chebT n (Real.tan (w / 2) / Real.tan (Real.pi * (fc / fs))) ^ 2 +
          Real.sinh (Real.log B) ^ 2)) := by
    intro w hw
    have := hgain w hw
    rw [hag, one_mul, div_one, shelf_cheb_MA n (by omega), show (n : ℝ) * u = Real.log B by
      rw [hud]; field_simp, show (n : ℝ) * v = -Real.arsinh k by rw [hv]; field_simp, Real.sinh_neg,
      Real.sinh_arsinh, neg_sq] at this
    exact this
  have e2 : 2 * Real.pi * fc / fs = 2 * (Real.pi * (fc / fs)) := by ring
  have hS : 0 < Real.sinh (Real.log B) := Real.sinh_pos_iff.mpr (Real.log_pos hB1)
  have v0 := hval (2 * Real.arctan (Real.cos (Real.pi / (2 * n)) * Real.tan (Real.pi * (fc / fs))))
    (by
      have h1 := Real.arctan_lt_pi_div_two (Real.cos (Real.pi / (2 * n)) * Real.tan (Real.pi * (fc / fs)))
      have h2 := Real.neg_pi_div_two_lt_arctan (Real.cos (Real.pi / (2 * n)) * Real.tan (Real.pi * (fc / fs)))
      rw [abs_lt]; constructor <;> linarith)
  have v1 := hval (2 * Real.pi * fc / fs) (by rw [e2, abs_of_pos (by positivity)]; linarith)
  have hT0 : chebT n (Real.cos (Real.pi / (2 * n))) = 0 := by
    unfold chebT
    rw [Polynomial.Chebyshev.T_real_cos]
    have : ((n : ℤ) : ℝ) * (Real.pi / (2 * n)) = Real.pi / 2 := by push_cast; field_simp
    rw [this, Real.cos_pi_div_two]
  rw [mul_div_cancel_left₀ _ two_ne_zero, Real.tan_arctan, mul_div_cancel_right₀ _ htan.ne', hT0,
    zero_pow two_ne_zero, zero_add, zero_add, Real.sqrt_sq hk.le, Real.sqrt_sq hS.le] at v0
  rw [e2, mul_div_cancel_left₀ _ two_ne_zero, div_self htan.ne', chebT_one, one_pow, ← e2] at v1
  refine ⟨c, _, _, ?_, ?_, v0, v1, ?_⟩
  · unfold ChebyshevI.lowShelf
    rw [e, ha]
    simp only [bind, Except.bind, hd', hc]
  · unfold ChebyshevII.lowShelf
    rw [e, ha2]
    simp only [bind, Except.bind, hd', hc]
  · rintro ⟨q1, q2⟩
    have hkS : Real.sinh (Real.log B) < k := by
      have : 1 < k / Real.sinh (Real.log B) := by
        rw [q1, hH, lt_div_iff₀ hG0]; linarith
      rwa [lt_div_iff₀ hS, one_mul] at this
    have hp : 0 < Real.sqrt (1 + Real.sinh (Real.log B) ^ 2) := Real.sqrt_pos.mpr (by positivity)
    rw [div_le_one hp] at q2
    have := Real.sqrt_lt_sqrt (show 0 ≤ 1 + Real.sinh (Real.log B) ^ 2 by positivity)
      (show 1 + Real.sinh (Real.log B) ^ 2 < 1 + k ^ 2 from
        add_lt_add_right (pow_lt_pow_left₀ hkS hS.le two_ne_zero) 1)
    exact absurd q2 this.not_ge

example : ∃ c g0 g1, ChebyshevI.lowShelf true 8 2 48000 1000 3 3 = .ok c ∧
      ChebyshevII.lowShelf true 8 2 48000 1000 3 3 = .ok c ∧
      ChainGainAt (active c)
        (2 * Real.arctan (Real.cos (Real.pi / (2 * (2 : ℕ))) * Real.tan (Real.pi * (1000 / 48000)))) g0 ∧
      ChainGainAt (active c) (2 * Real.pi * 1000 / 48000) g1 ∧ ¬ (g0 = ofDb 3 ∧ g1 ≤ 1) :=
  C74_large_ripple_boost_violates true (by norm_num) (by norm_num) (by norm_num) (by norm_num)
    (by norm_num) (by norm_num) (by norm_num)

end Edsp.Props
