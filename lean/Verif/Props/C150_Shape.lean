import Verif.Props.C130_Energy
import Mathlib.Analysis.Real.Pi.Bounds

/-! # C150: the responses of the designs move the way their parameters are turned -/

namespace Edsp.C150

open Edsp Edsp.Spec Edsp.Props Edsp.C130

/-! ## Preparations -/

theorem inv_sqrt_lt {a b : ℝ} (ha : 0 ≤ a) (hab : a < b) : 1 / Real.sqrt (1 + b) < 1 / Real.sqrt (1 + a) :=
  one_div_lt_one_div_of_lt (Real.sqrt_pos.mpr (by linarith)) (Real.sqrt_lt_sqrt (by linarith) (by linarith))

theorem tan_pos {w : ℝ} (h0 : 0 < w) (h1 : w < Real.pi) : 0 < Real.tan (w / 2) :=
  Real.tan_pos_of_pos_of_lt_pi_div_two (by linarith) (by linarith)

theorem tan_lt {w w' : ℝ} (h0 : 0 < w) (h : w < w') (h1 : w' < Real.pi) : Real.tan (w / 2) < Real.tan (w' / 2) :=
  Real.tan_lt_tan_of_lt_of_lt_pi_div_two (by linarith) (by linarith) (by linarith)

theorem cut_pos {fc fs : ℝ} (h0 : 0 < fc) (h1 : fc < fs / 2) : 0 < Real.tan (Real.pi * (fc / fs)) := by
  have := tan_cutoff h0 h1
  rwa [mul_div_assoc] at this

theorem cut_eq (fc fs : ℝ) : Real.pi * (fc / fs) = 2 * Real.pi * fc / fs / 2 := by ring

theorem cut_lt_pi {fc fs : ℝ} (h0 : 0 < fc) (h1 : fc < fs / 2) :
    0 < 2 * Real.pi * fc / fs ∧ 2 * Real.pi * fc / fs < Real.pi := by
  have hfs : 0 < fs := by linarith
  have hpi := Real.pi_pos
  refine ⟨by positivity, ?_⟩
  rw [div_lt_iff₀ hfs]
  nlinarith

theorem cut_lt {fc fc' fs : ℝ} (h0 : 0 < fc) (h : fc < fc') (h1 : fc' < fs / 2) :
    Real.tan (Real.pi * (fc / fs)) < Real.tan (Real.pi * (fc' / fs)) := by
  have hfs : 0 < fs := by linarith
  rw [cut_eq, cut_eq]
  refine tan_lt (cut_lt_pi h0 (by linarith)).1 ?_ (cut_lt_pi (by linarith) h1).2
  exact div_lt_div_of_pos_right (by have := Real.pi_pos; nlinarith) hfs

theorem abs_lt_pi' {w : ℝ} (h0 : 0 < w) (h1 : w < Real.pi) : |w| < Real.pi := by rwa [abs_of_pos h0]

/-! ## Butterworth -/

/-- **C150, Butterworth, over frequency.** The gain of a low-pass falls and that of a high-pass rises strictly with
the frequency. -/
theorem C150_butterworth_frequency (dbg : Bool) {N n : Nat} (hn : 1 ≤ n) (hN : n ≤ N)
    (hd : n % 2 = 1 → dbg = false) {fs fc : ℝ} (h0 : 0 < fc) (h1 : fc < fs / 2) :
    ∃ lo hi, Butterworth.lowPass dbg N n fs fc = .ok lo ∧ Butterworth.highPass dbg N n fs fc = .ok hi ∧
      ∀ w w' g g', 0 < w → w < w' → w' < Real.pi →
        (ChainGainAt (active lo) w g → ChainGainAt (active lo) w' g' → g' < g) ∧
        (ChainGainAt (active hi) w g → ChainGainAt (active hi) w' g' → g < g') := by
  obtain ⟨lo, hlo, -, -, gl, -⟩ := C55_butterworth_lowpass dbg hn hN hd h0 h1
  obtain ⟨hi, hhi, -, -, gh, -⟩ := C56_butterworth_highpass dbg hn hN hd h0 h1
  have hK := cut_pos h0 h1
  refine ⟨lo, hi, hlo, hhi, fun w w' g g' hw hww hw' => ?_⟩
  have ht := tan_pos hw (hww.trans hw')
  have ht' := tan_pos (hw.trans hww) hw'
  have htt := tan_lt hw hww hw'
  have a1 := abs_lt_pi' hw (hww.trans hw')
  have a2 := abs_lt_pi' (hw.trans hww) hw'
  constructor <;> intro e e'
  · rw [C130.gain_unique e (gl w a1), C130.gain_unique e' (gl w' a2)]
    exact inv_sqrt_lt (by positivity)
      (pow_lt_pow_left₀ (div_lt_div_of_pos_right htt hK) (by positivity) (by omega))
  · rw [C130.gain_unique e (gh w hw.ne' a1), C130.gain_unique e' (gh w' (hw.trans hww).ne' a2)]
    exact inv_sqrt_lt (by positivity)
      (pow_lt_pow_left₀ (div_lt_div_of_pos_left hK ht htt) (by positivity) (by omega))

example : ∃ lo, Butterworth.lowPass true 8 4 48000 1000 = .ok lo ∧
    ∀ g g', ChainGainAt (active lo) 1 g → ChainGainAt (active lo) 2 g' → g' < g := by
  obtain ⟨lo, hi, h, -, h2⟩ := C150_butterworth_frequency true (N := 8) (n := 4) (fs := 48000) (fc := 1000)
    (by norm_num) (by norm_num) (by norm_num) (by norm_num) (by norm_num)
  exact ⟨lo, h, fun g g' => (h2 1 2 g g' one_pos one_lt_two (by linarith [Real.pi_gt_three])).1⟩

/-- **C150, Butterworth, over the order.** A higher order passes more inside the band it passes and less outside. -/
theorem C150_butterworth_order (dbg : Bool) {N n n' : Nat} (hn : 1 ≤ n) (hnn : n < n') (hN : n' ≤ N)
    (hd : n % 2 = 1 → dbg = false) (hd' : n' % 2 = 1 → dbg = false) {fs fc : ℝ} (h0 : 0 < fc) (h1 : fc < fs / 2) :
    ∃ lo lo' hi hi', Butterworth.lowPass dbg N n fs fc = .ok lo ∧ Butterworth.lowPass dbg N n' fs fc = .ok lo' ∧
      Butterworth.highPass dbg N n fs fc = .ok hi ∧ Butterworth.highPass dbg N n' fs fc = .ok hi' ∧
      ∀ w g g', 0 < w → w < Real.pi →
        (w < 2 * Real.pi * fc / fs →
          (ChainGainAt (active lo) w g → ChainGainAt (active lo') w g' → g < g') ∧
          (ChainGainAt (active hi) w g → ChainGainAt (active hi') w g' → g' < g)) ∧
        (2 * Real.pi * fc / fs < w →
          (ChainGainAt (active lo) w g → ChainGainAt (active lo') w g' → g' < g) ∧
          (ChainGainAt (active hi) w g → ChainGainAt (active hi') w g' → g < g')) := by
  obtain ⟨lo, hlo, -, -, gl, -⟩ := C55_butterworth_lowpass dbg hn (by omega : n ≤ N) hd h0 h1
  obtain ⟨lo', hlo', -, -, gl', -⟩ := C55_butterworth_lowpass dbg (by omega : 1 ≤ n') hN hd' h0 h1
  obtain ⟨hi, hhi, -, -, gh, -⟩ := C56_butterworth_highpass dbg hn (by omega : n ≤ N) hd h0 h1
  obtain ⟨hi', hhi', -, -, gh', -⟩ := C56_butterworth_highpass dbg (by omega : 1 ≤ n') hN hd' h0 h1
  have hK := cut_pos h0 h1
  obtain ⟨c0, c1⟩ := cut_lt_pi h0 h1
  refine ⟨lo, lo', hi, hi', hlo, hlo', hhi, hhi', fun w g g' hw hw1 => ?_⟩
  have ht := tan_pos hw hw1
  have a1 := abs_lt_pi' hw hw1
  constructor <;> intro hc
  · have hlt : Real.tan (w / 2) < Real.tan (Real.pi * (fc / fs)) := by rw [cut_eq]; exact tan_lt hw hc c1
    constructor <;> intro e e'
    · rw [C130.gain_unique e (gl w a1), C130.gain_unique e' (gl' w a1)]
      exact inv_sqrt_lt (by positivity)
        (pow_lt_pow_right_of_lt_one₀ (by positivity) ((div_lt_one hK).mpr hlt) (by omega))
    · rw [C130.gain_unique e (gh w hw.ne' a1), C130.gain_unique e' (gh' w hw.ne' a1)]
      exact inv_sqrt_lt (by positivity) (pow_lt_pow_right₀ ((one_lt_div ht).mpr hlt) (by omega))
  · have hlt : Real.tan (Real.pi * (fc / fs)) < Real.tan (w / 2) := by rw [cut_eq]; exact tan_lt c0 hc hw1
    constructor <;> intro e e'
    · rw [C130.gain_unique e (gl w a1), C130.gain_unique e' (gl' w a1)]
      exact inv_sqrt_lt (by positivity) (pow_lt_pow_right₀ ((one_lt_div hK).mpr hlt) (by omega))
    · rw [C130.gain_unique e (gh w hw.ne' a1), C130.gain_unique e' (gh' w hw.ne' a1)]
      exact inv_sqrt_lt (by positivity)
        (pow_lt_pow_right_of_lt_one₀ (by positivity) ((div_lt_one ht).mpr hlt) (by omega))

example : ∃ lo lo' hi hi', Butterworth.lowPass true 8 2 48000 1000 = .ok lo ∧
    Butterworth.lowPass true 8 4 48000 1000 = .ok lo' ∧ Butterworth.highPass true 8 2 48000 1000 = .ok hi ∧
    Butterworth.highPass true 8 4 48000 1000 = .ok hi' ∧
    ∀ g g', ChainGainAt (active lo) 1 g → ChainGainAt (active lo') 1 g' → g' < g := by
  obtain ⟨lo, lo', hi, hi', h, h', h2, h2', h3⟩ := C150_butterworth_order true (N := 8) (n := 2) (n' := 4)
    (fs := 48000) (fc := 1000) (by norm_num) (by norm_num) (by norm_num) (by norm_num) (by norm_num) (by norm_num)
    (by norm_num)
  refine ⟨lo, lo', hi, hi', h, h', h2, h2', fun g g' => ?_⟩
  exact ((h3 1 g g' one_pos (by linarith [Real.pi_gt_three])).2 (by linarith [Real.pi_lt_four])).1

/-- **C150, Butterworth, over the cutoff.** Raising the cutoff frequency makes a low-pass pass more and a high-pass
pass less of every frequency. -/
theorem C150_butterworth_cutoff (dbg : Bool) {N n : Nat} (hn : 1 ≤ n) (hN : n ≤ N)
    (hd : n % 2 = 1 → dbg = false) {fs fc fc' : ℝ} (h0 : 0 < fc) (hf : fc < fc') (h1 : fc' < fs / 2) :
    ∃ lo lo' hi hi', Butterworth.lowPass dbg N n fs fc = .ok lo ∧ Butterworth.lowPass dbg N n fs fc' = .ok lo' ∧
      Butterworth.highPass dbg N n fs fc = .ok hi ∧ Butterworth.highPass dbg N n fs fc' = .ok hi' ∧
      ∀ w g g', 0 < w → w < Real.pi →
        (ChainGainAt (active lo) w g → ChainGainAt (active lo') w g' → g < g') ∧
        (ChainGainAt (active hi) w g → ChainGainAt (active hi') w g' → g' < g) := by
  obtain ⟨lo, hlo, -, -, gl, -⟩ := C55_butterworth_lowpass dbg hn hN hd h0 (hf.trans h1)
  obtain ⟨lo', hlo', -, -, gl', -⟩ := C55_butterworth_lowpass dbg hn hN hd (h0.trans hf) h1
  obtain ⟨hi, hhi, -, -, gh, -⟩ := C56_butterworth_highpass dbg hn hN hd h0 (hf.trans h1)
  obtain ⟨hi', hhi', -, -, gh', -⟩ := C56_butterworth_highpass dbg hn hN hd (h0.trans hf) h1
  have hK := cut_pos h0 (hf.trans h1)
  have hK' := cut_pos (h0.trans hf) h1
  have hlt := cut_lt h0 hf h1
  refine ⟨lo, lo', hi, hi', hlo, hlo', hhi, hhi', fun w g g' hw hw1 => ?_⟩
  have ht := tan_pos hw hw1
  have a1 := abs_lt_pi' hw hw1
  constructor <;> intro e e'
  · rw [C130.gain_unique e (gl w a1), C130.gain_unique e' (gl' w a1)]
    exact inv_sqrt_lt (by positivity)
      (pow_lt_pow_left₀ (div_lt_div_of_pos_left ht hK hlt) (by positivity) (by omega))
  · rw [C130.gain_unique e (gh w hw.ne' a1), C130.gain_unique e' (gh' w hw.ne' a1)]
    exact inv_sqrt_lt (by positivity)
      (pow_lt_pow_left₀ (div_lt_div_of_pos_right hlt ht) (by positivity) (by omega))

example : ∃ lo lo' hi hi', Butterworth.lowPass true 8 4 48000 1000 = .ok lo ∧
    Butterworth.lowPass true 8 4 48000 2000 = .ok lo' ∧ Butterworth.highPass true 8 4 48000 1000 = .ok hi ∧
    Butterworth.highPass true 8 4 48000 2000 = .ok hi' ∧
    ∀ g g', ChainGainAt (active lo) 1 g → ChainGainAt (active lo') 1 g' → g < g' := by
  obtain ⟨lo, lo', hi, hi', h, h', h2, h2', h3⟩ := C150_butterworth_cutoff true (N := 8) (n := 4)
    (fs := 48000) (fc := 1000) (fc' := 2000) (by norm_num) (by norm_num) (by norm_num) (by norm_num) (by norm_num)
    (by norm_num)
  exact ⟨lo, lo', hi, hi', h, h', h2, h2', fun g g' => (h3 1 g g' one_pos (by linarith [Real.pi_gt_three])).1⟩

/-- **C150, Butterworth, slope and flatness.** With the warped frequency `x = tan (w/2) / tan (π fc / fs)` a low-pass
of order `n` stays below the line of `20 n` decibels per tenfold `x`: its gain is below `x⁻ⁿ`, and it loses at most the
share `x²ⁿ` of the power. -/
theorem C150_butterworth_slope (dbg : Bool) {N n : Nat} (hn : 1 ≤ n) (hN : n ≤ N)
    (hd : n % 2 = 1 → dbg = false) {fs fc : ℝ} (h0 : 0 < fc) (h1 : fc < fs / 2) :
    ∃ lo hi, Butterworth.lowPass dbg N n fs fc = .ok lo ∧ Butterworth.highPass dbg N n fs fc = .ok hi ∧
      ∀ w g, 0 < w → w < Real.pi →
        (ChainGainAt (active lo) w g →
          g < (Real.tan (Real.pi * (fc / fs)) / Real.tan (w / 2)) ^ n ∧
          1 - (Real.tan (w / 2) / Real.tan (Real.pi * (fc / fs))) ^ (2 * n) < g ^ 2) ∧
        (ChainGainAt (active hi) w g →
          g < (Real.tan (w / 2) / Real.tan (Real.pi * (fc / fs))) ^ n ∧
          1 - (Real.tan (Real.pi * (fc / fs)) / Real.tan (w / 2)) ^ (2 * n) < g ^ 2) := by
  obtain ⟨lo, hlo, -, -, gl, -⟩ := C55_butterworth_lowpass dbg hn hN hd h0 h1
  obtain ⟨hi, hhi, -, -, gh, -⟩ := C56_butterworth_highpass dbg hn hN hd h0 h1
  have hK := cut_pos h0 h1
  have key : ∀ a b : ℝ, 0 < a → 0 < b → 1 / Real.sqrt (1 + (a / b) ^ (2 * n)) < (b / a) ^ n ∧
      1 - (a / b) ^ (2 * n) < (1 / Real.sqrt (1 + (a / b) ^ (2 * n))) ^ 2 := by
    intro a b ha hb
    have hx : 0 < (a / b) ^ n := by positivity
    have e : (a / b) ^ (2 * n) = ((a / b) ^ n) ^ 2 := by rw [← pow_mul, mul_comm]
    have e' : (b / a) ^ n = 1 / (a / b) ^ n := by rw [← one_div_div, div_pow, one_pow]
    rw [e, e']
    generalize (a / b) ^ n = x at hx
    constructor
    · refine one_div_lt_one_div_of_lt hx ?_
      rw [Real.lt_sqrt hx.le]
      linarith
    · rw [div_pow, Real.sq_sqrt (by positivity), one_pow, lt_div_iff₀ (by positivity)]
      have : 0 < x ^ 2 := by positivity
      nlinarith
  refine ⟨lo, hi, hlo, hhi, fun w g hw hw1 => ?_⟩
  have ht := tan_pos hw hw1
  have a1 := abs_lt_pi' hw hw1
  constructor <;> intro e
  · rw [C130.gain_unique e (gl w a1)]
    exact key _ _ ht hK
  · rw [C130.gain_unique e (gh w hw.ne' a1)]
    exact key _ _ hK ht

example : ∃ lo hi, Butterworth.lowPass true 8 4 48000 12000 = .ok lo ∧
    Butterworth.highPass true 8 4 48000 12000 = .ok hi ∧
    ∀ g, ChainGainAt (active lo) (Real.pi / 2 + 1) g → g < (Real.tan (Real.pi * (12000 / 48000)) /
      Real.tan ((Real.pi / 2 + 1) / 2)) ^ 4 := by
  obtain ⟨lo, hi, h, h', h3⟩ := C150_butterworth_slope true (N := 8) (n := 4)
    (fs := 48000) (fc := 12000) (by norm_num) (by norm_num) (by norm_num) (by norm_num) (by norm_num)
  exact ⟨lo, hi, h, h', fun g hg => ((h3 (Real.pi / 2 + 1) g (by linarith [Real.pi_gt_three])
    (by linarith [Real.pi_gt_three])).1 hg).1⟩

/-! ## Chebyshev -/

/-- The polynomials grow from one order to the next beyond 1. -/
theorem cheb_step (n : Nat) {x : ℝ} (hx : 1 ≤ x) : 1 ≤ chebT n x ∧ x * chebT n x ≤ chebT (n + 1) x := by
  induction n with
  | zero => simp [chebT]
  | succ n ih =>
    have e : chebT (n + 1 + 1) x = 2 * x * chebT (n + 1) x - chebT n x := by
      have := Polynomial.Chebyshev.T_add_two ℝ (n : ℤ)
      unfold chebT
      push_cast
      rw [show (n : ℤ) + 1 + 1 = n + 2 by ring, this]
      simp
    obtain ⟨h1, h2⟩ := ih
    have h3 : 1 ≤ chebT (n + 1) x := by nlinarith
    refine ⟨h3, ?_⟩
    rw [e]
    nlinarith

/-- They grow strictly with the argument. -/
theorem cheb_mono (n : Nat) {x y : ℝ} (hx : 1 ≤ x) (hxy : x < y) :
    chebT n x ≤ chebT n y ∧ chebT n y - chebT n x < chebT (n + 1) y - chebT (n + 1) x := by
  induction n with
  | zero => simp [chebT, hxy]
  | succ n ih =>
    have e : ∀ x, chebT (n + 1 + 1) x = 2 * x * chebT (n + 1) x - chebT n x := by
      intro x
      have := Polynomial.Chebyshev.T_add_two ℝ (n : ℤ)
      unfold chebT
      push_cast
      rw [show (n : ℤ) + 1 + 1 = n + 2 by ring, this]
      simp
    obtain ⟨h1, h2⟩ := ih
    have h3 := (cheb_step (n + 1) (hx.trans hxy.le)).1
    refine ⟨by linarith, ?_⟩
    rw [e, e]
    nlinarith [mul_nonneg (sub_nonneg.mpr hx) (show 0 ≤ chebT (n + 1) y - chebT (n + 1) x by linarith),
      mul_pos (sub_pos.mpr hxy) (show 0 < chebT (n + 1) y by linarith)]

theorem cheb_lt {n : Nat} (hn : 1 ≤ n) {x y : ℝ} (hx : 1 ≤ x) (hxy : x < y) : chebT n x < chebT n y := by
  obtain ⟨m, rfl⟩ : ∃ m, n = m + 1 := ⟨n - 1, by omega⟩
  obtain ⟨h1, h2⟩ := cheb_mono m hx hxy
  linarith

theorem cheb_order {n n' : Nat} (h : n < n') {x : ℝ} (hx : 1 < x) : chebT n x < chebT n' x := by
  induction n', h using Nat.le_induction with
  | base =>
    obtain ⟨h1, h2⟩ := cheb_step n hx.le
    nlinarith
  | succ m _ ih =>
    obtain ⟨h1, h2⟩ := cheb_step m hx.le
    nlinarith

theorem cheb_pow (n : Nat) {x : ℝ} (hx : 1 ≤ x) : x ^ n ≤ chebT n x := by
  induction n with
  | zero => simp [chebT]
  | succ n ih =>
    obtain ⟨h1, h2⟩ := cheb_step n hx
    rw [pow_succ']
    nlinarith

theorem ripple_pos {r : ℝ} (hr : 0 < r) : 0 < (10 : ℝ) ^ (r / 10) - 1 := by
  have := Real.one_lt_rpow (x := 10) (by norm_num) (show 0 < r / 10 by positivity)
  linarith

theorem ripple_lt {r r' : ℝ} (h : r < r') : (10 : ℝ) ^ (r / 10) - 1 < (10 : ℝ) ^ (r' / 10) - 1 := by
  have := Real.rpow_lt_rpow_of_exponent_lt (x := 10) (by norm_num) (show r / 10 < r' / 10 by linarith)
  linarith

/-- **C150, Chebyshev I low-pass, outside the pass band.** Beyond the cutoff the gain falls strictly with the
frequency, with the order and with the ripple allowed inside the pass band. -/
theorem C150_chebyshev1 (dbg : Bool) {N n : Nat} (hn : 1 ≤ n) (hN : n ≤ N)
    (hd : n % 2 = 1 → dbg = false) {r : ℝ} (hr : 0 < r) {fs fc : ℝ} (h0 : 0 < fc) (h1 : fc < fs / 2) :
    ∃ c, ChebyshevI.lowPass dbg N n fs fc r = .ok c ∧
      (∀ w w' g g', 2 * Real.pi * fc / fs ≤ w → w < w' → w' < Real.pi →
        ChainGainAt (active c) w g → ChainGainAt (active c) w' g' → g' < g) ∧
      (∀ n' c', n < n' → n' ≤ N → (n' % 2 = 1 → dbg = false) → ChebyshevI.lowPass dbg N n' fs fc r = .ok c' →
        ∀ w g g', 2 * Real.pi * fc / fs < w → w < Real.pi →
          ChainGainAt (active c) w g → ChainGainAt (active c') w g' → g' < g) ∧
      (∀ r' c', r < r' → ChebyshevI.lowPass dbg N n fs fc r' = .ok c' →
        ∀ w g g', 2 * Real.pi * fc / fs ≤ w → w < Real.pi →
          ChainGainAt (active c) w g → ChainGainAt (active c') w g' → g' < g) := by
  obtain ⟨c, hc, -, -, gl, -⟩ := C57_chebyshev1_lowpass dbg hn hN hd hr h0 h1
  have hK := cut_pos h0 h1
  have hp := ripple_pos hr
  obtain ⟨c0, c1⟩ := cut_lt_pi h0 h1
  have hge : ∀ w, 2 * Real.pi * fc / fs ≤ w → w < Real.pi →
      1 ≤ Real.tan (w / 2) / Real.tan (Real.pi * (fc / fs)) := by
    intro w hw hw1
    rw [one_le_div hK, cut_eq]
    rcases hw.eq_or_lt with h | h
    · rw [h]
    · exact (tan_lt c0 h hw1).le
  refine ⟨c, hc, ?_, ?_, ?_⟩
  · intro w w' g g' hw hww hw' e e'
    have w0 := c0.trans_le hw
    rw [C130.gain_unique e (gl w (abs_lt_pi' w0 (hww.trans hw'))),
      C130.gain_unique e' (gl w' (abs_lt_pi' (w0.trans hww) hw'))]
    refine inv_sqrt_lt (by positivity) (mul_lt_mul_of_pos_left ?_ hp)
    have hx := hge w hw (hww.trans hw')
    exact pow_lt_pow_left₀ (cheb_lt hn hx (div_lt_div_of_pos_right (tan_lt w0 hww hw') hK))
      (by linarith [(cheb_step n hx).1]) two_ne_zero
  · intro n' c' hnn hN' hd' hc' w g g' hw hw1 e e'
    obtain ⟨c'', hc'', -, -, gl', -⟩ := C57_chebyshev1_lowpass dbg (by omega : 1 ≤ n') hN' hd' hr h0 h1
    rw [hc'] at hc''; cases hc''
    have w0 := c0.trans hw
    rw [C130.gain_unique e (gl w (abs_lt_pi' w0 hw1)), C130.gain_unique e' (gl' w (abs_lt_pi' w0 hw1))]
    refine inv_sqrt_lt (by positivity) (mul_lt_mul_of_pos_left ?_ hp)
    have hx : 1 < Real.tan (w / 2) / Real.tan (Real.pi * (fc / fs)) := by
      rw [one_lt_div hK, cut_eq]
      exact tan_lt c0 hw hw1
    exact pow_lt_pow_left₀ (cheb_order hnn hx) (by linarith [(cheb_step n hx.le).1]) two_ne_zero
  · intro r' c' hrr hc' w g g' hw hw1 e e'
    obtain ⟨c'', hc'', -, -, gl', -⟩ := C57_chebyshev1_lowpass dbg hn hN hd (hr.trans hrr) h0 h1
    rw [hc'] at hc''; cases hc''
    have w0 := c0.trans_le hw
    rw [C130.gain_unique e (gl w (abs_lt_pi' w0 hw1)), C130.gain_unique e' (gl' w (abs_lt_pi' w0 hw1))]
    have hx := (cheb_step n (hge w hw hw1)).1
    refine inv_sqrt_lt (by positivity) (mul_lt_mul_of_pos_right (ripple_lt hrr) ?_)
    positivity

example : ∃ c, ChebyshevI.lowPass true 8 4 48000 1000 1 = .ok c ∧
    ∀ g g', ChainGainAt (active c) 1 g → ChainGainAt (active c) 2 g' → g' < g := by
  obtain ⟨c, h, h2, -⟩ := C150_chebyshev1 true (N := 8) (n := 4) (r := 1) (fs := 48000) (fc := 1000)
    (by norm_num) (by norm_num) (by norm_num) (by norm_num) (by norm_num) (by norm_num)
  exact ⟨c, h, fun g g' => h2 1 2 g g' (by linarith [Real.pi_lt_four]) one_lt_two
    (by linarith [Real.pi_gt_three])⟩

/-- **C150, Chebyshev I against Butterworth.** With a ripple of `r` decibels where `10^(r/10) ≥ 2` (3 dB), a
Chebyshev I low-pass attenuates every frequency beyond the cutoff at least as much as the Butterworth low-pass of the
same order. -/
theorem C150_chebyshev_beats_butterworth (dbg : Bool) {N n : Nat} (hn : 1 ≤ n) (hN : n ≤ N)
    (hd : n % 2 = 1 → dbg = false) {r : ℝ} (hr : 0 < r) (hr2 : 2 ≤ (10 : ℝ) ^ (r / 10)) {fs fc : ℝ} (h0 : 0 < fc)
    (h1 : fc < fs / 2) :
    ∃ b c, Butterworth.lowPass dbg N n fs fc = .ok b ∧ ChebyshevI.lowPass dbg N n fs fc r = .ok c ∧
      ∀ w g g', 2 * Real.pi * fc / fs ≤ w → w < Real.pi →
        ChainGainAt (active b) w g → ChainGainAt (active c) w g' → g' ≤ g := by
  obtain ⟨b, hb, -, -, gb, -⟩ := C55_butterworth_lowpass dbg hn hN hd h0 h1
  obtain ⟨c, hc, -, -, gl, -⟩ := C57_chebyshev1_lowpass dbg hn hN hd hr h0 h1
  have hK := cut_pos h0 h1
  obtain ⟨c0, c1⟩ := cut_lt_pi h0 h1
  refine ⟨b, c, hb, hc, fun w g g' hw hw1 e e' => ?_⟩
  have w0 := c0.trans_le hw
  have hx : 1 ≤ Real.tan (w / 2) / Real.tan (Real.pi * (fc / fs)) := by
    rw [one_le_div hK, cut_eq]
    rcases hw.eq_or_lt with h | h
    · rw [h]
    · exact (tan_lt c0 h hw1).le
  rw [C130.gain_unique e (gb w (abs_lt_pi' w0 hw1)), C130.gain_unique e' (gl w (abs_lt_pi' w0 hw1))]
  set x := Real.tan (w / 2) / Real.tan (Real.pi * (fc / fs))
  have hp := cheb_pow n hx
  have hxn : 0 < x ^ n := by positivity
  refine one_div_le_one_div_of_le (Real.sqrt_pos.mpr (by positivity)) (Real.sqrt_le_sqrt ?_)
  have e2 : x ^ (2 * n) = (x ^ n) ^ 2 := by rw [← pow_mul, mul_comm]
  rw [e2]
  have h3 : (x ^ n) ^ 2 ≤ chebT n x ^ 2 := pow_le_pow_left₀ hxn.le hp 2
  nlinarith [sq_nonneg (chebT n x)]

example : ∃ b c, Butterworth.lowPass true 8 4 48000 1000 = .ok b ∧
    ChebyshevI.lowPass true 8 4 48000 1000 10 = .ok c ∧
    ∀ g g', ChainGainAt (active b) 1 g → ChainGainAt (active c) 1 g' → g' ≤ g := by
  obtain ⟨b, c, h, h', h3⟩ := C150_chebyshev_beats_butterworth true (N := 8) (n := 4) (r := 10) (fs := 48000)
    (fc := 1000) (by norm_num) (by norm_num) (by norm_num) (by norm_num) (by norm_num) (by norm_num) (by norm_num)
  exact ⟨b, c, h, h', fun g g' => h3 1 g g' (by linarith [Real.pi_lt_four]) (by linarith [Real.pi_gt_three])⟩

end Edsp.C150
