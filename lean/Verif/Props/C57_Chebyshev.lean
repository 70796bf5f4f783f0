import Verif.Lemmas.Chebyshev
import Verif.Props.C19_Butterworth
import Mathlib.Analysis.SpecialFunctions.Trigonometric.Chebyshev.RootsExtrema

/-! # C57, C58, C59: Chebyshev designs and Butterworth shelves

`T n` is Mathlib's Chebyshev polynomial of the first kind. -/

namespace Edsp.Props

open Edsp Edsp.Spec Edsp.LayoutL Edsp.BilinearL Edsp.AnalogL Edsp.PoleProducts

/-- The Chebyshev polynomial of the first kind, as a function. -/
noncomputable def chebT (n : Nat) (x : ℝ) : ℝ := (Polynomial.Chebyshev.T ℝ n).eval x

theorem chebT_le_one (n : Nat) {x : ℝ} (hx : |x| ≤ 1) : chebT n x ^ 2 ≤ 1 := by
  obtain ⟨h1, h2⟩ := abs_le.mp hx
  unfold chebT
  rw [← Real.cos_arccos h1 h2, Polynomial.Chebyshev.T_real_cos]
  exact Real.cos_sq_le_one _

theorem chebT_one (n : Nat) : chebT n 1 = 1 := Polynomial.Chebyshev.T_eval_one _ _

/-- The algebra behind the Chebyshev I gain. -/
theorem cheb1_gain_eq {n : Nat} {q G v y κ : ℝ} (hq : 0 < q) (hG : 0 ≤ G) (hκ : 0 < κ)
    (hv : Real.sinh (n * v) ^ 2 = 1 / q) (hG2 : G ^ 2 * (chebT n 0 ^ 2 + 1 / q) = 1 / q) :
    G * ((κ * Real.sqrt ((Polynomial.Chebyshev.T ℝ n).eval y ^ 2 + Real.sinh (n * v) ^ 2))⁻¹ /
      (κ * Real.sqrt ((Polynomial.Chebyshev.T ℝ n).eval 0 ^ 2 + Real.sinh (n * v) ^ 2))⁻¹) =
      1 / Real.sqrt (1 + q * chebT n y ^ 2) := by
  rw [hv]
  change G * ((κ * Real.sqrt (chebT n y ^ 2 + 1 / q))⁻¹ / (κ * Real.sqrt (chebT n 0 ^ 2 + 1 / q))⁻¹) = _
  have h1 : 0 < chebT n y ^ 2 + 1 / q := by positivity
  have h0 : 0 < chebT n 0 ^ 2 + 1 / q := by positivity
  have e : G * ((κ * Real.sqrt (chebT n y ^ 2 + 1 / q))⁻¹ / (κ * Real.sqrt (chebT n 0 ^ 2 + 1 / q))⁻¹) =
      (G * Real.sqrt (chebT n 0 ^ 2 + 1 / q)) / Real.sqrt (chebT n y ^ 2 + 1 / q) := by
    have := Real.sqrt_pos.mpr h1
    have := Real.sqrt_pos.mpr h0
    field_simp
  rw [e, ← Real.sqrt_sq hG, ← Real.sqrt_mul (by positivity), hG2, ← Real.sqrt_div (by positivity)]
  have e2 : 1 / q / (chebT n y ^ 2 + 1 / q) = 1 / (1 + q * chebT n y ^ 2) := by
    have : 1 + q * chebT n y ^ 2 ≠ 0 := by positivity
    field_simp
    ring
  rw [e2, Real.sqrt_div (by norm_num), Real.sqrt_one]

theorem cheb1_setup (dbg : Bool) {N n : Nat} (hn : 1 ≤ n) (hN : n ≤ N)
    (hd : n % 2 = 1 → dbg = false) {r : ℝ} (hr : 0 < r) :
    ∃ a v, 0 < v ∧ ChebyshevI.analog dbg N n r (Layout.new N) = .ok a ∧ a.w = 0 ∧ 0 ≤ a.gain ∧
      Holds N a ((List.range (n / 2)).map fun k => (some (ChebyshevI.pole v n k), none))
        ((oddSingle n (-Real.sinh v) none).map fun q => (some (q.1 : ℂ), q.2.map Complex.ofReal)) ∧
      MA (n / 2) (ChebyshevI.pole v n) (fun _ => none) (oddSingle n (-Real.sinh v) none) 0 ≠ 0 ∧
      ∀ y : ℝ, a.gain * (MA (n / 2) (ChebyshevI.pole v n) (fun _ => none)
          (oddSingle n (-Real.sinh v) none) (Complex.I * y) /
        MA (n / 2) (ChebyshevI.pole v n) (fun _ => none) (oddSingle n (-Real.sinh v) none) 0) =
        1 / Real.sqrt (1 + ((10 : ℝ) ^ (r / 10) - 1) * chebT n y ^ 2) := by
  obtain ⟨a, v, hv, hsv, ha, haw, ho, he, hold⟩ := cheb_analog hn hN hd hr
  have hq := (eps_ok hr).2
  have hsq : Real.sinh (n * v) ^ 2 = 1 / ((10 : ℝ) ^ (r / 10) - 1) := by
    rw [hsv, div_pow, one_pow, Real.sq_sqrt hq.le]
  have hM0 := cheb_MA n hn v 0
  rw [Complex.ofReal_zero, mul_zero] at hM0
  obtain ⟨hdb, hdb0⟩ := db2mag_sq r
  have hgain : 0 ≤ a.gain ∧ a.gain ^ 2 * (chebT n 0 ^ 2 + 1 / ((10 : ℝ) ^ (r / 10) - 1)) =
      1 / ((10 : ℝ) ^ (r / 10) - 1) := by
    rcases Nat.mod_two_eq_zero_or_one n with h | h
    · have h0 : chebT n 0 ^ 2 = 1 := (cheb_zero_sq n).2 h
      rw [he h, h0]
      refine ⟨hdb0.le, ?_⟩
      field_simp
      linarith
    · have h0 : chebT n 0 ^ 2 = 0 := (cheb_zero_sq n).1 h
      rw [ho h, h0]
      norm_num
  refine ⟨a, v, hv, ha, haw, hgain.1, hold, ?_, ?_⟩
  · rw [hM0]
    have : 0 < 1 / ((10 : ℝ) ^ (r / 10) - 1) := by positivity
    rw [hsq]
    have h3 : 0 < Real.sqrt ((Polynomial.Chebyshev.T ℝ n).eval 0 ^ 2 + 1 / ((10 : ℝ) ^ (r / 10) - 1)) :=
      Real.sqrt_pos.mpr (by positivity)
    positivity
  · intro y
    rw [hM0, cheb_MA n hn v y]
    exact cheb1_gain_eq hq hgain.1 (by positivity) hsq hgain.2

/-- **C57, Chebyshev I low-pass.** For every order `1 ≤ n ≤ N` (release build or even order), every
ripple `r > 0` dB and every cutoff strictly between 0 and Nyquist the design succeeds, uses `⌈n/2⌉`
stable sections, and its gain at every `|w| < π` is exactly
`1 / √(1 + (10^(r/10) − 1) · Tₙ(tan(w/2)/tan(π fc/fs))²)`, and 0 at Nyquist. -/
theorem C57_chebyshev1_lowpass (dbg : Bool) {N n : Nat} (hn : 1 ≤ n) (hN : n ≤ N)
    (hd : n % 2 = 1 → dbg = false) {r : ℝ} (hr : 0 < r) {fs fc : ℝ} (h0 : 0 < fc) (h1 : fc < fs / 2) :
    ∃ c, ChebyshevI.lowPass dbg N n fs fc r = .ok c ∧ c.num = (n + 1) / 2 ∧
      (∀ g ∈ active c, g.stability = true) ∧
      (∀ w : ℝ, |w| < Real.pi → ChainGainAt (active c) w
        (1 / Real.sqrt (1 + ((10 : ℝ) ^ (r / 10) - 1) *
          chebT n (Real.tan (w / 2) / Real.tan (Real.pi * (fc / fs))) ^ 2))) ∧
      ChainGainAt (active c) Real.pi 0 := by
  obtain ⟨e, hf0, hf1⟩ := fdiv_cutoff h0 h1
  obtain ⟨a, v, hv, ha, haw, hag, hold, hM0, hgn⟩ := cheb1_setup dbg hn hN hd hr
  have hlen := oddSingle_len n (-Real.sinh v) none
  have hsh : 0 < Real.sinh v := Real.sinh_pos_iff.mpr hv
  obtain ⟨d, c, hd', hc, hnum, hst, hgain, hpi⟩ := lowpass_chain hold (by omega) (by omega)
    (fun k hk => cheb_pole_lhp hk hv) (by intro k _ c hc; cases hc)
    (oddSingle_neg (by linarith) (by intro c hc; cases hc)) hag dbg hf0 hf1
    (Or.inl ⟨haw, rfl⟩) hM0
  refine ⟨c, ?_, by rw [hnum, hlen.1], hst, ?_, ?_⟩
  · unfold ChebyshevI.lowPass
    rw [e, ha]
    simp only [bind, Except.bind, hd', hc]
  · intro w hw
    have := hgain w hw
    rwa [hgn] at this
  · rw [MI_allpole n (by omega), zero_div, mul_zero] at hpi
    exact hpi

example : ∃ c, ChebyshevI.lowPass true 8 4 48000 1000 1 = .ok c ∧ c.num = 2 := by
  obtain ⟨c, h1, h2, -⟩ := C57_chebyshev1_lowpass true (N := 8) (n := 4) (by norm_num) (by norm_num)
    (by norm_num) (r := 1) (by norm_num) (fs := 48000) (fc := 1000) (by norm_num) (by norm_num)
  exact ⟨c, h1, h2⟩

/-- The gain of a Chebyshev I design where the argument of `Tₙ` is at most 1 in modulus. -/
theorem cheb1_ripple {r : ℝ} (hr : 0 < r) {n : Nat} {x : ℝ} (hx : |x| ≤ 1) :
    (10 : ℝ) ^ (-r / 20) ≤ 1 / Real.sqrt (1 + ((10 : ℝ) ^ (r / 10) - 1) * chebT n x ^ 2) ∧
      1 / Real.sqrt (1 + ((10 : ℝ) ^ (r / 10) - 1) * chebT n x ^ 2) ≤ 1 := by
  have hq := (eps_ok hr).2
  have hT := chebT_le_one n hx
  have hT0 : 0 ≤ chebT n x ^ 2 := sq_nonneg _
  have hs : 1 ≤ 1 + ((10 : ℝ) ^ (r / 10) - 1) * chebT n x ^ 2 := by nlinarith
  have hs2 : 1 + ((10 : ℝ) ^ (r / 10) - 1) * chebT n x ^ 2 ≤ (10 : ℝ) ^ (r / 10) := by nlinarith
  have hpos : 0 < Real.sqrt (1 + ((10 : ℝ) ^ (r / 10) - 1) * chebT n x ^ 2) :=
    Real.sqrt_pos.mpr (by linarith)
  refine ⟨?_, ?_⟩
  · rw [le_div_iff₀ hpos]
    have e : (10 : ℝ) ^ (-r / 20) * Real.sqrt ((10 : ℝ) ^ (r / 10)) = 1 := by
      rw [Real.sqrt_eq_rpow, ← Real.rpow_mul (by norm_num), ← Real.rpow_add (by norm_num)]
      have : -r / 20 + r / 10 * (1 / 2) = 0 := by ring
      rw [this, Real.rpow_zero]
    calc _ ≤ (10 : ℝ) ^ (-r / 20) * Real.sqrt ((10 : ℝ) ^ (r / 10)) :=
          mul_le_mul_of_nonneg_left (Real.sqrt_le_sqrt hs2) (by positivity)
      _ = 1 := e
  · rw [div_le_one hpos]
    calc (1 : ℝ) = Real.sqrt 1 := by simp
      _ ≤ _ := Real.sqrt_le_sqrt hs

/-- **C57, passband ripple.** Up to the cutoff the gain of a Chebyshev I low-pass stays between
`−r` dB and 0 dB, for every order, and it is exactly `−r` dB at the cutoff. -/
theorem C57_chebyshev1_lowpass_ripple (dbg : Bool) {N n : Nat} (hn : 1 ≤ n) (hN : n ≤ N)
    (hd : n % 2 = 1 → dbg = false) {r : ℝ} (hr : 0 < r) {fs fc : ℝ} (h0 : 0 < fc) (h1 : fc < fs / 2) :
    ∃ c, ChebyshevI.lowPass dbg N n fs fc r = .ok c ∧
      (∀ w : ℝ, |w| ≤ 2 * Real.pi * fc / fs → ∃ g, ChainGainAt (active c) w g ∧
        (10 : ℝ) ^ (-r / 20) ≤ g ∧ g ≤ 1) ∧
      ChainGainAt (active c) (2 * Real.pi * fc / fs) ((10 : ℝ) ^ (-r / 20)) := by
  obtain ⟨c, hc, -, -, hg, -⟩ := C57_chebyshev1_lowpass dbg hn hN hd hr h0 h1
  obtain ⟨-, hf0, hf1⟩ := fdiv_cutoff h0 h1
  have hpi := Real.pi_pos
  have e : 2 * Real.pi * fc / fs = 2 * (Real.pi * (fc / fs)) := by ring
  have hlt : Real.pi * (fc / fs) < Real.pi / 2 := by nlinarith
  have hgt : 0 < Real.pi * (fc / fs) := by positivity
  have htan := Real.tan_pos_of_pos_of_lt_pi_div_two hgt hlt
  refine ⟨c, hc, ?_, ?_⟩
  · intro w hw
    rw [e] at hw
    refine ⟨_, hg w (by linarith), cheb1_ripple hr ?_⟩
    rw [abs_div, abs_of_pos htan, div_le_one htan]
    obtain ⟨hw1, hw2⟩ := abs_le.mp hw
    have hmono := Real.strictMonoOn_tan.monotoneOn
    rw [abs_le]
    constructor
    · rw [← Real.tan_neg]
      exact hmono ⟨by linarith, by linarith⟩ ⟨by linarith, by linarith⟩ (by linarith)
    · exact hmono ⟨by linarith, by linarith⟩ ⟨by linarith, by linarith⟩ (by linarith)
  · have := hg (2 * Real.pi * fc / fs) (by rw [e, abs_of_pos (by positivity)]; linarith)
    rw [e, mul_div_cancel_left₀ _ two_ne_zero, div_self htan.ne', chebT_one, one_pow, mul_one,
      add_sub_cancel] at this
    rw [e]
    convert this using 1
    rw [Real.sqrt_eq_rpow, ← Real.rpow_mul (by norm_num), one_div, ← Real.rpow_neg (by norm_num)]
    congr 1; ring

example : ∃ c, ChebyshevI.lowPass true 8 4 48000 1000 1 = .ok c ∧
    ChainGainAt (active c) (2 * Real.pi * 1000 / 48000) ((10 : ℝ) ^ (-1 / 20 : ℝ)) := by
  obtain ⟨c, h1, -, h2⟩ := C57_chebyshev1_lowpass_ripple true (N := 8) (n := 4) (by norm_num)
    (by norm_num) (by norm_num) (r := 1) (by norm_num) (fs := 48000) (fc := 1000) (by norm_num)
    (by norm_num)
  exact ⟨c, h1, h2⟩

/-- **C57, Chebyshev I high-pass.** -/
theorem C57_chebyshev1_highpass (dbg : Bool) {N n : Nat} (hn : 1 ≤ n) (hN : n ≤ N)
    (hd : n % 2 = 1 → dbg = false) {r : ℝ} (hr : 0 < r) {fs fc : ℝ} (h0 : 0 < fc) (h1 : fc < fs / 2) :
    ∃ c, ChebyshevI.highPass dbg N n fs fc r = .ok c ∧ c.num = (n + 1) / 2 ∧
      (∀ g ∈ active c, g.stability = true) ∧
      (∀ w : ℝ, w ≠ 0 → |w| < Real.pi → ChainGainAt (active c) w
        (1 / Real.sqrt (1 + ((10 : ℝ) ^ (r / 10) - 1) *
          chebT n (Real.tan (Real.pi * (fc / fs)) / Real.tan (w / 2)) ^ 2))) ∧
      ChainGainAt (active c) 0 0 := by
  obtain ⟨e, hf0, hf1⟩ := fdiv_cutoff h0 h1
  obtain ⟨a, v, hv, ha, haw, hag, hold, hM0, hgn⟩ := cheb1_setup dbg hn hN hd hr
  have hlen := oddSingle_len n (-Real.sinh v) none
  have hsh : 0 < Real.sinh v := Real.sinh_pos_iff.mpr hv
  obtain ⟨d, c, hd', hc, hnum, hst, hgain, -, hz⟩ := highpass_chain hold (by omega) (by omega)
    (fun k hk => cheb_pole_lhp hk hv) (by intro k _ c hc; cases hc)
    (oddSingle_neg (by linarith) (by intro c hc; cases hc)) hag dbg hf0 hf1
    (Or.inl ⟨haw, rfl⟩) hM0
  refine ⟨c, ?_, by rw [hnum, hlen.1], hst, ?_, ?_⟩
  · unfold ChebyshevI.highPass
    rw [e, ha]
    simp only [bind, Except.bind, hd', hc]
  · intro w hw0 hw
    have := hgain w hw0 hw
    rw [hgn] at this
    rwa [show chebT n (-(Real.tan (Real.pi * (fc / fs)) / Real.tan (w / 2))) ^ 2 =
      chebT n (Real.tan (Real.pi * (fc / fs)) / Real.tan (w / 2)) ^ 2 from cheb_neg_sq n _] at this
  · rw [MI_allpole n (by omega), zero_div, mul_zero] at hz
    exact hz

example : ∃ c, ChebyshevI.highPass false 8 3 48000 1000 1 = .ok c ∧ c.num = 2 := by
  obtain ⟨c, h1, h2, -⟩ := C57_chebyshev1_highpass false (N := 8) (n := 3) (by norm_num) (by norm_num)
    (by norm_num) (r := 1) (by norm_num) (fs := 48000) (fc := 1000) (by norm_num) (by norm_num)
  exact ⟨c, h1, h2⟩

/-- Both prototypes of odd order fail in debug builds. -/
theorem cheb_analog_odd_debug {N n : Nat} (hN : n ≤ N) (hodd : n % 2 = 1) {r : ℝ} (hr : 0 < r) :
    ChebyshevI.analog true N n r (Layout.new N) = .error .assertion ∧
      ChebyshevII.analog true N n r (Layout.new N) = .error .assertion := by
  have hn : 0 < n := by omega
  have hA : ChebyshevI.analog true N n r (Layout.new N) = .error .assertion := by
    obtain ⟨he, hq⟩ := eps_ok hr
    obtain ⟨e1, e2, e3, e4⟩ := v0_ok hn (Real.sqrt_pos.mpr hq)
    set v := Real.arsinh (1 / Real.sqrt ((10 : ℝ) ^ (r / 10) - 1)) / n
    obtain ⟨l1, h1, -⟩ := build hN (l0 := (Layout.new N).reset)
      ⟨rfl, holds_new N, _, rfl⟩ (ChebyshevI.pole v n)
      (fun _ => none) (fun l i => l.insertConj (some (ChebyshevI.pole v n i)) none) (fun _ _ _ => rfl)
      (-Real.sinh v) (some 0) true (by simp)
    unfold ChebyshevI.analog
    rw [if_neg (by omega), he]
    simp only [bind, Except.bind, pure, Except.pure, e1, e2, h1]
    rw [if_pos hodd, insert_inf_dbg]
  have hB : ChebyshevII.analog true N n r (Layout.new N) = .error .assertion := by
    obtain ⟨he, hq⟩ := eps2_ok hr
    have hs : 0 < Real.sqrt (1 / ((10 : ℝ) ^ (r / 10) - 1)) := Real.sqrt_pos.mpr (by positivity)
    obtain ⟨e1, e2, e3, e4⟩ := v0_ok hn hs
    set v := Real.arsinh (1 / Real.sqrt (1 / ((10 : ℝ) ^ (r / 10) - 1))) / n
    have hsh : 0 < Real.sinh v := Real.sinh_pos_iff.mpr e3
    obtain ⟨l1, h1, -⟩ := build hN (holds_reset (holds_new N) 0 1)
      (fun k => ((starRingEnd ℂ) (ChebyshevI.pole v n k))⁻¹)
      (fun k => some (Complex.I * ((Real.cos ((2 * (k : ℝ) + 1) * Real.pi / (2 * n)) : ℝ) : ℂ)⁻¹))
      (fun l i => do
        let p ← ChebyshevII.pole v n i
        let z ← ChebyshevII.zero n i
        l.insertConj (some p) (some z))
      (by
        intro k hk l
        rw [cheb2_pole hk e3, (cheb2_zero hk).1]
        rfl)
      (1 / -Real.sinh v) (some 0) true (by simp)
    unfold ChebyshevII.analog
    rw [if_neg (by omega), he]
    have hrd : fdiv 1 (-Real.sinh v) = .ok (1 / -Real.sinh v) := by
      unfold fdiv; rw [if_neg (by linarith)]
    simp only [bind, Except.bind] at h1
    simp only [bind, Except.bind, pure, Except.pure, e1, e2, h1, hrd]
    rw [if_pos hodd, insert_inf_dbg]
  exact ⟨hA, hB⟩

/-- **C57/C58 are violated in debug builds for every odd order.** -/
theorem C57_odd_debug_violates {N n : Nat} (hN : n ≤ N) (hodd : n % 2 = 1) {r : ℝ} (hr : 0 < r)
    {fs fc : ℝ} (h0 : 0 < fc) (h1 : fc < fs / 2) :
    ChebyshevI.lowPass true N n fs fc r = .error .assertion ∧
      ChebyshevI.highPass true N n fs fc r = .error .assertion ∧
      ChebyshevII.lowPass true N n fs fc r = .error .assertion ∧
      ChebyshevII.highPass true N n fs fc r = .error .assertion := by
  obtain ⟨e, -, -⟩ := fdiv_cutoff h0 h1
  obtain ⟨hA, hB⟩ := cheb_analog_odd_debug hN hodd hr
  unfold ChebyshevI.lowPass ChebyshevI.highPass ChebyshevII.lowPass ChebyshevII.highPass
  rw [e, hA, hB]
  exact ⟨rfl, rfl, rfl, rfl⟩

example : ChebyshevI.lowPass true 8 3 48000 1000 1 = .error .assertion :=
  (C57_odd_debug_violates (by norm_num) (by norm_num) (by norm_num) (by norm_num) (by norm_num)).1

/-- **C58, Chebyshev II low-pass.** For every order `1 ≤ n ≤ N` (release build or even order), every
stop-band attenuation `r > 0` dB and every cutoff strictly between 0 and Nyquist the design succeeds,
uses `⌈n/2⌉` stable sections, has gain 1 at frequency 0, and with
`x = tan(π fc/fs)/tan(w/2)` its gain at every `0 < |w| < π` is exactly
`|Tₙ(x)| / √(Tₙ(x)² + 10^(r/10) − 1)`; at Nyquist `x = 0`. -/
theorem C58_chebyshev2_lowpass (dbg : Bool) {N n : Nat} (hn : 1 ≤ n) (hN : n ≤ N)
    (hd : n % 2 = 1 → dbg = false) {r : ℝ} (hr : 0 < r) {fs fc : ℝ} (h0 : 0 < fc) (h1 : fc < fs / 2) :
    ∃ c, ChebyshevII.lowPass dbg N n fs fc r = .ok c ∧ c.num = (n + 1) / 2 ∧
      (∀ g ∈ active c, g.stability = true) ∧ ChainGainAt (active c) 0 1 ∧
      (∀ w : ℝ, w ≠ 0 → |w| < Real.pi → ChainGainAt (active c) w
        (|chebT n (Real.tan (Real.pi * (fc / fs)) / Real.tan (w / 2))| /
          Real.sqrt (chebT n (Real.tan (Real.pi * (fc / fs)) / Real.tan (w / 2)) ^ 2 +
            ((10 : ℝ) ^ (r / 10) - 1)))) ∧
      ChainGainAt (active c) Real.pi
        (|chebT n 0| / Real.sqrt (chebT n 0 ^ 2 + ((10 : ℝ) ^ (r / 10) - 1))) := by
  obtain ⟨e, hf0, hf1⟩ := fdiv_cutoff h0 h1
  obtain ⟨a, v, hv, hsq, ha, haw, hag, hold⟩ := cheb2_analog hn hN hd hr
  have hlen := oddSingle_len n (1 / -Real.sinh v) none
  have hsh : 0 < Real.sinh v := Real.sinh_pos_iff.mpr hv
  obtain ⟨K, hK, hK0, hKy, hKi⟩ := cheb2_MA n hn hv
  have hneg : 1 / -Real.sinh v < 0 := one_div_neg.mpr (by linarith)
  obtain ⟨d, c, hd', hc, hnum, hst, hgain, hpi⟩ := lowpass_chain hold (by omega) (by omega)
    (fun k hk => cheb2_pole_lhp hk hv)
    (by
      intro k hk c hc
      injection hc with hc
      rw [← hc, ← Complex.ofReal_inv]
      generalize (Real.cos ((2 * (k : ℝ) + 1) * Real.pi / (2 * n)))⁻¹ = t
      simp)
    (oddSingle_neg hneg (by intro c hc; cases hc)) (by rw [hag]; norm_num) dbg hf0 hf1
    (Or.inl ⟨haw, rfl⟩) (by rw [hK0]; exact hK.ne')
  refine ⟨c, ?_, by rw [hnum, hlen.1], hst, ?_, ?_, ?_⟩
  · unfold ChebyshevII.lowPass
    rw [e, ha]
    simp only [bind, Except.bind, hd', hc]
  · have := hgain 0 (by simpa using Real.pi_pos)
    rw [hag, one_mul] at this
    simp only [zero_div, Real.tan_zero, Complex.ofReal_zero, mul_zero] at this
    rw [hK0, div_self hK.ne'] at this
    exact this
  · intro w hw0 hw
    have habs := abs_lt.mp hw
    have htan : Real.tan (w / 2) ≠ 0 := by
      rcases lt_or_gt_of_ne hw0 with h | h
      · exact (Real.tan_neg_of_neg_of_pi_div_two_lt (by linarith) (by linarith)).ne
      · exact (Real.tan_pos_of_pos_of_lt_pi_div_two (by linarith) (by linarith)).ne'
    have htf : 0 < Real.tan (Real.pi * (fc / fs)) := by
      have hpi := Real.pi_pos
      exact Real.tan_pos_of_pos_of_lt_pi_div_two (by positivity) (by nlinarith)
    have := hgain w hw
    rw [hag, one_mul, hKy _ (div_ne_zero htan htf.ne'), hK0, mul_div_assoc, mul_comm K, div_mul_cancel₀]
      at this
    · rw [one_div_div, hsq] at this
      exact this
    · exact hK.ne'
  · rw [hag, one_mul, hKi, hK0, mul_comm K, mul_div_assoc, div_self hK.ne', mul_one, hsq] at hpi
    exact hpi

example : ∃ c, ChebyshevII.lowPass true 8 4 48000 1000 40 = .ok c ∧ ChainGainAt (active c) 0 1 := by
  obtain ⟨c, h1, -, -, h2, -⟩ := C58_chebyshev2_lowpass true (N := 8) (n := 4) (by norm_num)
    (by norm_num) (by norm_num) (r := 40) (by norm_num) (fs := 48000) (fc := 1000) (by norm_num)
    (by norm_num)
  exact ⟨c, h1, h2⟩

/-- The gain of a Chebyshev II design where the argument of `Tₙ` is at most 1 in modulus. -/
theorem cheb2_stop {r : ℝ} (hr : 0 < r) {n : Nat} {x : ℝ} (hx : |x| ≤ 1) :
    |chebT n x| / Real.sqrt (chebT n x ^ 2 + ((10 : ℝ) ^ (r / 10) - 1)) ≤ (10 : ℝ) ^ (-r / 20) := by
  have hq := (eps_ok hr).2
  have hT := chebT_le_one n hx
  set t := chebT n x
  have hpos : 0 < t ^ 2 + ((10 : ℝ) ^ (r / 10) - 1) := by positivity
  rw [div_le_iff₀ (Real.sqrt_pos.mpr hpos)]
  have hp : (0 : ℝ) < (10 : ℝ) ^ (-r / 20) := by positivity
  rw [← Real.sqrt_sq hp.le, ← Real.sqrt_mul (sq_nonneg _), ← Real.sqrt_sq_eq_abs]
  apply Real.sqrt_le_sqrt
  have e : ((10 : ℝ) ^ (-r / 20)) ^ 2 * (10 : ℝ) ^ (r / 10) = 1 := (db2mag_sq r).1
  have hle : ((10 : ℝ) ^ (-r / 20)) ^ 2 ≤ 1 := by
    have : (1 : ℝ) ≤ (10 : ℝ) ^ (r / 10) := by linarith
    nlinarith [sq_nonneg ((10 : ℝ) ^ (-r / 20))]
  nlinarith [sq_nonneg t]

/-- **C58, stop band.** From the cutoff up to Nyquist the gain of a Chebyshev II low-pass is at most
`−r` dB, for every order. -/
theorem C58_chebyshev2_lowpass_stopband (dbg : Bool) {N n : Nat} (hn : 1 ≤ n) (hN : n ≤ N)
    (hd : n % 2 = 1 → dbg = false) {r : ℝ} (hr : 0 < r) {fs fc : ℝ} (h0 : 0 < fc) (h1 : fc < fs / 2) :
    ∃ c, ChebyshevII.lowPass dbg N n fs fc r = .ok c ∧
      ∀ w : ℝ, 2 * Real.pi * fc / fs ≤ w → w ≤ Real.pi →
        ∃ g, ChainGainAt (active c) w g ∧ g ≤ (10 : ℝ) ^ (-r / 20) := by
  obtain ⟨c, hc, -, -, -, hg, hpi'⟩ := C58_chebyshev2_lowpass dbg hn hN hd hr h0 h1
  obtain ⟨-, hf0, hf1⟩ := fdiv_cutoff h0 h1
  have hpi := Real.pi_pos
  have e : 2 * Real.pi * fc / fs = 2 * (Real.pi * (fc / fs)) := by ring
  have hlt : Real.pi * (fc / fs) < Real.pi / 2 := by nlinarith
  have hgt : 0 < Real.pi * (fc / fs) := by positivity
  refine ⟨c, hc, ?_⟩
  intro w hw1 hw2
  rw [e] at hw1
  rcases eq_or_lt_of_le hw2 with rfl | hw
  · exact ⟨_, hpi', cheb2_stop hr (by simp)⟩
  · refine ⟨_, hg w (by linarith) (by rw [abs_of_pos (by linarith)]; exact hw), cheb2_stop hr ?_⟩
    have ht1 := Real.tan_pos_of_pos_of_lt_pi_div_two hgt hlt
    have ht2 : 0 < Real.tan (w / 2) := Real.tan_pos_of_pos_of_lt_pi_div_two (by linarith) (by linarith)
    rw [abs_of_pos (by positivity), div_le_one ht2]
    exact Real.strictMonoOn_tan.monotoneOn ⟨by linarith, by linarith⟩ ⟨by linarith, by linarith⟩
      (by linarith)

example : ∃ c, ChebyshevII.lowPass true 8 4 48000 1000 40 = .ok c ∧
    ∃ g, ChainGainAt (active c) Real.pi g ∧ g ≤ (10 : ℝ) ^ (-40 / 20 : ℝ) := by
  obtain ⟨c, h1, h2⟩ := C58_chebyshev2_lowpass_stopband true (N := 8) (n := 4) (by norm_num)
    (by norm_num) (by norm_num) (r := 40) (by norm_num) (fs := 48000) (fc := 1000) (by norm_num)
    (by norm_num)
  exact ⟨c, h1, h2 Real.pi (by linarith [Real.pi_pos]) le_rfl⟩

/-- **C58, Chebyshev II high-pass.** The same with `x = tan(w/2)/tan(π fc/fs)`; gain 1 at Nyquist. -/
theorem C58_chebyshev2_highpass (dbg : Bool) {N n : Nat} (hn : 1 ≤ n) (hN : n ≤ N)
    (hd : n % 2 = 1 → dbg = false) {r : ℝ} (hr : 0 < r) {fs fc : ℝ} (h0 : 0 < fc) (h1 : fc < fs / 2) :
    ∃ c, ChebyshevII.highPass dbg N n fs fc r = .ok c ∧ c.num = (n + 1) / 2 ∧
      (∀ g ∈ active c, g.stability = true) ∧ ChainGainAt (active c) Real.pi 1 ∧
      (∀ w : ℝ, |w| < Real.pi → ChainGainAt (active c) w
        (|chebT n (Real.tan (w / 2) / Real.tan (Real.pi * (fc / fs)))| /
          Real.sqrt (chebT n (Real.tan (w / 2) / Real.tan (Real.pi * (fc / fs))) ^ 2 +
            ((10 : ℝ) ^ (r / 10) - 1)))) := by
  obtain ⟨e, hf0, hf1⟩ := fdiv_cutoff h0 h1
  obtain ⟨a, v, hv, hsq, ha, haw, hag, hold⟩ := cheb2_analog hn hN hd hr
  have hlen := oddSingle_len n (1 / -Real.sinh v) none
  have hsh : 0 < Real.sinh v := Real.sinh_pos_iff.mpr hv
  obtain ⟨K, hK, hK0, hKy, hKi⟩ := cheb2_MA n hn hv
  have hneg : 1 / -Real.sinh v < 0 := one_div_neg.mpr (by linarith)
  obtain ⟨d, c, hd', hc, hnum, hst, hgain, hpi, hz⟩ := highpass_chain hold (by omega) (by omega)
    (fun k hk => cheb2_pole_lhp hk hv)
    (by
      intro k hk c hc
      injection hc with hc
      rw [← hc, ← Complex.ofReal_inv]
      generalize (Real.cos ((2 * (k : ℝ) + 1) * Real.pi / (2 * n)))⁻¹ = t
      simp)
    (oddSingle_neg hneg (by intro c hc; cases hc)) (by rw [hag]; norm_num) dbg hf0 hf1
    (Or.inl ⟨haw, rfl⟩) (by rw [hK0]; exact hK.ne')
  refine ⟨c, ?_, by rw [hnum, hlen.1], hst, ?_, ?_⟩
  · unfold ChebyshevII.highPass
    rw [e, ha]
    simp only [bind, Except.bind, hd', hc]
  · rw [hag, one_mul, hK0, div_self hK.ne'] at hpi
    exact hpi
  · intro w hw
    by_cases hw0 : w = 0
    · subst hw0
      rw [hag, one_mul, hKi, hK0, mul_comm K, mul_div_assoc, div_self hK.ne', mul_one, hsq] at hz
      simp only [zero_div, Real.tan_zero]
      exact hz
    · have habs := abs_lt.mp hw
      have htan : Real.tan (w / 2) ≠ 0 := by
        rcases lt_or_gt_of_ne hw0 with h | h
        · exact (Real.tan_neg_of_neg_of_pi_div_two_lt (by linarith) (by linarith)).ne
        · exact (Real.tan_pos_of_pos_of_lt_pi_div_two (by linarith) (by linarith)).ne'
      have htf : 0 < Real.tan (Real.pi * (fc / fs)) := by
        have hpi := Real.pi_pos
        exact Real.tan_pos_of_pos_of_lt_pi_div_two (by positivity) (by nlinarith)
      have := hgain w hw0 hw
      rw [hag, one_mul, hKy _ (neg_ne_zero.mpr (div_ne_zero htf.ne' htan)), hK0, mul_div_assoc, mul_comm K,
        div_mul_cancel₀] at this
      · rw [one_div_neg_eq_neg_one_div, one_div_div, hsq, cheb_neg_sq] at this
        have ha : ∀ x : ℝ, |(Polynomial.Chebyshev.T ℝ n).eval (-x)| = |(Polynomial.Chebyshev.T ℝ n).eval x| := by
          intro x
          rw [← Real.sqrt_sq_eq_abs, cheb_neg_sq, Real.sqrt_sq_eq_abs]
        rw [ha] at this
        exact this
      · exact hK.ne'

example : ∃ c, ChebyshevII.highPass false 8 3 48000 1000 40 = .ok c ∧ ChainGainAt (active c) Real.pi 1 := by
  obtain ⟨c, h1, -, -, h2, -⟩ := C58_chebyshev2_highpass false (N := 8) (n := 3) (by norm_num)
    (by norm_num) (by norm_num) (r := 40) (by norm_num) (fs := 48000) (fc := 1000) (by norm_num)
    (by norm_num)
  exact ⟨c, h1, h2⟩

/-- **C59, Butterworth low shelf.** For every order `1 ≤ n ≤ N` (every build), every gain in dB and
every cutoff strictly between 0 and Nyquist the design succeeds, uses `⌈n/2⌉` stable sections, and
with `G = 10^(gain/20)`, `y = tan(w/2)/tan(π fc/fs)` its gain at `|w| < π` is
`√((G + y^(2n)) / (1/G + y^(2n)))`: `G` at frequency 0 and 1 at Nyquist. -/
theorem C59_butterworth_low_shelf (dbg : Bool) {N n : Nat} (hn : 1 ≤ n) (hN : n ≤ N) (gainDb : ℝ)
    {fs fc : ℝ} (h0 : 0 < fc) (h1 : fc < fs / 2) :
    ∃ c, Butterworth.lowShelf dbg N n fs fc gainDb = .ok c ∧ c.num = (n + 1) / 2 ∧
      (∀ g ∈ active c, g.stability = true) ∧
      (∀ w : ℝ, |w| < Real.pi → ChainGainAt (active c) w
        (Real.sqrt (((10 : ℝ) ^ (gainDb / 20) +
            (Real.tan (w / 2) / Real.tan (Real.pi * (fc / fs))) ^ (2 * n)) /
          (1 / (10 : ℝ) ^ (gainDb / 20) +
            (Real.tan (w / 2) / Real.tan (Real.pi * (fc / fs))) ^ (2 * n))))) ∧
      ChainGainAt (active c) 0 ((10 : ℝ) ^ (gainDb / 20)) ∧ ChainGainAt (active c) Real.pi 1 := by
  obtain ⟨e, hf0, hf1⟩ := fdiv_cutoff h0 h1
  obtain ⟨a, g, hg, hgp, ha, haw, hag, hold⟩ := shelf_analog hn hN dbg gainDb
  have hlen := oddSingle_len n (-(1 / g)) (some (-g))
  have hgi : 0 < 1 / g := one_div_pos.mpr hg
  obtain ⟨d, c, hd', hc, hnum, hst, hgain, hpi⟩ := lowpass_chain hold (by omega) (by omega)
    (fun k hk => polar_lhp hgi (shelf_theta hk).1 (shelf_theta hk).2)
    (by
      intro k hk c hc
      injection hc with hc
      rw [← hc]
      exact (polar_lhp hg (shelf_theta hk).1 (shelf_theta hk).2).1.le)
    (oddSingle_neg (by linarith) (by intro c hc; injection hc with hc; linarith))
    (by rw [hag]; norm_num) dbg hf0 hf1 (ref := 1) (Or.inr ⟨haw, (MI_finite _ _ _ _ _).symm⟩) one_ne_zero
  have hG : (0 : ℝ) < (10 : ℝ) ^ (gainDb / 20) := by positivity
  have hall : ∀ w : ℝ, |w| < Real.pi → ChainGainAt (active c) w
        (Real.sqrt (((10 : ℝ) ^ (gainDb / 20) +
            (Real.tan (w / 2) / Real.tan (Real.pi * (fc / fs))) ^ (2 * n)) /
          (1 / (10 : ℝ) ^ (gainDb / 20) +
            (Real.tan (w / 2) / Real.tan (Real.pi * (fc / fs))) ^ (2 * n)))) := by
    intro w hw
    have := hgain w hw
    rw [hag, one_mul, div_one, shelf_MA n hn hg, one_div_pow, hgp, ← Real.sqrt_div] at this
    · exact this
    · have : 0 ≤ (Real.tan (w / 2) / Real.tan (Real.pi * (fc / fs))) ^ (2 * n) := by
        rw [pow_mul]; positivity
      positivity
  refine ⟨c, ?_, by rw [hnum, hlen.1], hst, hall, ?_, ?_⟩
  · unfold Butterworth.lowShelf
    rw [e, ha]
    simp only [bind, Except.bind, hd', hc]
  · have := hall 0 (by simpa using Real.pi_pos)
    simp only [zero_div, Real.tan_zero] at this
    rw [zero_pow (by omega), add_zero, add_zero, div_div_eq_mul_div, div_one, Real.sqrt_mul_self hG.le] at this
    exact this
  · rw [hag, MI_finite] at hpi
    simpa using hpi

example : ∃ c, Butterworth.lowShelf true 8 3 48000 1000 6 = .ok c ∧
    ChainGainAt (active c) 0 ((10 : ℝ) ^ (6 / 20 : ℝ)) := by
  obtain ⟨c, h1, -, -, -, h2, -⟩ := C59_butterworth_low_shelf true (N := 8) (n := 3) (by norm_num)
    (by norm_num) 6 (fs := 48000) (fc := 1000) (by norm_num) (by norm_num)
  exact ⟨c, h1, h2⟩

/-- **C59, Butterworth high shelf.** The same with `y = tan(π fc/fs)/tan(w/2)`: gain `G` at Nyquist
and 1 at frequency 0. -/
theorem C59_butterworth_high_shelf (dbg : Bool) {N n : Nat} (hn : 1 ≤ n) (hN : n ≤ N) (gainDb : ℝ)
    {fs fc : ℝ} (h0 : 0 < fc) (h1 : fc < fs / 2) :
    ∃ c, Butterworth.highShelf dbg N n fs fc gainDb = .ok c ∧ c.num = (n + 1) / 2 ∧
      (∀ g ∈ active c, g.stability = true) ∧
      (∀ w : ℝ, w ≠ 0 → |w| < Real.pi → ChainGainAt (active c) w
        (Real.sqrt (((10 : ℝ) ^ (gainDb / 20) +
            (Real.tan (Real.pi * (fc / fs)) / Real.tan (w / 2)) ^ (2 * n)) /
          (1 / (10 : ℝ) ^ (gainDb / 20) +
            (Real.tan (Real.pi * (fc / fs)) / Real.tan (w / 2)) ^ (2 * n))))) ∧
      ChainGainAt (active c) Real.pi ((10 : ℝ) ^ (gainDb / 20)) ∧ ChainGainAt (active c) 0 1 := by
  obtain ⟨e, hf0, hf1⟩ := fdiv_cutoff h0 h1
  obtain ⟨a, g, hg, hgp, ha, haw, hag, hold⟩ := shelf_analog hn hN dbg gainDb
  have hlen := oddSingle_len n (-(1 / g)) (some (-g))
  have hgi : 0 < 1 / g := one_div_pos.mpr hg
  obtain ⟨d, c, hd', hc, hnum, hst, hgain, hpi, hz⟩ := highpass_chain hold (by omega) (by omega)
    (fun k hk => polar_lhp hgi (shelf_theta hk).1 (shelf_theta hk).2)
    (by
      intro k hk c hc
      injection hc with hc
      rw [← hc]
      exact (polar_lhp hg (shelf_theta hk).1 (shelf_theta hk).2).1.le)
    (oddSingle_neg (by linarith) (by intro c hc; injection hc with hc; linarith))
    (by rw [hag]; norm_num) dbg hf0 hf1 (ref := 1) (Or.inr ⟨haw, (MI_finite _ _ _ _ _).symm⟩) one_ne_zero
  have hG : (0 : ℝ) < (10 : ℝ) ^ (gainDb / 20) := by positivity
  refine ⟨c, ?_, by rw [hnum, hlen.1], hst, ?_, ?_, ?_⟩
  · unfold Butterworth.highShelf
    rw [e, ha]
    simp only [bind, Except.bind, hd', hc]
  · intro w hw0 hw
    have := hgain w hw0 hw
    rw [hag, one_mul, div_one, shelf_MA n hn hg, one_div_pow, hgp, ← Real.sqrt_div] at this
    · rw [pow_mul (-_), neg_sq, ← pow_mul] at this
      exact this
    · have : 0 ≤ (-(Real.tan (Real.pi * (fc / fs)) / Real.tan (w / 2))) ^ (2 * n) := by
        rw [pow_mul]; positivity
      positivity
  · have h0' := shelf_MA n hn hg 0
    rw [Complex.ofReal_zero, mul_zero] at h0'
    rw [hag, one_mul, div_one, h0', zero_pow (by omega), add_zero, add_zero, one_div_pow, hgp,
      ← Real.sqrt_div hG.le, div_div_eq_mul_div, div_one, Real.sqrt_mul_self hG.le] at hpi
    exact hpi
  · rw [hag, MI_finite] at hz
    simpa using hz

example : ∃ c, Butterworth.highShelf true 8 3 48000 1000 6 = .ok c ∧
    ChainGainAt (active c) Real.pi ((10 : ℝ) ^ (6 / 20 : ℝ)) := by
  obtain ⟨c, h1, -, -, -, h2, -⟩ := C59_butterworth_high_shelf true (N := 8) (n := 3) (by norm_num)
    (by norm_num) 6 (fs := 48000) (fc := 1000) (by norm_num) (by norm_num)
  exact ⟨c, h1, h2⟩

end Edsp.Props
