import Verif.Lemmas.Steady
import Verif.Props.C19_Butterworth

/-! # C75: what a stable filter does to a sinusoid -/

namespace Edsp.Props

open Edsp Edsp.Spec Edsp.SteadyL

/-- **C75, one section.** A stable section, in any state, fed a sinusoid of any amplitude, frequency and
phase settles exponentially to the sinusoid of the same frequency whose amplitude is multiplied by the
modulus of the transfer function and whose phase is moved by its argument. -/
theorem C75_section (f : Biquad ℝ) (hf : f.stability = true) (A w p : ℝ) {h : ℂ}
    (ht : TransferAt f (Complex.exp (w * Complex.I)) h) :
    SettlesTo (fun n => (f.filter ((List.range n).map (sinusoid A w p))).2)
      (sinusoid (‖h‖ * A) w (p + h.arg)) := by
  obtain ⟨D, ρ, h0, h1, h2⟩ := stage f hf (Complex.exp_ne_zero _) ht (A * Complex.exp (p * Complex.I))
    (sinusoid A w p) (C := 0) (r := 0) le_rfl zero_lt_one (by
      intro n; rw [sinusoid_eq, sub_self, abs_zero, zero_mul])
  refine ⟨D, ρ, h0, h1, fun n => ?_⟩
  dsimp only
  rw [(Biquad.filter_range f _ n).2]
  refine ⟨by simp, fun k hk => ⟨f.response (sinusoid A w p) k, by simp [hk], ?_⟩⟩
  have := h2 k
  rwa [sinusoid_gain] at this

/-- **C75, cascades.** The same for a cascade whose active sections are stable, whatever their states. -/
theorem C75_cascade (c : Cascade ℝ) (hs : ∀ f ∈ active c, f.stability = true) (A w p : ℝ) {h : ℂ}
    (ht : ChainTransferAt (active c) (Complex.exp (w * Complex.I)) h) :
    SettlesTo (fun n => (c.filter ((List.range n).map (sinusoid A w p))).2)
      (sinusoid (‖h‖ * A) w (p + h.arg)) := by
  obtain ⟨D, ρ, h0, h1, h2⟩ := chain_settles (active c) hs (Complex.exp_ne_zero _) ht
    (A * Complex.exp (p * Complex.I)) (sinusoid A w p) (C := 0) (r := 0) le_rfl zero_lt_one (by
      intro n; rw [sinusoid_eq, sub_self, abs_zero, zero_mul])
  refine ⟨D, ρ, h0, h1, fun n => ?_⟩
  dsimp only
  rw [filter_out, through_range]
  refine ⟨by simp, fun k hk => ⟨chain (active c) (sinusoid A w p) k, by simp [hk], ?_⟩⟩
  have := h2 k
  rwa [sinusoid_gain] at this

/-- **C75, gains are amplitudes.** If the gain of a stable cascade at `w` is `g`, a sinusoid of amplitude
`A` comes out with amplitude `g A`. -/
theorem C75_amplitude (c : Cascade ℝ) (hs : ∀ f ∈ active c, f.stability = true) {w g : ℝ}
    (hg : ChainGainAt (active c) w g) (A p : ℝ) :
    ∃ shift, SettlesTo (fun n => (c.filter ((List.range n).map (sinusoid A w p))).2)
      (sinusoid (g * A) w (p + shift)) := by
  obtain ⟨h, ht, rfl⟩ := hg
  exact ⟨h.arg, C75_cascade c hs A w p ht⟩

/-- **C75, applied.** Through every Butterworth low-pass of every order a sinusoid at the cutoff comes out
with `1/√2` of its amplitude. -/
theorem C75_butterworth_cutoff (dbg : Bool) {N n : Nat} (hn : 1 ≤ n) (hN : n ≤ N)
    (hd : n % 2 = 1 → dbg = false) {fs fc : ℝ} (h0 : 0 < fc) (h1 : fc < fs / 2) (A p : ℝ) :
    ∃ c, Butterworth.lowPass dbg N n fs fc = .ok c ∧
      ∃ shift, SettlesTo (fun m => (c.filter ((List.range m).map (sinusoid A (2 * Real.pi * fc / fs) p))).2)
        (sinusoid (1 / Real.sqrt 2 * A) (2 * Real.pi * fc / fs) (p + shift)) := by
  obtain ⟨c, hc, -, hst, -⟩ := C55_butterworth_lowpass dbg hn hN hd h0 h1
  obtain ⟨c', hc', -, g1⟩ := C55_butterworth_lowpass_cutoff dbg hn hN hd h0 h1
  rw [hc] at hc'
  injection hc' with hc'
  subst hc'
  exact ⟨c, hc, C75_amplitude c hst g1 A p⟩

/-- A resonator with poles ±0.9i, fed a unit sinusoid at a quarter of the sample rate. -/
example : SettlesTo
    (fun n => (({ Biquad.default with a2 := 0.81 } : Biquad ℝ).filter
      ((List.range n).map (sinusoid 1 (Real.pi / 2) 0))).2)
    (sinusoid (‖(1 / 0.19 : ℂ)‖ * 1) (Real.pi / 2) (0 + (1 / 0.19 : ℂ).arg)) := by
  apply C75_section
  · norm_num [Biquad.stability, Biquad.default, abs_of_pos]
  · have e : Complex.exp (((Real.pi / 2 : ℝ) : ℂ) * Complex.I) = Complex.I := by
      push_cast; exact Complex.exp_pi_div_two_mul_I
    rw [e]
    have h1 : (Complex.I⁻¹ : ℂ) ^ 2 = -1 := by rw [inv_pow, Complex.I_sq]; norm_num
    constructor
    · unfold denAt; simp only [Biquad.default]; rw [h1]; push_cast; norm_num
    · unfold denAt numAt; simp only [Biquad.default]; rw [h1]; push_cast; norm_num

example : ∃ c, Butterworth.lowPass true 8 4 48000 1000 = .ok c ∧
    ∃ shift, SettlesTo (fun m => (c.filter ((List.range m).map (sinusoid 3 (2 * Real.pi * 1000 / 48000) 0))).2)
        (sinusoid (1 / Real.sqrt 2 * 3) (2 * Real.pi * 1000 / 48000) (0 + shift)) :=
  C75_butterworth_cutoff true (by norm_num) (by norm_num) (by norm_num) (by norm_num) (by norm_num) 3 0

end Edsp.Props
