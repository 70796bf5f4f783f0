import Verif.Lemmas.EnergySplit
import Verif.Props.C130_Energy

/-! # C149: splitting a signal into bands -/

namespace Edsp.C149

open Edsp Edsp.Spec Edsp.EnergyL Edsp.Props Edsp.C130
open Filter (Tendsto atTop)

/-! ## Energies -/

theorem silence_energy (fs : List (Biquad ℝ)) (xs : List ℝ) (m : ℕ) :
    frameEnergy (through fs (xs ++ List.replicate m 0)).2 =
      ∑ n ∈ Finset.range (xs.length + m), SteadyL.chain fs (fun n => xs.getD n 0) n ^ 2 := by
  rw [through_energy, List.length_append, List.length_replicate]
  have : (fun n => (xs ++ List.replicate m (0 : ℝ)).getD n 0) = fun n => xs.getD n 0 := by
    funext n
    rcases lt_or_ge n xs.length with hn | hn
    · simp [List.getD, List.getElem?_append, hn]
    · simp only [List.getD, List.getElem?_append, not_lt.mpr hn, if_false, List.getElem?_replicate]
      rw [List.getElem?_eq_none hn]
      split <;> rfl
  rw [this]

/-- The general fact for lists of sections. -/
theorem through_split {ι : Type*} [Fintype ι] [DecidableEq ι] {fs : ι → List (Biquad ℝ)}
    (hr : ∀ i, ∀ f ∈ fs i, f.AtRest) (hs : ∀ i, ∀ f ∈ fs i, f.stability = true) {α : ι → ℝ}
    (h : ∀ w : ℝ, 0 < w → w < Real.pi → ∃ g : ι → ℝ, (∀ i, ChainGainAt (fs i) w (g i)) ∧
      ∑ i, α i * g i ^ 2 = 1) (xs : List ℝ) :
    Tendsto (fun m => ∑ i, α i * frameEnergy (through (fs i) (xs ++ List.replicate m 0)).2) atTop
      (nhds (frameEnergy xs)) := by
  have key := chains_split hr hs h (x := fun n => xs.getD n 0) (N := xs.length)
    (fun n hn => by simp [List.getD, List.getElem?_eq_none hn])
  rw [← list_energy] at key
  simp only [silence_energy]
  have := key.comp (Filter.tendsto_add_atTop_nat xs.length)
  refine this.congr fun m => ?_
  simp only [Function.comp, add_comm m]

/-- **C149, banks of filters.** Feed stable cascades at rest with the same frame and then with silence.  If a
weighted sum of the squares of their gains is 1 at every frequency, the weighted sum of the energies of their
outputs tends to the energy of the frame. -/
theorem C149_bank {k : ℕ} (c : Fin k → Cascade ℝ) (α : Fin k → ℝ) (hr : ∀ i, ∀ f ∈ active (c i), f.AtRest)
    (hs : ∀ i, ∀ f ∈ active (c i), f.stability = true)
    (h : ∀ w : ℝ, 0 < w → w < Real.pi → ∃ g : Fin k → ℝ, (∀ i, ChainGainAt (active (c i)) w (g i)) ∧
      ∑ i, α i * g i ^ 2 = 1) (xs : List ℝ) :
    Tendsto (fun m => ∑ i, α i * frameEnergy ((c i).filter (xs ++ List.replicate m 0)).2) atTop
      (nhds (frameEnergy xs)) := by
  simp only [SteadyL.filter_out]
  exact through_split hr hs h xs

/-- Two copies of the identity, each with weight one half. -/
example (xs : List ℝ) : Tendsto (fun m => ∑ _i : Fin 2, (1 / 2 : ℝ) *
    frameEnergy (({ num := 0, stages := [] } : Cascade ℝ).filter (xs ++ List.replicate m 0)).2) atTop
      (nhds (frameEnergy xs)) :=
  C149_bank (fun _ : Fin 2 => { num := 0, stages := [] }) (fun _ => 1 / 2) (by simp [active]) (by simp [active])
    (fun w _ _ => ⟨fun _ => 1, fun _ => ⟨1, rfl, by simp⟩, by norm_num⟩) xs

theorem energy_grows (fs : List (Biquad ℝ)) (xs : List ℝ) :
    Monotone fun m => frameEnergy (through fs (xs ++ List.replicate m 0)).2 := by
  intro a b hab
  simp only [silence_energy]
  exact Finset.sum_le_sum_of_subset_of_nonneg (Finset.range_mono (by omega)) fun _ _ _ => sq_nonneg _

/-- **C149, Butterworth crossovers.** The low-pass and the high-pass of the same order and cutoff split the energy
of every frame: together they never give out more than went in, and nothing is lost. -/
theorem C149_butterworth (dbg : Bool) {N n : Nat} (hn : 1 ≤ n) (hN : n ≤ N)
    (hd : n % 2 = 1 → dbg = false) {fs fc : ℝ} (h0 : 0 < fc) (h1 : fc < fs / 2) :
    ∃ lo hi, Butterworth.lowPass dbg N n fs fc = .ok lo ∧ Butterworth.highPass dbg N n fs fc = .ok hi ∧
      (∀ w : ℝ, 0 < w → w < Real.pi → ∃ g₁ g₂, ChainGainAt (active lo) w g₁ ∧ ChainGainAt (active hi) w g₂ ∧
        g₁ ^ 2 + g₂ ^ 2 = 1) ∧
      ∀ xs, (∀ m, frameEnergy (lo.filter (xs ++ List.replicate m 0)).2 +
          frameEnergy (hi.filter (xs ++ List.replicate m 0)).2 ≤ frameEnergy xs) ∧
        Tendsto (fun m => frameEnergy (lo.filter (xs ++ List.replicate m 0)).2 +
          frameEnergy (hi.filter (xs ++ List.replicate m 0)).2) atTop (nhds (frameEnergy xs)) := by
  obtain ⟨lo, hlo, -, sl, gl, -⟩ := C55_butterworth_lowpass dbg hn hN hd h0 h1
  obtain ⟨hi, hhi, -, sh, gh, -⟩ := C56_butterworth_highpass dbg hn hN hd h0 h1
  have rl : ∀ f ∈ active lo, f.AtRest := by have h := hlo; unfold Butterworth.lowPass at h; at_rest h
  have rh : ∀ f ∈ active hi, f.AtRest := by have h := hhi; unfold Butterworth.highPass at h; at_rest h
  have hK : 0 < Real.tan (Real.pi * (fc / fs)) := by
    have := tan_cutoff h0 h1
    rwa [mul_div_assoc] at this
  have hg : ∀ w : ℝ, 0 < w → w < Real.pi → ∃ g₁ g₂, ChainGainAt (active lo) w g₁ ∧
      ChainGainAt (active hi) w g₂ ∧ g₁ ^ 2 + g₂ ^ 2 = 1 := by
    intro w hw0 hw1
    refine ⟨_, _, gl w (by rw [abs_of_pos hw0]; exact hw1), gh w hw0.ne' (by rw [abs_of_pos hw0]; exact hw1), ?_⟩
    have ht : 0 < Real.tan (w / 2) := Real.tan_pos_of_pos_of_lt_pi_div_two (by linarith) (by linarith)
    set t := Real.tan (w / 2)
    set K := Real.tan (Real.pi * (fc / fs))
    have sq : ∀ r : ℝ, 0 ≤ r → (1 / Real.sqrt r) ^ 2 = 1 / r := fun r hr => by
      rw [div_pow, Real.sq_sqrt hr, one_pow]
    rw [sq _ (by positivity), sq _ (by positivity), div_pow, div_pow]
    have hk : (0 : ℝ) < K ^ (2 * n) := by positivity
    have htt : (0 : ℝ) < t ^ (2 * n) := by positivity
    field_simp
    ring
  have key : ∀ xs, Tendsto (fun m => frameEnergy (lo.filter (xs ++ List.replicate m 0)).2 +
      frameEnergy (hi.filter (xs ++ List.replicate m 0)).2) atTop (nhds (frameEnergy xs)) := by
    intro xs
    have := C149_bank ![lo, hi] (fun _ => 1) (by intro i; fin_cases i; exacts [rl, rh])
      (by intro i; fin_cases i; exacts [sl, sh]) (by
        intro w hw0 hw1
        obtain ⟨g₁, g₂, k1, k2, e⟩ := hg w hw0 hw1
        refine ⟨![g₁, g₂], by intro i; fin_cases i; exacts [k1, k2], ?_⟩
        simpa [Fin.sum_univ_two] using e) xs
    simpa [Fin.sum_univ_two] using this
  refine ⟨lo, hi, hlo, hhi, hg, fun xs => ⟨fun m => ?_, key xs⟩⟩
  refine Monotone.ge_of_tendsto (f := fun m => frameEnergy (lo.filter (xs ++ List.replicate m 0)).2 +
      frameEnergy (hi.filter (xs ++ List.replicate m 0)).2) ?_ (key xs) m
  simp only [SteadyL.filter_out]
  exact (energy_grows _ xs).add (energy_grows _ xs)

example : ∃ lo hi, Butterworth.lowPass true 8 4 48000 1000 = .ok lo ∧
    Butterworth.highPass true 8 4 48000 1000 = .ok hi ∧
    ∀ m, frameEnergy (lo.filter ([1, -2, 3] ++ List.replicate m 0)).2 +
      frameEnergy (hi.filter ([1, -2, 3] ++ List.replicate m 0)).2 ≤ frameEnergy [1, -2, 3] := by
  obtain ⟨lo, hi, h1, h2, -, h3⟩ := C149_butterworth true (N := 8) (n := 4) (fs := 48000) (fc := 1000)
    (by norm_num) (by norm_num) (by norm_num) (by norm_num) (by norm_num)
  exact ⟨lo, hi, h1, h2, (h3 _).1⟩

/-- **C149 is false of the band filters.** The band-pass and the band-stop of the same band, centred at a quarter of
the sample rate, give out more energy than went in for some frame. -/
theorem C149_band_violates (dbg : Bool) {N n : Nat} (hn : 1 ≤ n) (hN : n ≤ N)
    (hd : n % 2 = 1 → dbg = false) {fs bw : ℝ} (hB : BandOk fs (fs / 4) bw) :
    ∃ inside outside, Butterworth.bandPass dbg N n fs (fs / 4) bw = .ok inside ∧
      Butterworth.bandStop dbg N n fs (fs / 4) bw = .ok outside ∧
      ∃ xs, frameEnergy xs < frameEnergy (inside.filter xs).2 + frameEnergy (outside.filter xs).2 := by
  obtain ⟨c, hc, xs, h⟩ := C130_bandpass_violates dbg hn hN hd hB
  obtain ⟨d, hd', -⟩ := C72_butterworth_bandstop_partial dbg hn hN hd hB
  exact ⟨c, d, hc, hd', xs, by linarith [frameEnergy_nonneg (d.filter xs).2]⟩

example : ∃ inside outside, Butterworth.bandPass true 8 2 48000 (48000 / 4) 4000 = .ok inside ∧
    Butterworth.bandStop true 8 2 48000 (48000 / 4) 4000 = .ok outside ∧
    ∃ xs, frameEnergy xs < frameEnergy (inside.filter xs).2 + frameEnergy (outside.filter xs).2 :=
  C149_band_violates true (by norm_num) (by norm_num) (by norm_num) (by norm_num; exact bandOk_example)

/-! ## Sections with a common denominator -/

/-- Three sections with prototypes `1`, `s`, `s²` over `s² + s/Q + 1`. -/
theorem proto_split {Q K β : ℝ} (hQ : 0 < Q) (hK : 0 < K) {l b h : Biquad ℝ} (rl : l.AtRest) (rb : b.AtRest)
    (rh : h.AtRest) (sl : l.stability = true) (sb : b.stability = true) (sh : h.stability = true)
    (pl : BilinearOf l K (0, 0, 1) (1, 1 / Q, 1)) (pb : BilinearOf b K (0, β, 0) (1, 1 / Q, 1))
    (ph : BilinearOf h K (1, 0, 0) (1, 1 / Q, 1)) (hβ : β ≠ 0) (xs : List ℝ) :
    Tendsto (fun m => frameEnergy (l.filter (xs ++ List.replicate m 0)).2 +
      frameEnergy (h.filter (xs ++ List.replicate m 0)).2 +
      (1 / Q ^ 2 - 2) / β ^ 2 * frameEnergy (b.filter (xs ++ List.replicate m 0)).2) atTop
      (nhds (frameEnergy xs)) := by
  have hQi : (1 / Q) ≠ 0 := by positivity
  have := through_split (fs := ![[l], [h], [b]]) (α := ![1, 1, (1 / Q ^ 2 - 2) / β ^ 2])
    (by intro i; fin_cases i <;> simpa) (by intro i; fin_cases i <;> simpa) (by
      intro w h0 h1
      obtain ⟨ht, g1⟩ := proto_gain pl hK hQi h0 h1
      obtain ⟨-, g2⟩ := proto_gain ph hK hQi h0 h1
      obtain ⟨-, g3⟩ := proto_gain pb hK hQi h0 h1
      refine ⟨![_, _, _], by
        intro i
        fin_cases i
        exacts [chain_one.mpr g1, chain_one.mpr g2, chain_one.mpr g3], ?_⟩
      set t := Real.tan (w / 2) / K
      have hne : 0 < (1 - 1 * t ^ 2) ^ 2 + (1 / Q * t) ^ 2 := by positivity
      simp only [Fin.sum_univ_three, Matrix.cons_val_zero, Matrix.cons_val_one, Matrix.cons_val_two,
        Matrix.head_cons, Matrix.tail_cons]
      rw [Real.sq_sqrt (by positivity), Real.sq_sqrt (by positivity), Real.sq_sqrt (by positivity)]
      field_simp
      ring) xs
  simpa [Fin.sum_univ_three, through_one] using this

theorem tail_unique {f : ℕ → ℝ} {e : ℕ → ℝ} {a c r : ℝ} (h1 : Tendsto (fun m => f m + c * e m) atTop (nhds a))
    (h2 : Tendsto f atTop (nhds a)) (he : ∀ m, r ≤ e m) (hr : 0 < r) : c = 0 := by
  have h := h1.sub h2
  simp only [add_sub_cancel_left, sub_self] at h
  by_contra hc
  have h3 := (h.const_mul c⁻¹)
  simp only [← mul_assoc, inv_mul_cancel₀ hc, one_mul, mul_zero] at h3
  have := ge_of_tendsto' h3 he
  linarith

/-- The first sample of the response to an impulse. -/
theorem impulse_energy (b : Biquad ℝ) (hb : b.AtRest) (m : ℕ) :
    b.b0 ^ 2 ≤ frameEnergy (b.filter ([1] ++ List.replicate m 0)).2 := by
  have e : (b.filter ([1] ++ List.replicate m 0)).2 =
      (b.b0 * 1 + b.w0) :: ((b.tick 1).1.filter (List.replicate m 0)).2 := rfl
  rw [e, hb.1, add_zero, mul_one]
  unfold frameEnergy
  rw [List.map_cons, List.sum_cons]
  have := frameEnergy_nonneg ((b.tick 1).1.filter (List.replicate m 0)).2
  unfold frameEnergy at this
  linarith

/-- What the two families share. -/
theorem proto_iff {Q K β : ℝ} (hQ : 0 < Q) (hK : 0 < K) {l b h : Biquad ℝ} (rl : l.AtRest) (rb : b.AtRest)
    (rh : h.AtRest) (sl : l.stability = true) (sb : b.stability = true) (sh : h.stability = true)
    (pl : BilinearOf l K (0, 0, 1) (1, 1 / Q, 1)) (pb : BilinearOf b K (0, β, 0) (1, 1 / Q, 1))
    (ph : BilinearOf h K (1, 0, 0) (1, 1 / Q, 1)) (hβ : β ≠ 0) (hb : b.b0 ≠ 0) :
    (∀ xs, Tendsto (fun m => frameEnergy (l.filter (xs ++ List.replicate m 0)).2 +
      frameEnergy (h.filter (xs ++ List.replicate m 0)).2) atTop (nhds (frameEnergy xs))) ↔ 2 * Q ^ 2 = 1 := by
  have key := proto_split hQ hK rl rb rh sl sb sh pl pb ph hβ
  have hQ2 : 0 < Q ^ 2 := by positivity
  constructor
  · intro hx
    have := tail_unique (key [1]) (hx [1]) (impulse_energy b rb) (by positivity)
    rw [div_eq_zero_iff, or_iff_left (pow_ne_zero 2 hβ), sub_eq_zero, div_eq_iff hQ2.ne'] at this
    exact this.symm
  · intro hq xs
    have := key xs
    have e : 1 / Q ^ 2 - 2 = 0 := by rw [sub_eq_zero, div_eq_iff hQ2.ne', hq]
    simpa only [e, zero_div, zero_mul, add_zero] using this

/-- Three sections with the same denominator whose weighted numerators add up to `c` times that denominator: the
weighted outputs add up to `c` times the input. -/
theorem sum_outputs {p q r c : ℝ} (xs : List ℝ) : ∀ (f g h : Biquad ℝ), g.a1 = f.a1 → g.a2 = f.a2 → h.a1 = f.a1 →
    h.a2 = f.a2 → p * f.b0 + q * g.b0 + r * h.b0 = c → p * f.b1 + q * g.b1 + r * h.b1 = c * f.a1 →
    p * f.b2 + q * g.b2 + r * h.b2 = c * f.a2 → p * f.w0 + q * g.w0 + r * h.w0 = 0 →
    p * f.w1 + q * g.w1 + r * h.w1 = 0 → ∀ i, p * (f.filter xs).2.getD i 0 + q * (g.filter xs).2.getD i 0 +
      r * (h.filter xs).2.getD i 0 = c * xs.getD i 0 := by
  induction xs with
  | nil => intros; simp [Biquad.filter]
  | cons x xs ih =>
    intro f g h e1 e2 e3 e4 e5 e6 e7 e8 e9 i
    cases i with
    | zero =>
      show p * (f.b0 * x + f.w0) + q * (g.b0 * x + g.w0) + r * (h.b0 * x + h.w0) = c * x
      linear_combination x * e5 + e8
    | succ i =>
      refine ih (f.tick x).1 (g.tick x).1 (h.tick x).1 e1 e2 e3 e4 e5 e6 e7 ?_ ?_ i
      · show p * (f.b1 * x - f.a1 * (f.b0 * x + f.w0) + f.w1) + q * (g.b1 * x - g.a1 * (g.b0 * x + g.w0) + g.w1) +
          r * (h.b1 * x - h.a1 * (h.b0 * x + h.w0) + h.w1) = 0
        rw [e1, e3]
        linear_combination x * e6 - f.a1 * x * e5 - f.a1 * e8 + e9
      · show p * (f.b2 * x - f.a2 * (f.b0 * x + f.w0)) + q * (g.b2 * x - g.a2 * (g.b0 * x + g.w0)) +
          r * (h.b2 * x - h.a2 * (h.b0 * x + h.w0)) = 0
        rw [e2, e4]
        linear_combination x * e7 - f.a2 * x * e5 - f.a2 * e8

/-- The coefficients of the cookbook sections, with `D = 1 + α`. -/
theorem rbj_forms {fc fs Q : ℝ} (h0 : 0 < fc) (h1 : fc < fs / 2) (hQ : 0 < Q) : ∃ c α : ℝ, 0 < α ∧
    Rbj.lowPass fc fs Q = .ok ⟨(1 - c) / 2 / (1 + α), (1 - c) / (1 + α), (1 - c) / 2 / (1 + α),
      (1 - α) / (1 + α), -2 * c / (1 + α), 1, 0, 0⟩ ∧
    Rbj.highPass fc fs Q = .ok ⟨(1 + c) / 2 / (1 + α), -(1 + c) / (1 + α), (1 + c) / 2 / (1 + α),
      (1 - α) / (1 + α), -2 * c / (1 + α), 1, 0, 0⟩ ∧
    Rbj.bandPass fc fs Q = .ok ⟨-Q * α / (1 + α), 0 / (1 + α), Q * α / (1 + α),
      (1 - α) / (1 + α), -2 * c / (1 + α), 1, 0, 0⟩ ∧
    Rbj.allPass fc fs Q = .ok ⟨(1 + α) / (1 + α), -2 * c / (1 + α), (1 - α) / (1 + α),
      (1 - α) / (1 + α), -2 * c / (1 + α), 1, 0, 0⟩ := by
  obtain ⟨hfs, hs, -, -⟩ := rbj_angle h0 h1
  have ha : 0 < Real.sin (2 * Real.pi * fc / fs) / (2 * Q) := by positivity
  refine ⟨Real.cos (2 * Real.pi * fc / fs), Real.sin (2 * Real.pi * fc / fs) / (2 * Q), ha, ?_, ?_, ?_, ?_⟩
  · unfold Rbj.lowPass
    rw [fdiv_ok _ hfs.ne']
    simp only [Bind.bind, Except.bind]
    rw [fdiv_ok _ (by positivity)]
    simp only [Biquad.ofCoeffs]
    rw [if_neg (by positivity)]
  · unfold Rbj.highPass
    rw [fdiv_ok _ hfs.ne']
    simp only [Bind.bind, Except.bind]
    rw [fdiv_ok _ (by positivity)]
    simp only [Biquad.ofCoeffs]
    rw [if_neg (by positivity)]
  · unfold Rbj.bandPass
    rw [fdiv_ok _ hfs.ne']
    simp only [Bind.bind, Except.bind]
    rw [fdiv_ok _ (by positivity)]
    simp only [Biquad.ofCoeffs]
    rw [if_neg (by positivity)]
  · unfold Rbj.allPass
    rw [fdiv_ok _ hfs.ne']
    simp only [Bind.bind, Except.bind]
    rw [fdiv_ok _ (by positivity)]
    simp only [Biquad.ofCoeffs]
    rw [if_neg (by positivity)]

/-- The coefficients of the Zoelzer sections, with `D = 1 + K/Q + K²`. -/
theorem zoelzer_forms {fc fs Q : ℝ} (h0 : 0 < fc) (h1 : fc < fs / 2) (hQ : 0 < Q) : ∃ K n : ℝ, 0 < K ∧
    0 < n ∧ n * (1 + K / Q + K * K) = 1 ∧
    Zoelzer.lowPass fc fs Q = .ok ⟨K * K * n, 2 * (K * K * n), K * K * n,
      (1 - K / Q + K * K) * n, 2 * (K * K - 1) * n, 1, 0, 0⟩ ∧
    Zoelzer.highPass fc fs Q = .ok ⟨1 * n, -2 * (1 * n), 1 * n,
      (1 - K / Q + K * K) * n, 2 * (K * K - 1) * n, 1, 0, 0⟩ ∧
    Zoelzer.bandPass fc fs Q = .ok ⟨-(K / Q * n), 0, K / Q * n,
      (1 - K / Q + K * K) * n, 2 * (K * K - 1) * n, 1, 0, 0⟩ := by
  obtain ⟨K, hK, hKp, -⟩ := zoelzer_K h0 h1
  have hD : 0 < 1 + K / Q + K * K := by positivity
  refine ⟨K, 1 / (1 + K / Q + K * K), hKp, by positivity, by field_simp, ?_, ?_, ?_⟩
  · unfold Zoelzer.lowPass
    rw [← bind_assoc, hK]
    simp only [Bind.bind, Except.bind]
    rw [fdiv_ok _ hQ.ne']
    simp only []
    rw [fdiv_ok _ hD.ne']
    simp only [Biquad.ofCoeffs, one_ne_zero, if_false, div_one]
  · unfold Zoelzer.highPass
    rw [← bind_assoc, hK]
    simp only [Bind.bind, Except.bind]
    rw [fdiv_ok _ hQ.ne']
    simp only []
    rw [fdiv_ok _ hD.ne']
    simp only [Biquad.ofCoeffs, one_ne_zero, if_false, div_one]
  · unfold Zoelzer.bandPass
    rw [← bind_assoc, hK]
    simp only [Bind.bind, Except.bind]
    rw [fdiv_ok _ hQ.ne']
    simp only []
    rw [fdiv_ok _ hD.ne']
    simp only [Biquad.ofCoeffs, one_ne_zero, if_false, div_one]

/-- **C149, cookbook filters, samples.** The outputs of the low-pass and the high-pass and `1/Q` times that of the
band-pass add up to the input, sample by sample.  The input and the output of the all-pass have the sum of low-pass
and high-pass for their mean. -/
theorem C149_rbj_samples (fc fs Q : ℝ) (h0 : 0 < fc) (h1 : fc < fs / 2) (hQ : 0 < Q) :
    ∃ l b h a, Rbj.lowPass fc fs Q = .ok l ∧ Rbj.bandPass fc fs Q = .ok b ∧ Rbj.highPass fc fs Q = .ok h ∧
      Rbj.allPass fc fs Q = .ok a ∧ ∀ (xs : List ℝ) (i : ℕ),
        (l.filter xs).2.getD i 0 + (h.filter xs).2.getD i 0 + (b.filter xs).2.getD i 0 / Q = xs.getD i 0 ∧
        (l.filter xs).2.getD i 0 + (h.filter xs).2.getD i 0 = (xs.getD i 0 + (a.filter xs).2.getD i 0) / 2 := by
  obtain ⟨c, α, hα, hl, hh, hb, ha⟩ := rbj_forms h0 h1 hQ
  obtain ⟨l, el⟩ : ∃ l, Rbj.lowPass fc fs Q = .ok l := ⟨_, hl⟩
  obtain ⟨h, eh⟩ : ∃ l, Rbj.highPass fc fs Q = .ok l := ⟨_, hh⟩
  obtain ⟨b, eb⟩ : ∃ l, Rbj.bandPass fc fs Q = .ok l := ⟨_, hb⟩
  obtain ⟨a, ea⟩ : ∃ l, Rbj.allPass fc fs Q = .ok l := ⟨_, ha⟩
  have il := Except.ok.inj (el.symm.trans hl)
  have ih := Except.ok.inj (eh.symm.trans hh)
  have ib := Except.ok.inj (eb.symm.trans hb)
  have ia := Except.ok.inj (ea.symm.trans ha)
  refine ⟨l, b, h, a, el, eb, eh, ea, fun xs i => ⟨?_, ?_⟩⟩
  · have := sum_outputs (p := 1) (q := 1) (r := 1 / Q) (c := 1) xs l h b (by rw [il, ih]) (by rw [il, ih])
      (by rw [il, ib]) (by rw [il, ib]) ?_ ?_ ?_ ?_ ?_ i
    · linear_combination this
    all_goals simp only [il, ih, ib]
    all_goals (field_simp; ring)
  · have := sum_outputs (p := 1) (q := 1) (r := -(1 / 2)) (c := 1 / 2) xs l h a (by rw [il, ih]) (by rw [il, ih])
      (by rw [il, ia]) (by rw [il, ia]) ?_ ?_ ?_ ?_ ?_ i
    · linear_combination this
    all_goals simp only [il, ih, ia]
    all_goals (field_simp; ring)

example : ∃ l b h, Rbj.lowPass 1000 48000 2 = .ok l ∧ Rbj.bandPass 1000 48000 2 = .ok b ∧
    Rbj.highPass 1000 48000 2 = .ok h ∧ (l.filter [1, -2, 3]).2.getD 2 0 + (h.filter [1, -2, 3]).2.getD 2 0 +
      (b.filter [1, -2, 3]).2.getD 2 0 / 2 = 3 := by
  obtain ⟨l, b, h, a, h1, h2, h3, -, h4⟩ := C149_rbj_samples 1000 48000 2 (by norm_num) (by norm_num) (by norm_num)
  exact ⟨l, b, h, h1, h2, h3, (h4 [1, -2, 3] 2).1⟩

/-- **C149, Zoelzer's filters, samples.** The outputs of low-pass, band-pass and high-pass add up to the input. -/
theorem C149_zoelzer_samples (fc fs Q : ℝ) (h0 : 0 < fc) (h1 : fc < fs / 2) (hQ : 0 < Q) :
    ∃ l b h, Zoelzer.lowPass fc fs Q = .ok l ∧ Zoelzer.bandPass fc fs Q = .ok b ∧
      Zoelzer.highPass fc fs Q = .ok h ∧ ∀ (xs : List ℝ) (i : ℕ),
        (l.filter xs).2.getD i 0 + (b.filter xs).2.getD i 0 + (h.filter xs).2.getD i 0 = xs.getD i 0 := by
  obtain ⟨K, n, hK, hn, e, hl, hh, hb⟩ := zoelzer_forms h0 h1 hQ
  obtain ⟨l, el⟩ : ∃ l, Zoelzer.lowPass fc fs Q = .ok l := ⟨_, hl⟩
  obtain ⟨h, eh⟩ : ∃ l, Zoelzer.highPass fc fs Q = .ok l := ⟨_, hh⟩
  obtain ⟨b, eb⟩ : ∃ l, Zoelzer.bandPass fc fs Q = .ok l := ⟨_, hb⟩
  have il := Except.ok.inj (el.symm.trans hl)
  have ih := Except.ok.inj (eh.symm.trans hh)
  have ib := Except.ok.inj (eb.symm.trans hb)
  refine ⟨l, b, h, el, eb, eh, fun xs i => ?_⟩
  have := sum_outputs (p := 1) (q := 1) (r := 1) (c := 1) xs l b h (by rw [il, ib]) (by rw [il, ib])
    (by rw [il, ih]) (by rw [il, ih]) ?_ ?_ ?_ ?_ ?_ i
  · linear_combination this
  all_goals simp only [il, ih, ib]
  · linear_combination e
  all_goals ring

example : ∃ l b h, Zoelzer.lowPass 1000 48000 2 = .ok l ∧ Zoelzer.bandPass 1000 48000 2 = .ok b ∧
    Zoelzer.highPass 1000 48000 2 = .ok h ∧ (l.filter [1, -2, 3]).2.getD 2 0 + (b.filter [1, -2, 3]).2.getD 2 0 +
      (h.filter [1, -2, 3]).2.getD 2 0 = 3 := by
  obtain ⟨l, b, h, h1, h2, h3, h4⟩ := C149_zoelzer_samples 1000 48000 2 (by norm_num) (by norm_num) (by norm_num)
  exact ⟨l, b, h, h1, h2, h3, h4 [1, -2, 3] 2⟩

theorem half_iff {Q : ℝ} (hQ : 0 < Q) : 2 * Q ^ 2 = 1 ↔ Q = 1 / Real.sqrt 2 := by
  have h2 : (0 : ℝ) < Real.sqrt 2 := by positivity
  rw [eq_div_iff h2.ne']
  constructor
  · intro h
    have : (Q * Real.sqrt 2) ^ 2 = 1 := by rw [mul_pow, Real.sq_sqrt (by norm_num)]; linarith
    exact (pow_eq_one_iff_of_nonneg (by positivity) two_ne_zero).mp this
  · intro h
    have : (Q * Real.sqrt 2) ^ 2 = 1 := by rw [h, one_pow]
    rw [mul_pow, Real.sq_sqrt (by norm_num)] at this
    linarith

/-- **C149, cookbook filters, energies.** For low-pass, band-pass and high-pass of the same frequency and `Q`, the
energies of the outputs of any frame followed by silence satisfy
`E(low) + E(high) + (1/Q² - 2) E(band) → E(frame)`.  So low-pass and high-pass split the energy exactly when
`Q = 1/√2`. -/
theorem C149_rbj_energy (fc fs Q : ℝ) (h0 : 0 < fc) (h1 : fc < fs / 2) (hQ : 0 < Q) :
    ∃ l b h, Rbj.lowPass fc fs Q = .ok l ∧ Rbj.bandPass fc fs Q = .ok b ∧ Rbj.highPass fc fs Q = .ok h ∧
      (∀ xs, Tendsto (fun m => frameEnergy (l.filter (xs ++ List.replicate m 0)).2 +
        frameEnergy (h.filter (xs ++ List.replicate m 0)).2 +
        (1 / Q ^ 2 - 2) * frameEnergy (b.filter (xs ++ List.replicate m 0)).2) atTop
        (nhds (frameEnergy xs))) ∧
      ((∀ xs, Tendsto (fun m => frameEnergy (l.filter (xs ++ List.replicate m 0)).2 +
        frameEnergy (h.filter (xs ++ List.replicate m 0)).2) atTop (nhds (frameEnergy xs))) ↔
        Q = 1 / Real.sqrt 2) := by
  have hK := tan_cutoff h0 h1
  obtain ⟨l, hl, sl, -⟩ := C16_low_pass fc fs Q h0 h1 hQ
  obtain ⟨b, hb, sb, -⟩ := C16_band_pass fc fs Q h0 h1 hQ
  obtain ⟨h, hh, sh, -⟩ := C16_high_pass fc fs Q h0 h1 hQ
  obtain ⟨l', hl', pl⟩ := C16_low_pass_prototype fc fs Q h0 h1 hQ
  obtain ⟨b', hb', pb⟩ := C16_band_pass_prototype fc fs Q h0 h1 hQ
  obtain ⟨h', hh', ph⟩ := C16_high_pass_prototype fc fs Q h0 h1 hQ
  rw [hl] at hl'; cases hl'
  rw [hb] at hb'; cases hb'
  rw [hh] at hh'; cases hh'
  have rl : l.AtRest := by have e := hl; unfold Rbj.lowPass at e; section_rest e
  have rb : b.AtRest := by have e := hb; unfold Rbj.bandPass at e; section_rest e
  have rh : h.AtRest := by have e := hh; unfold Rbj.highPass at e; section_rest e
  refine ⟨l, b, h, hl, hb, hh, fun xs => ?_, ?_⟩
  · simpa using proto_split hQ hK rl rb rh sl sb sh pl pb ph one_ne_zero xs
  · rw [proto_iff hQ hK rl rb rh sl sb sh pl pb ph one_ne_zero ?_]
    · exact half_iff hQ
    · obtain ⟨c, α, hα, -, -, hb', -⟩ := rbj_forms h0 h1 hQ
      rw [hb] at hb'; cases hb'
      dsimp only
      positivity

example : ∃ l h, Rbj.lowPass 1000 48000 (1 / Real.sqrt 2) = .ok l ∧ Rbj.highPass 1000 48000 (1 / Real.sqrt 2) = .ok h ∧
    Tendsto (fun m => frameEnergy (l.filter ([1, -2, 3] ++ List.replicate m 0)).2 +
      frameEnergy (h.filter ([1, -2, 3] ++ List.replicate m 0)).2) atTop (nhds (frameEnergy [1, -2, 3])) := by
  obtain ⟨l, b, h, h1, -, h2, -, h3⟩ := C149_rbj_energy 1000 48000 (1 / Real.sqrt 2) (by norm_num) (by norm_num)
    (by positivity)
  exact ⟨l, h, h1, h2, h3.mpr rfl _⟩

/-- **C149, Zoelzer's filters, energies.** `E(low) + E(high) + (1 - 2Q²) E(band) → E(frame)`; low-pass and high-pass
split the energy exactly when `Q = 1/√2`. -/
theorem C149_zoelzer_energy (fc fs Q : ℝ) (h0 : 0 < fc) (h1 : fc < fs / 2) (hQ : 0 < Q) :
    ∃ l b h, Zoelzer.lowPass fc fs Q = .ok l ∧ Zoelzer.bandPass fc fs Q = .ok b ∧
      Zoelzer.highPass fc fs Q = .ok h ∧
      (∀ xs, Tendsto (fun m => frameEnergy (l.filter (xs ++ List.replicate m 0)).2 +
        frameEnergy (h.filter (xs ++ List.replicate m 0)).2 +
        (1 - 2 * Q ^ 2) * frameEnergy (b.filter (xs ++ List.replicate m 0)).2) atTop
        (nhds (frameEnergy xs))) ∧
      ((∀ xs, Tendsto (fun m => frameEnergy (l.filter (xs ++ List.replicate m 0)).2 +
        frameEnergy (h.filter (xs ++ List.replicate m 0)).2) atTop (nhds (frameEnergy xs))) ↔
        Q = 1 / Real.sqrt 2) := by
  have hK := tan_cutoff h0 h1
  have hQi : (1 / Q) ≠ 0 := by positivity
  obtain ⟨l, hl, sl, -⟩ := C17_low_pass fc fs Q h0 h1 hQ
  obtain ⟨b, hb, sb, -⟩ := C17_band_pass fc fs Q h0 h1 hQ
  obtain ⟨h, hh, sh, -⟩ := C17_high_pass fc fs Q h0 h1 hQ
  obtain ⟨l', hl', pl⟩ := C17_low_pass_prototype fc fs Q h0 h1 hQ
  obtain ⟨b', hb', pb⟩ := C17_band_pass_prototype fc fs Q h0 h1 hQ
  obtain ⟨h', hh', ph⟩ := C17_high_pass_prototype fc fs Q h0 h1 hQ
  rw [hl] at hl'; cases hl'
  rw [hb] at hb'; cases hb'
  rw [hh] at hh'; cases hh'
  obtain ⟨K, n, hKp, hn, -, fl, fh, fb⟩ := zoelzer_forms h0 h1 hQ
  rw [hl] at fl; cases fl
  rw [hb] at fb; cases fb
  rw [hh] at fh; cases fh
  refine ⟨_, _, _, hl, hb, hh, fun xs => ?_, ?_⟩
  · have := proto_split hQ hK ⟨rfl, rfl⟩ ⟨rfl, rfl⟩ ⟨rfl, rfl⟩ sl sb sh pl pb ph hQi xs
    have e : (1 / Q ^ 2 - 2) / (1 / Q) ^ 2 = 1 - 2 * Q ^ 2 := by field_simp
    rwa [e] at this
  · rw [proto_iff hQ hK ⟨rfl, rfl⟩ ⟨rfl, rfl⟩ ⟨rfl, rfl⟩ sl sb sh pl pb ph hQi (by dsimp only; positivity)]
    exact half_iff hQ

example : ∃ l h, Zoelzer.lowPass 1000 48000 (1 / Real.sqrt 2) = .ok l ∧
    Zoelzer.highPass 1000 48000 (1 / Real.sqrt 2) = .ok h ∧
    Tendsto (fun m => frameEnergy (l.filter ([1, -2, 3] ++ List.replicate m 0)).2 +
      frameEnergy (h.filter ([1, -2, 3] ++ List.replicate m 0)).2) atTop (nhds (frameEnergy [1, -2, 3])) := by
  obtain ⟨l, b, h, h1, -, h2, -, h3⟩ := C149_zoelzer_energy 1000 48000 (1 / Real.sqrt 2) (by norm_num) (by norm_num)
    (by positivity)
  exact ⟨l, h, h1, h2, h3.mpr rfl _⟩

end Edsp.C149
