import Verif.Lemmas.Ramp
import Verif.Props.C155_Polarity

/-!
# C157: how late slow changes come out

Every design answers a signal that rises at a constant speed with a signal of the same kind, late by a number of samples
that depends on cutoff, quality and order only: this is the delay to compensate when a filtered control signal is compared
with the unfiltered one.  High-passes remove the ramp, band-passes report its speed.
-/

namespace Edsp.Props

open Edsp Edsp.Spec Edsp.LayoutL Edsp.BilinearL Edsp.AnalogL Edsp.PolarityL Edsp.RampL

theorem answers_congr {filt : List ℝ → List ℝ} {x y y' : ℕ → ℝ} (h : Answers filt x y) (e : ∀ n, y n = y' n) :
    Answers filt x y' := by
  obtain rfl : y = y' := funext e
  exact h

/-- Two limits of one device agree if both are constant. -/
theorem answers_constant_unique {filt : List ℝ → List ℝ} {x : ℕ → ℝ} {a b : ℝ} (ha : Answers filt x (constant a))
    (hb : Answers filt x (constant b)) : a = b := by
  obtain ⟨D, ρ, h0, h1, h⟩ := ha
  obtain ⟨E, r, k0, k1, k⟩ := hb
  have key : ∀ n : ℕ, |a - b| ≤ D * ρ ^ n + E * r ^ n := by
    intro n
    obtain ⟨y, hy, hya⟩ := (h (n + 1)).2 n (by omega)
    obtain ⟨z, hz, hzb⟩ := (k (n + 1)).2 n (by omega)
    rw [hy] at hz
    obtain rfl := Option.some.inj hz
    calc |a - b| = |(y - b) - (y - a)| := by congr 1; ring
      _ ≤ |y - b| + |y - a| := abs_sub _ _
      _ ≤ D * ρ ^ n + E * r ^ n := by
        have h1 : |y - a| ≤ D * ρ ^ n := hya
        have h2 : |y - b| ≤ E * r ^ n := hzb
        linarith
  have hl : Filter.Tendsto (fun n : ℕ => D * ρ ^ n + E * r ^ n) Filter.atTop (nhds (D * 0 + E * 0)) :=
    ((tendsto_pow_atTop_nhds_zero_of_lt_one h0 h1).const_mul D).add
      ((tendsto_pow_atTop_nhds_zero_of_lt_one k0 k1).const_mul E)
  have := ge_of_tendsto' hl key
  have h3 : |a - b| ≤ 0 := by simpa using this
  have := abs_nonpos_iff.mp h3
  linarith

/-! ## Second-order designs -/

/-- What a bilinear image does to ramps. -/
theorem bilinear_answers {f : Biquad ℝ} (hs : f.stability = true) {fc fs : ℝ} (h0 : 0 < fc) (h1 : fc < fs / 2)
    {n d : ℝ × ℝ × ℝ} (hb : BilinearOf f (Real.tan (Real.pi * fc / fs)) n d)
    (d2 : 0 ≤ d.1) (d1 : 0 ≤ d.2.1) (d0 : 0 < d.2.2) (s : ℝ × ℝ) (α β : ℝ) :
    Answers (fromState f s) (ramp α β) (ramp (n.2.2 / d.2.2 * α) (n.2.2 / d.2.2 * β +
      α * ((n.2.1 * d.2.2 - n.2.2 * d.2.1) / (2 * Real.tan (Real.pi * fc / fs) * d.2.2 ^ 2)))) := by
  obtain ⟨K, -, hK, -, -, rfl⟩ := zoelzer_K h0 h1
  obtain ⟨e1, e2⟩ := bilinear_ramp hs hK hb d2 d1 d0
  have := section_ramp hs s.1 s.2 α β
  rw [e1, e2] at this
  exact this

/-- **C157, low-passes** (RBJ and Zoelzer), from every state: every ramp comes out as it is, late by
`1 / (2 Q tan (π fc / fs))` samples. -/
theorem C157_low_passes (fc fs Q : ℝ) (h0 : 0 < fc) (h1 : fc < fs / 2) (hQ : 0 < Q) :
    ∀ design ∈ [Rbj.lowPass, Zoelzer.lowPass], ∃ f, design fc fs Q = .ok f ∧
      ∀ s, DelaysRamps (fromState f s) 1 (1 / (2 * Q * Real.tan (Real.pi * fc / fs))) := by
  obtain ⟨-, -, hK, -, -, rfl⟩ := zoelzer_K h0 h1
  have key : ∀ f : Biquad ℝ, f.stability = true → BilinearOf f (Real.tan (Real.pi * fc / fs)) (0, 0, 1) (1, 1 / Q, 1) →
      ∀ s, DelaysRamps (fromState f s) 1 (1 / (2 * Q * Real.tan (Real.pi * fc / fs))) := by
    intro f hs hb s α β
    refine answers_congr (bilinear_answers hs h0 h1 hb (by norm_num) (by positivity) (by norm_num) s α β) fun k => ?_
    simp only [ramp]
    field_simp
    ring
  intro design hd
  simp only [List.mem_cons, List.not_mem_nil, or_false] at hd
  rcases hd with rfl | rfl
  · obtain ⟨f, hf, hs, -⟩ := C16_low_pass fc fs Q h0 h1 hQ
    obtain ⟨g, hg, hb⟩ := C16_low_pass_prototype fc fs Q h0 h1 hQ
    obtain rfl := same_ok hf hg
    exact ⟨f, hf, key f hs hb⟩
  · obtain ⟨f, hf, hs, -⟩ := C17_low_pass fc fs Q h0 h1 hQ
    obtain ⟨g, hg, hb⟩ := C17_low_pass_prototype fc fs Q h0 h1 hQ
    obtain rfl := same_ok hf hg
    exact ⟨f, hf, key f hs hb⟩

/-- With a cutoff of a quarter of the sampling rate and quality 1/2 the delay is one sample. -/
example : ∃ f, Rbj.lowPass 12000 48000 (1 / 2) = .ok f ∧
    Answers (fromState f (3, 4)) (ramp 5 7) (fun n => 1 * (5 * ((n : ℝ) - 1) + 7)) := by
  obtain ⟨f, hf, h⟩ := C157_low_passes 12000 48000 (1 / 2) (by norm_num) (by norm_num) (by norm_num) Rbj.lowPass (by simp)
  refine ⟨f, hf, ?_⟩
  have := h (3, 4) 5 7
  rw [show Real.pi * 12000 / 48000 = Real.pi / 4 by ring, Real.tan_pi_div_four] at this
  norm_num at this ⊢
  exact this

/-- **C157, high-passes** (RBJ and Zoelzer): every ramp dies out, however steep. -/
theorem C157_high_passes (fc fs Q : ℝ) (h0 : 0 < fc) (h1 : fc < fs / 2) (hQ : 0 < Q) :
    ∀ design ∈ [Rbj.highPass, Zoelzer.highPass], ∃ f, design fc fs Q = .ok f ∧
      ∀ s α β, Answers (fromState f s) (ramp α β) (constant 0) := by
  have key : ∀ f : Biquad ℝ, f.stability = true → BilinearOf f (Real.tan (Real.pi * fc / fs)) (1, 0, 0) (1, 1 / Q, 1) →
      ∀ s α β, Answers (fromState f s) (ramp α β) (constant 0) := by
    intro f hs hb s α β
    refine answers_congr (bilinear_answers hs h0 h1 hb (by norm_num) (by positivity) (by norm_num) s α β) fun k => ?_
    simp [ramp, constant]
  intro design hd
  simp only [List.mem_cons, List.not_mem_nil, or_false] at hd
  rcases hd with rfl | rfl
  · obtain ⟨f, hf, hs, -⟩ := C16_high_pass fc fs Q h0 h1 hQ
    obtain ⟨g, hg, hb⟩ := C16_high_pass_prototype fc fs Q h0 h1 hQ
    obtain rfl := same_ok hf hg
    exact ⟨f, hf, key f hs hb⟩
  · obtain ⟨f, hf, hs, -⟩ := C17_high_pass fc fs Q h0 h1 hQ
    obtain ⟨g, hg, hb⟩ := C17_high_pass_prototype fc fs Q h0 h1 hQ
    obtain rfl := same_ok hf hg
    exact ⟨f, hf, key f hs hb⟩

example : ∃ f, Zoelzer.highPass 20 48000 2 = .ok f ∧ Answers (fromState f (1, 1)) (ramp 1000 5) (constant 0) := by
  obtain ⟨f, hf, h⟩ := C157_high_passes 20 48000 2 (by norm_num) (by norm_num) (by norm_num) Zoelzer.highPass (by simp)
  exact ⟨f, hf, h (1, 1) 1000 5⟩

/-- **C157, band-passes**: a ramp comes out as a constant proportional to its speed; the factor is
`1 / (2 tan (π fc / fs))` for the RBJ design and `1 / (2 Q tan (π fc / fs))` for the Zoelzer design. -/
theorem C157_band_passes (fc fs Q : ℝ) (h0 : 0 < fc) (h1 : fc < fs / 2) (hQ : 0 < Q) :
    ∀ q ∈ [(Rbj.bandPass, 1), (Zoelzer.bandPass, Q)], ∃ f, q.1 fc fs Q = .ok f ∧
      ∀ s α β, Answers (fromState f s) (ramp α β) (constant (α / (2 * q.2 * Real.tan (Real.pi * fc / fs)))) := by
  obtain ⟨-, -, hK, -, -, rfl⟩ := zoelzer_K h0 h1
  have key : ∀ (f : Biquad ℝ) (b : ℝ), 0 < b → f.stability = true →
      BilinearOf f (Real.tan (Real.pi * fc / fs)) (0, 1 / b, 0) (1, 1 / Q, 1) →
      ∀ s α β, Answers (fromState f s) (ramp α β) (constant (α / (2 * b * Real.tan (Real.pi * fc / fs)))) := by
    intro f b hb0 hs hb s α β
    refine answers_congr (bilinear_answers hs h0 h1 hb (by norm_num) (by positivity) (by norm_num) s α β) fun k => ?_
    simp only [ramp, constant]
    field_simp
    ring
  intro q hq
  simp only [List.mem_cons, List.not_mem_nil, or_false] at hq
  rcases hq with rfl | rfl
  · obtain ⟨f, hf, hs, -⟩ := C16_band_pass fc fs Q h0 h1 hQ
    obtain ⟨g, hg, hb⟩ := C16_band_pass_prototype fc fs Q h0 h1 hQ
    obtain rfl := same_ok hf hg
    exact ⟨f, hf, key f 1 one_pos hs (by simpa using hb)⟩
  · obtain ⟨f, hf, hs, -⟩ := C17_band_pass fc fs Q h0 h1 hQ
    obtain ⟨g, hg, hb⟩ := C17_band_pass_prototype fc fs Q h0 h1 hQ
    obtain rfl := same_ok hf hg
    exact ⟨f, hf, key f Q hQ hs hb⟩

example : ∃ f, Rbj.bandPass 12000 48000 3 = .ok f ∧ Answers (fromState f (0, 0)) (ramp 4 9) (constant 2) := by
  obtain ⟨f, hf, h⟩ := C157_band_passes 12000 48000 3 (by norm_num) (by norm_num) (by norm_num) (Rbj.bandPass, 1) (by simp)
  refine ⟨f, hf, ?_⟩
  have := h (0, 0) 4 9
  rw [show Real.pi * 12000 / 48000 = Real.pi / 4 by ring, Real.tan_pi_div_four] at this
  norm_num at this
  exact this

/-- **C157, all-pass**: twice the delay of the low-passes. -/
theorem C157_all_pass (fc fs Q : ℝ) (h0 : 0 < fc) (h1 : fc < fs / 2) (hQ : 0 < Q) :
    ∃ f, Rbj.allPass fc fs Q = .ok f ∧
      ∀ s, DelaysRamps (fromState f s) 1 (1 / (Q * Real.tan (Real.pi * fc / fs))) := by
  obtain ⟨-, -, hK, -, -, rfl⟩ := zoelzer_K h0 h1
  obtain ⟨f, hf, hs, -⟩ := C16_all_pass fc fs Q h0 h1 hQ
  obtain ⟨g, hg, hb⟩ := C16_all_pass_prototype fc fs Q h0 h1 hQ
  obtain rfl := same_ok hf hg
  refine ⟨f, hf, fun s α β => ?_⟩
  refine answers_congr (bilinear_answers hs h0 h1 hb (by norm_num) (by positivity) (by norm_num) s α β) fun k => ?_
  simp only [ramp]
  field_simp
  ring

example : ∃ f, Rbj.allPass 12000 48000 (1 / 2) = .ok f ∧
    Answers (fromState f (3, 4)) (ramp 5 7) (fun n => 1 * (5 * ((n : ℝ) - 2) + 7)) := by
  obtain ⟨f, hf, h⟩ := C157_all_pass 12000 48000 (1 / 2) (by norm_num) (by norm_num) (by norm_num)
  refine ⟨f, hf, ?_⟩
  have := h (3, 4) 5 7
  rw [show Real.pi * 12000 / 48000 = Real.pi / 4 by ring, Real.tan_pi_div_four] at this
  norm_num at this ⊢
  exact this

/-- **C157, shelves** (RBJ): with `A = 10^(G/40)`, the low shelf makes a ramp `A²` times as high and late by
`(A - 1) / (2 Q √A tan (π fc / fs))` samples (early for a cut); the high shelf keeps its height and makes it early by
the same time. -/
theorem C157_shelves (fc fs Q G A : ℝ) (h0 : 0 < fc) (h1 : fc < fs / 2) (hQ : 0 < Q) (hA : A = (10 : ℝ) ^ (G / 40)) :
    (∃ f, Rbj.lowShelf fc fs Q G = .ok f ∧ ∀ s, DelaysRamps (fromState f s) (A ^ 2)
      ((A - 1) / (2 * Q * Real.sqrt A * Real.tan (Real.pi * fc / fs)))) ∧
    ∃ f, Rbj.highShelf fc fs Q G = .ok f ∧ ∀ s, DelaysRamps (fromState f s) 1
      (-((A - 1) / (2 * Q * Real.sqrt A * Real.tan (Real.pi * fc / fs)))) := by
  have hpos : 0 < A := by rw [hA]; exact Real.rpow_pos_of_pos (by norm_num) _
  have hr : 0 < Real.sqrt A := Real.sqrt_pos.mpr hpos
  have hrr : Real.sqrt A ^ 2 = A := Real.sq_sqrt hpos.le
  obtain ⟨-, -, hK, -, -, rfl⟩ := zoelzer_K h0 h1
  constructor
  · obtain ⟨f, hf, hs, -⟩ := C16_low_shelf fc fs Q G h0 h1 hQ
    obtain ⟨g, hg, hb⟩ := C16_low_shelf_prototype fc fs Q h0 h1 hQ G A hA
    obtain rfl := same_ok hf hg
    refine ⟨f, hf, fun s α β => ?_⟩
    refine answers_congr (bilinear_answers hs h0 h1 hb hpos.le (by positivity) (by norm_num) s α β) fun k => ?_
    simp only [ramp]
    set r := Real.sqrt A
    rw [← hrr]
    field_simp
    ring
  · obtain ⟨f, hf, hs, -⟩ := C16_high_shelf fc fs Q G h0 h1 hQ
    obtain ⟨g, hg, hb⟩ := C16_high_shelf_prototype fc fs Q h0 h1 hQ G A hA
    obtain rfl := same_ok hf hg
    refine ⟨f, hf, fun s α β => ?_⟩
    refine answers_congr (bilinear_answers hs h0 h1 hb (by norm_num) (by positivity) hpos s α β) fun k => ?_
    simp only [ramp]
    set r := Real.sqrt A
    rw [← hrr]
    field_simp
    ring

example : ∃ f, Rbj.lowShelf 1000 48000 1 40 = .ok f ∧ DelaysRamps (fromState f (0, 0)) 100
    (9 / (2 * 1 * Real.sqrt 10 * Real.tan (Real.pi * 1000 / 48000))) := by
  obtain ⟨⟨f, hf, h⟩, -⟩ := C157_shelves 1000 48000 1 40 10 (by norm_num) (by norm_num) (by norm_num) (by norm_num)
  refine ⟨f, hf, ?_⟩
  have := h (0, 0)
  norm_num at this ⊢
  exact this

/-! ## Butterworth designs of every order -/

theorem lag_conj {K : ℝ} (hK : 0 < K) {p : ℂ} (hp : p.re < 0) (hp1 : p.re ^ 2 + p.im ^ 2 = 1) :
    lag (secConj ((1 : ℝ) * lp K (some p), (1 : ℝ) * lp K (Pt.conj Option.none))) = -p.re / K := by
  have hz : lp K (Pt.conj Option.none) = -1 := rfl
  have e : lp K (some p) = (1 + K * p) / (1 - K * p) := rfl
  set P := lp K (some p) with hP
  have hD : 0 < (1 - K * p.re) ^ 2 + (K * p.im) ^ 2 := by
    have : 0 < 1 - K * p.re := by nlinarith
    positivity
  have hn : Complex.normSq (1 - K * p) = (1 - K * p.re) ^ 2 + (K * p.im) ^ 2 := by
    simp [Complex.normSq_apply]; ring
  have hre : P.re = (1 - K ^ 2) / ((1 - K * p.re) ^ 2 + (K * p.im) ^ 2) := by
    rw [e, Complex.div_re, hn, ← add_div]
    congr 1
    simp
    linear_combination (-K ^ 2) * hp1
  have hsq : P.re * P.re + P.im * P.im = ((1 + K * p.re) ^ 2 + (K * p.im) ^ 2) / ((1 - K * p.re) ^ 2 + (K * p.im) ^ 2) := by
    rw [← Complex.normSq_apply, e, map_div₀, hn]
    congr 1
    simp [Complex.normSq_apply]; ring
  unfold lag secConj
  simp only [hz, Complex.ofReal_one, one_mul, Complex.neg_re, Complex.one_re, Complex.neg_im, Complex.one_im]
  rw [hsq, hre]
  set D := (1 - K * p.re) ^ 2 + (K * p.im) ^ 2 with hDd
  have hden : 1 + -2 * ((1 - K ^ 2) / D) + ((1 + K * p.re) ^ 2 + (K * p.im) ^ 2) / D = 4 * K ^ 2 / D := by
    field_simp
    rw [hDd]
    linear_combination (2 * K ^ 2) * hp1
  have hnum : -2 * ((1 - K ^ 2) / D) + 2 * (((1 + K * p.re) ^ 2 + (K * p.im) ^ 2) / D) = (4 * K ^ 2 + 4 * K * p.re) / D := by
    field_simp
    linear_combination (2 * K ^ 2) * hp1
  rw [hden, hnum, div_div_div_cancel_right₀ hD.ne']
  field_simp
  ring

theorem lag_single {K : ℝ} (hK : 0 < K) :
    lag (secSingle ((1 : ℝ) * lp K (some ((-1 : ℝ) : ℂ)), (1 : ℝ) * lp K (Option.map Complex.ofReal none))) = 1 / (2 * K) := by
  have hz : lp K (Option.map Complex.ofReal none) = -1 := rfl
  have e : lp K (some ((-1 : ℝ) : ℂ)) = (((1 - K) / (1 + K) : ℝ) : ℂ) := by unfold lp; push_cast; ring
  unfold lag secSingle
  rw [e, hz]
  simp only [Complex.ofReal_one, one_mul, Complex.ofReal_re, Complex.neg_re, Complex.one_re]
  have h1 : (1 + -((1 - K) / (1 + K)) + 0) = 2 * K / (1 + K) := by field_simp; ring
  rw [h1]
  field_simp
  ring

theorem sum_odd_sines (θ : ℝ) (m : ℕ) :
    ((List.range m).map fun k : ℕ => Real.sin ((2 * (k : ℝ) + 1) * θ)).sum * Real.sin θ = Real.sin (m * θ) ^ 2 := by
  induction m with
  | zero => simp
  | succ m ih =>
    rw [List.range_succ, List.map_append, List.sum_append, add_mul, ih]
    simp only [List.map_cons, List.map_nil, List.sum_cons, List.sum_nil, add_zero]
    push_cast
    rw [show (2 * (m : ℝ) + 1) * θ = m * θ + (m * θ + θ) by ring, show ((m : ℝ) + 1) * θ = m * θ + θ by ring]
    rw [Real.sin_add (m * θ) (m * θ + θ), Real.sin_add (m * θ) θ, Real.cos_add (m * θ) θ]
    have h1 := Real.sin_sq_add_cos_sq θ
    have h2 := Real.sin_sq_add_cos_sq (m * θ)
    set S := Real.sin (m * θ)
    set C := Real.cos (m * θ)
    set s := Real.sin θ
    set c := Real.cos θ
    linear_combination (-S ^ 2) * h1

theorem butter_sum {n : ℕ} (hn : 1 ≤ n) {K : ℝ} (hK : 0 < K) :
    ((List.range (n / 2)).map fun k => -(Butterworth.pole n k).re / K).sum +
      ((oddSingle n (-1) none).toList.map fun _ => 1 / (2 * K)).sum = 1 / (2 * Real.sin (Real.pi / (2 * n)) * K) := by
  have hn0 : (0 : ℝ) < n := by exact_mod_cast hn
  have hn1 : (1 : ℝ) ≤ n := by exact_mod_cast hn
  have hpi := Real.pi_pos
  set θ := Real.pi / (2 * n) with hθ
  have hs : 0 < Real.sin θ := by
    apply Real.sin_pos_of_pos_of_lt_pi (by positivity)
    rw [hθ, div_lt_iff₀ (by positivity)]
    nlinarith
  have e : ∀ k, -(Butterworth.pole n k).re / K = Real.sin ((2 * (k : ℝ) + 1) * θ) * (1 / K) := by
    intro k
    rw [butter_pole, Complex.mul_re, Complex.I_re, Complex.I_im, (bq_parts n k).2]
    rw [hθ, mul_div_assoc]
    ring
  simp only [e]
  rw [List.sum_map_mul_right]
  have hsum := sum_odd_sines θ (n / 2)
  set S := ((List.range (n / 2)).map fun k : ℕ => Real.sin ((2 * (k : ℝ) + 1) * θ)).sum
  have hsin : Real.sin (((n / 2 : ℕ) : ℝ) * θ) ^ 2 = 1 / 2 - Real.cos (2 * (((n / 2 : ℕ) : ℝ) * θ)) / 2 := Real.sin_sq_eq_half_sub _
  rw [hsin] at hsum
  have hθn : 2 * (n : ℝ) * θ = Real.pi := by rw [hθ]; field_simp
  unfold oddSingle
  rcases Nat.mod_two_eq_zero_or_one n with h | h
  · have hd : 2 * (((n / 2 : ℕ) : ℝ) * θ) = Real.pi / 2 := by
      have : (n : ℝ) = 2 * ((n / 2 : ℕ) : ℝ) := by exact_mod_cast (by omega : n = 2 * (n / 2))
      rw [← hθn, this]; ring
    rw [hd, Real.cos_pi_div_two] at hsum
    rw [if_neg (by omega)]
    simp only [Option.toList, List.map_nil, List.sum_nil, add_zero]
    field_simp
    linarith
  · have hd : 2 * (((n / 2 : ℕ) : ℝ) * θ) = Real.pi / 2 - θ := by
      have : (n : ℝ) = 2 * ((n / 2 : ℕ) : ℝ) + 1 := by exact_mod_cast (by omega : n = 2 * (n / 2) + 1)
      rw [← hθn, this]; ring
    rw [hd, Real.cos_pi_div_two_sub] at hsum
    rw [if_pos h]
    simp only [Option.toList, List.map_cons, List.map_nil, List.sum_cons, List.sum_nil, add_zero]
    field_simp
    linarith

/-- **C157, Butterworth low-passes** of every order: every ramp comes out as it is, late by
`1 / (2 sin (π / (2 n)) tan (π fc / fs))` samples. -/
theorem C157_butterworth_low (dbg : Bool) {N n : Nat} (hn : 1 ≤ n) (hN : n ≤ N) (hd : n % 2 = 1 → dbg = false)
    {fs fc : ℝ} (h0 : 0 < fc) (h1 : fc < fs / 2) :
    ∃ c, Butterworth.lowPass dbg N n fs fc = .ok c ∧
      DelaysRamps (fromCascade c) 1 (1 / (2 * Real.sin (Real.pi / (2 * n)) * Real.tan (Real.pi * fc / fs))) := by
  obtain ⟨⟨c, hc, hst, κ, g0, gs, hκ, hL, hact⟩, -⟩ := butter_parts dbg hn hN hd h0 h1
  obtain ⟨c', hc', hcon⟩ := C155_butterworth_low dbg hn hN hd h0 h1
  obtain rfl := same_ok hc hc'
  obtain ⟨ht, -⟩ := cutoff_tan h0 h1
  rw [show Real.pi * fc / fs = Real.pi * (fc / fs) by ring]
  set K := Real.tan (Real.pi * (fc / fs))
  have hf1 : facs (active c) = 1 := by
    have a := cascade_ramp hst 0 1
    have b := (hcon 1 0).1
    have e0 : ramp 0 1 = constant 1 := by funext k; simp [ramp, constant]
    have e1 : ramp (facs (active c) * 0) (facs (active c) * 1 + 0 * offs (active c)) = constant (facs (active c)) := by
      funext k; simp [ramp, constant]
    rw [e0, e1] at a
    exact answers_constant_unique a b
  have hκ0 : κ ≠ 0 := by
    rintro rfl
    rw [hact, facs, applyScale_eq] at hf1
    simp [fac] at hf1
  have hB : ∀ g ∈ g0 :: gs, g.b0 + g.b1 + g.b2 ≠ 0 := by
    intro g hg
    rw [← hL, List.mem_append, List.mem_map, List.mem_map] at hg
    rcases hg with ⟨k, -, rfl⟩ | ⟨q, hq, rfl⟩
    · have hz : lp K (Pt.conj Option.none) = -1 := rfl
      simp only [secConj, hz, Complex.ofReal_one, one_mul, Complex.neg_re, Complex.one_re, Complex.neg_im, Complex.one_im]
      norm_num
    · have hq2 : q.2 = none := (single_none (r := -1) (by norm_num) q (by simpa using hq)).2
      have hz : lp K (Option.map Complex.ofReal none) = -1 := rfl
      rw [hq2, hz]
      simp only [secSingle, Complex.ofReal_one, one_mul, Complex.neg_re, Complex.one_re]
      norm_num
  have hoff : offs (active c) = -(facs (active c) * ((active c).map lag).sum) := by
    apply offs_lag
    intro f hf
    refine ⟨den_ne (hst f hf), ?_⟩
    rw [hact] at hf
    rcases List.mem_cons.mp hf with rfl | hf
    · rw [applyScale_eq]
      dsimp only
      rw [show g0.b0 * κ + g0.b1 * κ + g0.b2 * κ = (g0.b0 + g0.b1 + g0.b2) * κ by ring]
      exact mul_ne_zero (hB g0 (by simp)) hκ0
    · exact hB f (by simp [hf])
  have hlag : ((active c).map lag).sum = 1 / (2 * Real.sin (Real.pi / (2 * n)) * K) := by
    rw [hact, List.map_cons, lag_scale _ hκ0, ← List.map_cons, ← hL, List.map_append, List.sum_append, List.map_map,
      List.map_map, ← butter_sum hn ht]
    congr 1
    · congr 1
      refine List.map_congr_left fun k hk => ?_
      have hk' := List.mem_range.mp hk
      refine lag_conj ht (butter_pole_lhp hk').1 ?_
      rw [butter_pole, Complex.mul_re, Complex.mul_im, Complex.I_re, Complex.I_im, (bq_parts n k).1, (bq_parts n k).2]
      have := Real.sin_sq_add_cos_sq ((2 * (k : ℝ) + 1) * Real.pi / (2 * n))
      linarith
    · congr 1
      refine List.map_congr_left fun q hq => ?_
      obtain rfl : q = (-1, none) := by
        have : oddSingle n (-1) none = some q := by simpa using hq
        unfold oddSingle at this
        split at this
        · exact (Option.some.inj this).symm
        · cases this
      exact lag_single ht
  refine ⟨c, hc, fun α β => answers_congr (cascade_ramp hst α β) fun k => ?_⟩
  rw [hoff, hf1, hlag]
  unfold ramp
  ring

/-- A cutoff of a quarter of the sampling rate, order 3: one sample. -/
example : ∃ c, Butterworth.lowPass false 8 3 48000 12000 = .ok c ∧
    Answers (fromCascade c) (ramp 2 5) (fun n => 1 * (2 * ((n : ℝ) - 1) + 5)) := by
  obtain ⟨c, hc, h⟩ := C157_butterworth_low false (N := 8) (n := 3) (by norm_num) (by norm_num) (by simp)
    (fs := 48000) (fc := 12000) (by norm_num) (by norm_num)
  refine ⟨c, hc, ?_⟩
  have := h 2 5
  rw [show Real.pi * 12000 / 48000 = Real.pi / 4 by ring, Real.tan_pi_div_four,
    show Real.pi / (2 * (3 : ℕ)) = Real.pi / 6 by push_cast; ring, Real.sin_pi_div_six] at this
  norm_num at this ⊢
  exact this

/-- **C157, Butterworth high-passes** of every order from 2: every ramp dies out. -/
theorem C157_butterworth_high (dbg : Bool) {N n : Nat} (hn : 2 ≤ n) (hN : n ≤ N) (hd : n % 2 = 1 → dbg = false)
    {fs fc : ℝ} (h0 : 0 < fc) (h1 : fc < fs / 2) :
    ∃ c, Butterworth.highPass dbg N n fs fc = .ok c ∧ ∀ α β, Answers (fromCascade c) (ramp α β) (constant 0) := by
  obtain ⟨-, c, hc, hst, κ, g0, gs, hκ, hL, hact⟩ := butter_parts dbg (by omega) hN hd h0 h1
  refine ⟨c, hc, fun α β => answers_congr (cascade_ramp hst α β) fun k => ?_⟩
  obtain ⟨m, hm⟩ : ∃ m, n / 2 = m + 1 := ⟨n / 2 - 1, by omega⟩
  rw [hm, List.range_succ_eq_map, List.map_cons, List.cons_append, List.cons.injEq] at hL
  have hz : lp (1 / Real.tan (Real.pi * (fc / fs))) (Pt.conj Option.none) = -1 := rfl
  obtain ⟨hg, -⟩ := hL
  have hf : fac (applyScale g0 κ) = 0 := by
    rw [applyScale_eq, ← hg]
    unfold fac secConj
    rw [hz]
    simp
    left; ring
  have ho : off (applyScale g0 κ) = 0 := by
    unfold off
    rw [hf, applyScale_eq, ← hg]
    unfold secConj
    rw [hz]
    simp
  rw [hact, facs, offs, hf, ho]
  simp [ramp, constant]

example : ∃ c, Butterworth.highPass false 8 5 48000 30 = .ok c ∧ Answers (fromCascade c) (ramp 100 1) (constant 0) := by
  obtain ⟨c, hc, h⟩ := C157_butterworth_high false (N := 8) (n := 5) (by norm_num) (by norm_num) (by simp)
    (fs := 48000) (fc := 30) (by norm_num) (by norm_num)
  exact ⟨c, hc, h 100 1⟩

end Edsp.Props
