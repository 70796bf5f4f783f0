import Verif.Props.C150_Shape

/-! # C150: resonance and bandwidth of the second-order designs -/

namespace Edsp.C150

open Edsp Edsp.Spec Edsp.Props Edsp.C130

theorem quad_form {Q : ℝ} (hQ : 0 < Q) (x : ℝ) :
    (1 - x ^ 2) ^ 2 + (x / Q) ^ 2 = (x ^ 2 - (1 - 1 / (2 * Q ^ 2))) ^ 2 + (1 / Q ^ 2 - 1 / (4 * Q ^ 4)) := by
  field_simp
  ring

theorem quad_pos {Q : ℝ} (hQ : 0 < Q) {x : ℝ} (hx : 0 < x) : 0 < (1 - x ^ 2) ^ 2 + (x / Q) ^ 2 := by
  positivity

/-- The response common to the low-passes, as a function of the relative frequency. -/
noncomputable def bell (Q x : ℝ) : ℝ := 1 / Real.sqrt ((1 - x ^ 2) ^ 2 + (x / Q) ^ 2)

theorem bell_lt {Q x y : ℝ} (hQ : 0 < Q) (hy : 0 < y)
    (h : |y ^ 2 - (1 - 1 / (2 * Q ^ 2))| < |x ^ 2 - (1 - 1 / (2 * Q ^ 2))|) : bell Q x < bell Q y := by
  unfold bell
  refine one_div_lt_one_div_of_lt (Real.sqrt_pos.mpr (quad_pos hQ hy))
    (Real.sqrt_lt_sqrt (quad_pos hQ hy).le ?_)
  rw [quad_form hQ x, quad_form hQ y]
  have := sq_lt_sq.mpr h
  linarith

theorem bell_peak {Q : ℝ} (hQ : 0 < Q) (h : 1 < 2 * Q ^ 2) :
    bell Q (Real.sqrt (1 - 1 / (2 * Q ^ 2))) = Q / Real.sqrt (1 - 1 / (4 * Q ^ 2)) := by
  have hs : 0 ≤ 1 - 1 / (2 * Q ^ 2) := by rw [sub_nonneg, div_le_one (by positivity)]; exact h.le
  unfold bell
  rw [quad_form hQ, Real.sq_sqrt hs, sub_self]
  have e : (0 : ℝ) ^ 2 + (1 / Q ^ 2 - 1 / (4 * Q ^ 4)) = (1 - 1 / (4 * Q ^ 2)) / Q ^ 2 := by
    field_simp; ring
  rw [e, Real.sqrt_div' _ (by positivity), Real.sqrt_sq hQ.le, one_div_div]

theorem bell_falls {Q x y : ℝ} (hQ : 0 < Q) (hx : 0 < x) (hxy : x < y) (h : 1 - 1 / (2 * Q ^ 2) ≤ x ^ 2) :
    bell Q y < bell Q x := by
  have h2 : x ^ 2 < y ^ 2 := pow_lt_pow_left₀ hxy hx.le two_ne_zero
  refine bell_lt hQ hx ?_
  rw [abs_of_nonneg (by linarith), abs_of_nonneg (by linarith)]
  linarith

theorem bell_rises {Q x y : ℝ} (hQ : 0 < Q) (hx : 0 < x) (hxy : x < y) (h : y ^ 2 ≤ 1 - 1 / (2 * Q ^ 2)) :
    bell Q x < bell Q y := by
  have h2 : x ^ 2 < y ^ 2 := pow_lt_pow_left₀ hxy hx.le two_ne_zero
  refine bell_lt hQ (hx.trans hxy) ?_
  rw [abs_of_nonpos (by linarith), abs_of_nonpos (by linarith)]
  linarith

theorem low_gain {f : Biquad ℝ} {K Q : ℝ} (hQ : 0 < Q) (hK : 0 < K) (h : BilinearOf f K (0, 0, 1) (1, 1 / Q, 1))
    {w : ℝ} (h0 : 0 < w) (h1 : w < Real.pi) : GainAt f w (bell Q (Real.tan (w / 2) / K)) := by
  obtain ⟨ht, hg⟩ := proto_gain h hK (show (1 / Q) ≠ 0 by positivity) h0 h1
  convert hg using 1
  unfold bell
  rw [Real.sqrt_div' _ (by positivity)]
  have e : (1 - 0 * (Real.tan (w / 2) / K) ^ 2) ^ 2 + (0 * (Real.tan (w / 2) / K)) ^ 2 = 1 := by ring
  simp only []
  rw [e, Real.sqrt_one]
  congr 2
  ring

theorem high_gain {f : Biquad ℝ} {K Q : ℝ} (hQ : 0 < Q) (hK : 0 < K) (h : BilinearOf f K (1, 0, 0) (1, 1 / Q, 1))
    {w : ℝ} (h0 : 0 < w) (h1 : w < Real.pi) : GainAt f w (bell Q (K / Real.tan (w / 2))) := by
  obtain ⟨ht, hg⟩ := proto_gain h hK (show (1 / Q) ≠ 0 by positivity) h0 h1
  have htan := tan_pos h0 h1
  convert hg using 1
  unfold bell
  have e : ∀ A : ℝ, 0 ≤ A → 1 / Real.sqrt A = Real.sqrt (1 / A) := fun A hA => by
    rw [Real.sqrt_div' _ hA, Real.sqrt_one]
  rw [e _ (quad_pos hQ (by positivity)).le]
  congr 1
  simp only []
  set t := Real.tan (w / 2)
  have d1 : (1 - (K / t) ^ 2) ^ 2 + (K / t / Q) ^ 2 ≠ 0 := (quad_pos hQ (by positivity)).ne'
  have d2 : (1 - 1 * (t / K) ^ 2) ^ 2 + (1 / Q * (t / K)) ^ 2 ≠ 0 := by positivity
  rw [div_eq_div_iff d1 d2]
  field_simp
  ring

/-- **C150, resonance of the low-passes.** With `2 Q² ≤ 1` the gain of the second-order low-pass falls with the
frequency.  With `2 Q² > 1` it has one peak, below the cutoff, of height `Q / √(1 - 1/(4Q²))`: it rises before and
falls behind it. -/
theorem C150_low_resonance (design : ℝ → ℝ → ℝ → Except Fault (Biquad ℝ))
    (hdes : design = Rbj.lowPass ∨ design = Zoelzer.lowPass) (fc fs Q : ℝ) (h0 : 0 < fc) (h1 : fc < fs / 2)
    (hQ : 0 < Q) : ∃ f, design fc fs Q = .ok f ∧
      (2 * Q ^ 2 ≤ 1 → ∀ w w' g g', 0 < w → w < w' → w' < Real.pi → GainAt f w g → GainAt f w' g' → g' < g) ∧
      (1 < 2 * Q ^ 2 → ∃ p, 0 < p ∧ p < 2 * Real.pi * fc / fs ∧ GainAt f p (Q / Real.sqrt (1 - 1 / (4 * Q ^ 2))) ∧
        ∀ w w' g g', 0 < w → w < w' → w' < Real.pi → GainAt f w g → GainAt f w' g' →
          (w' ≤ p → g < g') ∧ (p ≤ w → g' < g)) := by
  have hK := tan_cutoff h0 h1
  obtain ⟨f, hf, hb⟩ : ∃ f, design fc fs Q = .ok f ∧
      BilinearOf f (Real.tan (Real.pi * fc / fs)) (0, 0, 1) (1, 1 / Q, 1) := by
    rcases hdes with rfl | rfl
    · exact C16_low_pass_prototype fc fs Q h0 h1 hQ
    · exact C17_low_pass_prototype fc fs Q h0 h1 hQ
  have hg : ∀ w g, 0 < w → w < Real.pi → GainAt f w g →
      g = bell Q (Real.tan (w / 2) / Real.tan (Real.pi * fc / fs)) :=
    fun w g a b h => Props.gain_unique h (low_gain hQ hK hb a b)
  set K := Real.tan (Real.pi * fc / fs) with hKd
  obtain ⟨c0, c1⟩ := cut_lt_pi h0 h1
  refine ⟨f, hf, fun hq w w' g g' w0 ww w1 e e' => ?_, fun hq => ?_⟩
  · rw [hg w g w0 (ww.trans w1) e, hg w' g' (w0.trans ww) w1 e']
    have t0 := tan_pos w0 (ww.trans w1)
    refine bell_falls hQ (by positivity) (div_lt_div_of_pos_right (tan_lt w0 ww w1) hK) ?_
    have : 1 - 1 / (2 * Q ^ 2) ≤ 0 := by
      rw [sub_nonpos, one_le_div (by positivity)]; exact hq
    exact this.trans (by positivity)
  · have hs : 0 < 1 - 1 / (2 * Q ^ 2) := by rw [sub_pos, div_lt_one (by positivity)]; exact hq
    have hs1 : 1 - 1 / (2 * Q ^ 2) < 1 := by have : 0 < 1 / (2 * Q ^ 2) := by positivity
                                             linarith
    obtain ⟨p, p0, p1, hp⟩ := exists_freq hK (Real.sqrt_pos.mpr hs)
    have hpc : p < 2 * Real.pi * fc / fs := by
      by_contra hcon
      have hle : Real.tan (2 * Real.pi * fc / fs / 2) ≤ Real.tan (p / 2) := by
        rcases (not_lt.mp hcon).eq_or_lt with h | h
        · rw [h]
        · exact (tan_lt c0 h p1).le
      have e : 2 * Real.pi * fc / fs / 2 = Real.pi * fc / fs := by ring
      rw [e, ← hKd, ← one_le_div hK, hp] at hle
      have := (Real.sqrt_lt' one_pos).mpr (hs1.trans_eq (one_pow 2).symm)
      linarith
    refine ⟨p, p0, hpc, ?_, fun w w' g g' w0 ww w1 e e' => ⟨fun hle => ?_, fun hle => ?_⟩⟩
    · have := low_gain hQ hK hb p0 p1
      rwa [hp, bell_peak hQ hq] at this
    all_goals rw [hg w g w0 (ww.trans w1) e, hg w' g' (w0.trans ww) w1 e']
    all_goals have t0 := tan_pos w0 (ww.trans w1)
    all_goals have t1 := tan_pos (w0.trans ww) w1
    · refine bell_rises hQ (by positivity) (div_lt_div_of_pos_right (tan_lt w0 ww w1) hK) ?_
      rw [← Real.sq_sqrt hs.le, ← hp]
      refine pow_le_pow_left₀ (by positivity) (div_le_div_of_nonneg_right ?_ hK.le) 2
      rcases hle.eq_or_lt with h | h
      · rw [h]
      · exact (tan_lt (w0.trans ww) h p1).le
    · refine bell_falls hQ (by positivity) (div_lt_div_of_pos_right (tan_lt w0 ww w1) hK) ?_
      rw [← Real.sq_sqrt hs.le, ← hp]
      have tp := tan_pos p0 p1
      refine pow_le_pow_left₀ (by positivity) (div_le_div_of_nonneg_right ?_ hK.le) 2
      rcases hle.eq_or_lt with h | h
      · rw [h]
      · exact (tan_lt p0 h (ww.trans w1)).le

example : ∃ f, Rbj.lowPass 1000 48000 2 = .ok f ∧ ∃ p, 0 < p ∧ p < 2 * Real.pi * 1000 / 48000 ∧
    GainAt f p (2 / Real.sqrt (1 - 1 / (4 * 2 ^ 2))) := by
  obtain ⟨f, hf, -, h⟩ := C150_low_resonance Rbj.lowPass (.inl rfl) 1000 48000 2 (by norm_num) (by norm_num)
    (by norm_num)
  obtain ⟨p, h1, h2, h3, -⟩ := h (by norm_num)
  exact ⟨f, hf, p, h1, h2, h3⟩

/-- **C150, resonance of the high-passes.** The mirror image: rising with the frequency for `2 Q² ≤ 1`, one peak of
the same height above the cutoff otherwise. -/
theorem C150_high_resonance (design : ℝ → ℝ → ℝ → Except Fault (Biquad ℝ))
    (hdes : design = Rbj.highPass ∨ design = Zoelzer.highPass) (fc fs Q : ℝ) (h0 : 0 < fc) (h1 : fc < fs / 2)
    (hQ : 0 < Q) : ∃ f, design fc fs Q = .ok f ∧
      (2 * Q ^ 2 ≤ 1 → ∀ w w' g g', 0 < w → w < w' → w' < Real.pi → GainAt f w g → GainAt f w' g' → g < g') ∧
      (1 < 2 * Q ^ 2 → ∃ p, 2 * Real.pi * fc / fs < p ∧ p < Real.pi ∧
        GainAt f p (Q / Real.sqrt (1 - 1 / (4 * Q ^ 2))) ∧
        ∀ w w' g g', 0 < w → w < w' → w' < Real.pi → GainAt f w g → GainAt f w' g' →
          (w' ≤ p → g < g') ∧ (p ≤ w → g' < g)) := by
  have hK := tan_cutoff h0 h1
  obtain ⟨f, hf, hb⟩ : ∃ f, design fc fs Q = .ok f ∧
      BilinearOf f (Real.tan (Real.pi * fc / fs)) (1, 0, 0) (1, 1 / Q, 1) := by
    rcases hdes with rfl | rfl
    · exact C16_high_pass_prototype fc fs Q h0 h1 hQ
    · exact C17_high_pass_prototype fc fs Q h0 h1 hQ
  have hg : ∀ w g, 0 < w → w < Real.pi → GainAt f w g →
      g = bell Q (Real.tan (Real.pi * fc / fs) / Real.tan (w / 2)) :=
    fun w g a b h => Props.gain_unique h (high_gain hQ hK hb a b)
  set K := Real.tan (Real.pi * fc / fs) with hKd
  obtain ⟨c0, c1⟩ := cut_lt_pi h0 h1
  refine ⟨f, hf, fun hq w w' g g' w0 ww w1 e e' => ?_, fun hq => ?_⟩
  · rw [hg w g w0 (ww.trans w1) e, hg w' g' (w0.trans ww) w1 e']
    have t0 := tan_pos w0 (ww.trans w1)
    have t1 := tan_pos (w0.trans ww) w1
    refine bell_falls hQ (by positivity) (div_lt_div_of_pos_left hK t0 (tan_lt w0 ww w1)) ?_
    have : 1 - 1 / (2 * Q ^ 2) ≤ 0 := by
      rw [sub_nonpos, one_le_div (by positivity)]; exact hq
    exact this.trans (by positivity)
  · have hs : 0 < 1 - 1 / (2 * Q ^ 2) := by rw [sub_pos, div_lt_one (by positivity)]; exact hq
    have hs1 : 1 - 1 / (2 * Q ^ 2) < 1 := by have : 0 < 1 / (2 * Q ^ 2) := by positivity
                                             linarith
    have hsq := Real.sqrt_pos.mpr hs
    obtain ⟨p, p0, p1, hp⟩ := exists_freq hK (one_div_pos.mpr hsq)
    have tp := tan_pos p0 p1
    have hp' : K / Real.tan (p / 2) = Real.sqrt (1 - 1 / (2 * Q ^ 2)) := by
      rw [← one_div_div, hp, one_div_one_div]
    have hpc : 2 * Real.pi * fc / fs < p := by
      by_contra hcon
      have hle : Real.tan (p / 2) ≤ Real.tan (2 * Real.pi * fc / fs / 2) := by
        rcases (not_lt.mp hcon).eq_or_lt with h | h
        · rw [h]
        · exact (tan_lt p0 h c1).le
      have e : 2 * Real.pi * fc / fs / 2 = Real.pi * fc / fs := by ring
      rw [e, ← hKd, ← one_le_div tp, hp'] at hle
      have := (Real.sqrt_lt' one_pos).mpr (hs1.trans_eq (one_pow 2).symm)
      linarith
    refine ⟨p, hpc, p1, ?_, fun w w' g g' w0 ww w1 e e' => ⟨fun hle => ?_, fun hle => ?_⟩⟩
    · have := high_gain hQ hK hb p0 p1
      rwa [hp', bell_peak hQ hq] at this
    all_goals rw [hg w g w0 (ww.trans w1) e, hg w' g' (w0.trans ww) w1 e']
    all_goals have t0 := tan_pos w0 (ww.trans w1)
    all_goals have t1 := tan_pos (w0.trans ww) w1
    · refine bell_falls hQ (by positivity) (div_lt_div_of_pos_left hK t0 (tan_lt w0 ww w1)) ?_
      rw [← Real.sq_sqrt hs.le, ← hp']
      refine pow_le_pow_left₀ (by positivity) (div_le_div_of_nonneg_left hK.le t1 ?_) 2
      rcases hle.eq_or_lt with h | h
      · rw [h]
      · exact (tan_lt (w0.trans ww) h p1).le
    · refine bell_rises hQ (by positivity) (div_lt_div_of_pos_left hK t0 (tan_lt w0 ww w1)) ?_
      rw [← Real.sq_sqrt hs.le, ← hp']
      refine pow_le_pow_left₀ (by positivity) (div_le_div_of_nonneg_left hK.le tp ?_) 2
      rcases hle.eq_or_lt with h | h
      · rw [h]
      · exact (tan_lt p0 h (ww.trans w1)).le

example : ∃ f, Zoelzer.highPass 1000 48000 2 = .ok f ∧ ∃ p, 2 * Real.pi * 1000 / 48000 < p ∧ p < Real.pi ∧
    GainAt f p (2 / Real.sqrt (1 - 1 / (4 * 2 ^ 2))) := by
  obtain ⟨f, hf, -, h⟩ := C150_high_resonance Zoelzer.highPass (.inr rfl) 1000 48000 2 (by norm_num) (by norm_num)
    (by norm_num)
  obtain ⟨p, h1, h2, h3, -⟩ := h (by norm_num)
  exact ⟨f, hf, p, h1, h2, h3⟩

/-! ## Band-pass -/

theorem band_gain {f : Biquad ℝ} {K Q β : ℝ} (hQ : 0 < Q) (hK : 0 < K) (hβ : 0 < β)
    (h : BilinearOf f K (0, β, 0) (1, 1 / Q, 1)) {w : ℝ} (h0 : 0 < w) (h1 : w < Real.pi) :
    GainAt f w (β * Q / Real.sqrt (1 + (Q * (Real.tan (w / 2) / K - K / Real.tan (w / 2))) ^ 2)) := by
  obtain ⟨ht, hg⟩ := proto_gain h hK (show (1 / Q) ≠ 0 by positivity) h0 h1
  have htan := tan_pos h0 h1
  convert hg using 1
  have hb : β * Q = Real.sqrt ((β * Q) ^ 2) := (Real.sqrt_sq (by positivity)).symm
  rw [hb, ← Real.sqrt_div' _ (by positivity)]
  congr 1
  simp only []
  set t := Real.tan (w / 2)
  have d2 : (1 - 1 * (t / K) ^ 2) ^ 2 + (1 / Q * (t / K)) ^ 2 ≠ 0 := by positivity
  rw [div_eq_div_iff (by positivity) d2]
  field_simp
  ring

/-- **C150, bandwidth of the band-passes.** The gain has its one peak at the centre frequency (`Q` for the cookbook
filter, 1 for Zoelzer's).  There are exactly two frequencies at which it is lower by the factor `√2`, one below and
one above the centre; in warped frequencies `tan (w/2)` their product is the square of the centre and their distance
is the centre divided by `Q`. -/
theorem C150_band_width (design : ℝ → ℝ → ℝ → Except Fault (Biquad ℝ)) (fc fs Q G : ℝ)
    (hdes : design = Rbj.bandPass ∧ G = Q ∨ design = Zoelzer.bandPass ∧ G = 1) (h0 : 0 < fc) (h1 : fc < fs / 2)
    (hQ : 0 < Q) : ∃ f, design fc fs Q = .ok f ∧ GainAt f (2 * Real.pi * fc / fs) G ∧
      (∀ w w' g g', 0 < w → w < w' → w' < Real.pi → GainAt f w g → GainAt f w' g' →
        (w' ≤ 2 * Real.pi * fc / fs → g < g') ∧ (2 * Real.pi * fc / fs ≤ w → g' < g)) ∧
      ∃ a b, 0 < a ∧ a < 2 * Real.pi * fc / fs ∧ 2 * Real.pi * fc / fs < b ∧ b < Real.pi ∧
        Real.tan (a / 2) * Real.tan (b / 2) = Real.tan (Real.pi * fc / fs) ^ 2 ∧
        Real.tan (b / 2) - Real.tan (a / 2) = Real.tan (Real.pi * fc / fs) / Q ∧
        ∀ w, 0 < w → w < Real.pi → (GainAt f w (G / Real.sqrt 2) ↔ w = a ∨ w = b) := by
  have hK := tan_cutoff h0 h1
  obtain ⟨β, hβ, hβG, f, hf, hb⟩ : ∃ β : ℝ, 0 < β ∧ β * Q = G ∧ ∃ f, design fc fs Q = .ok f ∧
      BilinearOf f (Real.tan (Real.pi * fc / fs)) (0, β, 0) (1, 1 / Q, 1) := by
    rcases hdes with ⟨rfl, rfl⟩ | ⟨rfl, rfl⟩
    · exact ⟨1, one_pos, one_mul _, C16_band_pass_prototype fc fs _ h0 h1 hQ⟩
    · exact ⟨1 / Q, by positivity, by field_simp, C17_band_pass_prototype fc fs Q h0 h1 hQ⟩
  have hG : 0 < G := by rw [← hβG]; positivity
  have hg0 : ∀ w, 0 < w → w < Real.pi → GainAt f w (G / Real.sqrt (1 + (Q * (Real.tan (w / 2) /
      Real.tan (Real.pi * fc / fs) - Real.tan (Real.pi * fc / fs) / Real.tan (w / 2))) ^ 2)) := by
    intro w a b
    rw [← hβG]
    exact band_gain hQ hK hβ hb a b
  have eK : Real.tan (2 * Real.pi * fc / fs / 2) = Real.tan (Real.pi * fc / fs) := by congr 1; ring
  set K := Real.tan (Real.pi * fc / fs) with hKd
  have hg : ∀ w g, 0 < w → w < Real.pi → GainAt f w g →
      g = G / Real.sqrt (1 + (Q * (Real.tan (w / 2) / K - K / Real.tan (w / 2))) ^ 2) :=
    fun w g a b h => Props.gain_unique h (hg0 w a b)
  obtain ⟨c0, c1⟩ := cut_lt_pi h0 h1
  have lt : ∀ x y : ℝ, |x| < |y| → G / Real.sqrt (1 + (Q * y) ^ 2) < G / Real.sqrt (1 + (Q * x) ^ 2) := by
    intro x y h
    refine div_lt_div_of_pos_left hG (Real.sqrt_pos.mpr (by positivity))
      (Real.sqrt_lt_sqrt (by positivity) ?_)
    have := sq_lt_sq.mpr h
    rw [mul_pow, mul_pow]
    have hQ2 : 0 < Q ^ 2 := by positivity
    nlinarith
  have grow : ∀ s t : ℝ, 0 < s → s < t → s / K - K / s < t / K - K / t := by
    intro s t hs hst
    have e1 := div_lt_div_of_pos_right hst hK
    have e2 := div_lt_div_of_pos_left hK hs hst
    linarith
  refine ⟨f, hf, ?_, ?_, ?_⟩
  · have := hg0 _ c0 c1
    rw [eK, sub_self] at this
    simpa using this
  · intro w w' g g' w0 ww w1 e e'
    have t0 := tan_pos w0 (ww.trans w1)
    have tt := tan_lt w0 ww w1
    have hgr := grow _ _ t0 tt
    rw [hg w g w0 (ww.trans w1) e, hg w' g' (w0.trans ww) w1 e']
    constructor <;> intro hle <;> refine lt _ _ ?_
    · have hc : Real.tan (w' / 2) / K - K / Real.tan (w' / 2) ≤ 0 := by
        rcases hle.eq_or_lt with h | h
        · rw [h, eK, sub_self]
        · have := tan_lt (w0.trans ww) h c1
          rw [eK] at this
          have := grow _ _ (tan_pos (w0.trans ww) w1) this
          linarith
      rw [abs_of_nonpos hc, abs_of_nonpos (by linarith)]
      linarith
    · have hc : 0 ≤ Real.tan (w / 2) / K - K / Real.tan (w / 2) := by
        rcases hle.eq_or_lt with h | h
        · rw [← h, eK, sub_self]
        · have := tan_lt c0 h (ww.trans w1)
          rw [eK] at this
          have := grow _ _ hK this
          linarith
      rw [abs_of_nonneg hc, abs_of_nonneg (by linarith)]
      linarith
  · -- the two solutions of `x - 1/x = ± 1/Q`
    set r := Real.sqrt (1 + 1 / (4 * Q ^ 2)) with hr
    have hr2 : r ^ 2 = 1 + 1 / (4 * Q ^ 2) := Real.sq_sqrt (by positivity)
    have hq : 0 < 1 / (2 * Q) := by positivity
    have hqq : (1 / (2 * Q)) ^ 2 = 1 / (4 * Q ^ 2) := by field_simp; norm_num
    have hrp : 0 < r := Real.sqrt_pos.mpr (by positivity)
    have hrq : 1 / (2 * Q) < r := by
      refine lt_of_pow_lt_pow_left₀ 2 hrp.le ?_
      rw [hr2, hqq]; linarith
    have hr1 : 1 < r := by
      refine lt_of_pow_lt_pow_left₀ 2 hrp.le ?_
      rw [hr2, one_pow, ← hqq]
      have : 0 < (1 / (2 * Q)) ^ 2 := by positivity
      linarith
    set x := r - 1 / (2 * Q) with hx
    set y := r + 1 / (2 * Q) with hy
    have hxp : 0 < x := by rw [hx]; linarith
    have hyp : 0 < y := by rw [hy]; linarith
    have hxy : x * y = 1 := by
      have : x * y = r ^ 2 - (1 / (2 * Q)) ^ 2 := by rw [hx, hy]; ring
      rw [this, hr2, hqq]; ring
    have hd : y - x = 1 / Q := by rw [hx, hy]; field_simp; norm_num
    have hy1 : 1 < y := by rw [hy]; linarith
    have hx1 : x < 1 := by nlinarith
    obtain ⟨a, a0, a1, ha⟩ := exists_freq hK hxp
    obtain ⟨b, b0, b1, hb'⟩ := exists_freq hK hyp
    have ea : Real.tan (a / 2) = x * K := by rw [← ha]; field_simp
    have eb : Real.tan (b / 2) = y * K := by rw [← hb']; field_simp
    have inj : ∀ v w, 0 < v → v < Real.pi → 0 < w → w < Real.pi → Real.tan (v / 2) = Real.tan (w / 2) → v = w := by
      intro v w v0 v1 w0 w1 h
      rcases lt_trichotomy v w with hl | hl | hl
      · exact absurd h (tan_lt v0 hl w1).ne
      · exact hl
      · exact absurd h (tan_lt w0 hl v1).ne'
    have below : ∀ v w, 0 < w → w < Real.pi → 0 < v → v < Real.pi → Real.tan (v / 2) < Real.tan (w / 2) → v < w := by
      intro v w w0 w1 v0 v1 h
      by_contra hc
      rcases (not_lt.mp hc).eq_or_lt with hl | hl
      · rw [hl] at h; exact lt_irrefl _ h
      · exact absurd (tan_lt w0 hl v1) (not_lt.mpr h.le)
    refine ⟨a, b, a0, below _ _ c0 c1 a0 a1 (by rw [eK, ea]; nlinarith),
      below _ _ b0 b1 c0 c1 (by rw [eK, eb]; nlinarith), b1, ?_, ?_, fun w w0 w1 => ?_⟩
    · rw [ea, eb]; linear_combination K ^ 2 * hxy
    · rw [ea, eb]; rw [← sub_mul, hd]; ring
    · have t0 := tan_pos w0 w1
      have hw : GainAt f w (G / Real.sqrt 2) ↔
          (Q * (Real.tan (w / 2) / K - K / Real.tan (w / 2))) ^ 2 = 1 := by
        constructor
        · intro h
          have e := hg w _ w0 w1 h
          rw [div_eq_div_iff (by positivity) (by positivity)] at e
          have e2 := mul_left_cancel₀ hG.ne' e
          rw [Real.sqrt_inj (by positivity) (by positivity)] at e2
          linarith
        · intro h
          have := hg0 w w0 w1
          rw [h] at this
          convert this using 3
          norm_num
      rw [hw]
      set t := Real.tan (w / 2) / K with ht
      have htp : 0 < t := by positivity
      have hti : K / Real.tan (w / 2) = 1 / t := by rw [ht, one_div_div]
      rw [hti]
      constructor
      · intro h
        have hf : (t - x) * (t + y) * ((t + x) * (t - y)) = 0 := by
          have e1 : (t - x) * (t + y) = t ^ 2 + 1 / Q * t - 1 := by rw [← hd, ← hxy]; ring
          have e2 : (t + x) * (t - y) = t ^ 2 - 1 / Q * t - 1 := by rw [← hd, ← hxy]; ring
          rw [e1, e2]
          have h' : Q ^ 2 * (t ^ 2 - 1) ^ 2 = t ^ 2 := by
            have : Q * (t - 1 / t) = Q * (t ^ 2 - 1) / t := by field_simp
            rw [this, div_pow, div_eq_one_iff_eq (by positivity)] at h
            linarith
          have : (t ^ 2 + 1 / Q * t - 1) * (t ^ 2 - 1 / Q * t - 1) = (Q ^ 2 * (t ^ 2 - 1) ^ 2 - t ^ 2) / Q ^ 2 := by
            field_simp; ring
          rw [this, h', sub_self, zero_div]
        have f1 : t + y ≠ 0 := by positivity
        have f2 : t + x ≠ 0 := by positivity
        simp only [mul_eq_zero, f1, f2, or_false, false_or] at hf
        rcases hf with h | h
        · left
          refine inj _ _ w0 w1 a0 a1 ?_
          rw [ea, ← sub_eq_zero.mp h, ht]; field_simp
        · right
          refine inj _ _ w0 w1 b0 b1 ?_
          rw [eb, ← sub_eq_zero.mp h, ht]; field_simp
      · have hxi : 1 / x = y := by rw [div_eq_iff hxp.ne']; linarith
        have hyi : 1 / y = x := by rw [div_eq_iff hyp.ne']; linarith
        have hQd : Q * (1 / Q) = 1 := by field_simp
        rintro (rfl | rfl)
        · have : t = x := ha
          rw [this, hxi, ← neg_sub, hd, mul_neg, hQd]; norm_num
        · have : t = y := hb'
          rw [this, hyi, hd, hQd]; norm_num

example : ∃ f, Rbj.bandPass 1000 48000 2 = .ok f ∧ ∃ a b, a < b ∧ GainAt f a (2 / Real.sqrt 2) ∧
    GainAt f b (2 / Real.sqrt 2) := by
  obtain ⟨f, hf, -, -, a, b, a0, a1, b0, b1, -, -, h⟩ := C150_band_width Rbj.bandPass 1000 48000 2 2
    (.inl ⟨rfl, rfl⟩) (by norm_num) (by norm_num) (by norm_num)
  exact ⟨f, hf, a, b, a1.trans b0, (h a a0 (a1.trans (b0.trans b1))).mpr (.inl rfl),
    (h b ((a0.trans a1).trans b0) b1).mpr (.inr rfl)⟩

end Edsp.C150
