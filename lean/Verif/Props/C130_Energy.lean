import Verif.Lemmas.EnergyChain
import Verif.Props.C71_Bands
import Verif.Props.C16_Prototype

/-! # C130: what filters do to the energy of a frame -/

namespace Edsp.C130

open Edsp Edsp.Spec Edsp.EnergyL Edsp.Props

theorem through_energy (fs : List (Biquad ℝ)) (xs : List ℝ) :
    frameEnergy (through fs xs).2 =
      ∑ n ∈ Finset.range xs.length, SteadyL.chain fs (fun n => xs.getD n 0) n ^ 2 := by
  conv_lhs => rw [range_of_list xs]
  rw [SteadyL.through_range, frameEnergy_range]

theorem list_energy (xs : List ℝ) :
    frameEnergy xs = ∑ n ∈ Finset.range xs.length, (fun n => xs.getD n 0) n ^ 2 := by
  conv_lhs => rw [range_of_list xs]
  rw [frameEnergy_range]

theorem frameEnergy_nonneg (xs : List ℝ) : 0 ≤ frameEnergy xs :=
  List.sum_nonneg (by
    intro a ha
    obtain ⟨b, -, rfl⟩ := List.mem_map.mp ha
    positivity)

/-- The equivalence for a list of sections. -/
theorem through_iff {fs : List (Biquad ℝ)} (hr : ∀ f ∈ fs, f.AtRest) (hs : ∀ f ∈ fs, f.stability = true)
    {G : ℝ} (hG : 0 ≤ G) :
    (∀ w : ℝ, 0 < w → w < Real.pi → ∀ g, ChainGainAt fs w g → g ≤ G) ↔
      ∀ xs, frameEnergy (through fs xs).2 ≤ G ^ 2 * frameEnergy xs := by
  constructor
  · intro h xs
    rw [through_energy, list_energy xs]
    refine chain_energy_le hr hs (fun w h0 h1 => ?_) _ _
    obtain ⟨g, hg⟩ := gain_exists hs w
    exact ⟨g, h w h0 h1 g hg, hg⟩
  · intro h w _ _ g hg
    refine gain_le_of_energy hs hG (fun x N => ?_) hg
    have := h ((List.range N).map x)
    rwa [SteadyL.through_range, frameEnergy_range, frameEnergy_range] at this

theorem gain_unique {fs : List (Biquad ℝ)} {w g g' : ℝ} (h : ChainGainAt fs w g) (h' : ChainGainAt fs w g') :
    g = g' := by
  obtain ⟨t, ht, rfl⟩ := h
  obtain ⟨t', ht', rfl⟩ := h'
  have : ∀ (fs : List (Biquad ℝ)) (z a b : ℂ), ChainTransferAt fs z a → ChainTransferAt fs z b → a = b := by
    intro fs
    induction fs with
    | nil => intro z a b ha hb; exact (show a = 1 from ha).trans (show b = 1 from hb).symm
    | cons f fs ih =>
      rintro z a b ⟨a1, a2, s1, s2, rfl⟩ ⟨b1, b2, u1, u2, rfl⟩
      rw [ih z a2 b2 s2 u2]
      have := mul_right_cancel₀ s1.1 (s1.2.symm.trans u1.2)
      rw [this]
  rw [this _ _ _ _ ht ht']

theorem through_le {fs : List (Biquad ℝ)} (hr : ∀ f ∈ fs, f.AtRest) (hs : ∀ f ∈ fs, f.stability = true)
    {G : ℝ} (hG : 0 ≤ G)
    (h : ∀ w : ℝ, 0 < w → w < Real.pi → ∃ g ≤ G, ChainGainAt fs w g) (xs : List ℝ) :
    frameEnergy (through fs xs).2 ≤ G ^ 2 * frameEnergy xs := by
  refine (through_iff hr hs hG).mp (fun w h0 h1 g hg => ?_) xs
  obtain ⟨g', hle, hg'⟩ := h w h0 h1
  rwa [gain_unique hg hg']

/-- **C130, cascades.** A cascade of stable sections at rest multiplies the energy of no frame by more than
`G²` exactly when it amplifies no frequency by more than `G`. -/
theorem C130_cascade_iff (c : Cascade ℝ) (hr : ∀ f ∈ active c, f.AtRest)
    (hs : ∀ f ∈ active c, f.stability = true) {G : ℝ} (hG : 0 ≤ G) :
    (∀ w : ℝ, 0 < w → w < Real.pi → ∀ g, ChainGainAt (active c) w g → g ≤ G) ↔
      ∀ xs, frameEnergy (c.filter xs).2 ≤ G ^ 2 * frameEnergy xs := by
  simp only [SteadyL.filter_out]
  exact through_iff hr hs hG

theorem chain_one {f : Biquad ℝ} {w g : ℝ} : ChainGainAt [f] w g ↔ GainAt f w g := by
  constructor
  · rintro ⟨h, ⟨h1, h2, t, e, rfl⟩, rfl⟩
    have e : h2 = 1 := e
    exact ⟨h1, t, by rw [e, mul_one]⟩
  · rintro ⟨h, t, rfl⟩
    exact ⟨h, ⟨h, 1, t, rfl, by rw [mul_one]⟩, rfl⟩

theorem through_one (f : Biquad ℝ) (xs : List ℝ) : (through [f] xs).2 = (f.filter xs).2 := by
  rw [Biquad.through_eq_foldl]; rfl

/-- **C130, one section.** -/
theorem C130_biquad_iff (f : Biquad ℝ) (hr : f.AtRest) (hs : f.stability = true) {G : ℝ} (hG : 0 ≤ G) :
    (∀ w : ℝ, 0 < w → w < Real.pi → ∀ g, GainAt f w g → g ≤ G) ↔
      ∀ xs, frameEnergy (f.filter xs).2 ≤ G ^ 2 * frameEnergy xs := by
  have := through_iff (fs := [f]) (by simpa using hr) (by simpa using hs) hG
  simp only [chain_one, through_one] at this
  exact this

/-- The identity section meets the hypotheses with `G = 1`. -/
example : ∀ xs, frameEnergy (({ b0 := 1, b1 := 0, b2 := 0, a0 := 1, a1 := 0, a2 := 0, w0 := 0, w1 := 0 } :
    Biquad ℝ).filter xs).2 ≤ 1 ^ 2 * frameEnergy xs := by
  refine (C130_biquad_iff _ ⟨rfl, rfl⟩ (by simp [Biquad.stability]) zero_le_one).mp ?_
  rintro w - - g ⟨h, ⟨-, h2⟩, rfl⟩
  have : h = 1 := by simpa [numAt, denAt] using h2.symm
  rw [this]; simp

/-- **C130, from below.** If every frequency keeps at least `m` of its amplitude, the energy of the output of any
frame, once enough silence has followed, comes as close as one likes to at least `m²` times that of the frame. -/
theorem C130_cascade_keeps (c : Cascade ℝ) (hr : ∀ f ∈ active c, f.AtRest)
    (hs : ∀ f ∈ active c, f.stability = true) {m : ℝ} (hm : 0 < m)
    (h : ∀ w : ℝ, 0 < w → w < Real.pi → ∀ g, ChainGainAt (active c) w g → m ≤ g) (xs : List ℝ) {ε : ℝ}
    (hε : 0 < ε) : ∃ K, ∀ k, K ≤ k →
      m ^ 2 * frameEnergy xs - ε < frameEnergy (c.filter (xs ++ List.replicate k 0)).2 := by
  have e : ∀ k, frameEnergy (c.filter (xs ++ List.replicate k 0)).2 =
      ∑ n ∈ Finset.range (xs.length + k), SteadyL.chain (active c) (fun n => xs.getD n 0) n ^ 2 := by
    intro k
    rw [SteadyL.filter_out, through_energy, List.length_append, List.length_replicate]
    have : (fun n => (xs ++ List.replicate k (0 : ℝ)).getD n 0) = fun n => xs.getD n 0 := by
      funext n
      rcases lt_or_ge n xs.length with hn | hn
      · simp [List.getD, List.getElem?_append, hn]
      · simp only [List.getD, List.getElem?_append, not_lt.mpr hn, if_false, List.getElem?_replicate]
        rw [List.getElem?_eq_none hn]
        split <;> rfl
    rw [this]
  by_contra hc
  push Not at hc
  have key := chain_energy_ge hr hs hm (fun w h0 h1 => by
      obtain ⟨g, hg⟩ := gain_exists hs w
      exact ⟨g, h w h0 h1 g hg, hg⟩) (x := fun n => xs.getD n 0) (N := xs.length)
    (fun n hn => by simp [List.getD, List.getElem?_eq_none hn])
    (S := m ^ 2 * frameEnergy xs - ε) (by
      intro M
      obtain ⟨k, hk, hle⟩ := hc M
      rw [e] at hle
      exact (Finset.sum_le_sum_of_subset_of_nonneg (Finset.range_mono (by omega))
        fun _ _ _ => sq_nonneg _).trans hle)
  rw [← list_energy] at key
  linarith

/-! ## The designs -/

/-- What the theorems below say of a filter: no frame leaves with more energy than `G²` times its own. -/
def AtMost (c : Cascade ℝ) (G : ℝ) : Prop := ∀ xs, frameEnergy (c.filter xs).2 ≤ G ^ 2 * frameEnergy xs

theorem atMost {c : Cascade ℝ} (hr : ∀ f ∈ active c, f.AtRest) (hs : ∀ f ∈ active c, f.stability = true)
    {G : ℝ} (hG : 0 ≤ G) (h : ∀ w : ℝ, 0 < w → w < Real.pi → ∃ g ≤ G, ChainGainAt (active c) w g) :
    AtMost c G := fun xs => by
  rw [SteadyL.filter_out]
  exact through_le hr hs hG h xs

/-- Unfolds a design down to `makeCascade` and takes the states from there. -/
macro "at_rest " h:ident : tactic => `(tactic| (
  simp only [bind, Except.bind] at $h:ident
  (repeat' split at $h:ident)
  all_goals first
    | exact makeCascade_rest $h
    | cases $h:ident))

theorem one_div_sqrt_le {t : ℝ} (h : 0 ≤ t) : 1 / Real.sqrt (1 + t) ≤ 1 := by
  rw [div_le_one (Real.sqrt_pos.mpr (by linarith))]
  exact Real.one_le_sqrt.mpr (by linarith)

theorem abs_div_sqrt_le (x : ℝ) {t : ℝ} (h : 0 < t) : |x| / Real.sqrt (x ^ 2 + t) ≤ 1 := by
  rw [div_le_one (Real.sqrt_pos.mpr (by positivity)), ← Real.sqrt_sq_eq_abs]
  exact Real.sqrt_le_sqrt (by linarith)

theorem eps_pos {r : ℝ} (hr : 0 < r) : (0 : ℝ) < (10 : ℝ) ^ (r / 10) - 1 := by
  have := Real.one_lt_rpow (by norm_num : (1 : ℝ) < 10) (show 0 < r / 10 by positivity)
  linarith

theorem abs_lt_pi {w : ℝ} (h0 : 0 < w) (h1 : w < Real.pi) : |w| < Real.pi := by
  rwa [abs_of_pos h0]

/-- **C130, Butterworth.** No low-pass and no high-pass the library returns increases the energy of any frame. -/
theorem C130_butterworth (dbg : Bool) {N n : Nat} (hn : 1 ≤ n) (hN : n ≤ N) {fs fc : ℝ} (h0 : 0 < fc)
    (h1 : fc < fs / 2) {c : Cascade ℝ}
    (h : Butterworth.lowPass dbg N n fs fc = .ok c ∨ Butterworth.highPass dbg N n fs fc = .ok c)
    (xs : List ℝ) : frameEnergy (c.filter xs).2 ≤ frameEnergy xs := by
  have hd : n % 2 = 1 → dbg = false := by
    intro hodd
    cases dbg with
    | false => rfl
    | true =>
      obtain ⟨e1, e2⟩ := C55_odd_debug_violates hN hodd h0 h1
      rw [e1, e2] at h
      rcases h with h | h <;> cases h
  suffices AtMost c 1 by simpa using this xs
  have hev : ∀ x : ℝ, 0 ≤ x ^ (2 * n) := fun x => by rw [pow_mul]; positivity
  rcases h with h | h
  · obtain ⟨c', hc, -, hs, hg, -⟩ := C55_butterworth_lowpass dbg hn hN hd h0 h1
    rw [hc] at h
    cases h
    refine atMost (by unfold Butterworth.lowPass at hc; at_rest hc) hs zero_le_one fun w a b => ?_
    exact ⟨_, one_div_sqrt_le (hev _), hg w (abs_lt_pi a b)⟩
  · obtain ⟨c', hc, -, hs, hg, -⟩ := C56_butterworth_highpass dbg hn hN hd h0 h1
    rw [hc] at h
    cases h
    refine atMost (by unfold Butterworth.highPass at hc; at_rest hc) hs zero_le_one fun w a b => ?_
    exact ⟨_, one_div_sqrt_le (hev _), hg w a.ne' (abs_lt_pi a b)⟩

/-- **C130, Chebyshev.** Nor does one of the four Chebyshev low-passes and high-passes. -/
theorem C130_chebyshev (dbg : Bool) {N n : Nat} (hn : 1 ≤ n) (hN : n ≤ N) {r fs fc : ℝ} (hr : 0 < r)
    (h0 : 0 < fc) (h1 : fc < fs / 2) {c : Cascade ℝ}
    (h : ChebyshevI.lowPass dbg N n fs fc r = .ok c ∨ ChebyshevI.highPass dbg N n fs fc r = .ok c ∨
      ChebyshevII.lowPass dbg N n fs fc r = .ok c ∨ ChebyshevII.highPass dbg N n fs fc r = .ok c)
    (xs : List ℝ) : frameEnergy (c.filter xs).2 ≤ frameEnergy xs := by
  have hd : n % 2 = 1 → dbg = false := by
    intro hodd
    cases dbg with
    | false => rfl
    | true =>
      obtain ⟨e1, e2, e3, e4⟩ := C57_odd_debug_violates hN hodd hr h0 h1
      rw [e1, e2, e3, e4] at h
      rcases h with h | h | h | h <;> cases h
  suffices AtMost c 1 by simpa using this xs
  have hε := eps_pos hr
  have hev : ∀ x : ℝ, 0 ≤ ((10 : ℝ) ^ (r / 10) - 1) * x ^ 2 := fun x => mul_nonneg hε.le (sq_nonneg x)
  rcases h with h | h | h | h
  · obtain ⟨c', hc, -, hs, hg, -⟩ := C57_chebyshev1_lowpass dbg hn hN hd hr h0 h1
    rw [hc] at h
    cases h
    refine atMost (by unfold ChebyshevI.lowPass at hc; at_rest hc) hs zero_le_one fun w a b => ?_
    exact ⟨_, one_div_sqrt_le (hev _), hg w (abs_lt_pi a b)⟩
  · obtain ⟨c', hc, -, hs, hg, -⟩ := C57_chebyshev1_highpass dbg hn hN hd hr h0 h1
    rw [hc] at h
    cases h
    refine atMost (by unfold ChebyshevI.highPass at hc; at_rest hc) hs zero_le_one fun w a b => ?_
    exact ⟨_, one_div_sqrt_le (hev _), hg w a.ne' (abs_lt_pi a b)⟩
  · obtain ⟨c', hc, -, hs, -, hg, -⟩ := C58_chebyshev2_lowpass dbg hn hN hd hr h0 h1
    rw [hc] at h
    cases h
    refine atMost (by unfold ChebyshevII.lowPass at hc; at_rest hc) hs zero_le_one fun w a b => ?_
    exact ⟨_, abs_div_sqrt_le _ hε, hg w a.ne' (abs_lt_pi a b)⟩
  · obtain ⟨c', hc, -, hs, -, hg⟩ := C58_chebyshev2_highpass dbg hn hN hd hr h0 h1
    rw [hc] at h
    cases h
    refine atMost (by unfold ChebyshevII.highPass at hc; at_rest hc) hs zero_le_one fun w a b => ?_
    exact ⟨_, abs_div_sqrt_le _ hε, hg w (abs_lt_pi a b)⟩

/-- **C130, band-stops.** Nor does one of the band-stop designs. -/
theorem C130_bandstop (dbg : Bool) {N n : Nat} (hn : 1 ≤ n) (hN : n ≤ N) {r fs fc bw : ℝ} (hr : 0 < r)
    (hB : BandOk fs fc bw) {c : Cascade ℝ}
    (h : Butterworth.bandStop dbg N n fs fc bw = .ok c ∨ ChebyshevI.bandStop dbg N n fs fc bw r = .ok c ∨
      ChebyshevII.bandStop dbg N n fs fc bw r = .ok c)
    (xs : List ℝ) : frameEnergy (c.filter xs).2 ≤ frameEnergy xs := by
  have hd : n % 2 = 1 → dbg = false := by
    intro hodd
    cases dbg with
    | false => rfl
    | true =>
      obtain ⟨-, e1⟩ := C71_odd_debug_violates hN hodd hB
      obtain ⟨-, e2, -, e3⟩ := C71_cheb_odd_debug_violates hN hodd hr hB
      rw [e1, e2, e3] at h
      rcases h with h | h | h <;> cases h
  suffices AtMost c 1 by simpa using this xs
  have hε := eps_pos hr
  have hev : ∀ x : ℝ, 0 ≤ x ^ (2 * n) := fun x => by rw [pow_mul]; positivity
  rcases h with h | h | h
  · obtain ⟨c', hc, -, hs, hg, hz, -⟩ := C72_butterworth_bandstop_partial dbg hn hN hd hB
    rw [hc] at h
    cases h
    refine atMost (by unfold Butterworth.bandStop at hc; at_rest hc) hs zero_le_one fun w a b => ?_
    by_cases he : tLo fs fc bw * tHi fs fc bw = Real.tan (w / 2) ^ 2
    · exact ⟨0, zero_le_one, hz w a b he⟩
    · exact ⟨_, one_div_sqrt_le (hev _), hg w a b he⟩
  · obtain ⟨c', hc, -, hs, hg, hz, -⟩ := C72_chebyshev1_bandstop_partial dbg hn hN hd hr hB
    rw [hc] at h
    cases h
    refine atMost (by unfold ChebyshevI.bandStop at hc; at_rest hc) hs zero_le_one fun w a b => ?_
    by_cases he : tLo fs fc bw * tHi fs fc bw = Real.tan (w / 2) ^ 2
    · exact ⟨0, zero_le_one, hz w a b he⟩
    · exact ⟨_, one_div_sqrt_le (mul_nonneg hε.le (sq_nonneg _)), hg w a b he⟩
  · obtain ⟨c', hc, -, hs, hg, -⟩ := C72_chebyshev2_bandstop_partial dbg hn hN hd hr hB
    rw [hc] at h
    cases h
    refine atMost (by unfold ChebyshevII.bandStop at hc; at_rest hc) hs zero_le_one fun w a b => ?_
    exact ⟨_, abs_div_sqrt_le _ hε, hg w a b⟩

theorem shelf_le {G t : ℝ} (hG : 0 < G) (ht : 0 ≤ t) :
    Real.sqrt ((G + t) / (1 / G + t)) ≤ max 1 G := by
  rw [Real.sqrt_le_left (le_max_of_le_left zero_le_one), div_le_iff₀ (by positivity)]
  have hi : G * (1 / G) = 1 := by field_simp
  have hp : 0 < 1 / G := by positivity
  rcases le_total G 1 with h | h
  · rw [max_eq_left h]
    have : G ≤ 1 / G := by rw [le_div_iff₀ hG]; nlinarith
    linarith
  · rw [max_eq_right h]
    have : G ^ 2 * (1 / G) = G := by rw [pow_two, mul_assoc, hi, mul_one]
    nlinarith [mul_le_mul_of_nonneg_right (show 1 ≤ G ^ 2 by nlinarith) ht]

/-- **C130, Butterworth shelves.** The shelves multiply the energy of no frame by more than the square of their
gain, or increase none if they cut. -/
theorem C130_shelves (dbg : Bool) {N n : Nat} (hn : 1 ≤ n) (hN : n ≤ N) (gainDb : ℝ) {fs fc : ℝ}
    (h0 : 0 < fc) (h1 : fc < fs / 2) {c : Cascade ℝ}
    (h : Butterworth.lowShelf dbg N n fs fc gainDb = .ok c ∨ Butterworth.highShelf dbg N n fs fc gainDb = .ok c)
    (xs : List ℝ) :
    frameEnergy (c.filter xs).2 ≤ max 1 ((10 : ℝ) ^ (gainDb / 20)) ^ 2 * frameEnergy xs := by
  have hG : (0 : ℝ) < (10 : ℝ) ^ (gainDb / 20) := by positivity
  have hm : 0 ≤ max 1 ((10 : ℝ) ^ (gainDb / 20)) := le_max_of_le_left zero_le_one
  have hev : ∀ x : ℝ, 0 ≤ x ^ (2 * n) := fun x => by rw [pow_mul]; positivity
  suffices AtMost c (max 1 ((10 : ℝ) ^ (gainDb / 20))) from this xs
  rcases h with h | h
  · obtain ⟨c', hc, -, hs, hg, -⟩ := C59_butterworth_low_shelf dbg hn hN gainDb h0 h1
    rw [hc] at h
    cases h
    refine atMost (by unfold Butterworth.lowShelf at hc; at_rest hc) hs hm fun w a b => ?_
    exact ⟨_, shelf_le hG (hev _), hg w (abs_lt_pi a b)⟩
  · obtain ⟨c', hc, -, hs, hg, -⟩ := C59_butterworth_high_shelf dbg hn hN gainDb h0 h1
    rw [hc] at h
    cases h
    refine atMost (by unfold Butterworth.highShelf at hc; at_rest hc) hs hm fun w a b => ?_
    exact ⟨_, shelf_le hG (hev _), hg w a.ne' (abs_lt_pi a b)⟩

/-- The designs exist. -/
example : ∃ c, Butterworth.lowPass true 8 4 48000 1000 = .ok c ∧
    ∀ xs, frameEnergy (c.filter xs).2 ≤ frameEnergy xs := by
  obtain ⟨c, hc, -⟩ := C55_butterworth_lowpass true (N := 8) (n := 4) (by norm_num) (by norm_num)
    (by norm_num) (fs := 48000) (fc := 1000) (by norm_num) (by norm_num)
  exact ⟨c, hc, C130_butterworth true (by norm_num) (by norm_num) (by norm_num) (by norm_num) (.inl hc)⟩

/-- A Chebyshev low-pass of odd order in a release build, a band-stop and a shelf of 6 dB meet the hypotheses. -/
example : ∃ c, ChebyshevI.lowPass false 8 3 48000 1000 1 = .ok c ∧
    ∀ xs, frameEnergy (c.filter xs).2 ≤ frameEnergy xs := by
  obtain ⟨c, hc, -⟩ := C57_chebyshev1_lowpass false (N := 8) (n := 3) (by norm_num) (by norm_num)
    (by norm_num) (r := 1) (by norm_num) (fs := 48000) (fc := 1000) (by norm_num) (by norm_num)
  exact ⟨c, hc, C130_chebyshev false (by norm_num) (by norm_num) (by norm_num) (by norm_num) (by norm_num)
    (.inl hc)⟩

example : ∃ c, ChebyshevII.bandStop true 8 2 48000 12000 4000 40 = .ok c ∧
    ∀ xs, frameEnergy (c.filter xs).2 ≤ frameEnergy xs := by
  obtain ⟨c, hc, -⟩ := C72_chebyshev2_bandstop_partial true (N := 8) (n := 2)
    (by norm_num) (by norm_num) (by norm_num) (r := 40) (by norm_num) bandOk_example
  exact ⟨c, hc, C130_bandstop true (by norm_num) (by norm_num) (by norm_num) bandOk_example (.inr (.inr hc))⟩

example : ∃ c, Butterworth.lowShelf true 8 3 48000 1000 6 = .ok c ∧
    ∀ xs, frameEnergy (c.filter xs).2 ≤ max 1 ((10 : ℝ) ^ ((6 : ℝ) / 20)) ^ 2 * frameEnergy xs := by
  obtain ⟨c, hc, -⟩ := C59_butterworth_low_shelf true (N := 8) (n := 3) (by norm_num) (by norm_num) 6
    (fs := 48000) (fc := 1000) (by norm_num) (by norm_num)
  exact ⟨c, hc, C130_shelves true (by norm_num) (by norm_num) 6 (by norm_num) (by norm_num) (.inl hc)⟩

/-- A shelf that boosts keeps every amplitude, hence the energy of an impulse. -/
example : ∃ c, Butterworth.lowShelf true 8 3 48000 1000 6 = .ok c ∧ ∃ K, ∀ k, K ≤ k →
    1 ^ 2 * frameEnergy [1] - 1 / 100 < frameEnergy (c.filter ([1] ++ List.replicate k 0)).2 := by
  obtain ⟨c, hc, -, hs, hg, -⟩ := C59_butterworth_low_shelf true (N := 8) (n := 3) (by norm_num)
    (by norm_num) 6 (fs := 48000) (fc := 1000) (by norm_num) (by norm_num)
  have hr : ∀ f ∈ active c, f.AtRest := by
    have hc := hc
    unfold Butterworth.lowShelf at hc
    at_rest hc
  refine ⟨c, hc, C130_cascade_keeps c hr hs one_pos (fun w h0 h1 g h => ?_) [1] (by norm_num)⟩
  rw [gain_unique h (hg w (abs_lt_pi h0 h1)), Real.one_le_sqrt]
  have hG : (1 : ℝ) ≤ (10 : ℝ) ^ ((6 : ℝ) / 20) := Real.one_le_rpow (by norm_num) (by norm_num)
  have ht : 0 ≤ (Real.tan (w / 2) / Real.tan (Real.pi * (1000 / 48000))) ^ (2 * 3) := by
    rw [pow_mul]; positivity
  rw [le_div_iff₀ (by positivity), one_mul]
  have : 1 / (10 : ℝ) ^ ((6 : ℝ) / 20) ≤ 1 := by rw [div_le_one (by positivity)]; exact hG
  linarith

/-- **C130 is false of the band-passes.** A Butterworth band-pass centred at a quarter of the sample rate increases
the energy of some frame. -/
theorem C130_bandpass_violates (dbg : Bool) {N n : Nat} (hn : 1 ≤ n) (hN : n ≤ N)
    (hd : n % 2 = 1 → dbg = false) {fs bw : ℝ} (hB : BandOk fs (fs / 4) bw) :
    ∃ c, Butterworth.bandPass dbg N n fs (fs / 4) bw = .ok c ∧
      ∃ xs, frameEnergy xs < frameEnergy (c.filter xs).2 := by
  obtain ⟨c, hc, g, hg1, hg⟩ := C71_centre_gain_violates dbg hn hN hd hB
  obtain ⟨c', hc', -, hs, -⟩ := C71_butterworth_bandpass_partial dbg hn hN hd hB
  rw [hc] at hc'
  cases hc'
  refine ⟨c, hc, ?_⟩
  by_contra hcon
  push Not at hcon
  have hr : ∀ f ∈ active c, f.AtRest := by unfold Butterworth.bandPass at hc; at_rest hc
  have hfs := hB.fs_pos
  have hw : 2 * Real.pi * (fs / 4) / fs = Real.pi / 2 := by field_simp; norm_num
  rw [hw] at hg
  have := (C130_cascade_iff c hr hs zero_le_one).mpr (by simpa using hcon) (Real.pi / 2) (by positivity)
    (by linarith [Real.pi_pos]) g hg
  linarith

example : ∃ c, Butterworth.bandPass true 8 2 48000 (48000 / 4) 4000 = .ok c ∧
    ∃ xs, frameEnergy xs < frameEnergy (c.filter xs).2 :=
  C130_bandpass_violates true (by norm_num) (by norm_num) (by norm_num) (by norm_num; exact bandOk_example)

/-! ## The sections of the cookbook -/

theorem ofCoeffs_rest {a0 a1 a2 b0 b1 b2 : ℝ} {f : Biquad ℝ}
    (h : Biquad.ofCoeffs a0 a1 a2 b0 b1 b2 = .ok f) : f.AtRest := by
  unfold Biquad.ofCoeffs at h
  split at h
  · cases h
  · cases h; exact ⟨rfl, rfl⟩

macro "section_rest " h:ident : tactic => `(tactic| (
  simp only [bind, Except.bind] at $h:ident
  (repeat' split at $h:ident)
  all_goals first
    | exact ofCoeffs_rest $h
    | cases $h:ident))

/-- **C130, all-pass.** The all-pass section keeps the energy: no output has more than the frame, and after enough
silence what is missing is as small as one likes. -/
theorem C130_all_pass (fc fs Q : ℝ) (h0 : 0 < fc) (h1 : fc < fs / 2) (hQ : 0 < Q) :
    ∃ f, Rbj.allPass fc fs Q = .ok f ∧ ∀ xs, (∀ k,
      frameEnergy (f.filter (xs ++ List.replicate k 0)).2 ≤ frameEnergy xs) ∧
      ∀ ε > 0, ∃ K, ∀ k, K ≤ k →
        frameEnergy xs - ε < frameEnergy (f.filter (xs ++ List.replicate k 0)).2 := by
  obtain ⟨f, hf, hs, hg⟩ := C16_all_pass fc fs Q h0 h1 hQ
  have hr : f.AtRest := by unfold Rbj.allPass at hf; section_rest hf
  have hu : ∀ w g, GainAt f w g → g = 1 := fun w g h =>
    gain_unique (chain_one.mpr h) (chain_one.mpr (hg w))
  refine ⟨f, hf, fun xs => ⟨fun k => ?_, fun ε hε => ?_⟩⟩
  · have := (C130_biquad_iff f hr hs zero_le_one).mp (fun w _ _ g h => (hu w g h).le)
      (xs ++ List.replicate k 0)
    rw [one_pow, one_mul] at this
    refine this.trans (le_of_eq ?_)
    simp [frameEnergy]
  · have h := C130_cascade_keeps ⟨1, [f]⟩ (by simpa [active] using hr) (by simpa [active] using hs)
      one_pos (fun w _ _ g h => (hu w g (chain_one.mp (by simpa [active] using h))).ge) xs hε
    obtain ⟨K, hK⟩ := h
    refine ⟨K, fun k hk => ?_⟩
    have := hK k hk
    rw [SteadyL.filter_out] at this
    have e : active ⟨1, [f]⟩ = [f] := rfl
    rwa [e, through_one, one_pow, one_mul] at this

example : ∃ f, Rbj.allPass 1000 48000 2 = .ok f ∧ ∀ k,
    frameEnergy (f.filter ([1, -2, 3] ++ List.replicate k 0)).2 ≤ frameEnergy [1, -2, 3] := by
  obtain ⟨f, hf, h⟩ := C130_all_pass 1000 48000 2 (by norm_num) (by norm_num) (by norm_num)
  exact ⟨f, hf, (h _).1⟩

/-- On the unit circle the bilinear image is imaginary. -/
theorem bilinear_circle {w K : ℝ} (h0 : 0 < w) (h1 : w < Real.pi) (hK : K ≠ 0) :
    Complex.exp (w * Complex.I) ≠ 0 ∧ Complex.exp (w * Complex.I) ≠ -1 ∧
      (Complex.exp (w * Complex.I) - 1) / (K * (Complex.exp (w * Complex.I) + 1)) =
        Complex.I * (Real.tan (w / 2) / K : ℝ) := by
  have hc : 0 < Real.cos (w / 2) := Real.cos_pos_of_mem_Ioo ⟨by linarith, by linarith⟩
  have hcC : (Real.cos (w / 2) : ℂ) ≠ 0 := by exact_mod_cast hc.ne'
  have e : Complex.exp (w * Complex.I) =
      (Real.cos (w / 2) + Real.sin (w / 2) * Complex.I) ^ 2 := by
    rw [Complex.ofReal_cos, Complex.ofReal_sin, ← Complex.exp_mul_I, ← Complex.exp_nat_mul]
    congr 1; push_cast; ring
  have hsc : (Real.sin (w / 2) : ℂ) ^ 2 + (Real.cos (w / 2) : ℂ) ^ 2 = 1 := by
    exact_mod_cast Real.sin_sq_add_cos_sq (w / 2)
  have hI := Complex.I_sq
  have ep : Complex.exp (w * Complex.I) + 1 =
      2 * Real.cos (w / 2) * (Real.cos (w / 2) + Real.sin (w / 2) * Complex.I) := by
    rw [e]; linear_combination (Real.sin (w / 2) : ℂ) ^ 2 * hI - hsc
  have em : Complex.exp (w * Complex.I) - 1 =
      2 * Complex.I * Real.sin (w / 2) * (Real.cos (w / 2) + Real.sin (w / 2) * Complex.I) := by
    rw [e]; linear_combination -(Real.sin (w / 2) : ℂ) ^ 2 * hI + hsc
  have hu : (Real.cos (w / 2) + Real.sin (w / 2) * Complex.I : ℂ) ≠ 0 := by
    intro hz
    have := Complex.exp_ne_zero (w * Complex.I)
    rw [e, hz] at this
    simp at this
  have hKC : (K : ℂ) ≠ 0 := by exact_mod_cast hK
  refine ⟨Complex.exp_ne_zero _, ?_, ?_⟩
  · intro hz
    have : Complex.exp (w * Complex.I) + 1 = 0 := by rw [hz]; ring
    rw [ep] at this
    simp only [mul_eq_zero, OfNat.ofNat_ne_zero, false_or] at this
    rcases this with h | h
    · exact hcC h
    · exact hu h
  · rw [ep, em, Real.tan_eq_sin_div_cos]
    generalize (Real.cos (w / 2) : ℂ) + Real.sin (w / 2) * Complex.I = u at hu ⊢
    rw [Complex.ofReal_div, Complex.ofReal_div]
    field_simp

/-- The gain of a section with prototype `n/d` at `0 < w < π`, with `t = tan (w/2) / K`. -/
theorem proto_gain {f : Biquad ℝ} {K : ℝ} {n d : ℝ × ℝ × ℝ} (h : BilinearOf f K n d) (hK : 0 < K)
    (hd : d.2.1 ≠ 0) {w : ℝ} (h0 : 0 < w) (h1 : w < Real.pi) :
    0 < Real.tan (w / 2) / K ∧ GainAt f w (Real.sqrt
      (((n.2.2 - n.1 * (Real.tan (w / 2) / K) ^ 2) ^ 2 + (n.2.1 * (Real.tan (w / 2) / K)) ^ 2) /
        ((d.2.2 - d.1 * (Real.tan (w / 2) / K) ^ 2) ^ 2 + (d.2.1 * (Real.tan (w / 2) / K)) ^ 2))) := by
  obtain ⟨z0, z1, hs⟩ := bilinear_circle h0 h1 hK.ne'
  have ht : 0 < Real.tan (w / 2) / K :=
    div_pos (Real.tan_pos_of_pos_of_lt_pi_div_two (by linarith) (by linarith)) hK
  set t := Real.tan (w / 2) / K with htdef
  have hq : ∀ q : ℝ × ℝ × ℝ, ‖quadAt q (Complex.I * (t : ℝ))‖ ^ 2 =
      (q.2.2 - q.1 * t ^ 2) ^ 2 + (q.2.1 * t) ^ 2 := by
    intro q
    have : quadAt q (Complex.I * (t : ℝ)) =
        ((q.2.2 - q.1 * t ^ 2 : ℝ) : ℂ) + ((q.2.1 * t : ℝ) : ℂ) * Complex.I := by
      unfold quadAt
      push_cast
      linear_combination (q.1 : ℂ) * t ^ 2 * Complex.I_sq
    rw [this, ← Complex.normSq_eq_norm_sq, Complex.normSq_add_mul_I]
  refine ⟨ht, ?_⟩
  have hne : quadAt d (Complex.I * (t : ℝ)) ≠ 0 := by
    intro hz
    have := hq d
    rw [hz, norm_zero] at this
    have h2 : 0 < (d.2.1 * t) ^ 2 := by positivity
    nlinarith [sq_nonneg (d.2.2 - d.1 * t ^ 2)]
  have := h (Complex.exp (w * Complex.I)) z0 z1 (by rw [hs]; exact hne)
  rw [hs] at this
  refine ⟨_, this, ?_⟩
  rw [norm_div, ← hq, ← hq, ← div_pow, Real.sqrt_sq (by positivity)]

theorem tan_cutoff {fc fs : ℝ} (h0 : 0 < fc) (h1 : fc < fs / 2) : 0 < Real.tan (Real.pi * fc / fs) := by
  have hfs : 0 < fs := by linarith
  have hpi := Real.pi_pos
  refine Real.tan_pos_of_pos_of_lt_pi_div_two (by positivity) ?_
  rw [div_lt_iff₀ hfs]
  nlinarith

/-- Every positive `t` is taken on. -/
theorem exists_freq {K t : ℝ} (hK : 0 < K) (ht : 0 < t) :
    ∃ w, 0 < w ∧ w < Real.pi ∧ Real.tan (w / 2) / K = t := by
  refine ⟨2 * Real.arctan (t * K), ?_, ?_, ?_⟩
  · have := Real.arctan_pos.mpr (mul_pos ht hK); linarith
  · have := Real.arctan_lt_pi_div_two (t * K); linarith
  · rw [mul_div_cancel_left₀ _ two_ne_zero, Real.tan_arctan]; field_simp

/-- **C130, cookbook low-pass and high-pass.** They increase the energy of no frame exactly when `2 Q² ≤ 1`. -/
theorem C130_rbj_iff (fc fs Q : ℝ) (h0 : 0 < fc) (h1 : fc < fs / 2) (hQ : 0 < Q) :
    (∃ f, Rbj.lowPass fc fs Q = .ok f ∧
      ((∀ xs, frameEnergy (f.filter xs).2 ≤ frameEnergy xs) ↔ 2 * Q ^ 2 ≤ 1)) ∧
    ∃ f, Rbj.highPass fc fs Q = .ok f ∧
      ((∀ xs, frameEnergy (f.filter xs).2 ≤ frameEnergy xs) ↔ 2 * Q ^ 2 ≤ 1) := by
  have hK := tan_cutoff h0 h1
  have hQi : (1 / Q) ≠ 0 := by positivity
  have hq2 : (1 / Q) ^ 2 * Q ^ 2 = 1 := by field_simp
  have hq2p : 0 < Q ^ 2 := by positivity
  have hip : 0 < (1 / Q) ^ 2 := by positivity
  constructor
  · obtain ⟨f, hf, hs, -⟩ := C16_low_pass fc fs Q h0 h1 hQ
    obtain ⟨f', hf', hb⟩ := C16_low_pass_prototype fc fs Q h0 h1 hQ
    rw [hf] at hf'
    cases hf'
    have hr : f.AtRest := by unfold Rbj.lowPass at hf; section_rest hf
    refine ⟨f, hf, ?_⟩
    have key := C130_biquad_iff f hr hs zero_le_one
    simp only [one_pow, one_mul] at key
    rw [← key]
    constructor
    · intro h
      by_contra hc
      have hlt : (1 / Q) ^ 2 < 2 := by nlinarith
      have ht : 0 < 1 - (1 / Q) ^ 2 / 2 := by linarith
      obtain ⟨w, hw0, hw1, hw⟩ := exists_freq hK (Real.sqrt_pos.mpr ht)
      obtain ⟨-, hg⟩ := proto_gain hb hK hQi hw0 hw1
      have := h w hw0 hw1 _ hg
      rw [hw, Real.sqrt_le_one, div_le_one (by
        have := Real.sq_sqrt ht.le
        simp only [mul_pow, this]; nlinarith [sq_nonneg (1 - 1 * (1 - (1 / Q) ^ 2 / 2))])] at this
      simp only [mul_pow, Real.sq_sqrt ht.le] at this
      nlinarith
    · intro h w hw0 hw1 g hg
      obtain ⟨ht, hg'⟩ := proto_gain hb hK hQi hw0 hw1
      have hge : 2 ≤ (1 / Q) ^ 2 := by nlinarith
      rw [gain_unique (chain_one.mpr hg) (chain_one.mpr hg'), Real.sqrt_le_one]
      set t := Real.tan (w / 2) / Real.tan (Real.pi * fc / fs)
      refine div_le_one_of_le₀ ?_ (by positivity)
      simp only [mul_pow]
      nlinarith [sq_nonneg (t ^ 2), mul_nonneg (sub_nonneg.mpr hge) (sq_nonneg t)]
  · obtain ⟨f, hf, hs, -⟩ := C16_high_pass fc fs Q h0 h1 hQ
    obtain ⟨f', hf', hb⟩ := C16_high_pass_prototype fc fs Q h0 h1 hQ
    rw [hf] at hf'
    cases hf'
    have hr : f.AtRest := by unfold Rbj.highPass at hf; section_rest hf
    refine ⟨f, hf, ?_⟩
    have key := C130_biquad_iff f hr hs zero_le_one
    simp only [one_pow, one_mul] at key
    rw [← key]
    constructor
    · intro h
      by_contra hc
      have hlt : (1 / Q) ^ 2 < 2 := by nlinarith
      have hd : 0 < 1 - (1 / Q) ^ 2 / 2 := by linarith
      have ht : 0 < (1 - (1 / Q) ^ 2 / 2)⁻¹ := inv_pos.mpr hd
      obtain ⟨w, hw0, hw1, hw⟩ := exists_freq hK (Real.sqrt_pos.mpr ht)
      obtain ⟨-, hg⟩ := proto_gain hb hK hQi hw0 hw1
      have := h w hw0 hw1 _ hg
      set s := (1 - (1 / Q) ^ 2 / 2)⁻¹ with hsdef
      have hs1 : s * (1 - (1 / Q) ^ 2 / 2) = 1 := inv_mul_cancel₀ hd.ne'
      rw [hw, Real.sqrt_le_one, div_le_one (by
        have := Real.sq_sqrt ht.le
        simp only [mul_pow, this]
        have : 0 < (1 / Q) ^ 2 * s := by positivity
        nlinarith [sq_nonneg (1 - 1 * s)])] at this
      simp only [mul_pow, Real.sq_sqrt ht.le] at this
      have e : (1 / Q) ^ 2 * s = 2 * s - 2 := by linarith
      rw [e] at this
      have : 0 < (1 / Q) ^ 2 * s := by positivity
      nlinarith
    · intro h w hw0 hw1 g hg
      obtain ⟨ht, hg'⟩ := proto_gain hb hK hQi hw0 hw1
      have hge : 2 ≤ (1 / Q) ^ 2 := by nlinarith
      rw [gain_unique (chain_one.mpr hg) (chain_one.mpr hg'), Real.sqrt_le_one]
      set t := Real.tan (w / 2) / Real.tan (Real.pi * fc / fs)
      refine div_le_one_of_le₀ ?_ (by positivity)
      simp only [mul_pow]
      nlinarith [sq_nonneg (t ^ 2), mul_nonneg (sub_nonneg.mpr hge) (sq_nonneg t)]

/-- **C130, cookbook band-pass.** It multiplies the energy of no frame by more than `Q²`, and no smaller factor
does. -/
theorem C130_rbj_bandpass (fc fs Q : ℝ) (h0 : 0 < fc) (h1 : fc < fs / 2) (hQ : 0 < Q) :
    ∃ f, Rbj.bandPass fc fs Q = .ok f ∧ ∀ G, 0 ≤ G →
      ((∀ xs, frameEnergy (f.filter xs).2 ≤ G ^ 2 * frameEnergy xs) ↔ Q ≤ G) := by
  have hK := tan_cutoff h0 h1
  have hQi : (1 / Q) ≠ 0 := by positivity
  obtain ⟨f, hf, hs, -, -, hQg⟩ := C16_band_pass fc fs Q h0 h1 hQ
  obtain ⟨f', hf', hb⟩ := C16_band_pass_prototype fc fs Q h0 h1 hQ
  rw [hf] at hf'
  cases hf'
  have hr : f.AtRest := by unfold Rbj.bandPass at hf; section_rest hf
  refine ⟨f, hf, fun G hG => ?_⟩
  rw [← C130_biquad_iff f hr hs hG]
  constructor
  · intro h
    have hfs : 0 < fs := by linarith
    have hpi := Real.pi_pos
    refine h _ (by positivity) ?_ Q hQg
    rw [div_lt_iff₀ hfs]; nlinarith
  · intro h w hw0 hw1 g hg
    obtain ⟨ht, hg'⟩ := proto_gain hb hK hQi hw0 hw1
    rw [gain_unique (chain_one.mpr hg) (chain_one.mpr hg')]
    refine le_trans ?_ h
    set t := Real.tan (w / 2) / Real.tan (Real.pi * fc / fs)
    rw [Real.sqrt_le_left hQ.le]
    have hq2 : (1 / Q) ^ 2 * Q ^ 2 = 1 := by field_simp
    rw [div_le_iff₀ (by positivity)]
    simp only [mul_pow]
    have : Q ^ 2 * ((1 / Q) ^ 2 * t ^ 2) = t ^ 2 := by rw [← mul_assoc, mul_comm (Q ^ 2), hq2, one_mul]
    nlinarith [mul_nonneg (sq_nonneg Q) (sq_nonneg (1 - 1 * t ^ 2))]

/-- With `Q = 1` the low-pass increases the energy of some frame, with `Q = 1/2` of none. -/
example : (∃ f, Rbj.lowPass 1000 48000 1 = .ok f ∧ ¬ ∀ xs, frameEnergy (f.filter xs).2 ≤ frameEnergy xs) ∧
    ∃ f, Rbj.lowPass 1000 48000 (1 / 2) = .ok f ∧ ∀ xs, frameEnergy (f.filter xs).2 ≤ frameEnergy xs := by
  obtain ⟨f, hf, h⟩ := (C130_rbj_iff 1000 48000 1 (by norm_num) (by norm_num) (by norm_num)).1
  obtain ⟨g, hg, h'⟩ := (C130_rbj_iff 1000 48000 (1 / 2) (by norm_num) (by norm_num) (by norm_num)).1
  exact ⟨⟨f, hf, fun hc => by norm_num at h; exact absurd hc (by simpa using h)⟩,
    g, hg, h'.mpr (by norm_num)⟩

end Edsp.C130
