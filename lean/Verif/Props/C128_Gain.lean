import Verif.Lemmas.Gain
import Verif.Props.C92_RoundedMoving
import Verif.Model.Sequences

/-!
# C128: a change of level by a power of two changes nothing but the level, bit for bit
-/

namespace Edsp.C128

open Edsp.GainL Edsp.FloatL Edsp.Rounded
open Edsp.Spec hiding mean

/-- **C128 (statistics).**  For every precision, every signal and every factor ±2^k, the results for the multiplied signal
are exactly the multiplied results: the mean and the harmonic mean by the factor, energy, power and variance by its square,
the norm by its magnitude.  A result that is not finite stays so. -/
theorem C128_statistics (p : ℕ) {c : ℝ} (hc : Gain c) (xs : List ℝ) :
    Rounded.mean p (louder c xs) = (Rounded.mean p xs).map (c * ·) ∧
    harmonicMean p (louder c xs) = (harmonicMean p xs).map (c * ·) ∧
    Rounded.energy p (louder c xs) = c ^ 2 * Rounded.energy p xs ∧
    Rounded.power p (louder c xs) = (Rounded.power p xs).map (c ^ 2 * ·) ∧
    Rounded.variance p (louder c xs) = (Rounded.variance p xs).map (c ^ 2 * ·) ∧
    Rounded.norm p (louder c xs) = |c| * Rounded.norm p xs := by
  simp only [pow_two]
  exact ⟨mean_gain p hc xs, harmonic_gain p hc xs, energy_gain p hc xs, power_gain p hc xs, variance_gain p hc xs,
    norm_gain p hc xs⟩

/-- The mean of 3, 5, 7 in `float`, 12 dB down. -/
example : Rounded.mean 24 (louder (1 / 4) [3, 5, 7]) = (Rounded.mean 24 [3, 5, 7]).map (1 / 4 * ·) :=
  (C128_statistics 24 ⟨-2, Or.inl (by norm_num)⟩ _).1

/-- **C128 (shape).**  What describes the shape of a signal does not depend on its level: kurtosis, crest, centroid, spread,
spectral entropy, roll-off and effective duration are the same; skewness and the normalized signal are the same up to the
polarity, the rate of zero crossings if the polarity is kept.  With an axis in other units (factor `d`) the centroid and the
spread are in those units. -/
theorem C128_shape_partial (p q : ℕ) {c d : ℝ} (hc : Gain c) (hd : Gain d) (L : ℝ → ℝ) (xs fs : List ℝ) :
    kurtosis p (louder c xs) = kurtosis p xs ∧
    skewness p (louder c xs) = (skewness p xs).map (polarity c * ·) ∧
    crest p (louder c xs) = crest p xs ∧
    centroid p (louder c xs) = centroid p xs ∧
    spread p (louder c xs) = spread p xs ∧
    weightedCentroid p (louder c xs) (louder d fs) = (weightedCentroid p xs fs).map (d * ·) ∧
    weightedSpread p (louder c xs) (louder d fs) = (weightedSpread p xs fs).map (|d| * ·) ∧
    spectralEntropy p L (louder c xs) = spectralEntropy p L xs ∧
    (∀ percentage, rolloff p q (louder c xs) percentage = rolloff p q xs percentage) ∧
    (∀ rate threshold, effectiveDuration p q (louder c xs) rate threshold = effectiveDuration p q xs rate threshold) ∧
    Rounded.normalize p (louder c xs) = (Rounded.normalize p xs).map (Option.map (polarity c * ·)) ∧
    (0 < c → azcr p (louder c xs) = azcr p xs) :=
  ⟨kurtosis_gain p hc xs, skewness_gain p hc xs, crest_gain p hc xs, centroid_gain p hc xs, spread_gain p hc xs,
    weightedCentroid_gain p hc hd xs fs, weightedSpread_gain p hc hd xs fs, spectralEntropy_gain p hc L xs,
    rolloff_gain p q hc xs, effectiveDuration_gain p q hc xs, normalize_gain p hc xs, fun h => azcr_gain p h xs⟩

/-- The skewness of a `double` signal with the polarity turned round. -/
example : skewness 53 (louder (-8) [1, 2, 5]) = (skewness 53 [1, 2, 5]).map (-1 * ·) := by
  have h := (C128_shape_partial 53 53 (c := -8) ⟨3, Or.inr (by norm_num)⟩ GainL.one (fun x => x) [1, 2, 5] []).2.1
  rwa [show polarity (-8) = -1 from if_neg (by norm_num)] at h

/-- **C128 (difference functions).**  At every lag `amdf` is multiplied by the magnitude of the factor, `asdf` by its
square. -/
theorem C128_differences (p : ℕ) {c : ℝ} (hc : Gain c) (xs : List ℝ) (i : ℕ) :
    amdf p (louder c xs) i = (amdf p xs i).map (|c| * ·) ∧ asdf p (louder c xs) i = (asdf p xs i).map (c ^ 2 * ·) := by
  rw [pow_two]
  exact ⟨amdf_gain p hc xs i, asdf_gain p hc xs i⟩

/-- **C128 (moving filters).**  A moving average or moving root mean square of any length, fed a signal of any length. -/
theorem C128_moving (p : ℕ) {n : ℕ} (h0 : 0 < n) (hn : n < 2 ^ 63) {c : ℝ} (hc : Gain c) (xs : List ℝ) :
    (∃ m m1 m2 ys, MovingAverage.new n = .ok m ∧ averageRun p m xs = .ok (m1, ys) ∧
      averageRun p m (louder c xs) = .ok (m2, louder c ys)) ∧
    (∃ m m1 m2 ys, MovingRms.new n = .ok m ∧ rmsRun p m xs = .ok (m1, ys) ∧
      rmsRun p m (louder c xs) = .ok (m2, ys.map (Option.map (|c| * ·)))) := by
  obtain ⟨w, hw, hw', hr⟩ := Rounded.new_ok hn
  have hs : ∀ {d : ℝ}, Gain d → ∀ ys, sums p n [] 0 (louder d ys) = louder d (sums p n [] 0 ys) := by
    intro d hd ys
    have := sums_gain p n hd ys [] 0
    rwa [mul_zero] at this
  constructor
  · obtain ⟨m1, h1⟩ := averageRun_eq p h0 xs ⟨w, 0⟩ [] hr
    obtain ⟨m2, h2⟩ := averageRun_eq p h0 (louder c xs) ⟨w, 0⟩ [] hr
    refine ⟨_, m1, m2, _, hw, h1, ?_⟩
    rw [h2]
    simp only []
    rw [hs hc]
    simp only [louder, List.map_map]
    congr 2
    exact List.map_congr_left fun a _ => rnd_div p hc a _
  · obtain ⟨m1, h1⟩ := rmsRun_eq p h0 xs ⟨w, 0⟩ [] hr
    obtain ⟨m2, h2⟩ := rmsRun_eq p h0 (louder c xs) ⟨w, 0⟩ [] hr
    refine ⟨_, m1, m2, _, hw', h1, ?_⟩
    rw [h2]
    have e : (louder c xs).map (fun x => rnd p (x * x)) = louder (c * c) (xs.map fun x => rnd p (x * x)) := by
      simp only [louder, List.map_map]
      exact List.map_congr_left fun x _ => rnd_mul p hc hc x x
    simp only []
    rw [e, hs (GainL.mul hc hc)]
    simp only [louder, List.map_map]
    congr 2
    refine List.map_congr_left fun a _ => ?_
    show Rounded.sqrt p (rnd p (c * c * a / _)) = _
    rw [rnd_div p (GainL.mul hc hc), sqrt_gain p hc]
    rfl

/-- **C128 (filters).**  The response of a biquad without history, and of a cascade of them, to the multiplied signal is the
multiplied response, sample for sample, stable or not. -/
theorem C128_filters (p : ℕ) {c : ℝ} (hc : Gain c) (fs : List (Biquad ℝ)) (h : ∀ f ∈ fs, f.w0 = 0 ∧ f.w1 = 0)
    (x : ℕ → ℝ) (n : ℕ) :
    cascadeResponse (rnd p) fs (fun i => c * x i) n = c * cascadeResponse (rnd p) fs x n := by
  induction fs generalizing x with
  | nil => rfl
  | cons f fs ih =>
    have hf := h f (List.mem_cons_self ..)
    rw [cascadeResponse, cascadeResponse, ← ih (fun g hg => h g (List.mem_cons_of_mem f hg))]
    congr 1
    funext i
    have := response_gain p hc f x i
    rwa [fresh_scaled hf.1 hf.2] at this

/-- A `float` filter with feedback, the signal 6 dB down and turned round. -/
example (x : ℕ → ℝ) (n : ℕ) :
    cascadeResponse (rnd 24) [{ a0 := 1, a1 := -1 / 2, a2 := 1 / 4, b0 := 1, b1 := 2, b2 := 1, w0 := 0, w1 := 0 }]
        (fun i => -(1 / 2) * x i) n =
      -(1 / 2) * cascadeResponse (rnd 24) [{ a0 := 1, a1 := -1 / 2, a2 := 1 / 4, b0 := 1, b1 := 2, b2 := 1, w0 := 0, w1 := 0 }] x n :=
  C128_filters 24 ⟨-1, Or.inr (by norm_num)⟩ _ (by simp) x n

/-- **C128 (envelopes, oscillators, ramps).**  An ADSR envelope in any state multiplies the louder signal to the louder
result and ends in the same state.  An oscillator in any state with the amplitude multiplied produces the multiplied
samples, or fails in the same way.  `linspace` between the multiplied end points stores the multiplied values. -/
theorem C128_generators (p q : ℕ) {c : ℝ} (hc : Gain c) :
    (∀ (s : Env.Adsr.State) (xs : List ℝ), RoundedAdsr.apply p s (louder c xs) =
      (louder c (RoundedAdsr.apply p s xs).1, (RoundedAdsr.apply p s xs).2)) ∧
    (∀ (sine : ℝ → ℝ) (k : Osc.Kind) (n : ℕ) (s : Osc.State),
      (Rounded.gen p q sine k n { s with amplitude := c * s.amplitude }).map (·.1) =
        (Rounded.gen p q sine k n s).map fun r => louder c r.1) ∧
    (∀ (x1 x2 : ℝ) (N : ℕ), linspace p (c * x1) (c * x2) N = (linspace p x1 x2 N).map (louder c)) := by
  refine ⟨fun s xs => adsr_gain p hc xs s, fun sine k n s => ?_, linspace_gain p hc⟩
  rw [gen_gain p q hc sine k n s]
  cases Rounded.gen p q sine k n s <;> rfl

/-- **C128 (silence).**  The verdict for the louder signal with the threshold multiplied by the square of the factor is the
same. -/
theorem C128_silence (p : ℕ) {c : ℝ} (hc : Gain c) (xs : List ℝ) (t : ℝ) :
    Verdict.silence p (louder c xs) (c ^ 2 * t) = Verdict.silence p xs t := by
  rw [pow_two]
  exact silence_gain p hc xs t

/-- **C128 is violated by `rms`**, in exact arithmetic for every signal and every factor that changes the level: its sum
starts with 1. -/
theorem C128_rms_violates {c : ℝ} (hc : |c| ≠ 1) {xs : List ℝ} (hx : xs ≠ []) :
    ∃ r s, Seq.rms xs = .ok r ∧ Seq.rms (louder c xs) = .ok s ∧ s ≠ |c| * r := by
  have hn : (0 : ℝ) < xs.length := by exact_mod_cast List.length_pos_iff.mpr hx
  have key : ∀ (ys : List ℝ) (a b : ℝ), Seq.innerSelf (c ^ 2 * a + b) (louder c ys) =
      c ^ 2 * Seq.innerSelf a ys + b := by
    intro ys
    induction ys with
    | nil => intro a b; rfl
    | cons y ys ih =>
      intro a b
      show Seq.innerSelf (c ^ 2 * a + b + c * y * (c * y)) (louder c ys) = _
      rw [show c ^ 2 * a + b + c * y * (c * y) = c ^ 2 * (a + y * y) + b by ring, ih]
      rfl
  have h0 : ∀ (ys : List ℝ) (a : ℝ), 0 ≤ a → 0 ≤ Seq.innerSelf a ys := by
    intro ys
    induction ys with
    | nil => intro a ha; exact ha
    | cons y ys ih => intro a ha; exact ih _ (add_nonneg ha (mul_self_nonneg y))
  have hk := key xs 1 (1 - c ^ 2)
  rw [mul_one, add_sub_cancel] at hk
  refine ⟨_, _, if_neg hn.ne', by rw [Seq.rms, louder_length, if_neg hn.ne'], fun h => hc ?_⟩
  have h1 := h0 xs 1 zero_le_one
  have h2 := h0 (louder c xs) 1 zero_le_one
  have h3 := congrArg (· ^ 2) h
  simp only [mul_pow, sq_abs] at h3
  rw [Real.sq_sqrt (div_nonneg h2 hn.le), Real.sq_sqrt (div_nonneg h1 hn.le), hk] at h3
  field_simp at h3
  have h4 : |c| ^ 2 = 1 := by rw [sq_abs]; linarith
  exact (pow_eq_one_iff_of_nonneg (abs_nonneg c) two_ne_zero).mp h4

/-- In floating point arithmetic, silence has the same positive RMS at every level. -/
theorem C128_rms_silent_violates {p : ℕ} (hp : 1 ≤ p) (c : ℝ) {n : ℕ} (hn : 0 < n) :
    ∃ r, 0 < r ∧ Rounded.rms p (List.replicate n 0) = some r ∧ Rounded.rms p (louder c (List.replicate n 0)) = some r := by
  have e : louder c (List.replicate n 0) = List.replicate n 0 := by simp [louder]
  have h1 : rnd p 1 = 1 := by simpa using rnd_int hp (m := 1) (by simpa using one_le_pow₀ (by norm_num))
  have hf : ∀ k, (List.replicate k (0 : ℝ)).foldl (fun s x => rnd p (s + rnd p (x * x))) 1 = 1 := by
    intro k
    induction k with
    | zero => rfl
    | succ k ih =>
      rw [List.replicate_succ, List.foldl_cons, mul_zero, rnd_zero, add_zero, h1]
      exact ih
  have hr : 0 < rnd p (n : ℝ) := rnd_pos hp (by exact_mod_cast hn)
  have hq : 0 < rnd p (1 / rnd p (n : ℝ)) := rnd_pos hp (one_div_pos.mpr hr)
  refine ⟨rnd p (Real.sqrt (rnd p (1 / rnd p (n : ℝ)))), rnd_pos hp (Real.sqrt_pos.mpr hq), ?_, ?_⟩
  · simp only [Rounded.rms, hf, List.length_replicate, quotient, if_neg hr.ne', Option.bind_some, root,
      if_neg (not_lt.mpr hq.le)]
  · rw [e]
    simp only [Rounded.rms, hf, List.length_replicate, quotient, if_neg hr.ne', Option.bind_some, root,
      if_neg (not_lt.mpr hq.le)]

/-- **C128 is violated by `azcr`** when the polarity is turned round: 0 counts as positive. -/
theorem C128_azcr_violates {p : ℕ} (hp : 1 ≤ p) {x : ℝ} (hx : 0 < x) :
    azcr p [0, x] = some 0 ∧ azcr p (louder (-1) [0, x]) = some 1 := by
  have h1 : rnd p 1 = 1 := by simpa using rnd_int hp (m := 1) (by simpa using one_le_pow₀ (by norm_num))
  constructor
  · simp [azcr, crossings, Rounded.sign, quotient, not_lt.mpr hx.le, h1, rnd_zero]
  · simp [louder, azcr, crossings, Rounded.sign, quotient, hx, h1]
    norm_num [h1]

/-- **Sharp.**  For the factor 3 the mean is not multiplied, in any precision: 2^p and 1 have the mean 2^(p-1), three times
as much has a mean that is 2 larger than 3 * 2^(p-1). -/
theorem C128_other_gains {p : ℕ} (hp : 2 ≤ p) :
    Rounded.mean p [2 ^ p, 1] = some (2 ^ (p - 1)) ∧
    Rounded.mean p (louder 3 [2 ^ p, 1]) = some (3 * 2 ^ (p - 1) + 2) := by
  obtain ⟨k, rfl⟩ : ∃ k, p = k + 2 := ⟨p - 2, by omega⟩
  have h1 : 1 ≤ k + 2 := by omega
  have hk : (1 : ℤ) ≤ 2 ^ k := one_le_pow₀ (by norm_num)
  have hkr : (1 : ℝ) ≤ 2 ^ k := one_le_pow₀ (by norm_num)
  have hp4 : (2 : ℤ) ^ (k + 2) = 4 * 2 ^ k := by rw [pow_add]; ring
  have e4 : (2 : ℝ) ^ (k + 2) = 4 * 2 ^ k := by rw [pow_add]; ring
  have e5 : (2 : ℝ) ^ (k + 2 - 1) = 2 * 2 ^ k := by rw [show k + 2 - 1 = k + 1 by omega, pow_succ]; ring
  have i : ∀ (m : ℤ) (j : ℕ), |m| ≤ 2 ^ (k + 2) → rnd (k + 2) (m * 2 ^ j) = m * 2 ^ j := fun m j h => by
    have := rnd_float (isFloat_int h1 (j : ℤ) h)
    rwa [zpow_natCast] at this
  have r2 : rnd (k + 2) 2 = 2 := by
    have := i 1 1 (by rw [abs_one, hp4]; linarith)
    simpa using this
  have two : rnd (k + 2) (2 : ℕ) ≠ 0 := by rw [Nat.cast_ofNat, r2]; norm_num
  have a1 : rnd (k + 2) (0 + 2 ^ (k + 2)) = 2 ^ (k + 2) := by
    have := i 1 (k + 2) (by rw [abs_one, hp4]; linarith)
    simpa using this
  have a3 : rnd (k + 2) (0 + 3 * 2 ^ (k + 2)) = 3 * 2 ^ (k + 2) := by
    have := i 3 (k + 2) (by rw [hp4, abs_of_pos (by norm_num)]; linarith)
    simpa using this
  have s3 : rnd (k + 2) (3 * 2 ^ (k + 2) + 3 * 1) = 4 * (3 * 2 ^ k + 1) := by
    have hx : (0 : ℝ) ≤ 3 * 2 ^ (k + 2) + 3 * 1 := by positivity
    have z1 : (2 : ℝ) ^ ((2 : ℤ) + (k + 2 : ℕ) - 1) = 8 * 2 ^ k := by
      rw [show (2 : ℤ) + (k + 2 : ℕ) - 1 = ((k + 3 : ℕ) : ℤ) by push_cast; ring, zpow_natCast, pow_add]; ring
    have z2 : (2 : ℝ) ^ ((2 : ℤ) + (k + 2 : ℕ)) = 16 * 2 ^ k := by
      rw [show (2 : ℤ) + (k + 2 : ℕ) = ((k + 4 : ℕ) : ℤ) by push_cast; ring, zpow_natCast, pow_add]; ring
    have n : nearestEven ((3 * 2 ^ (k + 2) + 3 * 1) / 2 ^ (2 : ℤ)) = 3 * 2 ^ k + 1 := by
      apply FloatL.ne_of_lt
      · rw [e4]; push_cast; norm_num; linarith
      · rw [e4]; push_cast; norm_num; linarith
    rw [rnd_of (k := 2) (by rw [abs_of_nonneg hx, z1, e4]; linarith) (by rw [abs_of_nonneg hx, z2, e4]; linarith), n]
    push_cast
    norm_num
    ring
  constructor
  · have b := i 1 (k + 1) (by rw [abs_one, hp4]; linarith)
    have e : rnd (k + 2) (2 ^ (k + 2) / 2) = 2 * 2 ^ k := by
      rw [e4, show (4 : ℝ) * 2 ^ k / 2 = ((1 : ℤ) : ℝ) * 2 ^ (k + 1) by rw [pow_succ]; push_cast; ring, b, pow_succ]
      push_cast; ring
    show quotient (k + 2) (rnd (k + 2) (rnd (k + 2) (0 + 2 ^ (k + 2)) + 1)) (rnd (k + 2) (2 : ℕ)) = _
    rw [a1, rnd_succ hp, quotient, if_neg two, Nat.cast_ofNat, r2, e, e5]
  · have b := i (3 * 2 ^ k + 1) 1 (by rw [abs_of_pos (by linarith), hp4]; linarith)
    have e : rnd (k + 2) (4 * (3 * 2 ^ k + 1) / 2) = 3 * (2 * 2 ^ k) + 2 := by
      rw [show (4 : ℝ) * (3 * 2 ^ k + 1) / 2 = ((3 * 2 ^ k + 1 : ℤ) : ℝ) * 2 ^ 1 by push_cast; ring, b]
      push_cast; ring
    show quotient (k + 2) (rnd (k + 2) (rnd (k + 2) (0 + 3 * 2 ^ (k + 2)) + 3 * 1)) (rnd (k + 2) (2 : ℕ)) = _
    rw [a3, s3, quotient, if_neg two, Nat.cast_ofNat, r2, e, e5]

end Edsp.C128
