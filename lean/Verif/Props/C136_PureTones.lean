import Verif.Lemmas.Tone
import Verif.Props.C39_Oscillators
import Verif.Props.C68_Spectrum
import Verif.Props.C51_Temporal
import Verif.Props.C49_Features

/-!
# C136: a generated tone in the statistics, the spectrum and the features
-/

namespace Edsp.C136

open Finset Edsp.Mem Edsp.Spec Edsp.Osc Edsp.C39 Edsp.Stat Edsp.StatL Edsp.Feature

/-- The phase of an oscillator at the time of its next call. -/
noncomputable def phaseNow (s : State) : ℝ := 2 * Real.pi * s.frequency * s.timestamp + s.phase

theorem frame {dbg : Bool} {s s' : State} (hreach : Reachable dbg .sin s) (hr : 0 < s.sampleRate) {K N : ℕ} (hN : 0 < N)
    (hf : s.frequency * N = K * s.sampleRate) {xs : List ℝ} (hg : gen .sin N s = .ok (xs, s')) :
    xs = (List.range N).map fun j : ℕ => s.amplitude * Real.sin (2 * Real.pi * K * j / N + phaseNow s) := by
  rw [C39_samples hreach hr (show Ready .sin s from trivial) N] at hg
  cases hg
  refine List.map_congr_left fun j _ => ?_
  simp only [expected, sineWave, phaseNow]
  have hn : (N : ℝ) ≠ 0 := by positivity
  have e : s.frequency = K * s.sampleRate / N := by field_simp; exact hf
  congr 2
  rw [e]
  field_simp
  ring

theorem frame_at0 {s : State} {K N : ℕ} {j : ℕ} (hj : j < N) :
    at0 ((List.range N).map fun j : ℕ => s.amplitude * Real.sin (2 * Real.pi * K * j / N + phaseNow s)) j =
      s.amplitude * Real.sin (2 * Real.pi * K * j / N + phaseNow s) := by
  simp [at0, List.getD, hj]

theorem len_frame {f : ℕ → ℝ} {N : ℕ} : ((List.range N).map f).length = N := by simp

theorem two_mul_dvd {N K : ℕ} (h : ¬ N ∣ 2 * K) : ¬ N ∣ K := fun g => h (g.mul_left 2)

/-- **C136 (level).**  A frame of `N` samples that holds `K` periods of a sine, taken from the oscillator at any time, has
the mean 0, unless the period divides the sampling period, and the power `A²/2`, unless it divides half of it. -/
theorem C136_level {dbg : Bool} {s s' : State} (hreach : Reachable dbg .sin s) (hr : 0 < s.sampleRate) {K N : ℕ}
    (hN : 0 < N) (hf : s.frequency * N = K * s.sampleRate) {xs : List ℝ} (hg : gen .sin N s = .ok (xs, s')) :
    (¬ N ∣ K → mean xs = .ok 0) ∧
    (¬ N ∣ 2 * K → Seq.energy xs = N * s.amplitude ^ 2 / 2 ∧ Seq.power xs = .ok (s.amplitude ^ 2 / 2) ∧
      variance xs = .ok (s.amplitude ^ 2 / 2) ∧ standardDeviation xs = .ok (|s.amplitude| / Real.sqrt 2) ∧
      Seq.rssq xs = |s.amplitude| * Real.sqrt (N / 2)) := by
  have hx := frame hreach hr hN hf hg
  have hl : xs.length = N := by rw [hx, len_frame]
  have hne : xs ≠ [] := by rintro rfl; simp at hl; omega
  have hn : (N : ℝ) ≠ 0 := by positivity
  have hmean : ¬ N ∣ K → avg xs = 0 := by
    intro hK
    have := ToneL.sine_sum hN.ne' (phaseNow s) hK
    rw [avg, ← total_eq, total, hl, sum_congr rfl fun j hj => by rw [hx, frame_at0 (mem_range.1 hj)], ← mul_sum, this]
    simp
  refine ⟨fun hK => by rw [mean_ok hne, hmean hK], fun hK => ?_⟩
  have hm := hmean (two_mul_dvd hK)
  have hsq : ∑ i ∈ range xs.length, at0 xs i ^ 2 = N * s.amplitude ^ 2 / 2 := by
    rw [hl, sum_congr rfl fun j hj => by rw [hx, frame_at0 (mem_range.1 hj), mul_pow], ← mul_sum,
      ToneL.sine_squares hN.ne' _ hK]
    ring
  obtain ⟨he, ⟨p, hp, hpp, -⟩, hr0, hr2⟩ := C51_energy hne
  have hpv : p = s.amplitude ^ 2 / 2 := by
    rw [hsq, hl] at hpp
    have : (p - s.amplitude ^ 2 / 2) * N = 0 := by linarith
    rcases mul_eq_zero.1 this with h | h
    · linarith
    · exact absurd h hn
  have hvar : variance xs = .ok (s.amplitude ^ 2 / 2) := by
    rw [variance, moment_ok hne, centralMoment, hm, avgOf, avg, List.length_map, sum_eq]
    simp only [sub_zero, Nat.reduceAdd]
    rw [hsq, hl]
    congr 1
    field_simp
  refine ⟨he.trans hsq, by rw [hp, hpv], hvar, ?_, ?_⟩
  · simp only [standardDeviation, hvar, bind, Except.bind, fsqrt]
    rw [if_neg (not_lt.2 (by positivity)), Real.sqrt_div (sq_nonneg _), Real.sqrt_sq_eq_abs]
  · rw [hsq] at hr2
    rw [← Real.sqrt_sq hr0, hr2, show (N : ℝ) * s.amplitude ^ 2 / 2 = s.amplitude ^ 2 * (N / 2) by ring,
      Real.sqrt_mul (sq_nonneg _), Real.sqrt_sq_eq_abs]

/-- **The root mean square of such a frame is not `A/√2`**: `rms` starts its sum at 1. -/
theorem C136_rms_violates {dbg : Bool} {s s' : State} (hreach : Reachable dbg .sin s) (hr : 0 < s.sampleRate) {K N : ℕ}
    (hN : 0 < N) (hf : s.frequency * N = K * s.sampleRate) {xs : List ℝ} (hg : gen .sin N s = .ok (xs, s'))
    (hK : ¬ N ∣ 2 * K) :
    Seq.rms xs = .ok (Real.sqrt (s.amplitude ^ 2 / 2 + 1 / N)) ∧
      Seq.rms xs ≠ .ok (|s.amplitude| / Real.sqrt 2) := by
  have hx := frame hreach hr hN hf hg
  have hl : xs.length = N := by rw [hx, len_frame]
  have hne : xs ≠ [] := by rintro rfl; simp at hl; omega
  have hn : (0 : ℝ) < N := by positivity
  have he := ((C136_level hreach hr hN hf hg).2 hK).1
  have hi : Seq.innerSelf 1 xs = 1 + N * s.amplitude ^ 2 / 2 := by
    have e : Seq.innerSelf 1 xs = accumulate (fun v => v * v) 1 xs := rfl
    have e' : Seq.innerSelf 0 xs = accumulate (fun v => v * v) 0 xs := rfl
    rw [Seq.energy, e', accumulate_eq, zero_add] at he
    rw [e, accumulate_eq, he]
  have h1 : Seq.rms xs = .ok (Real.sqrt (s.amplitude ^ 2 / 2 + 1 / N)) := by
    rw [Seq.rms, hi, hl, if_neg hn.ne']
    congr 2
    field_simp
    ring
  refine ⟨h1, fun h => ?_⟩
  rw [h1] at h
  injection h with h
  rw [← Real.sqrt_sq_eq_abs, ← Real.sqrt_div (sq_nonneg _), Real.sqrt_inj (by positivity) (by positivity)] at h
  have : 0 < 1 / (N : ℝ) := by positivity
  linarith

/-- The bins of the frame. -/
theorem frame_bins {dbg : Bool} {s s' : State} (hreach : Reachable dbg .sin s) (hr : 0 < s.sampleRate) {K N : ℕ}
    (hN : 0 < N) (hf : s.frequency * N = K * s.sampleRate) {xs : List ℝ} (hg : gen .sin N s = .ok (xs, s')) (k : ℕ) :
    bin (ofReals xs) k = s.amplitude / (2 * Complex.I) *
      (Complex.exp (phaseNow s * Complex.I) * (if (N : ℤ) ∣ K - k then (N : ℂ) else 0) -
        Complex.exp (-(phaseNow s * Complex.I)) * (if (N : ℤ) ∣ K + k then (N : ℂ) else 0)) := by
  have hx := frame hreach hr hN hf hg
  have hl : xs.length = N := by rw [hx, len_frame]
  rw [Spectral.bin_ofReals, hl, ← ToneL.sine_bins hN.ne']
  refine Fourier.F_congr (fun j hj => ?_) k
  have := frame_at0 (s := s) (K := K) hj
  rw [← hx] at this
  rw [← this]
  rfl

theorem dvd_minus {N K k : ℕ} (h : K < N) (hk : k < N) : (N : ℤ) ∣ K - k ↔ k = K := by
  rw [Fourier.dvd_sub_small h hk, eq_comm]

theorem dvd_plus {N K k : ℕ} (h0 : 0 < K) (h : K < N) (hk : k < N) : (N : ℤ) ∣ K + k ↔ k = N - K := by
  constructor
  · intro g
    have g' : N ∣ K + k := by exact_mod_cast g
    obtain ⟨c, hc⟩ := g'
    have : c = 1 := by
      have h1 : c < 2 := by by_contra h2; have := Nat.mul_le_mul_left N (show 2 ≤ c by omega); omega
      have h2 : c ≠ 0 := by rintro rfl; omega
      omega
    subst this
    omega
  · rintro rfl
    exact ⟨1, by push_cast [h.le]; ring⟩

/-- **C136 (transform).**  The transform of a frame with `K` periods below half the sample rate is 0 in every bin except
bin `K`, which holds `N/2` times the amplitude and the phase of the tone at the first sample of the frame. -/
theorem C136_transform {dbg : Bool} {s s' : State} (hreach : Reachable dbg .sin s) (hr : 0 < s.sampleRate) {K N : ℕ}
    (hK : 0 < K) (hKN : 2 * K < N) (hf : s.frequency * N = K * s.sampleRate) {xs : List ℝ}
    (hg : gen .sin N s = .ok (xs, s')) (h31 : N < 2147483648) {m : List ℂ} {d : ℕ} (hd : d + (N / 2 + 1) ≤ m.length) :
    ∃ m', Spectral.dft xs 0 xs.length m d = .ok m' ∧ Wrote m m' d ((List.range (N / 2 + 1)).map fun k =>
      if k = K then (⟨s.amplitude * N / 2 * Real.sin (phaseNow s), -(s.amplitude * N / 2 * Real.cos (phaseNow s))⟩ : ℂ)
      else 0) := by
  have hN : 0 < N := by omega
  have hl : xs.length = N := by rw [frame hreach hr hN hf hg, len_frame]
  obtain ⟨m', h1, w⟩ := Spectral.C45_dft (s := xs) (first := 0) (n := N) (m := m) (d := d) hN h31 (by omega) hd
  rw [Nat.zero_add] at h1 w
  refine ⟨m', by rw [hl]; exact h1, ?_⟩
  have hseg : seg xs 0 N = xs := by simp [seg, hl.symm]
  rw [hseg] at w
  have e : ((List.range (N / 2 + 1)).map fun k =>
      if k = K then (⟨s.amplitude * N / 2 * Real.sin (phaseNow s), -(s.amplitude * N / 2 * Real.cos (phaseNow s))⟩ : ℂ)
      else 0) = (List.range (N / 2 + 1)).map (bin (ofReals xs)) := by
    refine List.map_congr_left fun k hk => ?_
    have hk' : k < N / 2 + 1 := List.mem_range.1 hk
    have hkN : k < N := by omega
    rw [frame_bins hreach hr hN hf hg]
    simp only [dvd_minus (show K < N by omega) hkN, dvd_plus hK (show K < N by omega) hkN]
    rw [if_neg (show ¬ k = N - K by omega)]
    split_ifs
    · rw [mul_zero, sub_zero, Complex.exp_mul_I, ← Complex.ofReal_cos, ← Complex.ofReal_sin]
      have hI : (s.amplitude : ℂ) / (2 * Complex.I) = -(s.amplitude / 2) * Complex.I := by
        rw [div_mul_eq_div_div, Complex.div_I, neg_mul]
      rw [hI]
      generalize Real.cos (phaseNow s) = a
      generalize Real.sin (phaseNow s) = b
      apply Complex.ext <;> simp <;> ring
    · simp
  rw [e]
  exact w

/-- The power spectrum of a tone in bin `K` of `n` bins. -/
noncomputable def line (n K : ℕ) (P : ℝ) : List ℝ := (List.range n).map fun k => if k = K then P else 0

/-- **C136 (spectrum).**  The power spectrum of such a frame is one line of height `(A·N/2)²` in bin `K`. -/
theorem C136_spectrum {dbg : Bool} {s s' : State} (hreach : Reachable dbg .sin s) (hr : 0 < s.sampleRate) {K N : ℕ}
    (hK : 0 < K) (hKN : 2 * K < N) (hf : s.frequency * N = K * s.sampleRate) {xs : List ℝ}
    (hg : gen .sin N s = .ok (xs, s')) (h31 : N < 2147483648) {m : List ℝ} {first d : ℕ}
    (hs : first + N ≤ m.length) (hm : seg m first (first + N) = xs) (hd : d + (N / 2 + 1) ≤ m.length) :
    ∃ m', Spectral.spectrum m first (first + N) d = .ok m' ∧
      Wrote m m' d (line (N / 2 + 1) K ((s.amplitude * N / 2) ^ 2)) := by
  have hN : 0 < N := by omega
  obtain ⟨m', h1, w⟩ := Spectral.C68_spectrum hN h31 hs hd
  refine ⟨m', h1, ?_⟩
  rw [hm] at w
  have e : line (N / 2 + 1) K ((s.amplitude * N / 2) ^ 2) =
      (List.range (N / 2 + 1)).map fun k => ‖bin (ofReals xs) k‖ ^ 2 := by
    refine List.map_congr_left fun k hk => ?_
    have hk' : k < N / 2 + 1 := List.mem_range.1 hk
    have hkN : k < N := by omega
    rw [frame_bins hreach hr hN hf hg]
    simp only [dvd_minus (show K < N by omega) hkN, dvd_plus hK (show K < N by omega) hkN]
    rw [if_neg (show ¬ k = N - K by omega)]
    split_ifs
    · rw [mul_zero, sub_zero, norm_mul, norm_mul, Complex.norm_exp_ofReal_mul_I]
      simp
      ring_nf
      rw [sq_abs]
      ring
    · simp
  rw [e]
  exact w

/-- **C136 (aliasing).**  Above half the sample rate the line stands in the mirrored bin `N - K`. -/
theorem C136_alias {dbg : Bool} {s s' : State} (hreach : Reachable dbg .sin s) (hr : 0 < s.sampleRate) {K N : ℕ}
    (hK : N < 2 * K) (hKN : K < N) (hf : s.frequency * N = K * s.sampleRate) {xs : List ℝ}
    (hg : gen .sin N s = .ok (xs, s')) (h31 : N < 2147483648) {m : List ℝ} {first d : ℕ}
    (hs : first + N ≤ m.length) (hm : seg m first (first + N) = xs) (hd : d + (N / 2 + 1) ≤ m.length) :
    ∃ m', Spectral.spectrum m first (first + N) d = .ok m' ∧
      Wrote m m' d (line (N / 2 + 1) (N - K) ((s.amplitude * N / 2) ^ 2)) := by
  have hN : 0 < N := by omega
  obtain ⟨m', h1, w⟩ := Spectral.C68_spectrum hN h31 hs hd
  refine ⟨m', h1, ?_⟩
  rw [hm] at w
  have e : line (N / 2 + 1) (N - K) ((s.amplitude * N / 2) ^ 2) =
      (List.range (N / 2 + 1)).map fun k => ‖bin (ofReals xs) k‖ ^ 2 := by
    refine List.map_congr_left fun k hk => ?_
    have hk' : k < N / 2 + 1 := List.mem_range.1 hk
    have hkN : k < N := by omega
    rw [frame_bins hreach hr hN hf hg]
    simp only [dvd_minus (show K < N by omega) hkN, dvd_plus (show 0 < K by omega) (show K < N by omega) hkN]
    rw [if_neg (show ¬ k = K by omega)]
    split_ifs
    · rw [mul_zero, zero_sub, norm_mul, norm_neg, norm_mul, ← neg_mul, ← Complex.ofReal_neg,
        Complex.norm_exp_ofReal_mul_I]
      simp
      ring_nf
      rw [sq_abs]
      ring
    · simp
  rw [e]
  exact w

theorem line_at0 (n K : ℕ) (P : ℝ) {k : ℕ} (hk : k < n) : at0 (line n K P) k = if k = K then P else 0 := by
  simp [at0, line, List.getD, hk]

theorem line_length (n K : ℕ) (P : ℝ) : (line n K P).length = n := by simp [line]

theorem line_sum {n K : ℕ} (hK : K < n) (P : ℝ) (f : ℕ → ℝ) :
    ∑ i ∈ range (line n K P).length, f i * at0 (line n K P) i = f K * P := by
  rw [line_length, sum_congr rfl fun i hi => by rw [line_at0 _ _ _ (mem_range.1 hi)]]
  simp [hK]

/-- **C136 (features).**  Of one line of the height `P > 0` in bin `K`, the peak is at `K`, the centroid is `K`, the spread
is 0 and every roll-off below the whole energy is the position of bin `K`. -/
theorem C136_features {n K : ℕ} (hK : K < n) {P : ℝ} (hP : 0 < P) :
    Seq.peak (line n K P) = .ok (K, P) ∧ centroid (line n K P) = .ok (K : ℝ) ∧ spread (line n K P) = .ok 0 ∧
      ∀ c, 0 ≤ c → c < 1 → rolloff (line n K P) c = .ok ((K : ℝ) / n) := by
  have hl := line_length n K P
  have hne : line n K P ≠ [] := by intro h; rw [h] at hl; simp at hl; omega
  have hmem : P ∈ line n K P := by
    refine List.mem_map.2 ⟨K, List.mem_range.2 hK, by simp⟩
  have h0 : ∀ v ∈ line n K P, 0 ≤ v := by
    intro v hv
    obtain ⟨k, -, rfl⟩ := List.mem_map.1 hv
    split_ifs
    · exact hP.le
    · exact le_rfl
  have hget : ∀ {i : ℕ} {v : ℝ}, (line n K P)[i]? = some v → i < n ∧ v = if i = K then P else 0 := by
    intro i v h
    have hi : i < n := by
      by_contra hc
      rw [List.getElem?_eq_none (by omega)] at h
      cases h
    refine ⟨hi, ?_⟩
    have := line_at0 n K P hi
    rw [at0, List.getD, h] at this
    exact this
  have htot : total (line n K P) = P := by
    have := line_sum hK P fun _ => 1
    simpa [total] using this
  refine ⟨?_, ?_, ?_, ?_⟩
  · obtain ⟨i, v, h1, h2, h3, -⟩ := Props.C34_peak hne
    obtain ⟨-, hv⟩ := hget h2
    have := h3 P hmem
    split_ifs at hv with hi
    · rw [h1, hi, hv]
    · linarith
  · rw [centroid_ok (by rw [htot]; exact hP.ne'), gravity, htot, line_sum hK P fun i => (i : ℝ)]
    congr 1
    field_simp
  · obtain ⟨sp, h1, -, -, -, h5⟩ := C49_spread h0 ⟨P, hmem, hP⟩
    rw [h1, h5 K]
    intro i hi
    by_cases hin : i < n
    · rw [line_at0 _ _ _ hin, if_neg hi]
    · rw [at0, List.getD, List.getElem?_eq_none (by omega)]
      rfl
  · intro c hc0 hc1
    obtain ⟨i, hi, h1, h2, h3⟩ := C50_rolloff_partial hne hc0
    have hE : ∀ k, k ≤ n → energyUpTo (line n K P) k = if K < k then P ^ 2 else 0 := by
      intro k hk
      rw [energyUpTo, sum_congr rfl fun j hj => by
        rw [line_at0 _ _ _ (lt_of_lt_of_le (mem_range.1 hj) hk)]]
      simp [ite_pow]
    rw [hl] at hi h1 h2 h3
    rw [hE n le_rfl, if_pos hK] at h2 h3
    have hP2 : 0 < P ^ 2 := by positivity
    have : i = K := by
      rcases lt_trichotomy i K with h | h | h
      · exfalso
        rcases h3 with h3 | h3
        · rw [hE _ (by omega), if_neg (by omega)] at h3
          have := mul_nonneg hc0 hP2.le
          linarith
        · omega
      · exact h
      · exfalso
        have := h2 K h
        rw [hE _ (by omega), if_pos (by omega)] at this
        nlinarith
    rw [h1, this]

/-- **C136 (period).**  The difference functions of a frame of any of the oscillators vanish at every lag that is a whole
number of periods. -/
theorem C136_period {dbg : Bool} {k : Kind} {s s' : State} (hreach : Reachable dbg k s) (hr : 0 < s.sampleRate)
    (h : Ready k s) {P n : ℕ} (hP : WholePeriods k s (P / s.sampleRate)) {xs : List ℝ}
    (hg : gen k n s = .ok (xs, s')) (hPn : P < n) {m : List ℝ} {first d : ℕ} (hs : first + n ≤ m.length)
    (hm : seg m first (first + n) = xs) (hd : d + n ≤ m.length) (ho : d + n ≤ first ∨ first + n ≤ d) :
    (∃ m', amdf m first (first + n) d = .ok m' ∧ m'[d + P]? = some 0) ∧
      ∃ m', asdf m first (first + n) d = .ok m' ∧ m'[d + P]? = some 0 := by
  have hl : xs.length = n := by rw [← hm, seg_length hs]; omega
  have hz : ∀ j, j + P < xs.length → at0 xs (j + P) = at0 xs j := by
    intro j hj
    have := C39_periodic hreach hr h P hP n xs hg j (by omega)
    rw [at0, at0, List.getD, List.getD, this]
  obtain ⟨-, -, z1, z2⟩ := C51_period (x := xs) (k := P) (by omega)
  obtain ⟨m1, e1, w1⟩ := C51_amdf (by omega) hs hd ho
  obtain ⟨m2, e2, w2⟩ := C51_asdf (by omega) hs hd ho
  rw [hm] at w1 w2
  obtain ⟨-, -, g1, -⟩ := Mem.wrote_iff.1 w1
  obtain ⟨-, -, g2, -⟩ := Mem.wrote_iff.1 w2
  refine ⟨⟨m1, e1, ?_⟩, m2, e2, ?_⟩
  · rw [g1 P (by simpa using hPn)]
    simp [hPn, z1.2 hz]
  · rw [g2 P (by simpa using hPn)]
    simp [hPn, z2.2 hz]

/-- An oscillator as constructed. -/
theorem constructed_sin (dbg : Bool) (A r f φ : ℝ) : Reachable dbg .sin (sinOscillator A r f φ) :=
  ⟨_, [], ⟨A, r, f, φ, rfl⟩, rfl⟩

/-- Three periods of a tone of 3 Hz in eight samples at 8 Hz. -/
example : Reachable true .sin (sinOscillator 2 8 3 1) ∧ 0 < (sinOscillator 2 8 3 1).sampleRate ∧ 0 < 3 ∧ 2 * 3 < 8 ∧
    (sinOscillator 2 8 3 1).frequency * (8 : ℕ) = (3 : ℕ) * (sinOscillator 2 8 3 1).sampleRate ∧
    ∃ xs s', gen .sin 8 (sinOscillator 2 8 3 1) = .ok (xs, s') :=
  ⟨constructed_sin _ _ _ _ _, by norm_num [sinOscillator, base], by norm_num, by norm_num,
    by norm_num [sinOscillator, base],
    _, _, C39_samples (constructed_sin true 2 8 3 1) (by norm_num [sinOscillator, base]) trivial 8⟩

/-- The same tone at 5 Hz lies above half the sample rate. -/
example : 8 < 2 * 5 ∧ 5 < 8 ∧
    (sinOscillator 2 8 5 1).frequency * (8 : ℕ) = (5 : ℕ) * (sinOscillator 2 8 5 1).sampleRate :=
  ⟨by norm_num, by norm_num, by norm_num [sinOscillator, base]⟩

example : WholePeriods .sin (sinOscillator 2 8 2 1) ((4 : ℕ) / (sinOscillator 2 8 2 1).sampleRate) :=
  ⟨1, by norm_num [sinOscillator, base]⟩

/-- **C136 (triangle).**  One period of the triangular oscillator in an even number of samples has the mean 0. -/
theorem C136_triangle {dbg : Bool} {A r : ℝ} (hr : 0 < r) {h : ℕ} (hh : 0 < h) :
    ∃ s0 s' xs, triangularOscillator dbg A r (r / (2 * h : ℕ)) = .ok s0 ∧ gen .saw (2 * h) s0 = .ok (xs, s') ∧
      mean xs = .ok 0 := by
  obtain ⟨s0, s', h1, h2⟩ := C39_triangular (dbg := dbg) (a := A) (f := r / (2 * h : ℕ)) hr (by positivity) (2 * h)
  refine ⟨s0, s', _, h1, h2, ?_⟩
  have hhr : (0 : ℝ) < h := by exact_mod_cast hh
  have hne : (List.range (2 * h)).map (fun i : ℕ => A * triangleWave (r / (2 * h : ℕ) * (i / r))) ≠ [] := by
    intro g
    have := congrArg List.length g
    simp at this
    omega
  have hv : ∀ i : ℕ, i < 2 * h → triangleWave (r / (2 * h : ℕ) * (i / r)) = 1 - 4 * |(i : ℝ) / (2 * h) - 1 / 2| := by
    intro i hi
    have e : r / (2 * h : ℕ) * (i / r) = (i : ℝ) / (2 * h) := by push_cast; field_simp
    have : (i : ℝ) < 2 * h := by exact_mod_cast hi
    rw [e, triangleWave, Int.fract_eq_self.2 ⟨by positivity, (div_lt_one (by positivity)).2 this⟩]
  rw [mean_ok hne, avg, ← total_eq, total]
  simp only [List.length_map, List.length_range]
  have hz : ∑ i ∈ range (2 * h), at0 ((List.range (2 * h)).map
      (fun i : ℕ => A * triangleWave (r / (2 * h : ℕ) * (i / r)))) i = 0 := by
    rw [sum_congr rfl fun i hi => show at0 _ i = A * (1 - 4 * |(i : ℝ) / (2 * h) - 1 / 2|) by
      rw [← hv i (mem_range.1 hi)]
      simp [at0, List.getD, mem_range.1 hi], two_mul, sum_range_add, ← sum_add_distrib]
    refine sum_eq_zero fun i hi => ?_
    have hi' : (i : ℝ) < h := by exact_mod_cast mem_range.1 hi
    have h1 : (i : ℝ) / (2 * h) - 1 / 2 ≤ 0 := by
      rw [sub_nonpos, div_le_div_iff₀ (by positivity) (by norm_num)]
      linarith
    have h2 : (((h + i : ℕ) : ℝ)) / (2 * h) - 1 / 2 = i / (2 * h) := by push_cast; field_simp; ring
    rw [h2, abs_of_nonpos h1, abs_of_nonneg (by positivity)]
    ring
  rw [hz, zero_div]

example : ∃ s0 s' xs, triangularOscillator true 2 8 (8 / (2 * 4 : ℕ)) = .ok s0 ∧ gen .saw (2 * 4) s0 = .ok (xs, s') ∧
    mean xs = .ok 0 := C136_triangle (by norm_num) (by norm_num)

/-- **The mean of the square oscillator has the wrong sign**: one period with the duty `k/N` has the power `A²` and the
mean `A(1 - 2k/N)`, where a signal that is active for the share `k/N` of the period has the mean `A(2k/N - 1)`. -/
theorem C136_square_violates {dbg : Bool} {A F : ℝ} (hF : 0 < F) {N k : ℕ} (hN : 0 < N) (hk : k ≤ N) :
    ∃ s0 s' xs, squareOscillator dbg A (N * F) F ((k : ℝ) / N) = .ok s0 ∧ gen .square N s0 = .ok (xs, s') ∧
      Seq.power xs = .ok (A ^ 2) ∧ mean xs = .ok (A * (1 - 2 * (k / N))) ∧
      (A ≠ 0 → 2 * k ≠ N → mean xs ≠ .ok (A * (2 * (k / N) - 1))) := by
  obtain ⟨s0, s', h1, -, h2⟩ := C40_inverted_violates (dbg := dbg) (A := A) hF hN hk
  have hn : (N : ℝ) ≠ 0 := by positivity
  have hl : (List.replicate k (-A) ++ List.replicate (N - k) A).length = N := by simp; omega
  have hne : List.replicate k (-A) ++ List.replicate (N - k) A ≠ [] := by
    intro g
    rw [g] at hl
    simp at hl
    omega
  have hm : mean (List.replicate k (-A) ++ List.replicate (N - k) A) = .ok (A * (1 - 2 * (k / N))) := by
    rw [mean_ok hne, avg, hl, List.sum_append, List.sum_replicate, List.sum_replicate]
    simp only [nsmul_eq_mul, Nat.cast_sub hk]
    congr 1
    field_simp
    ring
  refine ⟨s0, s', _, h1, h2, ?_, hm, fun hA h2k => ?_⟩
  · obtain ⟨-, ⟨p, hp, hpp, -⟩, -⟩ := C51_energy hne
    rw [hp]
    congr 1
    rw [← sum_eq (fun v => v ^ 2), List.map_append, List.map_replicate, List.map_replicate, List.sum_append,
      List.sum_replicate, List.sum_replicate, hl] at hpp
    simp only [nsmul_eq_mul, Nat.cast_sub hk, neg_sq] at hpp
    have : (p - A ^ 2) * N = 0 := by linarith
    rcases mul_eq_zero.1 this with h | h
    · linarith
    · exact absurd h hn
  · rw [hm]
    intro h
    injection h with h
    have h3 := mul_left_cancel₀ hA h
    have h4 : (k : ℝ) / N = 1 / 2 := by linarith
    rw [div_eq_div_iff hn (by norm_num)] at h4
    have h5 : ((2 * k : ℕ) : ℝ) = (N : ℕ) := by push_cast; linarith
    exact h2k (by exact_mod_cast h5)

example : (0 : ℝ) < 440 ∧ 0 < 100 ∧ 25 ≤ 100 ∧ (1 : ℝ) ≠ 0 ∧ 2 * 25 ≠ 100 := by norm_num

end Edsp.C136
