import Verif.Lemmas.RoundedWindowValues
import Verif.Lemmas.RoundedWindowPeaks

/-!
# C115: windows in floating point arithmetic
-/

namespace Edsp.C115
open Edsp Edsp.Spec Edsp.RndWin Edsp.FloatL Edsp.RndWinL

/-- **C115 (accuracy).**  For numbers with 24 to 53 bits (`float`, `double`), a cosine that errs by at most 2^-p, and every
output range of N ≥ 2 cells: the function stores in the i-th cell a number within 128·2^-p of the published value of the
window of length N at i, for every i < N, and changes nothing else.
Missing: `welch` with even N (`C38_welch_violates`), `triangular` with N > 2^p (`C115_triangular_violates`). -/
theorem C115_accuracy_partial {p : ℕ} (hp : 24 ≤ p) (hq : p ≤ 53) {c : ℝ → ℝ} (hc : CosLike p c) (k : Window)
    {m : List ℝ} {a b : ℕ} (hN : a + 2 ≤ b) (hb : b ≤ m.length) (hw : k = .welch → (b - a) % 2 = 1)
    (ht : k = .triangular → b - a ≤ 2 ^ p) :
    ∃ m' w, fn p c k m a b = .ok m' ∧ Wrote m m' a ((List.range (b - a)).map w) ∧
      ∀ i < b - a, |w i - k.value (b - a) i| ≤ 128 * (2 : ℝ) ^ (-(p : ℤ)) := by
  obtain ⟨m', h1, h2⟩ := fn_ok (by omega : 1 ≤ p) c k hN hb
  refine ⟨m', _, h1, h2, ?_⟩
  intro i hi
  have hN2 : 2 ≤ b - a := by omega
  have hu := u_pos p
  change _ ≤ 128 * u p
  cases k with
  | bartlett => exact (bartlett_err hp hN2 hi c).trans (by linarith)
  | blackman =>
    rw [Window.value, show (0.5 : ℝ) = 0.50 by norm_num, cosWin3]
    exact (three_err hp hq hc hN2 hi (a0 := 0.42) (a1 := 0.50) (a2 := 0.08)
      (by norm_num) (by norm_num) (by norm_num) (by norm_num) (by norm_num)
      (by norm_num)).trans (mul_le_mul_of_nonneg_right (by norm_num) hu.le)
  | blackmanHarris =>
    rw [Window.value, cosWin4]
    exact (four_err hp hq hc hN2 hi (a0 := 0.35875) (a1 := 0.48829) (a2 := 0.14128) (a3 := 0.01168)
      (by norm_num) (by norm_num) (by norm_num) (by norm_num) (by norm_num) (by norm_num)
      (by norm_num) (by norm_num)).trans (mul_le_mul_of_nonneg_right (by norm_num) hu.le)
  | blackmanNuttall =>
    rw [Window.value, cosWin4]
    exact (four_err hp hq hc hN2 hi (a0 := 0.3635819) (a1 := 0.4891775) (a2 := 0.1365995) (a3 := 0.0106411)
      (by norm_num) (by norm_num) (by norm_num) (by norm_num) (by norm_num) (by norm_num)
      (by norm_num) (by norm_num)).trans (mul_le_mul_of_nonneg_right (by norm_num) hu.le)
  | flattop =>
    rw [Window.value, cosWin5]
    exact (five_err hp hq hc hN2 hi (a0 := 0.21557895) (a1 := 0.41663158) (a2 := 0.277263158) (a3 := 0.083578947) (a4 := 0.006947368)
      (by norm_num) (by norm_num) (by norm_num) (by norm_num) (by norm_num) (by norm_num)
      (by norm_num) (by norm_num) (by norm_num) (by norm_num)).trans (mul_le_mul_of_nonneg_right (by norm_num) hu.le)
  | hamming =>
    rw [Window.value, cosWin2]
    exact (two_err hp hq hc hN2 hi (a0 := 0.54) (a1 := 0.46)
      (by norm_num) (by norm_num) (by norm_num) (by norm_num)).trans
      (mul_le_mul_of_nonneg_right (by norm_num) hu.le)
  | hanning =>
    rw [hann_value]
    exact (two_err hp hq hc hN2 hi (a0 := 0.5) (a1 := 0.5)
      (by norm_num) (by norm_num) (by norm_num) (by norm_num)).trans
      (mul_le_mul_of_nonneg_right (by norm_num) hu.le)
  | boxcar => simp only [stored, Window.value, sub_self, abs_zero]; positivity
  | rectangular => simp only [stored, Window.value, sub_self, abs_zero]; positivity
  | triangular => exact (tri_err hp hq hN2 hi (ht rfl) c).trans (by linarith)
  | welch => exact (welch_err hp hN2 (hw rfl) hi).trans (by linarith)

/-- **C115 (range).**  For `float` and `double`, a cosine that errs by at most 2^-p and never exceeds 1, and every output
range of N ≥ 2 cells: every value stored lies between 0 and 1.
Missing: `blackman`, which is at most 1 but starts with a negative number (`C115_blackman_violates`), `flattop`, which is
negative by definition, `triangular` with N > 2^p. -/
theorem C115_range_partial {p : ℕ} (hp : p = 24 ∨ p = 53) {c : ℝ → ℝ} (hc : CosLike p c) (k : Window)
    {m : List ℝ} {a b : ℕ} (hN : a + 2 ≤ b) (hb : b ≤ m.length) (hk : k ≠ .flattop)
    (ht : k = .triangular → b - a ≤ 2 ^ p) :
    ∃ m' w, fn p c k m a b = .ok m' ∧ Wrote m m' a ((List.range (b - a)).map w) ∧
      ∀ i < b - a, (k ≠ .blackman → 0 ≤ w i) ∧ w i ≤ 1 := by
  have h24 : 24 ≤ p := by omega
  have h53 : p ≤ 53 := by omega
  obtain ⟨m', h1, h2⟩ := fn_ok (by omega : 1 ≤ p) c k hN hb
  refine ⟨m', _, h1, h2, ?_⟩
  intro i hi
  have hN2 : 2 ≤ b - a := by omega
  have hu := u_pos p
  have hs := u_small h24
  cases k with
  | bartlett => exact ⟨fun _ => (bartlett_range (by omega) hN2 hi c).1, (bartlett_range (by omega) hN2 hi c).2⟩
  | blackman =>
    refine ⟨fun h => absurd rfl h, ?_⟩
    rcases hp with rfl | rfl
    · exact blackman_le_24 hc _ _
    · exact blackman_le_53 hc _ _
  | blackmanHarris =>
    constructor
    · intro _
      have e := four_err h24 h53 hc hN2 hi (a0 := 0.35875) (a1 := 0.48829) (a2 := 0.14128) (a3 := 0.01168)
        (by norm_num) (by norm_num) (by norm_num) (by norm_num) (by norm_num) (by norm_num) (by norm_num) (by norm_num)
      have e1 := four_pos (a0 := 0.35875) (a1 := 0.48829) (a2 := 0.14128) (a3 := 0.01168) (e := 0.00006) (by norm_num)
        (by norm_num) (by norm_num) (by norm_num) (angle (b - a) i)
      have e2 := (abs_le.mp e).1
      simp only [stored, blackmanHarrisAt]
      have e3 := mul_le_mul_of_nonneg_right (by norm_num : (9 + 69 * 0.48829 + 146 * 0.14128 + 216 * 0.01168 : ℝ) ≤ 70) hu.le
      linarith
    · rcases hp with rfl | rfl
      · exact blackmanHarris_le_24 hc _ _ _
      · exact blackmanHarris_le_53 hc _ _ _
  | blackmanNuttall =>
    constructor
    · intro _
      have e := four_err h24 h53 hc hN2 hi (a0 := 0.3635819) (a1 := 0.4891775) (a2 := 0.1365995) (a3 := 0.0106411)
        (by norm_num) (by norm_num) (by norm_num) (by norm_num) (by norm_num) (by norm_num) (by norm_num) (by norm_num)
      have e1 := four_pos (a0 := 0.3635819) (a1 := 0.4891775) (a2 := 0.1365995) (a3 := 0.0106411) (e := 0.0003628)
        (by norm_num) (by norm_num) (by norm_num) (by norm_num) (angle (b - a) i)
      have e2 := (abs_le.mp e).1
      simp only [stored, blackmanNuttallAt]
      have e3 := mul_le_mul_of_nonneg_right (by norm_num : (9 + 69 * 0.4891775 + 146 * 0.1365995 + 216 * 0.0106411 : ℝ) ≤ 70) hu.le
      linarith
    · rcases hp with rfl | rfl
      · exact blackmanNuttall_le_24 hc _ _ _
      · exact blackmanNuttall_le_53 hc _ _ _
  | flattop => exact absurd rfl hk
  | hamming =>
    constructor
    · intro _
      have e := two_err h24 h53 hc hN2 hi (a0 := 0.54) (a1 := 0.46) (by norm_num) (by norm_num) (by norm_num) (by norm_num)
      have e2 := (abs_le.mp e).1
      have e3 := (abs_le.mp (Real.abs_cos_le_one (angle (b - a) i))).2
      simp only [stored, hammingAt]
      have e4 := mul_le_mul_of_nonneg_right (by norm_num : (5 + 69 * 0.46 : ℝ) ≤ 70) hu.le
      linarith
    · rcases hp with rfl | rfl
      · exact hamming_le_24 hc _
      · exact hamming_le_53 hc _
  | hanning => exact ⟨fun _ => (hann_range (by omega) hc _).1, (hann_range (by omega) hc _).2⟩
  | boxcar => exact ⟨fun _ => zero_le_one, le_rfl⟩
  | rectangular => exact ⟨fun _ => zero_le_one, le_rfl⟩
  | triangular =>
    have := complement_range (p := p) (by omega) (abs_nonneg _) (tri_quot h24 h53 hN2 hi (ht rfl))
    exact ⟨fun _ => this.1, this.2⟩
  | welch => exact ⟨fun _ => (welch_range (by omega) hN2 hi).1, (welch_range (by omega) hN2 hi).2⟩

/-- A cosine: the exact one, rounded. -/
theorem cosLike_rounded {p : ℕ} (hp : 1 ≤ p) : CosLike p fun x => rnd p (Real.cos x) where
  near x := by
    have h := rnd_err p (Real.cos x)
    have h1 := Real.abs_cos_le_one x
    have hu := u_pos p
    refine h.trans ?_
    calc u p * |Real.cos x| ≤ u p * 1 := mul_le_mul_of_nonneg_left h1 hu.le
      _ = _ := mul_one _
  range x := abs_rnd_le hp (rnd_one hp) (Real.abs_cos_le_one x)
  zero := by rw [Real.cos_zero, rnd_one hp]

example : ∃ m' w, fn 24 (fun x => rnd 24 (Real.cos x)) .hamming [9, 9, 9, 9, 9] 1 4 = .ok m' ∧
    Wrote [9, 9, 9, 9, 9] m' 1 ((List.range 3).map w) ∧
      ∀ i < 3, |w i - Window.hamming.value 3 i| ≤ 128 * (2 : ℝ) ^ (-((24 : ℕ) : ℤ)) :=
  C115_accuracy_partial (by norm_num) (by norm_num) (cosLike_rounded (by norm_num)) .hamming (by norm_num)
    (by norm_num) (by simp) (by simp)

example : ∃ m' w, fn 53 (fun x => rnd 53 (Real.cos x)) .blackmanHarris [9, 9, 9, 9, 9] 1 4 = .ok m' ∧
    Wrote [9, 9, 9, 9, 9] m' 1 ((List.range 3).map w) ∧ ∀ i < 3, (Window.blackmanHarris ≠ .blackman → 0 ≤ w i) ∧ w i ≤ 1 :=
  C115_range_partial (Or.inr rfl) (cosLike_rounded (by norm_num)) .blackmanHarris (by norm_num) (by norm_num) (by decide)
    (by simp)

/-- **C115 violated: `blackman` starts with a negative number**, in every range of N ≥ 2 cells: -2^-26 in `float`, -2^-56
in `double`, although the published value is 0. -/
theorem C115_blackman_violates {p : ℕ} (hp : p = 24 ∨ p = 53) {c : ℝ → ℝ} (hc : CosLike p c) {m : List ℝ} {a b : ℕ}
    (hN : a + 2 ≤ b) (hb : b ≤ m.length) :
    ∃ m' x, fn p c .blackman m a b = .ok m' ∧ m'[a]? = some x ∧ x < 0 ∧ Window.blackman.value (b - a) 0 = 0 := by
  obtain ⟨m', h1, h2⟩ := fn_ok (by omega : 1 ≤ p) c .blackman hN hb
  refine ⟨m', stored p c .blackman (b - a) 0, h1, ?_, ?_, ?_⟩
  · rw [Mem.wrote_iff] at h2
    have := h2.2.2.1 0 (by rw [List.length_map, List.length_range]; omega)
    rw [Nat.add_zero] at this
    rw [this, List.getElem?_map, List.getElem?_range (by omega)]
    rfl
  · have ht : tmp p (b - a) 0 = 0 := by
      unfold tmp
      rw [Nat.cast_zero, rnd_zero, mul_zero, rnd_zero]
    simp only [stored, blackmanAt, plus, minus]
    rw [ht, mul_zero, rnd_zero, hc.zero, mul_one, mul_one]
    rcases hp with rfl | rfl
    · exact blackman_first_24
    · exact blackman_first_53
  · rw [Window.value, cosWin3]
    simp only [angle, Nat.cast_zero, mul_zero, zero_div, Real.cos_zero]
    norm_num

example : ∃ m' x, fn 53 (fun x => rnd 53 (Real.cos x)) .blackman [9, 9, 9, 9, 9] 1 4 = .ok m' ∧ m'[1]? = some x ∧ x < 0 ∧
    Window.blackman.value 3 0 = 0 :=
  C115_blackman_violates (Or.inr rfl) (cosLike_rounded (by norm_num)) (by norm_num) (by norm_num)

/-- **C115 violated: long `triangular` windows are constant.**  For N > 2^(p+2) cells (2^26 + 1 for `float`) the same
number, at most 1/1000, is stored in every cell: `initial += 2` has no effect.  The published value in the middle is at
least 999/1000. -/
theorem C115_triangular_violates {p : ℕ} (hp : 24 ≤ p) (hq : p ≤ 53) (c : ℝ → ℝ) {m : List ℝ} {a b : ℕ}
    (hN : a + 2 ^ (p + 2) < b) (hb : b ≤ m.length) :
    ∃ m' v, fn p c .triangular m a b = .ok m' ∧ Wrote m m' a (List.replicate (b - a) v) ∧ v ≤ 1 / 1000 ∧
      999 / 1000 ≤ Window.triangular.value (b - a) ((b - a) / 2) := by
  have h26 : 2 ^ 26 ≤ 2 ^ (p + 2) := Nat.pow_le_pow_right (by norm_num) (by omega)
  obtain ⟨m', h1, h2⟩ := fn_ok (by omega : 1 ≤ p) c .triangular (by omega : a + 2 ≤ b) hb
  generalize hn : b - a = N at *
  have hN1 : 2 ^ (p + 2) + 1 ≤ N := by omega
  have hbig : 67108865 ≤ N := by omega
  obtain ⟨hx, hR⟩ := tri_large hp hq hN1
  refine ⟨m', rnd p (1 - |rnd p (rnd p (-((N : ℝ) - 1)) / rem p N)|), h1, ?_, ?_, ?_⟩
  · convert h2 using 1
    rw [← List.length_range (n := N), ← List.map_const', List.length_range]
    apply List.map_congr_left
    intro i _
    simp only [stored]
    rw [steps_stuck hx]
  · have hs := u_small hp
    have hu := u_pos p
    obtain ⟨r1, r2⟩ := rel p (by norm_num : (0 : ℝ) ≤ 0.0005)
    have h3 := rnd_mono (p := p) (by omega) (x := 1 - |rnd p (rnd p (-((N : ℝ) - 1)) / rem p N)|) (y := 0.0005)
      (by linarith)
    linarith
  · have hB := (C38.base_pos (by omega : 2 ≤ N))
    have hN0 : (67108865 : ℝ) ≤ N := by exact_mod_cast hbig
    have h3 : |(((N / 2 : ℕ) : ℝ) - ((N : ℝ) - 1) / 2)| ≤ 1 / 2 := by
      have a1 : (N : ℝ) ≤ ((2 * (N / 2) + 1 : ℕ) : ℝ) := by exact_mod_cast (by omega : N ≤ 2 * (N / 2) + 1)
      have a2 : ((2 * (N / 2) : ℕ) : ℝ) ≤ N := by exact_mod_cast (by omega : 2 * (N / 2) ≤ N)
      push_cast at a1 a2
      rw [abs_le]
      constructor <;> linarith
    simp only [Window.value]
    rw [abs_div, abs_of_pos (by linarith : (0 : ℝ) < (triangularBase N : ℝ) / 2)]
    have h4 : |(((N / 2 : ℕ) : ℝ) - ((N : ℝ) - 1) / 2)| / ((triangularBase N : ℝ) / 2) ≤ 1 / 1000 := by
      rw [div_le_iff₀ (by linarith)]
      linarith
    linarith

example : ∃ m' v, fn 24 (fun x => rnd 24 (Real.cos x)) .triangular (List.replicate (2 ^ 27) 0) 0 (2 ^ 27) = .ok m' ∧
    Wrote (List.replicate (2 ^ 27) 0) m' 0 (List.replicate (2 ^ 27 - 0) v) ∧ v ≤ 1 / 1000 ∧
      999 / 1000 ≤ Window.triangular.value (2 ^ 27 - 0) ((2 ^ 27 - 0) / 2) :=
  C115_triangular_violates (by norm_num) (by norm_num) _ (by norm_num) (by rw [List.length_replicate])

end Edsp.C115
