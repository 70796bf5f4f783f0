import Verif.Props.C38_Windows

/-!
# C172: windows rise to their middle and fall from there
-/

namespace Edsp.Props.C172

open Edsp Edsp.Spec Edsp.Win Edsp.C38

/-! ## Lemmas -/

theorem cast_half {N j : Nat} (hN : 2 ≤ N) (hj : 2 * j ≤ N - 1) : 2 * (j : ℝ) ≤ (N : ℝ) - 1 := by
  have : ((2 * j + 1 : Nat) : ℝ) ≤ N := by exact_mod_cast (by omega : 2 * j + 1 ≤ N)
  push_cast at this
  linarith

theorem cos_rise {N i j : Nat} (hN : 2 ≤ N) (hij : i < j) (hj : 2 * j ≤ N - 1) :
    Real.cos (angle N j) < Real.cos (angle N i) := by
  have hp := size_pos hN
  have h1 := cast_half hN hj
  have h2 : (i : ℝ) < j := by exact_mod_cast hij
  have hpi := Real.pi_pos
  refine Real.cos_lt_cos_of_nonneg_of_le_pi (by unfold angle; positivity) ?_ ?_
  · rw [angle, div_le_iff₀ hp]
    nlinarith
  · unfold angle
    gcongr

/-- A polynomial in `1 - cos` without negative coefficients grows. -/
theorem poly_rise {c c' p q r : ℝ} (hc : c ≤ 1) (h : c' < c) (hp : 0 < p) (hq : 0 ≤ q) (hr : 0 ≤ r) :
    p * (1 - c) + q * (1 - c) ^ 2 + r * (1 - c) ^ 3 < p * (1 - c') + q * (1 - c') ^ 2 + r * (1 - c') ^ 3 := by
  have h0 : 0 ≤ 1 - c := by linarith
  have h1 : 1 - c < 1 - c' := by linarith
  have h2 := pow_le_pow_left₀ h0 h1.le 2
  have h3 := pow_le_pow_left₀ h0 h1.le 3
  have a := mul_lt_mul_of_pos_left h1 hp
  have b := mul_le_mul_of_nonneg_left h2 hq
  have d := mul_le_mul_of_nonneg_left h3 hr
  linarith

theorem value_rise (k : Window) (hk : k ∉ [Window.boxcar, .rectangular, .flattop]) {N i j : Nat} (hN : 2 ≤ N)
    (hij : i < j) (hj : 2 * j ≤ N - 1) : k.value N i < k.value N j := by
  have hp := size_pos hN
  have hc := cos_rise hN hij hj
  have h1 := Real.cos_le_one (angle N i)
  have hji := cast_half hN hj
  have hlt : (i : ℝ) < j := by exact_mod_cast hij
  have key : ∀ p q r : ℝ, 0 < p → 0 ≤ q → 0 ≤ r → p * (1 - Real.cos (angle N i)) + q * (1 - Real.cos (angle N i)) ^ 2 +
      r * (1 - Real.cos (angle N i)) ^ 3 < p * (1 - Real.cos (angle N j)) + q * (1 - Real.cos (angle N j)) ^ 2 +
      r * (1 - Real.cos (angle N j)) ^ 3 := fun p q r a b c => poly_rise h1 hc a b c
  have frac : ∀ L : ℝ, 0 < L → 1 - |((i : ℝ) - ((N : ℝ) - 1) / 2) / L| < 1 - |((j : ℝ) - ((N : ℝ) - 1) / 2) / L| := by
    intro L hL
    rw [abs_div, abs_div, abs_of_nonpos (by linarith : (i : ℝ) - ((N : ℝ) - 1) / 2 ≤ 0),
      abs_of_nonpos (by linarith : (j : ℝ) - ((N : ℝ) - 1) / 2 ≤ 0), abs_of_pos hL]
    have : -((j : ℝ) - ((N : ℝ) - 1) / 2) / L < -((i : ℝ) - ((N : ℝ) - 1) / 2) / L :=
      div_lt_div_of_pos_right (by linarith) hL
    linarith
  cases k with
  | boxcar => simp at hk
  | rectangular => simp at hk
  | flattop => simp at hk
  | bartlett =>
    have := frac (((N : ℝ) - 1) / 2) (by positivity)
    have e : ∀ v : ℝ, (v - ((N : ℝ) - 1) / 2) / (((N : ℝ) - 1) / 2) = 2 * v / ((N : ℝ) - 1) - 1 := fun v => by
      field_simp
    rwa [e, e] at this
  | triangular => exact frac _ (by have := (base_pos hN).1; positivity)
  | welch =>
    simp only [Window.value]
    have := frac (((N : ℝ) - 1) / 2) (by positivity)
    have h2 : |((j : ℝ) - ((N : ℝ) - 1) / 2) / (((N : ℝ) - 1) / 2)| < |((i : ℝ) - ((N : ℝ) - 1) / 2) / (((N : ℝ) - 1) / 2)| := by
      linarith
    have := sq_lt_sq.mpr h2
    linarith
  | hanning =>
    simp only [Window.value, Real.sin_sq_eq_half_sub, mul_div_cancel₀ _ (two_ne_zero' ℝ)]
    linarith
  | hamming =>
    simp only [Window.value, cosineWindow]
    push_cast
    simp only [zero_mul, Real.cos_zero, one_mul]
    have := key 0.46 0 0 (by norm_num) le_rfl le_rfl
    linarith
  | blackman =>
    simp only [Window.value, cosineWindow]
    push_cast
    simp only [zero_mul, Real.cos_zero, one_mul, Real.cos_two_mul]
    have := key 0.18 0.16 0 (by norm_num) (by norm_num) le_rfl
    linarith
  | blackmanHarris =>
    simp only [Window.value, cosineWindow]
    push_cast
    simp only [zero_mul, Real.cos_zero, one_mul,
      Real.cos_two_mul, Real.cos_three_mul]
    have := key 0.02829 0.1424 0.04672 (by norm_num) (by norm_num) (by norm_num)
    linarith
  | blackmanNuttall =>
    simp only [Window.value, cosineWindow]
    push_cast
    simp only [zero_mul, Real.cos_zero, one_mul,
      Real.cos_two_mul, Real.cos_three_mul]
    have := key 0.0385494 0.1455058 0.0425644 (by norm_num) (by norm_num) (by norm_num)
    linarith

theorem getD_map {f : ℕ → ℝ} {N i : ℕ} (hi : i < N) : ((List.range N).map f).getD i 0 = f i := by
  simp [List.getD, List.getElem?_map, List.getElem?_range hi]

/-! ## Theorems -/

/-- C172: the values stored grow strictly up to the middle of the range and fall strictly from there, for every length;
except for the constant windows and `flattop`. -/
theorem C172_rise_and_fall (k : Window) (hk : k ∉ [Window.boxcar, .rectangular, .flattop]) {m : List ℝ} {a b : Nat}
    (hN : a + 2 ≤ b) (hb : b ≤ m.length) : ∃ m' w, fn k m a b = .ok m' ∧ Wrote m m' a w ∧ w.length = b - a ∧
      (∀ i j, i < j → 2 * j ≤ b - a - 1 → w.getD i 0 < w.getD j 0) ∧
      ∀ i j, i < j → b - a - 1 ≤ 2 * i → j < b - a → w.getD j 0 < w.getD i 0 := by
  by_cases hw : k = .welch
  · subst hw
    set N := b - a with hNdef
    have hL0 : ((N / 2 : Nat) : ℝ) ≠ 0 := by exact_mod_cast (by omega : N / 2 ≠ 0)
    have hLp : (0 : ℝ) < ((N / 2 : Nat) : ℝ) := by exact_mod_cast (by omega : 0 < N / 2)
    obtain ⟨m', e, w⟩ := welchLoop_ok hL0 N 0 m a (by omega)
    rw [← List.range_eq_range'] at w
    refine ⟨m', _, ?_, w, by simp, fun i j hij hj => ?_, fun i j hij hi hj => ?_⟩
    · simp only [fn, welch, Mem.distance_ok (by omega : a ≤ b), bind, Except.bind, ← hNdef]
      exact e
    · rw [getD_map (by omega), getD_map (by omega)]
      have h1 : (i : ℝ) < j := by exact_mod_cast hij
      have h2 : (j : ℝ) ≤ ((N / 2 : Nat) : ℝ) := by exact_mod_cast (by omega : j ≤ N / 2)
      rw [div_pow, div_pow]
      have : ((j : ℝ) - ((N / 2 : Nat) : ℝ)) ^ 2 < ((i : ℝ) - ((N / 2 : Nat) : ℝ)) ^ 2 := by nlinarith
      have := div_lt_div_of_pos_right this (sq_pos_of_pos hLp)
      linarith
    · rw [getD_map (by omega), getD_map (by omega)]
      have h1 : (i : ℝ) < j := by exact_mod_cast hij
      have h2 : ((N / 2 : Nat) : ℝ) ≤ i := by exact_mod_cast (by omega : N / 2 ≤ i)
      rw [div_pow, div_pow]
      have : ((i : ℝ) - ((N / 2 : Nat) : ℝ)) ^ 2 < ((j : ℝ) - ((N / 2 : Nat) : ℝ)) ^ 2 := by nlinarith
      have := div_lt_div_of_pos_right this (sq_pos_of_pos hLp)
      linarith
  · obtain ⟨m', e, w⟩ := C38_values_partial k hw hN hb
    refine ⟨m', _, e, w, by simp, fun i j hij hj => ?_, fun i j hij hi hj => ?_⟩
    · rw [getD_map (by omega), getD_map (by omega)]
      exact value_rise k hk (by omega) hij hj
    · rw [getD_map (by omega), getD_map (by omega), ← C38_symmetric k (by omega) hj,
        ← C38_symmetric k (by omega) (by omega : i < b - a)]
      exact value_rise k hk (by omega) (by omega) (by omega)

/-- C172: `flattop` does not: over seven cells the second value is less than the first. -/
theorem C172_flattop {m : List ℝ} {a : Nat} (hb : a + 7 ≤ m.length) :
    ∃ m' w, fn .flattop m a (a + 7) = .ok m' ∧ Wrote m m' a w ∧ w.getD 1 0 < w.getD 0 0 := by
  obtain ⟨m', e, w⟩ := C38_values_partial .flattop (by decide) (m := m) (a := a) (b := a + 7) (by omega) hb
  refine ⟨m', _, e, w, ?_⟩
  rw [show a + 7 - a = 7 by omega, getD_map (by omega), getD_map (by omega)]
  have a0 : angle 7 0 = 0 := by simp [angle]
  have a1 : angle 7 1 = Real.pi / 3 := by
    unfold angle
    push_cast
    ring
  have c2 : Real.cos (2 * (Real.pi / 3)) = -1 / 2 := by
    rw [Real.cos_two_mul, Real.cos_pi_div_three]
    norm_num
  have c3 : Real.cos (3 * (Real.pi / 3)) = -1 := by
    rw [show 3 * (Real.pi / 3) = Real.pi by ring, Real.cos_pi]
  have c4 : Real.cos (4 * (Real.pi / 3)) = -1 / 2 := by
    rw [show 4 * (Real.pi / 3) = 2 * (2 * (Real.pi / 3)) by ring, Real.cos_two_mul, c2]
    norm_num
  simp only [Window.value, cosineWindow, a0, a1]
  push_cast
  simp only [mul_zero, zero_mul, Real.cos_zero, one_mul,
    c2, c3, c4, Real.cos_pi_div_three]
  norm_num

/-! ## A case that meets the hypotheses -/

example : ∃ m' w, fn .blackman [0, 0, 0, 0, 0] 0 5 = .ok m' ∧ Wrote [0, 0, 0, 0, 0] m' 0 w ∧
    w.getD 1 0 < w.getD 2 0 ∧ w.getD 4 0 < w.getD 3 0 := by
  obtain ⟨m', w, h, hw, -, h1, h2⟩ := C172_rise_and_fall .blackman (by decide) (m := [0, 0, 0, 0, 0]) (a := 0) (b := 5)
    (by omega) (by simp)
  exact ⟨m', w, h, hw, h1 1 2 (by omega) (by omega), h2 3 4 (by omega) (by omega) (by omega)⟩

end Edsp.Props.C172
