import Verif.Lemmas.MovingSignals
import Verif.Spec.Steady
import Mathlib.Algebra.Order.Chebyshev

/-!
# C154: what the moving average and the moving root mean square remove and keep
-/

namespace Edsp.Props

open Edsp.Spec Edsp.MovSig Finset

/-- A signal whose period is the length of the filter, or divides it, is averaged to a constant, exactly, as soon as the
window is full; its root mean square is constant as well. -/
theorem C154_periodic {n : ℕ} (h0 : 0 < n) (hn : n < 2 ^ 63) {d : ℕ} (hd : d ∣ n) {x : ℕ → ℝ}
    (hx : ∀ k, x (k + d) = x k) :
    AverageFrom (n - 1) n x (fun _ => (∑ j ∈ range n, x j) / n) ∧
    RmsFrom (n - 1) n x fun _ => Real.sqrt ((∑ j ∈ range n, x j ^ 2) / n) := by
  have hx' : ∀ k, x (k + n) = x k := by
    obtain ⟨c, rfl⟩ := hd
    intro k
    induction c with
    | zero => simp
    | succ c ih =>
        rcases Nat.eq_zero_or_pos c with rfl | hc
        · simpa using hx k
        · rw [show k + d * (c + 1) = k + d * c + d by ring, hx]
          have hd0 : 0 < d := Nat.pos_of_mul_pos_right h0
          exact ih (Nat.mul_pos hd0 hc) (lt_of_le_of_lt (Nat.mul_le_mul_left d (Nat.le_succ c)) hn)
  refine ⟨AverageFrom.congr (average_from h0 hn x) fun k _ => ?_, RmsFrom.congr (rms_from h0 hn x) fun k _ => ?_⟩
  · rw [period_sum hx']
  · rw [period_sum (x := fun k => x k ^ 2) (fun k => by rw [hx'])]

/-- The square wave 1, 1, -1, -1 through a filter of length 8. -/
example : AverageFrom 7 8 (fun k => if k % 4 < 2 then 1 else -1) fun _ => 0 := by
  have := (C154_periodic (n := 8) (by norm_num) (by norm_num) (d := 4) (by norm_num)
    (x := fun k => if k % 4 < 2 then (1 : ℝ) else -1) (fun k => by simp)).1
  refine AverageFrom.congr this fun k _ => ?_
  norm_num [Finset.sum_range_succ]

/-- Hum: a constant with a sinusoid of whole periods in the window (whatever its amplitude and phase) is averaged to the
constant, exactly. -/
theorem C154_hum {n : ℕ} (h0 : 0 < n) (hn : n < 2 ^ 63) {w : ℝ} {k : ℤ} (hk : n * w = 2 * Real.pi * k)
    (hw : ∀ m : ℤ, w ≠ 2 * Real.pi * m) (c A p : ℝ) :
    AverageFrom (n - 1) n (fun i => c + sinusoid A w p i) fun _ => c := by
  refine AverageFrom.congr (average_from h0 hn _) fun i _ => ?_
  simp only [sinusoid]
  rw [Finset.sum_add_distrib, ← Finset.mul_sum, sum_cos_zero hw hk, mul_zero, add_zero, Finset.sum_const, card_range,
    nsmul_eq_mul]
  have : (n : ℝ) ≠ 0 := by exact_mod_cast h0.ne'
  field_simp

/-- The level meter: the moving root mean square of a sinusoid of whole periods in the window is its amplitude divided by
the root of two, and with a constant `c` added the root of c² + A²/2; exactly, for every phase. -/
theorem C154_level {n : ℕ} (h0 : 0 < n) (hn : n < 2 ^ 63) {w : ℝ} {k : ℤ} (hk : n * w = 2 * Real.pi * k)
    (hw : ∀ m : ℤ, w ≠ Real.pi * m) (c A p : ℝ) :
    RmsFrom (n - 1) n (sinusoid A w p) (fun _ => |A| / Real.sqrt 2) ∧
    RmsFrom (n - 1) n (fun i => c + sinusoid A w p i) fun _ => Real.sqrt (c ^ 2 + A ^ 2 / 2) := by
  have hn0 : (n : ℝ) ≠ 0 := by exact_mod_cast h0.ne'
  have hw1 : ∀ m : ℤ, w ≠ 2 * Real.pi * m := fun m hm => hw (2 * m) (by rw [hm]; push_cast; ring)
  have hw2 : ∀ m : ℤ, 2 * w ≠ 2 * Real.pi * m := fun m hm => hw m (by linarith)
  have key : ∀ s : ℕ, ∀ c : ℝ, (∑ j ∈ range n, (c + sinusoid A w p (s + j)) ^ 2) / n = c ^ 2 + A ^ 2 / 2 := by
    intro s c
    have e : ∀ j : ℕ, (c + sinusoid A w p (s + j)) ^ 2 = (c ^ 2 + A ^ 2 / 2) +
        2 * c * A * Real.cos (w * ((s + j : ℕ) : ℝ) + p) +
        A ^ 2 / 2 * Real.cos (2 * w * ((s + j : ℕ) : ℝ) + 2 * p) := by
      intro j
      rw [show 2 * w * ((s + j : ℕ) : ℝ) + 2 * p = 2 * (w * ((s + j : ℕ) : ℝ) + p) by ring, Real.cos_two_mul, sinusoid]
      ring
    simp only [e]
    rw [Finset.sum_add_distrib, Finset.sum_add_distrib, ← Finset.mul_sum, ← Finset.mul_sum, sum_cos_zero hw1 hk,
      sum_cos_zero hw2 (k := 2 * k) (by push_cast; linarith), Finset.sum_const, card_range, nsmul_eq_mul]
    field_simp
    ring
  constructor
  · refine RmsFrom.congr (rms_from h0 hn _) fun i _ => ?_
    have := key (i + 1 - n) 0
    simp only [zero_add] at this
    rw [this, show (0 : ℝ) ^ 2 + A ^ 2 / 2 = A ^ 2 / 2 by ring, Real.sqrt_div (sq_nonneg A), Real.sqrt_sq_eq_abs]
  · refine RmsFrom.congr (rms_from h0 hn _) fun i _ => ?_
    rw [key]

/-- 50 Hz at a sample rate of 1000: 20 samples per period, three periods in a window of 60. -/
example : ((60 : ℕ) : ℝ) * (2 * Real.pi * 50 / 1000) = 2 * Real.pi * (3 : ℤ) ∧
    ∀ m : ℤ, 2 * Real.pi * 50 / 1000 ≠ Real.pi * m := by
  refine ⟨by push_cast; ring, fun m hm => ?_⟩
  have h : Real.pi * (1 / 10) = Real.pi * m := by rw [← hm]; ring
  have h2 : (1 / 10 : ℝ) = m := mul_left_cancel₀ Real.pi_ne_zero h
  have h3 : (1 : ℝ) = ((10 * m : ℤ) : ℝ) := by push_cast; linarith
  have : (1 : ℤ) = 10 * m := by exact_mod_cast h3
  omega

/-- Any other frequency: the moving average multiplies a sinusoid by sin(n w/2) / (n sin(w/2)) and delays it by
(n - 1)/2 samples. -/
theorem C154_response {n : ℕ} (h0 : 0 < n) (hn : n < 2 ^ 63) {w : ℝ} (hw : ∀ m : ℤ, w ≠ 2 * Real.pi * m) (A p : ℝ) :
    AverageFrom (n - 1) n (sinusoid A w p) fun i =>
      Real.sin (n * w / 2) / (n * Real.sin (w / 2)) * (A * Real.cos (w * (i - ((n : ℝ) - 1) / 2) + p)) := by
  refine AverageFrom.congr (average_from h0 hn _) fun i hi => ?_
  have hn0 : (n : ℝ) ≠ 0 := by exact_mod_cast h0.ne'
  have hs := sin_half_ne hw
  have h := sum_cos w p (i + 1 - n) n
  have hc : ((i + 1 - n : ℕ) : ℝ) = (i : ℝ) + 1 - n := by
    rw [Nat.cast_sub (by omega)]; push_cast; ring
  rw [show w * (((i + 1 - n : ℕ) : ℝ) + ((n : ℝ) - 1) / 2) + p = w * (i - ((n : ℝ) - 1) / 2) + p by
    rw [hc]; ring] at h
  simp only [sinusoid]
  rw [← Finset.mul_sum]
  generalize (∑ j ∈ range n, Real.cos (w * ((i + 1 - n + j : ℕ) : ℝ) + p)) = S at *
  generalize Real.cos (w * (i - ((n : ℝ) - 1) / 2) + p) = C at *
  have h2 : Real.sin (w / 2) * S = Real.sin (n * w / 2) * C := by linarith
  rw [div_mul_eq_mul_div, div_eq_div_iff hn0 (mul_ne_zero hn0 hs)]
  linear_combination A * n * h2

/-- A ramp comes out as the same ramp, (n - 1)/2 samples later. -/
theorem C154_ramp {n : ℕ} (h0 : 0 < n) (hn : n < 2 ^ 63) (a b : ℝ) :
    AverageFrom (n - 1) n (fun i => a + b * i) fun i => a + b * (i - ((n : ℝ) - 1) / 2) := by
  refine AverageFrom.congr (average_from h0 hn _) fun i hi => ?_
  have hn0 : (n : ℝ) ≠ 0 := by exact_mod_cast h0.ne'
  have hc : ((i + 1 - n : ℕ) : ℝ) = (i : ℝ) + 1 - n := by
    rw [Nat.cast_sub (by omega)]; push_cast; ring
  have hg : (∑ j ∈ range n, (j : ℝ)) = n * (n - 1) / 2 := by
    have : ∀ n : ℕ, (∑ j ∈ range n, (j : ℝ)) = n * (n - 1) / 2 := by
      intro n
      induction n with
      | zero => simp
      | succ n ih => rw [Finset.sum_range_succ, ih]; push_cast; ring
    exact this n
  have e : ∀ j : ℕ, a + b * ((i + 1 - n + j : ℕ) : ℝ) = a + b * ((i : ℝ) + 1 - n) + b * j := by
    intro j
    rw [Nat.cast_add, hc]; ring
  simp only [e]
  rw [Finset.sum_add_distrib, ← Finset.mul_sum, hg, Finset.sum_const, card_range, nsmul_eq_mul]
  field_simp
  ring

/-- The values depend on the last `n` samples only: what happened before is forgotten, exactly.  In particular the
outputs are the constant as soon as the signal has been constant for `n` samples. -/
theorem C154_memory {n : ℕ} (h0 : 0 < n) (hn : n < 2 ^ 63) (x : ℕ → ℝ) :
    ∃ y z, AverageFrom (n - 1) n x y ∧ RmsFrom (n - 1) n x z ∧
      (∀ k c, n - 1 ≤ k → (∀ j, k + 1 - n ≤ j → j ≤ k → x j = c) → y k = c ∧ z k = |c|) ∧
      ∀ x' : ℕ → ℝ, ∃ y' z', AverageFrom (n - 1) n x' y' ∧ RmsFrom (n - 1) n x' z' ∧
        ∀ k, n - 1 ≤ k → (∀ j, k + 1 - n ≤ j → j ≤ k → x j = x' j) → y k = y' k ∧ z k = z' k := by
  have hn0 : (n : ℝ) ≠ 0 := by exact_mod_cast h0.ne'
  refine ⟨_, _, average_from h0 hn x, rms_from h0 hn x, fun k c hk h => ⟨?_, ?_⟩,
    fun x' => ⟨_, _, average_from h0 hn x', rms_from h0 hn x', fun k hk h => ⟨?_, ?_⟩⟩⟩
  · have : ∑ j ∈ range n, x (k + 1 - n + j) = ∑ _j ∈ range n, c :=
      Finset.sum_congr rfl fun j hj => h _ (by omega) (by have := mem_range.mp hj; omega)
    simp only [this, Finset.sum_const, card_range, nsmul_eq_mul]
    field_simp
  · have : ∑ j ∈ range n, x (k + 1 - n + j) ^ 2 = ∑ _j ∈ range n, c ^ 2 :=
      Finset.sum_congr rfl fun j hj => by rw [h _ (by omega) (by have := mem_range.mp hj; omega)]
    simp only [this, Finset.sum_const, card_range, nsmul_eq_mul]
    rw [mul_div_assoc, mul_div_cancel₀ _ hn0, Real.sqrt_sq_eq_abs]
  · have : ∑ j ∈ range n, x (k + 1 - n + j) = ∑ j ∈ range n, x' (k + 1 - n + j) :=
      Finset.sum_congr rfl fun j hj => h _ (by omega) (by have := mem_range.mp hj; omega)
    simp only [this]
  · have : ∑ j ∈ range n, x (k + 1 - n + j) ^ 2 = ∑ j ∈ range n, x' (k + 1 - n + j) ^ 2 :=
      Finset.sum_congr rfl fun j hj => by rw [h _ (by omega) (by have := mem_range.mp hj; omega)]
    simp only [this]

/-- The average lies between the bounds of the last `n` samples, the root mean square between the absolute value of the
average and the largest absolute value; a rising signal has a rising average. -/
theorem C154_bounds {n : ℕ} (h0 : 0 < n) (hn : n < 2 ^ 63) (x : ℕ → ℝ) :
    ∃ y z, AverageFrom (n - 1) n x y ∧ RmsFrom (n - 1) n x z ∧
      (∀ k, n - 1 ≤ k → ∀ lo hi, (∀ j, k + 1 - n ≤ j → j ≤ k → lo ≤ x j ∧ x j ≤ hi) → lo ≤ y k ∧ y k ≤ hi) ∧
      (∀ k, n - 1 ≤ k → |y k| ≤ z k) ∧
      (∀ k, n - 1 ≤ k → ∀ hi, (∀ j, k + 1 - n ≤ j → j ≤ k → |x j| ≤ hi) → z k ≤ hi) ∧
      ((∀ j, x j ≤ x (j + 1)) → ∀ k, n - 1 ≤ k → y k ≤ y (k + 1)) := by
  have hn0 : (0 : ℝ) < n := by exact_mod_cast h0
  refine ⟨_, _, average_from h0 hn x, rms_from h0 hn x, fun k hk lo hi h => ?_, fun k hk => ?_, fun k hk hi h => ?_,
    fun h k hk => ?_⟩
  · have h1 : ∑ _j ∈ range n, lo ≤ ∑ j ∈ range n, x (k + 1 - n + j) :=
      Finset.sum_le_sum fun j hj => (h _ (by omega) (by have := mem_range.mp hj; omega)).1
    have h2 : ∑ j ∈ range n, x (k + 1 - n + j) ≤ ∑ _j ∈ range n, hi :=
      Finset.sum_le_sum fun j hj => (h _ (by omega) (by have := mem_range.mp hj; omega)).2
    simp only [Finset.sum_const, card_range, nsmul_eq_mul] at h1 h2
    constructor
    · rw [le_div_iff₀ hn0]; linarith
    · rw [div_le_iff₀ hn0]; linarith
  · refine Real.abs_le_sqrt ?_
    have := sq_sum_le_card_mul_sum_sq (s := range n) (f := fun j => x (k + 1 - n + j))
    rw [card_range] at this
    rw [div_pow, div_le_div_iff₀ (by positivity) hn0]
    nlinarith
  · have hhi : 0 ≤ hi := le_trans (abs_nonneg _) (h k (by omega) le_rfl)
    rw [Real.sqrt_le_left hhi, div_le_iff₀ hn0]
    have h2 : ∑ j ∈ range n, x (k + 1 - n + j) ^ 2 ≤ ∑ _j ∈ range n, hi ^ 2 :=
      Finset.sum_le_sum fun j hj => sq_le_sq' (by
        have := (abs_le.mp (h _ (Nat.le_add_right (k + 1 - n) j) (by have := mem_range.mp hj; omega))).1; linarith)
        (abs_le.mp (h _ (by omega) (by have := mem_range.mp hj; omega))).2
    simp only [Finset.sum_const, card_range, nsmul_eq_mul] at h2
    linarith
  · refine div_le_div_of_nonneg_right (Finset.sum_le_sum fun j _ => ?_) hn0.le
    rw [show k + 1 + 1 - n + j = k + 1 - n + j + 1 by omega]
    exact h _

end Edsp.Props
