import Verif.Props.C154_MovingSignals
import Mathlib.Topology.Algebra.Monoid
import Mathlib.Analysis.SpecificLimits.Basic

/-!
# C190: signals that settle, approach each other or repeat, through the moving average and the moving root mean square
-/

namespace Edsp.Props.C190

open Edsp.Spec Edsp.MovSig Finset Filter

theorem shifted (n j : ℕ) : Tendsto (fun k => k + 1 - n + j) atTop atTop :=
  tendsto_atTop_mono (f := fun k => k - n) (fun k => by omega) (tendsto_sub_atTop_nat n)

/-- The mean of a window that moves out to where the signal is near `L`. -/
theorem mean_tendsto {n : ℕ} (h0 : 0 < n) {x : ℕ → ℝ} {L : ℝ} (hx : Tendsto x atTop (nhds L)) :
    Tendsto (fun k => (∑ j ∈ range n, x (k + 1 - n + j)) / n) atTop (nhds L) := by
  have hn0 : (n : ℝ) ≠ 0 := by exact_mod_cast h0.ne'
  have h1 : Tendsto (fun k => ∑ j ∈ range n, x (k + 1 - n + j)) atTop (nhds (∑ _j ∈ range n, L)) :=
    tendsto_finsetSum _ fun j _ => hx.comp (shifted n j)
  have h2 := h1.div_const (n : ℝ)
  rwa [sum_const, card_range, nsmul_eq_mul, mul_div_cancel_left₀ _ hn0] at h2

/-- **C190 (settling).**  If the signal tends to a level, the moving average tends to the same level and the moving root mean
square to its absolute value. -/
theorem C190_settles {n : ℕ} (h0 : 0 < n) (hn : n < 2 ^ 63) {x : ℕ → ℝ} {L : ℝ} (hx : Tendsto x atTop (nhds L)) :
    ∃ y z, AverageFrom (n - 1) n x y ∧ RmsFrom (n - 1) n x z ∧ Tendsto y atTop (nhds L) ∧
      Tendsto z atTop (nhds |L|) := by
  refine ⟨_, _, average_from h0 hn x, rms_from h0 hn x, mean_tendsto h0 hx, ?_⟩
  have h := (Real.continuous_sqrt.tendsto _).comp (mean_tendsto h0 (hx.pow 2))
  rw [Real.sqrt_sq_eq_abs] at h
  exact h

/-- **C190 (approach).**  If two signals approach each other, however slowly and whatever else they do, so do their moving
averages. -/
theorem C190_approach {n : ℕ} (h0 : 0 < n) (hn : n < 2 ^ 63) {x x' : ℕ → ℝ}
    (hx : Tendsto (fun k => x k - x' k) atTop (nhds 0)) :
    ∃ y y', AverageFrom (n - 1) n x y ∧ AverageFrom (n - 1) n x' y' ∧ Tendsto (fun k => y k - y' k) atTop (nhds 0) := by
  refine ⟨_, _, average_from h0 hn x, average_from h0 hn x', (mean_tendsto h0 hx).congr fun k => ?_⟩
  rw [← sub_div, ← sum_sub_distrib]

/-- **C190 (repetition).**  A signal of any period, in whatever relation to the length of the filter, is answered with signals
of the same period, as soon as the window is full. -/
theorem C190_periodic {n : ℕ} (h0 : 0 < n) (hn : n < 2 ^ 63) {P : ℕ} {x : ℕ → ℝ} (hx : ∀ k, x (k + P) = x k) :
    ∃ y z, AverageFrom (n - 1) n x y ∧ RmsFrom (n - 1) n x z ∧
      ∀ k, n - 1 ≤ k → y (k + P) = y k ∧ z (k + P) = z k := by
  refine ⟨_, _, average_from h0 hn x, rms_from h0 hn x, fun k hk => ?_⟩
  have e : ∀ j, x (k + P + 1 - n + j) = x (k + 1 - n + j) := fun j => by
    rw [show k + P + 1 - n + j = k + 1 - n + j + P by omega, hx]
  simp only [e, and_self]

/-- The signal `3 + 1 / (k + 1)` through filters of length 5. -/
example : ∃ y z, AverageFrom 4 5 (fun k => 3 + 1 / ((k : ℝ) + 1)) y ∧ RmsFrom 4 5 (fun k => 3 + 1 / ((k : ℝ) + 1)) z ∧
    Tendsto y atTop (nhds 3) ∧ Tendsto z atTop (nhds 3) := by
  have ht := (tendsto_one_div_add_atTop_nhds_zero_nat (𝕜 := ℝ)).const_add 3
  rw [add_zero] at ht
  have := C190_settles (n := 5) (by norm_num) (by norm_num) ht
  rwa [abs_of_pos (by norm_num : (0 : ℝ) < 3)] at this

/-- A square wave and the same with a slowly fading offset. -/
example : ∃ y y', AverageFrom 4 5 (fun k => (if k % 4 < 2 then 1 else -1) + 1 / ((k : ℝ) + 1)) y ∧
    AverageFrom 4 5 (fun k => if k % 4 < 2 then 1 else -1) y' ∧ Tendsto (fun k => y k - y' k) atTop (nhds 0) :=
  C190_approach (by norm_num) (by norm_num)
    ((tendsto_one_div_add_atTop_nhds_zero_nat (𝕜 := ℝ)).congr fun k => by ring)

/-- The period 4 and the length 5. -/
example : ∃ y z, AverageFrom 4 5 (fun k => if k % 4 < 2 then 1 else -1) y ∧
    RmsFrom 4 5 (fun k => if k % 4 < 2 then 1 else -1) z ∧ ∀ k, 4 ≤ k → y (k + 4) = y k ∧ z (k + 4) = z k :=
  C190_periodic (by norm_num) (by norm_num) (by simp)

end Edsp.Props.C190
