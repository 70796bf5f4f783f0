import Verif.Spec.MovingSignals
import Verif.Props.C13_MovingFilters
import Mathlib.Analysis.SpecialFunctions.Trigonometric.Basic
import Mathlib.Algebra.BigOperators.Intervals
import Mathlib.Algebra.BigOperators.Field
import Mathlib.Algebra.Order.BigOperators.Ring.Finset
import Mathlib.Tactic.Linarith
import Mathlib.Tactic.Ring
import Mathlib.Tactic.FieldSimp

/-!
# Moving filters fed a signal
-/

namespace Edsp.MovSig

open Edsp.Spec Finset

/-- Once the window is full it holds the last `n` samples. -/
theorem window_signal (n : ℕ) (x : ℕ → ℝ) {L k : ℕ} (h1 : n ≤ k + 1) (h2 : k < L) :
    window n (((List.range L).map x).take (k + 1)) = (List.range n).map fun j => x (k + 1 - n + j) := by
  have e : ((List.range L).map x).take (k + 1) = (List.range (k + 1)).map x := by
    rw [← List.map_take, List.take_range, min_eq_left (by omega)]
  rw [e]
  unfold window lastOf
  rw [List.length_append, List.length_replicate, List.length_map, List.length_range,
    List.drop_append, List.length_replicate, List.drop_eq_nil_of_le (by simp; omega), List.nil_append]
  apply List.ext_getElem
  · simp; omega
  · intro i h3 h4
    simp

theorem moving_length {agg : List ℝ → ℝ} (n : ℕ) (xs h : List ℝ) : (moving agg n h (xs.map .tick)).length = xs.length := by
  induction xs generalizing h with
  | nil => rfl
  | cons x xs ih => simp [moving, ih]

theorem moving_get {agg : List ℝ → ℝ} (n : ℕ) : ∀ (xs h : List ℝ) (k : ℕ), k < xs.length →
    (moving agg n h (xs.map .tick))[k]? = some (agg (window n (h ++ xs.take (k + 1)))) := by
  intro xs
  induction xs with
  | nil => intro h k hk; simp at hk
  | cons x xs ih =>
      intro h k hk
      cases k with
      | zero => simp [moving]
      | succ k =>
          simp only [List.map_cons, moving, List.getElem?_cons_succ, List.take_succ_cons]
          rw [ih _ _ (by simpa using hk)]
          simp

theorem average_from {n : ℕ} (h0 : 0 < n) (hn : n < 2 ^ 63) (x : ℕ → ℝ) :
    AverageFrom (n - 1) n x fun k => (∑ j ∈ range n, x (k + 1 - n + j)) / n := by
  intro L
  obtain ⟨m, m', h1, h2⟩ := Props.C13_moving_average_partial n h0 hn ((List.range L).map x)
  have e : ((List.range L).map fun k => MovingOp.tick (x k)) = ((List.range L).map x).map .tick := by
    rw [List.map_map]; rfl
  rw [← e] at h2
  refine ⟨m, m', _, h1, h2, by rw [e, moving_length]; simp, fun k hk hkL => ?_⟩
  rw [e, moving_get _ _ _ _ (by simpa using hkL), List.nil_append, window_signal n x (by omega) hkL, Spec.mean,
    List.length_map, List.length_range]
  rfl

theorem rms_from {n : ℕ} (h0 : 0 < n) (hn : n < 2 ^ 63) (x : ℕ → ℝ) :
    RmsFrom (n - 1) n x fun k => Real.sqrt ((∑ j ∈ range n, x (k + 1 - n + j) ^ 2) / n) := by
  intro L
  obtain ⟨m, m', h1, h2⟩ := Props.C14_moving_rms_partial n h0 hn ((List.range L).map x)
  have e : ((List.range L).map fun k => MovingOp.tick (x k)) = ((List.range L).map x).map .tick := by
    rw [List.map_map]; rfl
  rw [← e] at h2
  refine ⟨m, m', _, h1, h2, by rw [e, moving_length]; simp, fun k hk hkL => ?_⟩
  rw [e, moving_get _ _ _ _ (by simpa using hkL), List.nil_append, window_signal n x (by omega) hkL, Spec.rms,
    List.length_map, List.length_range, List.map_map]
  rfl

theorem AverageFrom.congr {s n : ℕ} {x y y' : ℕ → ℝ} (h : AverageFrom s n x y) (e : ∀ k, s ≤ k → y k = y' k) :
    AverageFrom s n x y' := by
  intro L
  obtain ⟨m, m', ys, h1, h2, h3, h4⟩ := h L
  exact ⟨m, m', ys, h1, h2, h3, fun k hk hkL => by rw [h4 k hk hkL, e k hk]⟩

theorem RmsFrom.congr {s n : ℕ} {x y y' : ℕ → ℝ} (h : RmsFrom s n x y) (e : ∀ k, s ≤ k → y k = y' k) :
    RmsFrom s n x y' := by
  intro L
  obtain ⟨m, m', ys, h1, h2, h3, h4⟩ := h L
  exact ⟨m, m', ys, h1, h2, h3, fun k hk hkL => by rw [h4 k hk hkL, e k hk]⟩

/-- A sum over one period does not depend on where it starts. -/
theorem period_sum {n : ℕ} {x : ℕ → ℝ} (hx : ∀ k, x (k + n) = x k) (s : ℕ) :
    ∑ j ∈ range n, x (s + j) = ∑ j ∈ range n, x j := by
  induction s with
  | zero => simp
  | succ s ih =>
      have h := Finset.sum_range_succ (fun j => x (s + j)) n
      have h' := Finset.sum_range_succ' (fun j => x (s + j)) n
      have e : ∀ j, x (s + (j + 1)) = x (s + 1 + j) := fun j => congrArg x (by ring)
      simp only [e, add_zero] at h'
      rw [hx] at h
      linarith

theorem two_sin_cos (a b : ℝ) : 2 * Real.sin a * Real.cos b = Real.sin (b + a) - Real.sin (b - a) := by
  rw [Real.sin_add, Real.sin_sub]; ring

/-- The sum of `n` samples of a sinusoid. -/
theorem sum_cos (w p : ℝ) (s n : ℕ) :
    2 * Real.sin (w / 2) * ∑ j ∈ range n, Real.cos (w * ((s + j : ℕ) : ℝ) + p) =
      2 * Real.sin (n * w / 2) * Real.cos (w * (s + ((n : ℝ) - 1) / 2) + p) := by
  have h : 2 * Real.sin (w / 2) * ∑ j ∈ range n, Real.cos (w * ((s + j : ℕ) : ℝ) + p) =
      Real.sin (w * (s + n) + p - w / 2) - Real.sin (w * s + p - w / 2) := by
    induction n with
    | zero => simp
    | succ n ih =>
        rw [Finset.sum_range_succ, mul_add, ih, two_sin_cos]
        push_cast
        rw [show w * ((s : ℝ) + (n + 1)) + p - w / 2 = w * (s + n) + p + w / 2 by ring]
        ring
  rw [h, two_sin_cos]
  congr 1 <;> congr 1 <;> ring

theorem sin_half_ne {w : ℝ} (h : ∀ m : ℤ, w ≠ 2 * Real.pi * m) : Real.sin (w / 2) ≠ 0 := by
  rw [Ne, Real.sin_eq_zero_iff]
  rintro ⟨m, hm⟩
  exact h m (by linarith)

/-- Whole periods of a sinusoid add up to nothing. -/
theorem sum_cos_zero {w : ℝ} (h : ∀ m : ℤ, w ≠ 2 * Real.pi * m) {n : ℕ} {k : ℤ} (hk : n * w = 2 * Real.pi * k)
    (p : ℝ) (s : ℕ) : ∑ j ∈ range n, Real.cos (w * ((s + j : ℕ) : ℝ) + p) = 0 := by
  have h1 := sum_cos w p s n
  have h2 : Real.sin (n * w / 2) = 0 := by
    rw [hk, show 2 * Real.pi * k / 2 = k * Real.pi by ring]
    exact Real.sin_int_mul_pi k
  rw [h2, mul_zero, zero_mul] at h1
  have h3 := sin_half_ne h
  rcases mul_eq_zero.mp h1 with h4 | h4
  · exact absurd h4 (by simpa using h3)
  · exact h4

end Edsp.MovSig
