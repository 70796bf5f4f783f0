import Verif.Spec.Close
import Verif.Lemmas.Statistics
import Verif.Lemmas.Moving
import Verif.Lemmas.Extremum
import Verif.Model.Sequences
import Mathlib.Analysis.Real.Sqrt
import Mathlib.Tactic.LinearCombination
import Mathlib.Tactic.Positivity

/-! # Helper lemmas: sums and sums of squares of two signals that differ by a small disturbance -/

namespace Edsp.CloseL

open Edsp Edsp.Spec

variable {ε : ℝ} {x y : List ℝ}

theorem length_eq (h : Close ε x y) : x.length = y.length := List.Forall₂.length_eq h

theorem symm (h : Close ε x y) : Close ε y x := by
  induction h with
  | nil => exact List.Forall₂.nil
  | cons hab _ ih => exact List.Forall₂.cons (by rwa [abs_sub_comm]) ih

theorem ne_nil (h : Close ε x y) (hx : x ≠ []) : y ≠ [] := by
  rintro rfl
  exact hx (by simpa using length_eq h)

theorem partner (h : Close ε x y) {a : ℝ} (ha : a ∈ x) : ∃ b ∈ y, |a - b| ≤ ε := by
  induction h with
  | nil => cases ha
  | cons hab _ ih =>
    rcases List.mem_cons.mp ha with rfl | ha
    · exact ⟨_, by simp, hab⟩
    · obtain ⟨b, hb, h⟩ := ih ha
      exact ⟨b, by simp [hb], h⟩

theorem map {f g : ℝ → ℝ} {δ : ℝ} (hf : ∀ a b, |a - b| ≤ ε → |f a - g b| ≤ δ) (h : Close ε x y) :
    Close δ (x.map f) (y.map g) := by
  induction h with
  | nil => exact List.Forall₂.nil
  | cons hab _ ih => exact List.Forall₂.cons (hf _ _ hab) ih

theorem sum (h : Close ε x y) : |x.sum - y.sum| ≤ x.length * ε := by
  induction h with
  | nil => simp
  | @cons a b l l' hab _ ih =>
    rw [List.sum_cons, List.sum_cons, List.length_cons]
    push_cast
    calc |a + l.sum - (b + l'.sum)| = |(a - b) + (l.sum - l'.sum)| := by congr 1; ring
      _ ≤ |a - b| + |l.sum - l'.sum| := abs_add_le _ _
      _ ≤ (l.length + 1) * ε := by linarith

theorem sqrt_step {A B a b : ℝ} (hA : 0 ≤ A) (hB : 0 ≤ B) :
    (Real.sqrt (A + a * a) - Real.sqrt (B + b * b)) ^ 2 ≤ (Real.sqrt A - Real.sqrt B) ^ 2 + (a - b) ^ 2 := by
  have e1 : Real.sqrt (A + a * a) ^ 2 = A + a * a := Real.sq_sqrt (by nlinarith [mul_self_nonneg a])
  have e2 : Real.sqrt (B + b * b) ^ 2 = B + b * b := Real.sq_sqrt (by nlinarith [mul_self_nonneg b])
  have e3 : Real.sqrt A ^ 2 = A := Real.sq_sqrt hA
  have e4 : Real.sqrt B ^ 2 = B := Real.sq_sqrt hB
  have key : Real.sqrt A * Real.sqrt B + a * b ≤ Real.sqrt (A + a * a) * Real.sqrt (B + b * b) := by
    rw [← Real.sqrt_mul (x := A + a * a) (by nlinarith [mul_self_nonneg a])]
    apply Real.le_sqrt_of_sq_le
    have : (A + a * a) * (B + b * b) - (Real.sqrt A * Real.sqrt B + a * b) ^ 2 = (Real.sqrt A * b - Real.sqrt B * a) ^ 2 := by
      linear_combination (-(b * b) - Real.sqrt B ^ 2) * e3 - (A + a * a) * e4
    nlinarith [sq_nonneg (Real.sqrt A * b - Real.sqrt B * a)]
  nlinarith

theorem innerSelf_nonneg {A : ℝ} (hA : 0 ≤ A) (l : List ℝ) : 0 ≤ Seq.innerSelf A l := by
  induction l generalizing A with
  | nil => exact hA
  | cons a l ih => exact ih (add_nonneg hA (mul_self_nonneg a))

theorem innerSelf_close (h : Close ε x y) {A B k : ℝ} (hA : 0 ≤ A) (hB : 0 ≤ B)
    (hk : (Real.sqrt A - Real.sqrt B) ^ 2 ≤ k * ε ^ 2) :
    (Real.sqrt (Seq.innerSelf A x) - Real.sqrt (Seq.innerSelf B y)) ^ 2 ≤ (k + x.length) * ε ^ 2 := by
  induction h generalizing A B k with
  | nil => simpa [Seq.innerSelf] using hk
  | @cons a b l l' hab _ ih =>
    have := ih (A := A + a * a) (B := B + b * b) (k := k + 1) (add_nonneg hA (mul_self_nonneg a))
      (add_nonneg hB (mul_self_nonneg b)) (by
        have h1 := sqrt_step hA hB (a := a) (b := b)
        have h2 : (a - b) ^ 2 ≤ ε ^ 2 := by rw [← sq_abs]; gcongr
        linarith)
    rw [List.length_cons]
    push_cast
    rw [show k + ((l.length : ℝ) + 1) = k + 1 + l.length by ring]
    exact this

/-- Root of the sum of squares, on top of a common start value. -/
theorem root_close (h : Close ε x y) (hε : 0 ≤ ε) {A : ℝ} (hA : 0 ≤ A) :
    |Real.sqrt (Seq.innerSelf A x) - Real.sqrt (Seq.innerSelf A y)| ≤ Real.sqrt x.length * ε := by
  have := innerSelf_close h hA hA (k := 0) (by simp)
  rw [zero_add] at this
  have h2 := Real.abs_le_sqrt this
  rwa [Real.sqrt_mul (by positivity), Real.sqrt_sq hε] at h2

theorem root_mean_close (h : Close ε x y) (hε : 0 ≤ ε) (hx : x ≠ []) {A : ℝ} (hA : 0 ≤ A) :
    |Real.sqrt (Seq.innerSelf A x / x.length) - Real.sqrt (Seq.innerSelf A y / y.length)| ≤ ε := by
  have hl : (0 : ℝ) < x.length := by exact_mod_cast List.length_pos_iff.mpr hx
  rw [← length_eq h, Real.sqrt_div (innerSelf_nonneg hA x), Real.sqrt_div (innerSelf_nonneg hA y), ← sub_div, abs_div,
    abs_of_pos (Real.sqrt_pos.mpr hl), div_le_iff₀ (Real.sqrt_pos.mpr hl), mul_comm]
  exact root_close h hε hA

theorem sum_sq (l : List ℝ) (A : ℝ) : Seq.innerSelf A l = A + (l.map fun x => x ^ 2).sum := by
  induction l generalizing A with
  | nil => simp [Seq.innerSelf]
  | cons a l ih =>
    have e : Seq.innerSelf A (a :: l) = Seq.innerSelf (A + a * a) l := rfl
    rw [e, ih, List.map_cons, List.sum_cons]; ring

theorem mean_close (h : Close ε x y) (hx : x ≠ []) : |avg x - avg y| ≤ ε := by
  have hl : (0 : ℝ) < x.length := by exact_mod_cast List.length_pos_iff.mpr hx
  unfold avg
  rw [← length_eq h, ← sub_div, abs_div, abs_of_pos hl, div_le_iff₀ hl, mul_comm]
  exact sum h

theorem rms_close (h : Close ε x y) (hε : 0 ≤ ε) (hx : x ≠ []) : |Spec.rms x - Spec.rms y| ≤ ε := by
  have := root_mean_close h hε hx le_rfl
  rw [sum_sq, sum_sq, zero_add, zero_add] at this
  exact this

/-- The mean is the centre with the least mean square. -/
theorem centre_le {l : List ℝ} (hl : l ≠ []) (c : ℝ) : centralMoment 2 l ≤ avgOf (fun x => (x - c) ^ 2) l := by
  have e : (fun x : ℝ => (x - c) ^ 2) = fun x => (x - avg l) ^ 2 + ((2 * (avg l - c)) * (x - avg l) + (avg l - c) ^ 2) := by
    funext x; ring
  have h1 : avgOf (fun x => x - avg l) l = 0 := by
    have := StatL.centralMoment_one hl
    unfold centralMoment at this
    simpa using this
  rw [e, StatL.avgOf_add, StatL.avgOf_add, StatL.avgOf_mul, StatL.avgOf_const hl, h1, mul_zero, zero_add]
  unfold centralMoment
  nlinarith [sq_nonneg (avg l - c)]

theorem deviation_le (h : Close ε x y) (hε : 0 ≤ ε) (hx : x ≠ []) :
    Real.sqrt (centralMoment 2 x) ≤ Real.sqrt (centralMoment 2 y) + ε := by
  have hc : Close ε (x.map fun a => a - avg y) (y.map fun a => a - avg y) := by
    refine map ?_ h
    intro a b hab
    rwa [sub_sub_sub_cancel_right]
  have h1 := rms_close hc hε (by simpa using hx)
  have e : ∀ l : List ℝ, Spec.rms (l.map fun a => a - avg y) = Real.sqrt (avgOf (fun a => (a - avg y) ^ 2) l) := by
    intro l
    unfold Spec.rms avgOf avg
    rw [List.map_map, List.length_map, List.length_map]
    rfl
  rw [e, e] at h1
  have h2 : Real.sqrt (centralMoment 2 x) ≤ Real.sqrt (avgOf (fun a => (a - avg y) ^ 2) x) :=
    Real.sqrt_le_sqrt (centre_le hx _)
  have h3 := (abs_le.mp h1).2
  have h4 : avgOf (fun a => (a - avg y) ^ 2) y = centralMoment 2 y := rfl
  rw [h4] at h3
  linarith

theorem window_close {n : ℕ} (hε : 0 ≤ ε) (h : Close ε x y) : Close ε (window n x) (window n y) := by
  rw [Moving.window_eq, Moving.window_eq, length_eq h]
  apply List.forall₂_drop
  refine List.rel_append ?_ h
  clear h
  induction n with
  | zero => exact List.Forall₂.nil
  | succ n ih => exact List.Forall₂.cons (by simpa using hε) ih

theorem moving_close {agg : List ℝ → ℝ} {n : ℕ} (ha : ∀ u v : List ℝ, u.length = n → Close ε u v → |agg u - agg v| ≤ ε)
    (hε : 0 ≤ ε) (h : Close ε x y) : ∀ {p q : List ℝ}, Close ε p q →
    Close ε (moving agg n p (x.map .tick)) (moving agg n q (y.map .tick)) := by
  induction h with
  | nil => intro p q _; exact List.Forall₂.nil
  | cons hab _ ih =>
    intro p q hpq
    have hs := List.rel_append hpq (List.Forall₂.cons hab List.Forall₂.nil)
    exact List.Forall₂.cons (ha _ _ (Moving.window_length _ _) (window_close hε hs)) (ih hs)

end Edsp.CloseL
