import Verif.Lemmas.Statistics
import Mathlib.Tactic.NormNum

/-!
# C31, C32: mean, central moments, skewness and kurtosis
-/

set_option linter.unusedSectionVars false

namespace Edsp.C31
open Edsp.Stat Edsp.Spec Edsp.StatL

section
variable {K : Type} [Field K] [LinearOrder K] [IsStrictOrderedRing K]

/-- **C31 (mean).**  `mean` of a non-empty range is its sum over its length and lies between any bounds of
its elements; an empty range divides zero by zero. -/
theorem C31_mean (l : List K) :
    (l ≠ [] → ∃ m, mean l = .ok m ∧ m * (l.length : K) = l.sum ∧
      (∀ lo, (∀ x ∈ l, lo ≤ x) → lo ≤ m) ∧ (∀ hi, (∀ x ∈ l, x ≤ hi) → m ≤ hi)) ∧
    (l = [] → mean l = .error .divByZero) := by
  refine ⟨fun h => ⟨avg l, mean_ok h, ?_, ?_, ?_⟩, fun h => by simp [h, mean, fdiv]⟩
  · rw [avg]; field_simp [len_ne h]
  · intro lo hlo
    rw [← avgOf_id, ← avgOf_const h lo]
    exact avgOf_mono hlo
  · intro hi hhi
    rw [← avgOf_id, ← avgOf_const h hi]
    exact avgOf_mono hhi

example : ∃ m : ℚ, mean [1, 2, 6] = .ok m ∧ m = 3 := ⟨3, by norm_num [mean, accumulate, fdiv], rfl⟩

/-- **C31 (moments).**  For every order n ≥ 1 `moment<n>` of a non-empty range is the mean of the n-th powers
of the deviations from the mean; the first one is 0. -/
theorem C31_moment (l : List K) (h : l ≠ []) (n : Nat) (hn : 1 ≤ n) :
    moment n l = .ok (centralMoment n l) ∧ moment 1 l = .ok 0 := by
  obtain ⟨k, rfl⟩ : ∃ k, n = k + 1 := ⟨n - 1, by omega⟩
  exact ⟨moment_ok h k, by rw [moment_ok h 0, centralMoment_one h]⟩

example : centralMoment 2 ([1, 3] : List ℚ) = 1 := by norm_num [centralMoment, avgOf, avg]

/-- **C31 (order 0 violated).**  The 0-th moment of every non-empty sample is 1, but `moment<0>` is 0. -/
theorem C31_moment_zero_violates (l : List K) (h : l ≠ []) :
    moment 0 l = .ok 0 ∧ centralMoment 0 l = 1 := by
  constructor
  · have : moment 0 l = moment 1 l := by
      simp only [moment, nthMoment, nthPower]
    rw [this, moment_ok h 0, centralMoment_one h]
  · rw [centralMoment]
    simp only [pow_zero]
    exact avgOf_const h 1

/-- **C31 (C interface).**  The C function `moment` agrees for orders 1 to 8; for every other order it returns
0, which is wrong for order 10 of every non-constant sample. -/
theorem C31_c_moment_partial (l : List K) (h : l ≠ []) (n : Int) :
    (1 ≤ n → n ≤ 8 → cMoment l n = .ok (centralMoment n.toNat l)) ∧
    (8 < n → cMoment l n = .ok 0) := by
  constructor
  · intro h1 h2
    rw [cMoment, if_pos ⟨h1, h2⟩]
    exact (C31_moment l h n.toNat (by omega)).1
  · intro h1
    rw [cMoment, if_neg (by omega)]

/-- **C31 is violated by the C function `moment`**: it answers 0 for every order above 8. -/
theorem C31_c_moment_violates :
    cMoment ([0, 2] : List K) 10 = .ok 0 ∧ centralMoment 10 ([0, 2] : List K) = 1 := by
  refine ⟨by simp [cMoment], ?_⟩
  have : avg ([0, 2] : List K) = 1 := by norm_num [avg]
  rw [centralMoment, this]
  norm_num [avgOf, avg]

/-- **C31 (variance).**  `variance` of a non-empty range is the mean squared deviation: never negative, zero
exactly for constant ranges, the mean square minus the squared mean, unchanged by a shift and multiplied by
a² when all samples are multiplied by a. -/
theorem C31_variance (l : List K) (h : l ≠ []) :
    ∃ v, variance l = .ok v ∧ v = avgOf (fun x => (x - avg l) ^ 2) l ∧ 0 ≤ v ∧
      (v = 0 ↔ ∀ x ∈ l, ∀ y ∈ l, x = y) ∧
      v = avgOf (fun x => x ^ 2) l - avg l ^ 2 ∧
      ∀ a b : K, variance (l.map fun x => a * x + b) = .ok (a ^ 2 * v) := by
  refine ⟨centralMoment 2 l, moment_ok h 1, rfl, centralMoment_two_nonneg l, centralMoment_two_eq_zero h, ?_, ?_⟩
  · rw [centralMoment]
    have : avgOf (fun x => (x - avg l) ^ 2) l =
        avgOf (fun x => x ^ 2 + ((-(2 * avg l)) * x + avg l ^ 2)) l := avgOf_congr fun x _ => by ring
    rw [this, avgOf_add, avgOf_add, avgOf_mul, avgOf_const h, avgOf_id]
    ring
  · intro a b
    have h' : (l.map fun x => a * x + b) ≠ [] := by simpa using h
    rw [variance, moment_ok h' 1, centralMoment_affine h]

example : variance ([1, 3] : List ℚ) = .ok 1 := by
  norm_num [variance, moment, mean, nthMoment, accumulate, fdiv, nthPower, bind, Except.bind]

/-- Empty ranges have no moments. -/
theorem C31_empty (n : Nat) : moment n ([] : List K) = .error .divByZero ∧
    variance ([] : List K) = .error .divByZero := by
  constructor <;> simp [variance, moment, mean, fdiv, bind, Except.bind]

/-- **C32 (kurtosis).**  For every non-constant sample `kurtosis` is the fourth central moment over the squared
variance; it is unchanged by every affine map a x + b with a ≠ 0 and at least 1. -/
theorem C32_kurtosis (l : List K) (h : ∃ x ∈ l, ∃ y ∈ l, x ≠ y) :
    ∃ k, kurtosis l = .ok k ∧ k * centralMoment 2 l ^ 2 = centralMoment 4 l ∧ 1 ≤ k ∧
      ∀ a b : K, a ≠ 0 → kurtosis (l.map fun x => a * x + b) = .ok k := by
  obtain ⟨x, hx, y, hy, hxy⟩ := h
  have hl : l ≠ [] := by rintro rfl; simp at hx
  have hv : centralMoment 2 l ≠ 0 := fun hz => hxy ((centralMoment_two_eq_zero hl).1 hz x hx y hy)
  have val : ∀ l' : List K, l' ≠ [] → centralMoment 2 l' ≠ 0 →
      kurtosis l' = .ok (centralMoment 4 l' / (centralMoment 2 l' * centralMoment 2 l')) := by
    intro l' h' hv'
    have e4 : momentAbout 4 l' (avg l') = .ok (centralMoment 4 l') := nthMoment_ok h' 3 _
    have e2 : momentAbout 2 l' (avg l') = .ok (centralMoment 2 l') := nthMoment_ok h' 1 _
    simp only [kurtosis, mean_ok h', e4, e2, bind, Except.bind]
    exact fdiv_ok (mul_ne_zero hv' hv')
  refine ⟨_, val l hl hv, by field_simp, ?_, ?_⟩
  · have hpos : 0 < centralMoment 2 l := lt_of_le_of_ne (centralMoment_two_nonneg l) (Ne.symm hv)
    rw [le_div_iff₀ (mul_pos hpos hpos), one_mul]
    have h0 : 0 ≤ avgOf (fun x => ((x - avg l) ^ 2 - centralMoment 2 l) ^ 2) l :=
      avgOf_nonneg fun _ _ => sq_nonneg _
    have e : avgOf (fun x => ((x - avg l) ^ 2 - centralMoment 2 l) ^ 2) l =
        avgOf (fun x => (x - avg l) ^ 4 + ((-(2 * centralMoment 2 l)) * (x - avg l) ^ 2 +
          centralMoment 2 l ^ 2)) l := avgOf_congr fun x _ => by ring
    rw [e, avgOf_add, avgOf_add, avgOf_mul, avgOf_const hl] at h0
    change 0 ≤ centralMoment 4 l + (-(2 * centralMoment 2 l) * centralMoment 2 l + centralMoment 2 l ^ 2) at h0
    nlinarith
  · intro a b ha
    have hl' : (l.map fun x => a * x + b) ≠ [] := by simpa using hl
    rw [val _ hl' (by rw [centralMoment_affine hl]; positivity), centralMoment_affine hl, centralMoment_affine hl]
    congr 1
    field_simp

example : ∃ x ∈ ([1, 2, 2] : List ℚ), ∃ y ∈ ([1, 2, 2] : List ℚ), x ≠ y :=
  ⟨1, by simp, 2, by simp, by norm_num⟩

end

/-- **C31 (standard deviation).**  It is the non-negative root of the variance. -/
theorem C31_standard_deviation (l : List ℝ) (h : l ≠ []) :
    ∃ s v, standardDeviation l = .ok s ∧ variance l = .ok v ∧ 0 ≤ s ∧ s ^ 2 = v := by
  obtain ⟨v, hv, -, h0, -⟩ := C31_variance l h
  refine ⟨Real.sqrt v, v, ?_, hv, Real.sqrt_nonneg v, Real.sq_sqrt h0⟩
  simp [standardDeviation, hv, fsqrt, not_lt.2 h0, bind, Except.bind]

example : ([1, 2] : List ℝ) ≠ [] := by simp

theorem skewness_val {l : List ℝ} (hl : l ≠ []) (hv : centralMoment 2 l ≠ 0) :
    skewness l = .ok (centralMoment 3 l / (centralMoment 2 l * Real.sqrt (centralMoment 2 l))) := by
  have hpos : 0 < centralMoment 2 l := lt_of_le_of_ne (centralMoment_two_nonneg l) (Ne.symm hv)
  have e3 : momentAbout 3 l (avg l) = .ok (centralMoment 3 l) := nthMoment_ok hl 2 _
  have e2 : momentAbout 2 l (avg l) = .ok (centralMoment 2 l) := nthMoment_ok hl 1 _
  simp only [skewness, mean_ok hl, e3, e2, bind, Except.bind, fsqrt, not_lt.2 hpos.le, if_false]
  exact fdiv_ok (mul_ne_zero hv (Real.sqrt_ne_zero'.2 hpos))

/-- **C32 (skewness).**  For every non-constant sample `skewness` is the third central moment over the variance
to the power 3/2; it is unchanged by a x + b with a > 0 and changes its sign for a < 0. -/
theorem C32_skewness (l : List ℝ) (h : ∃ x ∈ l, ∃ y ∈ l, x ≠ y) :
    ∃ s, skewness l = .ok s ∧ s * centralMoment 2 l ^ (3 / 2 : ℝ) = centralMoment 3 l ∧
      (∀ a b : ℝ, 0 < a → skewness (l.map fun x => a * x + b) = .ok s) ∧
      (∀ a b : ℝ, a < 0 → skewness (l.map fun x => a * x + b) = .ok (-s)) := by
  obtain ⟨x, hx, y, hy, hxy⟩ := h
  have hl : l ≠ [] := by rintro rfl; simp at hx
  have hv : centralMoment 2 l ≠ 0 := fun hz => hxy ((centralMoment_two_eq_zero hl).1 hz x hx y hy)
  have hpos : 0 < centralMoment 2 l := lt_of_le_of_ne (centralMoment_two_nonneg l) (Ne.symm hv)
  have hs : Real.sqrt (centralMoment 2 l) ≠ 0 := Real.sqrt_ne_zero'.2 hpos
  have aff : ∀ a b : ℝ, a ≠ 0 → skewness (l.map fun x => a * x + b) =
      .ok (a ^ 3 * centralMoment 3 l / (a ^ 2 * centralMoment 2 l * (|a| * Real.sqrt (centralMoment 2 l)))) := by
    intro a b ha
    have hl' : (l.map fun x => a * x + b) ≠ [] := by simpa using hl
    rw [skewness_val hl' (by rw [centralMoment_affine hl]; positivity), centralMoment_affine hl,
      centralMoment_affine hl, Real.sqrt_mul (sq_nonneg a), Real.sqrt_sq_eq_abs]
  refine ⟨_, skewness_val hl hv, ?_, ?_, ?_⟩
  · have : centralMoment 2 l ^ (3 / 2 : ℝ) = centralMoment 2 l * Real.sqrt (centralMoment 2 l) := by
      rw [Real.sqrt_eq_rpow, show (3 / 2 : ℝ) = 1 + 1 / 2 by norm_num, Real.rpow_add hpos, Real.rpow_one]
    rw [this]
    field_simp
  · intro a b ha
    rw [aff a b ha.ne', abs_of_pos ha]
    congr 1
    field_simp
  · intro a b ha
    rw [aff a b ha.ne, abs_of_neg ha]
    congr 1
    have : a ≠ 0 := ha.ne
    field_simp

/-- **C32 (Pearson's inequality).**  kurtosis ≥ skewness² + 1. -/
theorem C32_pearson (l : List ℝ) (h : ∃ x ∈ l, ∃ y ∈ l, x ≠ y) :
    ∃ k s, kurtosis l = .ok k ∧ skewness l = .ok s ∧ s ^ 2 + 1 ≤ k := by
  obtain ⟨k, hk, hk2, -⟩ := C32_kurtosis l h
  obtain ⟨x, hx, y, hy, hxy⟩ := h
  have hl : l ≠ [] := by rintro rfl; simp at hx
  have hv : centralMoment 2 l ≠ 0 := fun hz => hxy ((centralMoment_two_eq_zero hl).1 hz x hx y hy)
  have hpos : 0 < centralMoment 2 l := lt_of_le_of_ne (centralMoment_two_nonneg l) (Ne.symm hv)
  refine ⟨k, _, hk, skewness_val hl hv, ?_⟩
  set v := centralMoment 2 l with hvdef
  set c := centralMoment 3 l / v with hc
  have h0 : 0 ≤ avgOf (fun x => ((x - avg l) ^ 2 - c * (x - avg l) - v) ^ 2) l :=
    avgOf_nonneg fun _ _ => sq_nonneg _
  have e : avgOf (fun x => ((x - avg l) ^ 2 - c * (x - avg l) - v) ^ 2) l =
      avgOf (fun x => (x - avg l) ^ 4 + ((-(2 * c)) * (x - avg l) ^ 3 + ((c ^ 2 - 2 * v) * (x - avg l) ^ 2 +
        ((2 * c * v) * (x - avg l) ^ 1 + v ^ 2)))) l := avgOf_congr fun x _ => by ring
  rw [e, avgOf_add, avgOf_add, avgOf_add, avgOf_add, avgOf_mul, avgOf_mul, avgOf_mul, avgOf_const hl] at h0
  change 0 ≤ centralMoment 4 l + (-(2 * c) * centralMoment 3 l + ((c ^ 2 - 2 * v) * centralMoment 2 l +
    (2 * c * v * centralMoment 1 l + v ^ 2))) at h0
  rw [centralMoment_one hl, ← hvdef, ← hk2] at h0
  have hc3 : centralMoment 3 l = c * v := by rw [hc]; field_simp
  rw [hc3] at h0 ⊢
  have hs2 : (c * v / (v * Real.sqrt v)) ^ 2 = c ^ 2 / v := by
    rw [div_pow, mul_pow v, Real.sq_sqrt hpos.le]
    field_simp
  rw [hs2]
  have : c ^ 2 / v * v ^ 2 = c ^ 2 * v := by field_simp
  have hv2 : 0 < v ^ 2 := by positivity
  rw [← mul_le_mul_iff_of_pos_right hv2, add_mul, this]
  nlinarith

example : ∃ x ∈ ([0, 0, 1] : List ℝ), ∃ y ∈ ([0, 0, 1] : List ℝ), x ≠ y :=
  ⟨0, by simp, 1, by simp, by norm_num⟩

/-- **C32 (constant samples).**  A constant sample has neither: both divide by the zero variance. -/
theorem C32_constant (l : List ℝ) (hl : l ≠ []) (h : ∀ x ∈ l, ∀ y ∈ l, x = y) :
    kurtosis l = .error .divByZero ∧ skewness l = .error .divByZero := by
  have hv := (centralMoment_two_eq_zero hl).2 h
  have e4 : momentAbout 4 l (avg l) = .ok (centralMoment 4 l) := nthMoment_ok hl 3 _
  have e3 : momentAbout 3 l (avg l) = .ok (centralMoment 3 l) := nthMoment_ok hl 2 _
  have e2 : momentAbout 2 l (avg l) = .ok (centralMoment 2 l) := nthMoment_ok hl 1 _
  constructor
  · simp [kurtosis, mean_ok hl, e4, e2, bind, Except.bind, hv, fdiv]
  · simp [skewness, mean_ok hl, e3, e2, bind, Except.bind, hv, fdiv, fsqrt]

/-- The euclidean norm of statistics/norm.hpp: the non-negative number whose square is the sum of squares. -/
theorem C31_norm (l : List ℝ) : ∃ n, Stat.norm l = .ok n ∧ 0 ≤ n ∧ n ^ 2 = (l.map fun x => x ^ 2).sum ∧
    (n = 0 ↔ ∀ x ∈ l, x = 0) := by
  have hs : 0 ≤ (l.map fun x => x ^ 2).sum := sum_map_nonneg fun _ _ => sq_nonneg _
  have he : accumulate (fun x => |x| * |x|) 0 l = (l.map fun x => x ^ 2).sum := by
    rw [accumulate_eq, zero_add]
    congr 1
    exact List.map_congr_left fun x _ => by rw [abs_mul_abs_self]; ring
  refine ⟨Real.sqrt (l.map fun x => x ^ 2).sum, by rw [Stat.norm, he, fsqrt, if_neg (not_lt.2 hs)],
    Real.sqrt_nonneg _, Real.sq_sqrt hs, ?_⟩
  rw [Real.sqrt_eq_zero hs]
  constructor
  · intro h x hx
    exact pow_eq_zero_iff two_ne_zero |>.1 (sum_map_eq_zero (fun _ _ => sq_nonneg _) h x hx)
  · intro h
    rw [List.map_congr_left (g := fun _ => (0 : ℝ)) fun x hx => by rw [h x hx]; ring, sum_map_const, mul_zero]

end Edsp.C31
