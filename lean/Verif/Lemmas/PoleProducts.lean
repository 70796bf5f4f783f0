import Mathlib.FieldTheory.KummerExtension
import Mathlib.RingTheory.RootsOfUnity.Complex
import Mathlib.Analysis.SpecialFunctions.Trigonometric.Chebyshev.Basic
import Mathlib.Analysis.SpecialFunctions.Trigonometric.Complex
import Mathlib.Tactic.Ring
import Mathlib.Tactic.LinearCombination
import Mathlib.Tactic.FieldSimp

/-! Helper lemmas: products over the poles of Butterworth and Chebyshev prototypes. -/

namespace Edsp.PoleProducts

open Finset

theorem prod_roots (n : Nat) (hn : 0 < n) (y a : ℂ) :
    ∏ k ∈ range n, (y - Complex.exp (2 * Real.pi * Complex.I / n) ^ k * a) = y ^ n - a ^ n := by
  have h := X_pow_sub_C_eq_prod (Complex.isPrimitiveRoot_exp n hn.ne') hn (rfl : a ^ n = a ^ n)
  have := congrArg (Polynomial.eval y) h
  simp only [Polynomial.eval_sub, Polynomial.eval_pow, Polynomial.eval_X, Polynomial.eval_C,
    Polynomial.eval_prod] at this
  exact this.symm

/-- Pairing the ends of an even range. -/
theorem fold_even {A : Type*} [CommMonoid A] (g : Nat → A) (m : Nat) :
    ∏ k ∈ range (2 * m), g k = ∏ k ∈ range m, (g k * g (2 * m - 1 - k)) := by
  rw [two_mul, prod_range_add, prod_mul_distrib]
  congr 1
  rw [← prod_range_reflect]
  apply prod_congr rfl
  intro k hk
  have := mem_range.mp hk
  congr 1; omega

/-- Pairing the ends of an odd range. -/
theorem fold_odd {A : Type*} [CommMonoid A] (g : Nat → A) (m : Nat) :
    ∏ k ∈ range (2 * m + 1), g k = (∏ k ∈ range m, (g k * g (2 * m - k))) * g m := by
  rw [show 2 * m + 1 = m + (m + 1) by omega, prod_range_add, prod_mul_distrib, prod_range_succ',
    mul_assoc]
  congr 1
  congr 1
  rw [← prod_range_reflect]
  apply prod_congr rfl
  intro k hk
  have := mem_range.mp hk
  congr 1; omega

/-- Butterworth points `exp (i (2k+1) π / 2n)`. -/
noncomputable def bq (n k : Nat) : ℂ :=
  Complex.exp (((2 * (k : ℝ) + 1) * Real.pi / (2 * n) : ℝ) * Complex.I)

theorem bq_prod (n : Nat) (hn : 0 < n) (y : ℂ) : ∏ k ∈ range (2 * n), (y - bq n k) = y ^ (2 * n) + 1 := by
  have hn' : (n : ℂ) ≠ 0 := by exact_mod_cast hn.ne'
  have h := prod_roots (2 * n) (by omega) y (bq n 0)
  have h2 : bq n 0 ^ (2 * n) = -1 := by
    unfold bq
    rw [← Complex.exp_nat_mul, ← Complex.exp_pi_mul_I]
    congr 1; push_cast; field_simp; ring
  rw [h2, sub_neg_eq_add] at h
  rw [← h]
  apply prod_congr rfl
  intro k _
  congr 1
  unfold bq
  rw [← Complex.exp_nat_mul, ← Complex.exp_add]
  congr 1; push_cast; field_simp; ring

theorem bq_conj (n k : Nat) (hn : 0 < n) (hk : k < 2 * n) :
    bq n (2 * n - 1 - k) = (starRingEnd ℂ) (bq n k) := by
  have hn' : (n : ℂ) ≠ 0 := by exact_mod_cast hn.ne'
  unfold bq
  rw [← Complex.exp_conj, map_mul, Complex.conj_ofReal, Complex.conj_I]
  have hc : ((2 * n - 1 - k : ℕ) : ℝ) = 2 * n - 1 - k := by
    rw [Nat.cast_sub (by omega), Nat.cast_sub (by omega)]; push_cast; ring
  rw [hc]
  have : (((2 * ((2 : ℝ) * n - 1 - k) + 1) * Real.pi / (2 * n) : ℝ) : ℂ) * Complex.I =
      (((2 * (k : ℝ) + 1) * Real.pi / (2 * n) : ℝ) : ℂ) * -Complex.I + 2 * Real.pi * Complex.I := by
    push_cast; field_simp; ring
  rw [this, Complex.exp_add, Complex.exp_two_pi_mul_I, mul_one]

theorem bq_neg_conj (n k : Nat) (hk : k < n) :
    bq n (n - 1 - k) = -(starRingEnd ℂ) (bq n k) := by
  have hn' : (n : ℂ) ≠ 0 := by exact_mod_cast (show n ≠ 0 by omega)
  unfold bq
  rw [← Complex.exp_conj, map_mul, Complex.conj_ofReal, Complex.conj_I]
  have hc : ((n - 1 - k : ℕ) : ℝ) = n - 1 - k := by
    rw [Nat.cast_sub (by omega), Nat.cast_sub (by omega)]; push_cast; ring
  rw [hc]
  have : (((2 * ((n : ℝ) - 1 - k) + 1) * Real.pi / (2 * n) : ℝ) : ℂ) * Complex.I =
      (((2 * (k : ℝ) + 1) * Real.pi / (2 * n) : ℝ) : ℂ) * -Complex.I + Real.pi * Complex.I := by
    push_cast; field_simp; ring
  rw [this, Complex.exp_add, Complex.exp_pi_mul_I, mul_neg_one]

/-- The Butterworth product on the real axis. -/
theorem bq_prod_norm (n : Nat) (hn : 0 < n) (y : ℝ) :
    (∏ k ∈ range n, ‖(y : ℂ) - bq n k‖) ^ 2 = 1 + y ^ (2 * n) := by
  have h := congrArg norm (bq_prod n hn y)
  rw [norm_prod, fold_even] at h
  have e : ∏ k ∈ range n, (‖(y : ℂ) - bq n k‖ * ‖(y : ℂ) - bq n (2 * n - 1 - k)‖) =
      (∏ k ∈ range n, ‖(y : ℂ) - bq n k‖) ^ 2 := by
    rw [← prod_pow]
    apply prod_congr rfl
    intro k hk
    have := mem_range.mp hk
    have e2 : (y : ℂ) - (starRingEnd ℂ) (bq n k) = (starRingEnd ℂ) ((y : ℂ) - bq n k) := by simp
    rw [bq_conj n k hn (by omega), e2, Complex.norm_conj, sq]
  rw [e] at h
  rw [h]
  have : (y : ℂ) ^ (2 * n) + 1 = ((1 + y ^ (2 * n) : ℝ) : ℂ) := by push_cast; ring
  rw [this, Complex.norm_real, Real.norm_eq_abs, abs_of_pos]
  have : 0 ≤ y ^ (2 * n) := by rw [pow_mul]; positivity
  linarith

/-- The product of differences of cosines. -/
theorem prod_cos (n : Nat) (hn : 0 < n) (φ α : ℂ) :
    ∏ k ∈ range n, (2 * Complex.cos φ - 2 * Complex.cos (α + 2 * Real.pi * k / n)) =
      2 * Complex.cos (n * φ) - 2 * Complex.cos (n * α) := by
  have hn' : (n : ℂ) ≠ 0 := by exact_mod_cast hn.ne'
  set u := Complex.exp (φ * Complex.I) with hu
  set v := Complex.exp (α * Complex.I) with hv
  have hu0 : u ≠ 0 := Complex.exp_ne_zero _
  have hv0 : v ≠ 0 := Complex.exp_ne_zero _
  have two_cos : ∀ x : ℂ, 2 * Complex.cos x = Complex.exp (x * Complex.I) + (Complex.exp (x * Complex.I))⁻¹ := by
    intro x; rw [Complex.cos, ← Complex.exp_neg, neg_mul]; ring
  set ζ := Complex.exp (2 * Real.pi * Complex.I / n) with hζ
  have hvk : ∀ k : Nat, Complex.exp ((α + 2 * Real.pi * k / n) * Complex.I) = ζ ^ k * v := by
    intro k
    rw [hζ, ← Complex.exp_nat_mul, hv, ← Complex.exp_add]
    congr 1; field_simp; ring
  have hfac : ∀ k ∈ range n, 2 * Complex.cos φ - 2 * Complex.cos (α + 2 * Real.pi * k / n) =
      (u - ζ ^ k * v) * ((u⁻¹ - ζ ^ k * v) * (-(ζ ^ k * v)⁻¹)) := by
    intro k _
    rw [two_cos, two_cos, hvk]
    have hz : ζ ^ k * v ≠ 0 := mul_ne_zero (pow_ne_zero _ (Complex.exp_ne_zero _)) hv0
    rw [← hu]
    generalize ζ ^ k * v = x at hz
    field_simp
    ring
  rw [prod_congr rfl hfac, prod_mul_distrib, prod_mul_distrib, prod_roots n hn, prod_roots n hn]
  have h0 := prod_roots n hn 0 v
  rw [zero_pow hn.ne', zero_sub] at h0
  have e : ∏ k ∈ range n, -(ζ ^ k * v)⁻¹ = (∏ k ∈ range n, (0 - ζ ^ k * v))⁻¹ := by
    rw [← prod_inv_distrib]
    apply prod_congr rfl
    intro k _
    rw [zero_sub, neg_inv]
  rw [e, h0, two_cos, two_cos]
  have e1 : Complex.exp (n * φ * Complex.I) = u ^ n := by
    rw [hu, ← Complex.exp_nat_mul, mul_assoc]
  have e2 : Complex.exp (n * α * Complex.I) = v ^ n := by
    rw [hv, ← Complex.exp_nat_mul, mul_assoc]
  rw [e1, e2, inv_pow]
  have := pow_ne_zero n hu0
  have := pow_ne_zero n hv0
  field_simp
  ring

/-- Chebyshev points: `cos ((2k+1) π / 2n + i v)`. -/
noncomputable def cq (v : ℝ) (n k : Nat) : ℂ :=
  Complex.cos ((((2 * (k : ℝ) + 1) * Real.pi / (2 * n) : ℝ) : ℂ) + v * Complex.I)

theorem cq_conj (v : ℝ) (n k : Nat) (hn : 0 < n) (hk : k < 2 * n) :
    cq v n (2 * n - 1 - k) = (starRingEnd ℂ) (cq v n k) := by
  have hn' : (n : ℂ) ≠ 0 := by exact_mod_cast hn.ne'
  unfold cq
  rw [← Complex.cos_conj, map_add, map_mul, Complex.conj_ofReal, Complex.conj_ofReal, Complex.conj_I]
  have hc : ((2 * n - 1 - k : ℕ) : ℝ) = 2 * n - 1 - k := by
    rw [Nat.cast_sub (by omega), Nat.cast_sub (by omega)]; push_cast; ring
  rw [hc]
  have : (((2 * ((2 : ℝ) * n - 1 - k) + 1) * Real.pi / (2 * n) : ℝ) : ℂ) + v * Complex.I =
      2 * Real.pi - ((((2 * (k : ℝ) + 1) * Real.pi / (2 * n) : ℝ) : ℂ) + v * -Complex.I) := by
    push_cast; field_simp; ring
  rw [this, Complex.cos_two_pi_sub]

theorem cq_neg_conj (v : ℝ) (n k : Nat) (hk : k < n) :
    cq v n (n - 1 - k) = -(starRingEnd ℂ) (cq v n k) := by
  have hn' : (n : ℂ) ≠ 0 := by exact_mod_cast (show n ≠ 0 by omega)
  unfold cq
  rw [← Complex.cos_conj, map_add, map_mul, Complex.conj_ofReal, Complex.conj_ofReal, Complex.conj_I]
  have hc : ((n - 1 - k : ℕ) : ℝ) = n - 1 - k := by
    rw [Nat.cast_sub (by omega), Nat.cast_sub (by omega)]; push_cast; ring
  rw [hc]
  have : (((2 * ((n : ℝ) - 1 - k) + 1) * Real.pi / (2 * n) : ℝ) : ℂ) + v * Complex.I =
      Real.pi - ((((2 * (k : ℝ) + 1) * Real.pi / (2 * n) : ℝ) : ℂ) + v * -Complex.I) := by
    push_cast; field_simp; ring
  rw [this, Complex.cos_pi_sub]

/-- The Chebyshev product on the real axis. -/
theorem cq_prod_norm (v : ℝ) (n : Nat) (hn : 0 < n) (y : ℝ) :
    (∏ k ∈ range n, ‖(y : ℂ) + cq v n k‖) ^ 2 =
      4 / 4 ^ n * ((Polynomial.Chebyshev.T ℝ n).eval y ^ 2 + Real.sinh (n * v) ^ 2) := by
  have hn' : (n : ℂ) ≠ 0 := by exact_mod_cast hn.ne'
  obtain ⟨φ, hφ⟩ := Complex.cos_surjective (y : ℂ)
  have h := prod_cos (2 * n) (by omega) φ ((Real.pi / (2 * n) : ℝ) + v * Complex.I + Real.pi)
  have e1 : ∀ k ∈ range (2 * n), 2 * Complex.cos φ - 2 * Complex.cos ((Real.pi / (2 * n) : ℝ) + v * Complex.I +
      Real.pi + 2 * Real.pi * k / (2 * n : ℕ)) = 2 * ((y : ℂ) + cq v n k) := by
    intro k _
    unfold cq
    have : ((Real.pi / (2 * n) : ℝ) : ℂ) + v * Complex.I + Real.pi + 2 * Real.pi * k / (2 * n : ℕ) =
        ((((2 * (k : ℝ) + 1) * Real.pi / (2 * n) : ℝ) : ℂ) + v * Complex.I) + Real.pi := by
      push_cast; field_simp; ring
    rw [this, Complex.cos_add_pi, hφ]; ring
  rw [prod_congr rfl e1, prod_mul_distrib, prod_const, card_range] at h
  have e2 : ((2 * n : ℕ) : ℂ) * (((Real.pi / (2 * n) : ℝ) : ℂ) + v * Complex.I + Real.pi) =
      ((2 * (n * v) : ℝ) : ℂ) * Complex.I + Real.pi + n * (2 * Real.pi) := by
    push_cast; field_simp; ring
  rw [e2, Complex.cos_add_nat_mul_two_pi, Complex.cos_add_pi, Complex.cos_mul_I,
    ← Complex.ofReal_cosh, Real.cosh_two_mul] at h
  have e3 : ((2 * n : ℕ) : ℂ) * φ = 2 * (n * φ) := by push_cast; ring
  have hT : Complex.cos (n * φ) = ((Polynomial.Chebyshev.T ℝ n).eval y : ℝ) := by
    have := Polynomial.Chebyshev.T_complex_cos φ (n : ℤ)
    rw [hφ] at this
    rw [Polynomial.Chebyshev.complex_ofReal_eval_T, this]
    push_cast; rfl
  rw [e3, Complex.cos_two_mul, hT] at h
  set t := (Polynomial.Chebyshev.T ℝ n).eval y
  have h' := congrArg norm h
  rw [norm_mul, norm_pow, norm_prod, fold_even] at h'
  have e : ∏ k ∈ range n, (‖(y : ℂ) + cq v n k‖ * ‖(y : ℂ) + cq v n (2 * n - 1 - k)‖) =
      (∏ k ∈ range n, ‖(y : ℂ) + cq v n k‖) ^ 2 := by
    rw [← prod_pow]
    apply prod_congr rfl
    intro k hk
    have := mem_range.mp hk
    have e2 : (y : ℂ) + (starRingEnd ℂ) (cq v n k) = (starRingEnd ℂ) ((y : ℂ) + cq v n k) := by simp
    rw [cq_conj v n k hn (by omega), e2, Complex.norm_conj, sq]
  rw [e] at h'
  have hrhs : 2 * (2 * (t : ℂ) ^ 2 - 1) - 2 * -((Real.cosh (n * v) ^ 2 + Real.sinh (n * v) ^ 2 : ℝ) : ℂ) =
      ((4 * (t ^ 2 + Real.sinh (n * v) ^ 2) : ℝ) : ℂ) := by
    rw [Real.cosh_sq]; push_cast; ring
  rw [hrhs, Complex.norm_real, Real.norm_eq_abs, abs_of_nonneg (by positivity)] at h'
  have h4 : (4 : ℝ) ^ n ≠ 0 := by positivity
  have e5 : ‖(2 : ℂ)‖ ^ (2 * n) = 4 ^ n := by rw [pow_mul]; norm_num
  rw [e5] at h'
  field_simp
  linarith

end Edsp.PoleProducts
