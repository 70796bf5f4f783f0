import Mathlib.RingTheory.RootsOfUnity.Complex
import Mathlib.Algebra.Field.GeomSum
import Mathlib.Tactic.Ring
import Mathlib.Tactic.FieldSimp

/-!
# Finite Fourier sums
-/

namespace Edsp.Fourier

open Complex Finset

/-- The primitive root of unity of order `N`. -/
noncomputable def om (N : ℕ) : ℂ := exp (2 * Real.pi * I / N)

theorem om_prim {N : ℕ} (h : N ≠ 0) : IsPrimitiveRoot (om N) N := Complex.isPrimitiveRoot_exp N h

theorem om_ne (N : ℕ) : om N ≠ 0 := exp_ne_zero _

theorem exp_pos (N j k : ℕ) : exp (2 * Real.pi * I * j * k / N) = om N ^ ((j : ℤ) * k) := by
  unfold om
  rw [← Complex.exp_int_mul]
  congr 1
  push_cast
  ring

theorem exp_neg (N j k : ℕ) : exp (-(2 * Real.pi * I * j * k / N)) = om N ^ (-((j : ℤ) * k)) := by
  rw [Complex.exp_neg, exp_pos, zpow_neg]

theorem conj_om (N : ℕ) : (starRingEnd ℂ) (om N) = (om N)⁻¹ := by
  unfold om
  rw [← Complex.exp_conj, ← Complex.exp_neg]
  congr 1
  simp only [map_div₀, map_mul, conj_ofReal, conj_I, map_natCast, map_ofNat]
  ring

theorem conj_om_zpow (N : ℕ) (z : ℤ) : (starRingEnd ℂ) (om N ^ z) = om N ^ (-z) := by
  rw [map_zpow₀, conj_om, inv_zpow, zpow_neg]

theorem om_zpow_dvd {N : ℕ} (h : N ≠ 0) {z : ℤ} (hz : (N : ℤ) ∣ z) : om N ^ z = 1 :=
  ((om_prim h).zpow_eq_one_iff_dvd z).mpr hz

theorem om_zpow_congr {N : ℕ} (h : N ≠ 0) {a b : ℤ} (hz : (N : ℤ) ∣ a - b) : om N ^ a = om N ^ b := by
  have : a = (a - b) + b := by ring
  rw [this, zpow_add₀ (om_ne N), om_zpow_dvd h hz, one_mul]

/-- Orthogonality. -/
theorem orth {N : ℕ} (h : N ≠ 0) (d : ℤ) :
    ∑ k ∈ range N, om N ^ ((k : ℤ) * d) = if (N : ℤ) ∣ d then (N : ℂ) else 0 := by
  have hk : ∀ k : ℕ, om N ^ ((k : ℤ) * d) = (om N ^ d) ^ k := by
    intro k
    rw [mul_comm, zpow_mul, zpow_natCast]
  simp only [hk]
  split
  · rename_i hd
    rw [om_zpow_dvd h hd]
    simp
  · rename_i hd
    have h1 : om N ^ d ≠ 1 := fun e => hd (((om_prim h).zpow_eq_one_iff_dvd d).mp e)
    rw [geom_sum_eq h1]
    have : (om N ^ d) ^ N = 1 := by
      rw [← zpow_natCast, ← zpow_mul]
      exact om_zpow_dvd h (Dvd.intro_left d rfl)
    rw [this, sub_self, zero_div]

/-- Forward sum. -/
noncomputable def F (N : ℕ) (f : ℕ → ℂ) (k : ℕ) : ℂ :=
  ∑ j ∈ range N, f j * exp (-(2 * Real.pi * I * j * k / N))

/-- Backward sum. -/
noncomputable def B (N : ℕ) (g : ℕ → ℂ) (j : ℕ) : ℂ :=
  ∑ k ∈ range N, g k * exp (2 * Real.pi * I * j * k / N)

theorem F_congr {N : ℕ} {f g : ℕ → ℂ} (h : ∀ j, j < N → f j = g j) (k : ℕ) : F N f k = F N g k :=
  sum_congr rfl fun j hj => by rw [h j (mem_range.mp hj)]

theorem B_congr {N : ℕ} {f g : ℕ → ℂ} (h : ∀ j, j < N → f j = g j) (k : ℕ) : B N f k = B N g k :=
  sum_congr rfl fun j hj => by rw [h j (mem_range.mp hj)]

theorem dvd_sub_small {N a b : ℕ} (ha : a < N) (hb : b < N) : ((N : ℤ) ∣ (a : ℤ) - b) ↔ a = b := by
  constructor
  · intro h
    have h1 : |(a : ℤ) - b| < N := by rw [abs_lt]; omega
    have := Int.eq_zero_of_abs_lt_dvd h h1
    omega
  · rintro rfl
    simp

/-- The backward sum of a product of a forward sum and anything, swapped. -/
theorem B_F {N : ℕ} (h : N ≠ 0) (f : ℕ → ℂ) {j : ℕ} (hj : j < N) : B N (F N f) j = N * f j := by
  unfold B F
  simp only [sum_mul]
  rw [sum_comm]
  have : ∀ a ∈ range N, ∑ k ∈ range N,
      f a * exp (-(2 * Real.pi * I * a * k / N)) * exp (2 * Real.pi * I * j * k / N) =
      if j = a then (N : ℂ) * f a else 0 := by
    intro a ha
    have e : ∀ k : ℕ, f a * exp (-(2 * Real.pi * I * a * k / N)) * exp (2 * Real.pi * I * j * k / N) =
        f a * om N ^ ((k : ℤ) * ((j : ℤ) - a)) := by
      intro k
      rw [exp_neg, exp_pos, mul_assoc, ← zpow_add₀ (om_ne N)]
      congr 2
      ring
    simp only [e]
    rw [← mul_sum, orth h]
    simp only [dvd_sub_small hj (mem_range.mp ha)]
    split <;> ring
  rw [sum_congr rfl this, sum_ite_eq, if_pos (mem_range.mpr hj)]

theorem F_B {N : ℕ} (h : N ≠ 0) (g : ℕ → ℂ) {k : ℕ} (hk : k < N) : F N (B N g) k = N * g k := by
  unfold B F
  simp only [sum_mul]
  rw [sum_comm]
  have : ∀ a ∈ range N, ∑ j ∈ range N,
      g a * exp (2 * Real.pi * I * j * a / N) * exp (-(2 * Real.pi * I * j * k / N)) =
      if k = a then (N : ℂ) * g a else 0 := by
    intro a ha
    have e : ∀ j : ℕ, g a * exp (2 * Real.pi * I * j * a / N) * exp (-(2 * Real.pi * I * j * k / N)) =
        g a * om N ^ ((j : ℤ) * ((a : ℤ) - k)) := by
      intro k
      rw [exp_neg, exp_pos, mul_assoc, ← zpow_add₀ (om_ne N)]
      congr 2
      ring
    simp only [e]
    rw [← mul_sum, orth h]
    simp only [dvd_sub_small (mem_range.mp ha) hk, eq_comm (a := a)]
    split <;> ring
  rw [sum_congr rfl this, sum_ite_eq, if_pos (mem_range.mpr hk)]

/-- Backward sum of a product of forward sums: circular convolution. -/
theorem B_mul {N : ℕ} (h : N ≠ 0) (f g : ℕ → ℂ) (m : ℕ) :
    B N (fun k => F N f k * F N g k) m =
      N * ∑ a ∈ range N, ∑ b ∈ range N, if (N : ℤ) ∣ (m : ℤ) - a - b then f a * g b else 0 := by
  unfold B F
  simp only [sum_mul_sum]
  simp only [sum_mul]
  rw [sum_comm, mul_sum]
  refine sum_congr rfl fun a _ => ?_
  rw [sum_comm, mul_sum]
  refine sum_congr rfl fun b _ => ?_
  have e : ∀ k : ℕ, f a * exp (-(2 * Real.pi * I * a * k / N)) *
      (g b * exp (-(2 * Real.pi * I * b * k / N))) * exp (2 * Real.pi * I * m * k / N) =
      f a * g b * om N ^ ((k : ℤ) * ((m : ℤ) - a - b)) := by
    intro k
    rw [exp_neg, exp_neg, exp_pos]
    have : om N ^ ((k : ℤ) * ((m : ℤ) - a - b)) =
        om N ^ (-((a : ℤ) * k)) * om N ^ (-((b : ℤ) * k)) * om N ^ ((m : ℤ) * k) := by
      rw [← zpow_add₀ (om_ne N), ← zpow_add₀ (om_ne N)]
      congr 1
      ring
    rw [this]
    ring
  simp only [e]
  rw [← mul_sum, orth h]
  split <;> ring

/-- Backward sum of a forward sum times a conjugated one: circular correlation. -/
theorem B_mul_conj {N : ℕ} (h : N ≠ 0) (f g : ℕ → ℂ) (m : ℕ) :
    B N (fun k => F N f k * (starRingEnd ℂ) (F N g k)) m =
      N * ∑ a ∈ range N, ∑ b ∈ range N,
        if (N : ℤ) ∣ (m : ℤ) - a + b then f a * (starRingEnd ℂ) (g b) else 0 := by
  unfold B F
  simp only [map_sum, map_mul, sum_mul_sum]
  simp only [sum_mul]
  rw [sum_comm, mul_sum]
  refine sum_congr rfl fun a _ => ?_
  rw [sum_comm, mul_sum]
  refine sum_congr rfl fun b _ => ?_
  have e : ∀ k : ℕ, f a * exp (-(2 * Real.pi * I * a * k / N)) *
      ((starRingEnd ℂ) (g b) * (starRingEnd ℂ) (exp (-(2 * Real.pi * I * b * k / N)))) *
        exp (2 * Real.pi * I * m * k / N) =
      f a * (starRingEnd ℂ) (g b) * om N ^ ((k : ℤ) * ((m : ℤ) - a + b)) := by
    intro k
    rw [exp_neg, exp_neg, exp_pos, conj_om_zpow]
    have : om N ^ ((k : ℤ) * ((m : ℤ) - a + b)) =
        om N ^ (-((a : ℤ) * k)) * om N ^ (- -((b : ℤ) * k)) * om N ^ ((m : ℤ) * k) := by
      rw [← zpow_add₀ (om_ne N), ← zpow_add₀ (om_ne N)]
      congr 1
      ring
    rw [this]
    ring
  simp only [e]
  rw [← mul_sum, orth h]
  split <;> ring

/-- Conjugate symmetry of the transform of real data. -/
theorem F_conj {N : ℕ} (h : N ≠ 0) {f : ℕ → ℂ} (hf : ∀ j, (starRingEnd ℂ) (f j) = f j) {k l : ℕ}
    (hkl : (N : ℤ) ∣ (k : ℤ) + l) : (starRingEnd ℂ) (F N f k) = F N f l := by
  unfold F
  rw [map_sum]
  refine sum_congr rfl fun j _ => ?_
  rw [map_mul, hf, exp_neg, exp_neg, conj_om_zpow]
  congr 1
  apply om_zpow_congr h
  obtain ⟨c, hc⟩ := hkl
  refine ⟨j * c, ?_⟩
  rw [neg_neg, sub_neg_eq_add, ← mul_add, hc]
  ring

/-- The same for the backward sum. -/
theorem B_conj {N : ℕ} (h : N ≠ 0) {f : ℕ → ℂ} (hf : ∀ j, (starRingEnd ℂ) (f j) = f j) {k l : ℕ}
    (hkl : (N : ℤ) ∣ (k : ℤ) + l) : (starRingEnd ℂ) (B N f k) = B N f l := by
  unfold B
  rw [map_sum]
  refine sum_congr rfl fun j _ => ?_
  rw [map_mul, hf, exp_pos, exp_pos, conj_om_zpow]
  congr 1
  apply om_zpow_congr h
  obtain ⟨c, hc⟩ := hkl
  refine ⟨-(c * j), ?_⟩
  have : -((k : ℤ) * j) - (l : ℤ) * j = -((k + l) * j) := by ring
  rw [this, hc]
  ring

/-- The backward sum of a Hermitian array is real. -/
theorem B_hermitian_conj {N : ℕ} (h : N ≠ 0) {g : ℕ → ℂ} (h0 : (starRingEnd ℂ) (g 0) = g 0)
    (hg : ∀ k, 0 < k → k < N → (starRingEnd ℂ) (g k) = g (N - k)) (j : ℕ) :
    (starRingEnd ℂ) (B N g j) = B N g j := by
  obtain ⟨M, rfl⟩ := Nat.exists_eq_succ_of_ne_zero h
  unfold B
  rw [map_sum, sum_range_succ', sum_range_succ']
  congr 1
  · rw [← sum_range_reflect]
    refine sum_congr rfl fun k hk => ?_
    have hk := mem_range.mp hk
    rw [map_mul, hg _ (by omega) (by omega), exp_pos, exp_pos, conj_om_zpow]
    have e1 : M + 1 - (M - 1 - k + 1) = k + 1 := by omega
    rw [Nat.succ_eq_add_one, e1]
    congr 1
    apply om_zpow_congr (by omega)
    refine ⟨-j, ?_⟩
    have : ((M - 1 - k + 1 : ℕ) : ℤ) = M - k := by omega
    rw [this]
    push_cast
    ring
  · rw [map_mul, h0, exp_pos, conj_om_zpow]
    simp

end Edsp.Fourier
