import Mathlib.Algebra.BigOperators.Intervals
import Verif.Lemmas.Fourier
import Verif.Lemmas.Spectral
import Verif.Spec.Features
import Verif.Spec.Cepstrum

/-!
# Sums over a sequence read backwards
-/

namespace Edsp.ReverseL

open Finset Edsp.Spec Edsp.Fourier Edsp.Spectral

theorem getD_reverse {α : Type} (x : List α) (e : α) {j : ℕ} (hj : j < x.length) :
    x.reverse.getD j e = x.getD (x.length - 1 - j) e := by
  rw [List.getD, List.getD, List.getElem?_reverse hj]

theorem getD_ge {α : Type} (x : List α) (e : α) {j : ℕ} (hj : x.length ≤ j) : x.getD j e = e := by
  rw [List.getD, List.getElem?_eq_none hj]
  rfl

/-- A sum over the positions, read backwards. -/
theorem sum_reverse {M : Type} [AddCommMonoid M] (n : ℕ) (f : ℕ → M) :
    ∑ j ∈ range n, f (n - 1 - j) = ∑ j ∈ range n, f j := sum_range_reflect f n

theorem norm_om (N : ℕ) (z : ℤ) : ‖om N ^ z‖ = 1 := by
  have h : ‖om N ^ z‖ ^ 2 = 1 := by
    rw [← Complex.normSq_eq_norm_sq]
    have := Complex.mul_conj (om N ^ z)
    rw [conj_om_zpow, ← zpow_add₀ (om_ne N), add_neg_cancel, zpow_zero] at this
    exact_mod_cast this.symm
  nlinarith [norm_nonneg (om N ^ z)]

/-- The transform of a sequence read backwards (and conjugated), padded to `N` samples: the conjugate, turned. -/
theorem F_reverse {N : ℕ} (x y : List ℂ) (hl : y.length = x.length) (hN : x.length ≤ N)
    (hy : ∀ j, j < x.length → y.getD j 0 = (starRingEnd ℂ) (x.getD (x.length - 1 - j) 0)) (k : ℕ) :
    F N (fun j => y.getD j 0) k =
      om N ^ (-(((x.length : ℤ) - 1) * k)) * (starRingEnd ℂ) (F N (fun j => x.getD j 0) k) := by
  have cut : ∀ z : List ℂ, z.length = x.length →
      F N (fun j => z.getD j 0) k = ∑ j ∈ range x.length, z.getD j 0 * om N ^ (-((j : ℤ) * k)) := by
    intro z hz
    unfold F
    rw [← sum_subset (range_subset_range.2 hN)]
    · exact sum_congr rfl fun j _ => by rw [Fourier.exp_neg]
    · intro j _ hj
      have : z.getD j 0 = 0 := getD_ge z 0 (by rw [hz]; simpa using hj)
      dsimp only
      rw [this, zero_mul]
  rw [cut y hl, cut x rfl, map_sum, mul_sum, ← sum_reverse]
  refine sum_congr rfl fun j hj => ?_
  have hj := mem_range.1 hj
  rw [hy _ (by omega), map_mul, conj_om_zpow, mul_left_comm, ← zpow_add₀ (om_ne N)]
  have e : x.length - 1 - (x.length - 1 - j) = j := by omega
  rw [e]
  congr 2
  have : ((x.length - 1 - j : ℕ) : ℤ) = x.length - 1 - j := by omega
  rw [this]
  ring

theorem F_reverse_real {N : ℕ} (x : List ℝ) (hN : x.length ≤ N) (k : ℕ) :
    F N (fun j => ((x.reverse.getD j 0 : ℝ) : ℂ)) k =
      om N ^ (-(((x.length : ℤ) - 1) * k)) * (starRingEnd ℂ) (F N (fun j => ((x.getD j 0 : ℝ) : ℂ)) k) := by
  have h := F_reverse (N := N) (ofReals x) (ofReals x.reverse) (by simp [ofReals]) (by simpa [ofReals] using hN) (by
    intro j hj
    have hj : j < x.length := by simpa [ofReals] using hj
    rw [ofReals_getD, ofReals_getD, getD_reverse x 0 hj]
    simp [ofReals]) k
  simp only [ofReals_getD] at h
  rw [h]
  simp [ofReals]

theorem F_norm {N : ℕ} (x : List ℝ) (hN : x.length ≤ N) (k : ℕ) :
    ‖F N (fun j => ((x.reverse.getD j 0 : ℝ) : ℂ)) k‖ = ‖F N (fun j => ((x.getD j 0 : ℝ) : ℂ)) k‖ := by
  rw [F_reverse_real x hN, norm_mul, norm_om, one_mul, RCLike.norm_conj]

theorem bin_reverse (x : List ℝ) (k : ℕ) :
    bin (ofReals x.reverse) k = om x.length ^ (-(((x.length : ℤ) - 1) * k)) * (starRingEnd ℂ) (bin (ofReals x) k) := by
  rw [bin_ofReals, bin_ofReals, List.length_reverse]
  exact F_reverse_real x le_rfl k

theorem bin_norm (x : List ℝ) (k : ℕ) : ‖bin (ofReals x.reverse) k‖ = ‖bin (ofReals x) k‖ := by
  rw [bin_reverse, norm_mul, norm_om, one_mul, RCLike.norm_conj]

theorem cosineSum_reverse (x : List ℝ) (k : ℕ) : cosineSum x.reverse k = (-1) ^ k * cosineSum x k := by
  unfold cosineSum
  rw [List.length_reverse, mul_sum, ← sum_reverse]
  refine sum_congr rfl fun j hj => ?_
  have hj := mem_range.1 hj
  rw [getD_reverse x 0 (by omega), show x.length - 1 - (x.length - 1 - j) = j by omega]
  have hn : (x.length : ℝ) ≠ 0 := by
    have : 0 < x.length := by omega
    positivity
  have hc : ((x.length - 1 - j : ℕ) : ℝ) = x.length - 1 - j := by
    rw [Nat.cast_sub (by omega), Nat.cast_sub (by omega), Nat.cast_one]
  have e : Real.pi / x.length * (((x.length - 1 - j : ℕ) : ℝ) + 1 / 2) * k =
      k * Real.pi - Real.pi / x.length * (j + 1 / 2) * k := by
    rw [hc]
    field_simp
    ring
  rw [e, Real.cos_nat_mul_pi_sub]
  ring

/-- Pairs of samples `k` apart, read backwards. -/
theorem pairs_reverse {M : Type} [AddCommMonoid M] (g : ℝ → ℝ → M) (x y : List ℝ) (hl : y.length = x.length) (k : ℕ) :
    ∑ j ∈ range (x.length - k), g (x.reverse.getD (j + k) 0) (y.reverse.getD j 0) =
      ∑ j ∈ range (x.length - k), g (x.getD j 0) (y.getD (j + k) 0) := by
  rw [← sum_reverse]
  refine sum_congr rfl fun j hj => ?_
  have hj := mem_range.1 hj
  rw [getD_reverse x 0 (by omega), getD_reverse y 0 (by omega), hl,
    show x.length - 1 - (x.length - k - 1 - j + k) = j by omega,
    show x.length - 1 - (x.length - k - 1 - j) = j + k by omega]

theorem correlation_reverse (x y : List ℝ) (hl : y.length = x.length) (l : ℕ) :
    correlation x.reverse y.reverse l = correlation y x l := by
  unfold correlation
  rw [List.length_reverse, pairs_reverse (fun a b => a * b) x y hl, hl]
  exact sum_congr rfl fun j _ => mul_comm _ _

theorem magnitude_reverse (x : List ℝ) (k : ℕ) : magnitudeDifference x.reverse k = magnitudeDifference x k := by
  unfold magnitudeDifference at0
  rw [List.length_reverse, pairs_reverse (fun b a => |a - b|) x x rfl]
  simp only [abs_sub_comm]

theorem square_reverse (x : List ℝ) (k : ℕ) : squareDifference x.reverse k = squareDifference x k := by
  unfold squareDifference at0
  rw [List.length_reverse, pairs_reverse (fun b a => (a - b) ^ 2) x x rfl]
  congr 1
  exact sum_congr rfl fun j _ => by ring

theorem total_reverse (x : List ℝ) : total x.reverse = total x := by
  unfold total at0
  rw [List.length_reverse, ← sum_reverse]
  refine sum_congr rfl fun j hj => ?_
  have hj := mem_range.1 hj
  rw [getD_reverse x 0 (by omega), show x.length - 1 - (x.length - 1 - j) = j by omega]

theorem moment_reverse (g : ℝ → ℝ) (x : List ℝ) :
    ∑ i ∈ range x.length, g i * at0 x.reverse i = ∑ i ∈ range x.length, g (x.length - 1 - i) * at0 x i := by
  rw [← sum_reverse]
  refine sum_congr rfl fun j hj => ?_
  have hj := mem_range.1 hj
  have hc : ((x.length - 1 - j : ℕ) : ℝ) = x.length - 1 - j := by
    rw [Nat.cast_sub (by omega), Nat.cast_sub (by omega), Nat.cast_one]
  unfold at0
  rw [getD_reverse x 0 (by omega), show x.length - 1 - (x.length - 1 - j) = j by omega, hc]

theorem gravity_reverse {x : List ℝ} (h : total x ≠ 0) :
    gravity (fun i => (i : ℝ)) x.reverse = x.length - 1 - gravity (fun i => (i : ℝ)) x := by
  unfold gravity
  rw [total_reverse, List.length_reverse, moment_reverse (fun t => t)]
  have e : ∑ i ∈ range x.length, ((x.length : ℝ) - 1 - i) * at0 x i =
      (x.length - 1) * total x - ∑ i ∈ range x.length, (i : ℝ) * at0 x i := by
    unfold total
    rw [mul_sum, ← sum_sub_distrib]
    exact sum_congr rfl fun i _ => by ring
  rw [e]
  field_simp

theorem scatter_reverse {x : List ℝ} (h : total x ≠ 0) :
    scatter (fun i => (i : ℝ)) x.reverse = scatter (fun i => (i : ℝ)) x := by
  unfold scatter
  rw [gravity_reverse h, total_reverse, List.length_reverse,
    moment_reverse (fun t => (t - (x.length - 1 - gravity (fun i => (i : ℝ)) x)) ^ 2)]
  congr 1
  exact sum_congr rfl fun i _ => by ring

end Edsp.ReverseL
