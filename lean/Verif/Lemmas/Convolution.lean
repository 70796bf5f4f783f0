import Verif.Spec.Spectral
import Verif.Spec.Lti
import Mathlib.Algebra.BigOperators.Intervals
import Mathlib.Algebra.Order.BigOperators.Group.Finset
import Mathlib.Data.Real.Basic
import Mathlib.Tactic.Linarith
import Mathlib.Tactic.Ring

/-!
# Sums of convolutions and correlations
-/

namespace Edsp.ConvL

open Finset Edsp.Spec

/-- A linear, time invariant and causal map of signals that keeps their length. -/
structure Lti (T : List ℝ → List ℝ) : Prop where
  len : ∀ x, (T x).length = x.length
  lin : ∀ α β x y, x.length = y.length → T (lincomb α β x y) = lincomb α β (T x) (T y)
  shift : ∀ x, T (0 :: x) = 0 :: T x
  causal : ∀ x y, T x = (T (x ++ y)).take x.length

/-- The answer to the unit impulse in `n + 1` samples. -/
def impulse (n : ℕ) : List ℝ := 1 :: List.replicate n 0

theorem conv_cons (a : ℝ) (x h : List ℝ) (m : ℕ) :
    convolution (a :: x) h (m + 1) = a * h.getD (m + 1) 0 + convolution x h m := by
  unfold convolution
  rw [sum_range_succ', add_comm]
  congr 1
  refine sum_congr rfl fun i hi => ?_
  have : m + 1 - (i + 1) = m - i := by omega
  simp [this]

theorem getD_lincomb {α β : ℝ} {x y : List ℝ} (hl : x.length = y.length) (i : ℕ) :
    (lincomb α β x y).getD i 0 = α * x.getD i 0 + β * y.getD i 0 := by
  unfold lincomb
  by_cases hi : i < x.length
  · simp [List.getD, hi, hl ▸ hi]
  · rw [List.getD, List.getD, List.getD, List.getElem?_eq_none (by simp; omega), List.getElem?_eq_none (by omega),
      List.getElem?_eq_none (by omega)]
    simp

theorem causal_getD {T : List ℝ → List ℝ} (h : Lti T) (x y : List ℝ) {i : ℕ} (hi : i < x.length) :
    (T x).getD i 0 = (T (x ++ y)).getD i 0 := by
  rw [h.causal x y, List.getD, List.getD, List.getElem?_take, if_pos hi]

/-- Every sample of the answer is the sum over the impulse response. -/
theorem lti_sum {T : List ℝ → List ℝ} (h : Lti T) : ∀ (x : List ℝ) (n : ℕ), x.length = n + 1 → ∀ i, i ≤ n →
    (T x).getD i 0 = convolution x (T (impulse n)) i
  | [], _, hl, _, _ => by simp at hl
  | a :: x, n, hl, i, hi => by
    have hx : x.length = n := by simpa using hl
    have hsplit : a :: x = lincomb a 1 (impulse n) (0 :: x) := by
      unfold lincomb impulse
      rw [List.zipWith_cons_cons]
      congr 1
      · ring
      · apply List.ext_getElem
        · simp [hx]
        · intro j h1 h2
          simp
    have hlen : (impulse n).length = (0 :: x).length := by simp [impulse, hx]
    have key : (T (a :: x)).getD i 0 = a * (T (impulse n)).getD i 0 + (0 :: T x).getD i 0 := by
      conv_lhs => rw [hsplit]
      rw [h.lin a 1 _ _ hlen, getD_lincomb (by rw [h.len, h.len, hlen]), h.shift, one_mul]
    rw [key]
    cases i with
    | zero => simp [convolution]
    | succ i =>
      rw [conv_cons]
      congr 1
      obtain ⟨n', rfl⟩ : ∃ n', n = n' + 1 := ⟨n - 1, by omega⟩
      rw [List.getD_cons_succ, lti_sum h x n' hx i (by omega)]
      unfold convolution
      refine sum_congr rfl fun j hj => ?_
      congr 1
      have e : impulse (n' + 1) = impulse n' ++ [0] := by
        simp [impulse, List.replicate_succ']
      rw [e]
      exact causal_getD h _ _ (by simp [impulse]; omega)

/-- The truncated convolution with a truncated convolution. -/
theorem convolution_assoc (x y z : List ℝ) {n i : ℕ} (hi : i < n) :
    convolution ((List.range n).map (convolution x y)) z i =
      convolution x ((List.range n).map (convolution y z)) i := by
  have hget : ∀ (u v : List ℝ) {k : ℕ}, k < n → ((List.range n).map (convolution u v)).getD k 0 = convolution u v k := by
    intro u v k hk
    simp [List.getD, hk]
  have e1 : convolution ((List.range n).map (convolution x y)) z i =
      ∑ k ∈ range (i + 1), ∑ j ∈ range (k + 1), x.getD j 0 * y.getD (k - j) 0 * z.getD (i - k) 0 := by
    unfold convolution
    refine sum_congr rfl fun k hk => ?_
    have hk' := mem_range.1 hk
    rw [show ((List.range n).map fun m => ∑ i ∈ range (m + 1), x.getD i 0 * y.getD (m - i) 0) =
      (List.range n).map (convolution x y) from rfl, hget x y (by omega), convolution, sum_mul]
  have e2 : convolution x ((List.range n).map (convolution y z)) i =
      ∑ j ∈ range (i + 1), ∑ k ∈ range (i - j + 1), x.getD j 0 * y.getD k 0 * z.getD (i - j - k) 0 := by
    unfold convolution
    refine sum_congr rfl fun k hk => ?_
    rw [show ((List.range n).map fun m => ∑ i ∈ range (m + 1), y.getD i 0 * z.getD (m - i) 0) =
      (List.range n).map (convolution y z) from rfl, hget y z (by omega), convolution, mul_sum]
    exact sum_congr rfl fun _ _ => by ring
  rw [e1, e2, sum_sigma', sum_sigma']
  refine sum_bij' (fun p _ => ⟨p.2, p.1 - p.2⟩) (fun p _ => ⟨p.1 + p.2, p.1⟩) ?_ ?_ ?_ ?_ ?_
  · rintro ⟨k, j⟩ h
    simp only [mem_sigma, mem_range] at h ⊢
    omega
  · rintro ⟨j, k⟩ h
    simp only [mem_sigma, mem_range] at h ⊢
    omega
  · rintro ⟨k, j⟩ h
    simp only [mem_sigma, mem_range] at h
    have : j + (k - j) = k := by omega
    simp [this]
  · rintro ⟨j, k⟩ h
    simp
  · rintro ⟨k, j⟩ h
    simp only [mem_sigma, mem_range] at h
    have : i - j - (k - j) = i - k := by omega
    simp [this]

theorem correlation_eq {x y : List ℝ} {N : ℕ} (hx : x.length ≤ N) (l : ℕ) :
    correlation x y l = ∑ j ∈ range N, x.getD (j + l) 0 * y.getD j 0 := by
  unfold correlation
  refine sum_subset (range_subset_range.2 (by omega)) fun j _ hj => ?_
  rw [mem_range, not_lt] at hj
  rw [List.getD, List.getElem?_eq_none (by omega)]
  simp

/-- A signal that is not zero correlates less with a later part of itself, of either sign, than with itself. -/
theorem correlation_sign_lt {x : List ℝ} (hx : ∃ v ∈ x, v ≠ 0) {k : ℕ} (hk : 0 < k) {s : ℝ} (hs : s ^ 2 = 1) :
    s * correlation x x k < correlation x x 0 := by
  classical
  set N := x.length with hN
  have hz : ∀ j, N ≤ j → x.getD j 0 = 0 := fun j hj => by rw [List.getD, List.getElem?_eq_none hj]; rfl
  obtain ⟨j1, h1, h1'⟩ : ∃ j, x.getD j 0 ≠ 0 ∧ ∀ i, j < i → x.getD i 0 = 0 := by
    obtain ⟨v, hv, hv0⟩ := hx
    obtain ⟨i, hi, rfl⟩ := List.mem_iff_getElem.1 hv
    let S := (range N).filter fun j => x.getD j 0 ≠ 0
    have hS : S.Nonempty := ⟨i, mem_filter.2 ⟨mem_range.2 hi, by simpa [List.getD, hi] using hv0⟩⟩
    refine ⟨S.max' hS, (mem_filter.1 (S.max'_mem hS)).2, fun j hj => ?_⟩
    by_contra h
    have hjN : j < N := by by_contra hc; exact h (hz j (by omega))
    have := S.le_max' j (mem_filter.2 ⟨mem_range.2 hjN, h⟩)
    omega
  have hj1 : j1 < N := by by_contra hc; exact h1 (hz j1 (by omega))
  rw [correlation_eq (le_refl N), correlation_eq (le_refl N)]
  simp only [add_zero]
  have hsh : ∑ j ∈ range N, x.getD (j + k) 0 ^ 2 ≤ ∑ j ∈ range N, x.getD j 0 ^ 2 := by
    have e : ∑ j ∈ range N, x.getD (j + k) 0 ^ 2 = ∑ j ∈ Ico k (N + k), x.getD j 0 ^ 2 := by
      rw [sum_Ico_eq_sum_range]
      simp [add_comm]
    rw [e, ← sum_subset (s₁ := Ico k (N + k) ∩ range N) inter_subset_left]
    · exact sum_le_sum_of_subset_of_nonneg inter_subset_right fun _ _ _ => sq_nonneg _
    · intro j hj hj2
      have : N ≤ j := by
        by_contra hc
        exact hj2 (mem_inter.2 ⟨hj, mem_range.2 (by omega)⟩)
      rw [hz j this]
      ring
  have hd : x.getD j1 0 ^ 2 ≤ ∑ j ∈ range N, (x.getD (j + k) 0 - s * x.getD j 0) ^ 2 := by
    have := single_le_sum (f := fun j => (x.getD (j + k) 0 - s * x.getD j 0) ^ 2) (s := range N)
      (fun _ _ => sq_nonneg _) (mem_range.2 hj1)
    rw [h1' (j1 + k) (by omega), zero_sub, neg_sq, mul_pow, hs, one_mul] at this
    exact this
  have hp : 0 < x.getD j1 0 ^ 2 := by positivity
  have he : ∑ j ∈ range N, (x.getD (j + k) 0 - s * x.getD j 0) ^ 2 =
      ∑ j ∈ range N, x.getD (j + k) 0 ^ 2 - 2 * (s * ∑ j ∈ range N, x.getD (j + k) 0 * x.getD j 0) +
        ∑ j ∈ range N, x.getD j 0 ^ 2 := by
    rw [mul_sum, mul_sum, ← sum_sub_distrib, ← sum_add_distrib]
    exact sum_congr rfl fun j _ => by linear_combination x.getD j 0 ^ 2 * hs
  have e2 : ∑ j ∈ range N, x.getD j 0 * x.getD j 0 = ∑ j ∈ range N, x.getD j 0 ^ 2 :=
    sum_congr rfl fun _ _ => by ring
  rw [e2]
  linarith

theorem correlation_lt {x : List ℝ} (hx : ∃ v ∈ x, v ≠ 0) {k : ℕ} (hk : 0 < k) :
    correlation x x k < correlation x x 0 := by
  simpa using correlation_sign_lt hx hk (s := 1) (by norm_num)

theorem correlation_abs_lt {x : List ℝ} (hx : ∃ v ∈ x, v ≠ 0) {k : ℕ} (hk : 0 < k) :
    |correlation x x k| < correlation x x 0 :=
  abs_lt.2 ⟨by linarith [correlation_sign_lt hx hk (s := -1) (by norm_num)], correlation_lt hx hk⟩

/-- The correlation with a delayed copy is the correlation with the signal itself, moved. -/
theorem correlation_delayed {x : List ℝ} {D : ℕ} (l : ℕ) :
    correlation (List.replicate D 0 ++ x) x l = if D ≤ l then correlation x x (l - D) else correlation x x (D - l) := by
  have hget : ∀ j, (List.replicate D (0 : ℝ) ++ x).getD j 0 = if j < D then 0 else x.getD (j - D) 0 := by
    intro j
    rw [List.getD, List.getD]
    by_cases hj : j < D
    · rw [if_pos hj, List.getElem?_append_left (by simpa using hj)]
      simp [hj]
    · rw [if_neg hj, List.getElem?_append_right (by simpa using hj)]
      simp
  set N := x.length
  rw [correlation_eq (N := D + N) (by simp [N])]
  simp only [hget]
  split_ifs with h
  · rw [correlation_eq (N := D + N) (by omega)]
    refine sum_congr rfl fun j _ => ?_
    rw [if_neg (by omega), show j + l - D = j + (l - D) by omega]
  · rw [correlation_eq (N := N + l) (by omega)]
    have e : ∑ j ∈ range (D + N), (if j + l < D then 0 else x.getD (j + l - D) 0) * x.getD j 0 =
        ∑ j ∈ Ico (D - l) (D + N), x.getD (j + l - D) 0 * x.getD j 0 := by
      rw [← sum_subset (s₁ := Ico (D - l) (D + N))]
      · refine sum_congr rfl fun j hj => ?_
        have := mem_Ico.1 hj
        rw [if_neg (by omega)]
      · intro j hj
        have := mem_Ico.1 hj
        exact mem_range.2 (by omega)
      · intro j hj hj2
        have h1 := mem_range.1 hj
        rw [mem_Ico, not_and_or] at hj2
        rw [if_pos (by omega), zero_mul]
    rw [e, sum_Ico_eq_sum_range, show D + N - (D - l) = N + l by omega]
    refine sum_congr rfl fun j _ => ?_
    rw [show D - l + j + l - D = j by omega, show D - l + j = j + (D - l) by omega, mul_comm]

end Edsp.ConvL
