import Verif.Props.C174_Homomorphic
import Verif.Props.C164_Mixtures

/-!
# C175: sum, centroid and spread of a convolution

The frame stored by `conv` (C46) for frames whose convolution fits (C174), measured with `centroid` and `spread`.
-/

namespace Edsp.Props.C175

open Finset Edsp Edsp.Mem Edsp.Spec Edsp.Feature Edsp.Spectral Edsp.Props.C174

/-- Any weighted sum over the convolution is a double sum over the frames. -/
theorem weighted_conv {x y : List ℝ} {a b n : ℕ} (hx : SilentFrom x a) (hy : SilentFrom y b) (hab : a + b ≤ n + 1)
    (φ : ℕ → ℝ) :
    ∑ m ∈ range n, φ m * at0 ((List.range n).map (convolution x y)) m =
      ∑ i ∈ range n, ∑ j ∈ range n, φ (i + j) * (at0 x i * at0 y j) := by
  have e1 : ∀ m ∈ range n, φ m * at0 ((List.range n).map (convolution x y)) m =
      ∑ i ∈ range (m + 1), φ (i + (m - i)) * (at0 x i * at0 y (m - i)) := by
    intro m hm
    have hm := mem_range.1 hm
    have : at0 ((List.range n).map (convolution x y)) m = convolution x y m := by simp [at0, List.getD, hm]
    rw [this, convolution, mul_sum]
    refine sum_congr rfl fun i hi => ?_
    have hi := mem_range.1 hi
    rw [show i + (m - i) = m by omega]
    rfl
  rw [sum_congr rfl e1, sum_range_diag_flip n fun i j => φ (i + j) * (at0 x i * at0 y j)]
  refine sum_congr rfl fun i _ => ?_
  refine sum_subset (fun j hj => mem_range.2 (by have := mem_range.1 hj; omega)) fun j _ h2 => ?_
  have h2 : n - i ≤ j := by simpa using h2
  rcases Nat.lt_or_ge i a with hi | hi
  · rw [show at0 y j = 0 from hy j (by omega), mul_zero, mul_zero]
  · rw [show at0 x i = 0 from hx i hi, zero_mul, mul_zero]

/-- The three moments. -/
theorem moments {x y : List ℝ} {a b n : ℕ} (lx : x.length = n) (ly : y.length = n) (hx : SilentFrom x a)
    (hy : SilentFrom y b) (hab : a + b ≤ n + 1) :
    let z := (List.range n).map (convolution x y)
    total z = total x * total y ∧
    (∑ i ∈ range n, (i : ℝ) * at0 z i) =
      (∑ i ∈ range n, (i : ℝ) * at0 x i) * total y + total x * ∑ i ∈ range n, (i : ℝ) * at0 y i ∧
    (∑ i ∈ range n, (i : ℝ) ^ 2 * at0 z i) =
      (∑ i ∈ range n, (i : ℝ) ^ 2 * at0 x i) * total y +
        2 * ((∑ i ∈ range n, (i : ℝ) * at0 x i) * ∑ i ∈ range n, (i : ℝ) * at0 y i) +
        total x * ∑ i ∈ range n, (i : ℝ) ^ 2 * at0 y i := by
  intro z
  have tx : total x = ∑ i ∈ range n, at0 x i := by rw [total, lx]
  have ty : total y = ∑ i ∈ range n, at0 y i := by rw [total, ly]
  have tz : total z = ∑ i ∈ range n, (fun _ => (1 : ℝ)) i * at0 z i := by
    rw [total, List.length_map, List.length_range]; simp
  refine ⟨?_, ?_, ?_⟩
  · rw [tz, weighted_conv hx hy hab, tx, ty, sum_mul_sum]
    simp
  · rw [weighted_conv hx hy hab fun i => (i : ℝ), tx, ty, sum_mul_sum, sum_mul_sum, ← sum_add_distrib]
    refine sum_congr rfl fun i _ => ?_
    rw [← sum_add_distrib]
    refine sum_congr rfl fun j _ => ?_
    push_cast; ring
  · rw [weighted_conv hx hy hab fun i => (i : ℝ) ^ 2, tx, ty, sum_mul_sum, sum_mul_sum, sum_mul_sum, mul_sum,
      ← sum_add_distrib, ← sum_add_distrib]
    refine sum_congr rfl fun i _ => ?_
    rw [mul_sum, ← sum_add_distrib, ← sum_add_distrib]
    refine sum_congr rfl fun j _ => ?_
    push_cast; ring

/-- `centroid` succeeds only for samples with a sum. -/
theorem total_ne {x : List ℝ} {c : ℝ} (h : centroid x = .ok c) : total x ≠ 0 := by
  intro h0
  unfold centroid at h
  rw [loopI_pair (fun i x => i * x) (fun _ x => x)] at h
  have : (0 : ℝ) + ∑ k ∈ range x.length, at0 x k = 0 := by rw [zero_add]; exact h0
  simp only [this, Stat.fdiv, if_true] at h
  cases h

/-- **C175.**  Two frames of `n` samples, the first silent from `a` on and the second from `b` on, with
`a + b ≤ n + 1`.  The samples of the frame stored by `conv` add up to the product of the sums; its centroid is the sum of
the centroids, whenever these exist; and if no sample is negative and neither frame is silent, no stored sample is
negative and the squares of the spreads add up. -/
theorem C175_moments {m : List ℝ} {f1 f2 n d a b : ℕ} (h0 : 0 < n) (h31 : 2 * n < 2147483648)
    (h1 : f1 + n ≤ m.length) (h2 : f2 + n ≤ m.length) (hd : d + n ≤ m.length) (hab : a + b ≤ n + 1)
    (hx : SilentFrom (seg m f1 (f1 + n)) a) (hy : SilentFrom (seg m f2 (f2 + n)) b) :
    ∃ m', conv m f1 (f1 + n) f2 d = .ok m' ∧
      (seg m' d (d + n)).sum = (seg m f1 (f1 + n)).sum * (seg m f2 (f2 + n)).sum ∧
      (∀ c1 c2, centroid (seg m f1 (f1 + n)) = .ok c1 → centroid (seg m f2 (f2 + n)) = .ok c2 →
        centroid (seg m' d (d + n)) = .ok (c1 + c2)) ∧
      ((∀ v ∈ seg m f1 (f1 + n), 0 ≤ v) → (∃ v ∈ seg m f1 (f1 + n), 0 < v) →
        (∀ v ∈ seg m f2 (f2 + n), 0 ≤ v) → (∃ v ∈ seg m f2 (f2 + n), 0 < v) →
        (∀ v ∈ seg m' d (d + n), 0 ≤ v) ∧
        ∃ s1 s2 s, spread (seg m f1 (f1 + n)) = .ok s1 ∧ spread (seg m f2 (f2 + n)) = .ok s2 ∧
          spread (seg m' d (d + n)) = .ok s ∧ s ^ 2 = s1 ^ 2 + s2 ^ 2) := by
  obtain ⟨m', e, -, hseg⟩ := conv_frame h0 h31 h1 h2 hd
  have l1 : (seg m f1 (f1 + n)).length = n := by rw [seg_length h1]; omega
  have l2 : (seg m f2 (f2 + n)).length = n := by rw [seg_length h2]; omega
  refine ⟨m', e, ?_⟩
  rw [hseg]
  generalize seg m f1 (f1 + n) = x at *
  generalize seg m f2 (f2 + n) = y at *
  clear e hseg
  obtain ⟨t0, t1, t2⟩ := moments l1 l2 hx hy hab
  have l3 : ((List.range n).map (convolution x y)).length = n := by simp
  have hnn : (∀ v ∈ x, 0 ≤ v) → (∀ v ∈ y, 0 ≤ v) → ∀ v ∈ (List.range n).map (convolution x y), 0 ≤ v := by
    intro hx0 hy0 v hv
    obtain ⟨k, -, rfl⟩ := List.mem_map.1 hv
    have pos : ∀ (u : List ℝ), (∀ v ∈ u, 0 ≤ v) → ∀ i, 0 ≤ u.getD i 0 := by
      intro u hu i
      rw [List.getD_eq_getElem?_getD]
      rcases Nat.lt_or_ge i u.length with hi | hi
      · rw [List.getElem?_eq_getElem hi]; exact hu _ (List.getElem_mem hi)
      · rw [List.getElem?_eq_none hi]; exact le_rfl
    exact sum_nonneg fun i _ => mul_nonneg (pos x hx0 i) (pos y hy0 _)
  generalize (List.range n).map (convolution x y) = z at *
  refine ⟨?_, fun c1 c2 e1 e2 => ?_, fun hx0 hx1 hy0 hy1 => ⟨hnn hx0 hy0, ?_⟩⟩
  · rw [← total_eq, ← total_eq, ← total_eq, t0]
  · have n1 := total_ne e1
    have n2 := total_ne e2
    have n3 : total z ≠ 0 := by rw [t0]; exact mul_ne_zero n1 n2
    rw [centroid_ok n1] at e1
    rw [centroid_ok n2] at e2
    rw [centroid_ok n3, ← Except.ok.inj e1, ← Except.ok.inj e2]
    congr 1
    unfold gravity
    rw [l1, l2, l3, t1, t0]
    field_simp
  · have n1 := total_pos hx0 hx1
    have n2 := total_pos hy0 hy1
    have n3 : 0 < total z := by rw [t0]; exact mul_pos n1 n2
    have hz1 : ∃ v ∈ z, 0 < v := by
      by_contra hc
      have : total z ≤ 0 := sum_nonpos fun i hi =>
        le_of_not_gt fun h => hc ⟨_, at0_mem (mem_range.1 hi), h⟩
      linarith
    obtain ⟨s1, e1, q1, -⟩ := C49_spread hx0 hx1
    obtain ⟨s2, e2, q2, -⟩ := C49_spread hy0 hy1
    obtain ⟨s, e, q, -⟩ := C49_spread (hnn hx0 hy0) hz1
    refine ⟨s1, s2, s, e1, e2, e, ?_⟩
    rw [q, q1, q2]
    have g1 := C164.gravity_total (f := fun i => (i : ℝ)) n1.ne'
    have g2 := C164.gravity_total (f := fun i => (i : ℝ)) n2.ne'
    have g3 := C164.gravity_total (f := fun i => (i : ℝ)) n3.ne'
    have r1 := C164.scatter_total (f := fun i => (i : ℝ)) n1.ne'
    have r2 := C164.scatter_total (f := fun i => (i : ℝ)) n2.ne'
    have r3 := C164.scatter_total (f := fun i => (i : ℝ)) n3.ne'
    rw [l1] at g1 r1
    rw [l2] at g2 r2
    rw [l3] at g3 r3
    rw [t1, ← g1, ← g2, t0] at g3
    rw [t2, ← g1, ← g2, t0] at r3
    have hg : gravity (fun i => (i : ℝ)) z = gravity (fun i => (i : ℝ)) x + gravity (fun i => (i : ℝ)) y := by
      have : gravity (fun i => (i : ℝ)) z * (total x * total y) =
          (gravity (fun i => (i : ℝ)) x + gravity (fun i => (i : ℝ)) y) * (total x * total y) := by
        rw [g3]; ring
      exact mul_right_cancel₀ (mul_pos n1 n2).ne' this
    rw [hg] at r3
    refine mul_right_cancel₀ (mul_pos n1 n2).ne' (r3.trans ?_)
    linear_combination (-total y) * r1 - total x * r2

/-- Two frames of four cells that meet every condition. -/
example : ∃ m' s1 s2 s, conv [3, 1, 0, 0, 2, 1, 0, 0, 0, 0, 0, 0] 0 (0 + 4) 4 8 = .ok m' ∧
    (seg m' 8 (8 + 4)).sum = 12 ∧ spread [3, 1, 0, 0] = .ok s1 ∧ spread [2, 1, 0, 0] = .ok s2 ∧
    spread (seg m' 8 (8 + 4)) = .ok s ∧ s ^ 2 = s1 ^ 2 + s2 ^ 2 := by
  have s1 : seg [(3 : ℝ), 1, 0, 0, 2, 1, 0, 0, 0, 0, 0, 0] 0 (0 + 4) = [3, 1, 0, 0] := by simp [seg]
  have s2 : seg [(3 : ℝ), 1, 0, 0, 2, 1, 0, 0, 0, 0, 0, 0] 4 (4 + 4) = [2, 1, 0, 0] := by simp [seg]
  have quiet : ∀ s t : ℝ, SilentFrom [s, t, 0, 0] 2 := by
    intro s t j hj
    match j, hj with
    | 2, _ => simp
    | 3, _ => simp
    | j + 4, _ => simp
  obtain ⟨m', e, hs, -, h⟩ := C175_moments (m := [3, 1, 0, 0, 2, 1, 0, 0, 0, 0, 0, 0]) (f1 := 0) (f2 := 4) (n := 4)
    (d := 8) (a := 2) (b := 2) (by norm_num) (by norm_num) (by simp) (by simp) (by simp)
    (by norm_num) (by rw [s1]; exact quiet 3 1) (by rw [s2]; exact quiet 2 1)
  rw [s1, s2] at hs h
  obtain ⟨-, t1, t2, t, q1, q2, q, r⟩ := h (by simp) ⟨3, by simp⟩ (by simp) ⟨2, by simp⟩
  exact ⟨m', t1, t2, t, e, by rw [hs]; norm_num, q1, q2, q, r⟩

end Edsp.Props.C175
