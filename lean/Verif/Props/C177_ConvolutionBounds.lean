import Verif.Props.C46_Convolution
import Verif.Props.C163_Differences
import Mathlib.Algebra.Order.BigOperators.Ring.Finset

/-!
# C177: how large convolutions and correlations become
-/

namespace Edsp.Props.C177

open Finset Edsp Edsp.Mem Edsp.Spec Edsp.Spectral

/-- Sum of the magnitudes. -/
def magnitudes (x : List ℝ) : ℝ := (x.map fun v => |v|).sum

theorem magnitudes_eq {x : List ℝ} {n : ℕ} (h : x.length = n) : magnitudes x = ∑ i ∈ range n, |x.getD i 0| := by
  subst h
  unfold magnitudes
  induction x with
  | nil => simp
  | cons a l ih => rw [List.map_cons, List.sum_cons, List.length_cons, sum_range_succ', ih]; simp [add_comm]

theorem energy_eq {x : List ℝ} {n : ℕ} (h : x.length = n) : Seq.energy x = ∑ i ∈ range n, x.getD i 0 ^ 2 := by
  subst h
  exact C163.energy_sum x

theorem getD_conv (x y : List ℝ) {n k : ℕ} (hk : k < n) :
    ((List.range n).map (convolution x y)).getD k 0 = convolution x y k := by simp [List.getD, hk]

/-- A sum over a triangle of terms that are not negative is at most the sum over the square. -/
theorem triangle_le {n : ℕ} {g : ℕ → ℕ → ℝ} (hg : ∀ i j, 0 ≤ g i j) :
    ∑ m ∈ range n, ∑ i ∈ range (m + 1), g i (m - i) ≤ ∑ i ∈ range n, ∑ j ∈ range n, g i j := by
  rw [sum_range_diag_flip n g]
  refine sum_le_sum fun i _ => sum_le_sum_of_subset_of_nonneg (fun j hj => ?_) fun j _ _ => hg i j
  have := mem_range.1 hj
  exact mem_range.2 (by omega)

/-- The sum of the magnitudes. -/
theorem l1 {x y : List ℝ} {n : ℕ} (hx : x.length = n) (hy : y.length = n) :
    magnitudes ((List.range n).map (convolution x y)) ≤ magnitudes x * magnitudes y := by
  rw [magnitudes_eq (n := n) (by simp), magnitudes_eq hx, magnitudes_eq hy, sum_mul_sum]
  refine le_trans (sum_le_sum fun k hk => ?_) (triangle_le fun i j => mul_nonneg (abs_nonneg _) (abs_nonneg _))
  rw [getD_conv x y (mem_range.1 hk), convolution]
  refine (abs_sum_le_sum_abs _ _).trans (sum_le_sum fun i _ => ?_)
  rw [abs_mul]

/-- The energy. -/
theorem l2 {x y : List ℝ} {n : ℕ} (hx : x.length = n) (hy : y.length = n) :
    Seq.energy ((List.range n).map (convolution x y)) ≤ magnitudes x ^ 2 * Seq.energy y := by
  have step : ∀ k ∈ range n, ((List.range n).map (convolution x y)).getD k 0 ^ 2 ≤
      (∑ i ∈ range n, |x.getD i 0|) * ∑ i ∈ range (k + 1), |x.getD i 0| * y.getD (k - i) 0 ^ 2 := by
    intro k hk
    have hk := mem_range.1 hk
    rw [getD_conv x y hk, convolution]
    have c := sum_sq_le_sum_mul_sum_of_sq_le_mul (range (k + 1)) (r := fun i => x.getD i 0 * y.getD (k - i) 0)
      (f := fun i => |x.getD i 0|) (g := fun i => |x.getD i 0| * y.getD (k - i) 0 ^ 2) (fun i _ => abs_nonneg _)
      (fun i _ => mul_nonneg (abs_nonneg _) (sq_nonneg _))
      fun i _ => le_of_eq (by rw [mul_pow, ← mul_assoc, abs_mul_abs_self, ← sq])
    refine c.trans (mul_le_mul_of_nonneg_right ?_ (sum_nonneg fun i _ => mul_nonneg (abs_nonneg _) (sq_nonneg _)))
    exact sum_le_sum_of_subset_of_nonneg (fun j hj => mem_range.2 (by have := mem_range.1 hj; omega))
      fun j _ _ => abs_nonneg _
  have tri := triangle_le (n := n) (g := fun i j => |x.getD i 0| * y.getD j 0 ^ 2)
    fun i j => mul_nonneg (abs_nonneg _) (sq_nonneg _)
  have sums := sum_le_sum step
  rw [← mul_sum] at sums
  have nn : (0 : ℝ) ≤ ∑ i ∈ range n, |x.getD i 0| := sum_nonneg fun i _ => abs_nonneg _
  have prod : ∑ i ∈ range n, ∑ j ∈ range n, |x.getD i 0| * y.getD j 0 ^ 2 =
      (∑ i ∈ range n, |x.getD i 0|) * ∑ j ∈ range n, y.getD j 0 ^ 2 := (sum_mul_sum _ _ _ _).symm
  have fin := sums.trans (mul_le_mul_of_nonneg_left (tri.trans_eq prod) nn)
  rw [energy_eq (n := n) (by simp), magnitudes_eq hx, energy_eq hy]
  refine fin.trans_eq ?_
  ring

/-- Every sample of a convolution. -/
theorem conv_sq {x y : List ℝ} {n : ℕ} (hx : x.length = n) (hy : y.length = n) {k : ℕ} (hk : k < n) :
    convolution x y k ^ 2 ≤ Seq.energy x * Seq.energy y := by
  rw [energy_eq hx, energy_eq hy, convolution]
  refine (sum_mul_sq_le_sq_mul_sq _ _ _).trans ?_
  refine mul_le_mul ?_ ?_ (sum_nonneg fun _ _ => sq_nonneg _) (sum_nonneg fun _ _ => sq_nonneg _)
  · exact sum_le_sum_of_subset_of_nonneg (fun j hj => mem_range.2 (by have := mem_range.1 hj; omega))
      fun j _ _ => sq_nonneg _
  · rw [← sum_range_reflect]
    refine le_trans (le_of_eq (sum_congr rfl fun i hi => ?_)) (sum_le_sum_of_subset_of_nonneg
      (s := range (k + 1)) (fun j hj => mem_range.2 (by have := mem_range.1 hj; omega)) fun j _ _ => sq_nonneg _)
    have hi := mem_range.1 hi
    rw [show k - (k + 1 - 1 - i) = i by omega]

/-- Every lag of a correlation. -/
theorem corr_sq {x y : List ℝ} {n : ℕ} (hx : x.length = n) (hy : y.length = n) (l : ℕ) :
    correlation x y l ^ 2 ≤ Seq.energy x * Seq.energy y := by
  rw [energy_eq hx, energy_eq hy, correlation, hx]
  refine (sum_mul_sq_le_sq_mul_sq _ _ _).trans ?_
  refine mul_le_mul ?_ ?_ (sum_nonneg fun _ _ => sq_nonneg _) (sum_nonneg fun _ _ => sq_nonneg _)
  · rcases Nat.lt_or_ge n l with h | h
    · rw [show n - l = 0 by omega, sum_range_zero]; exact sum_nonneg fun _ _ => sq_nonneg _
    · have : ∑ j ∈ range (n - l), x.getD (j + l) 0 ^ 2 = ∑ j ∈ Ico l n, x.getD j 0 ^ 2 := by
        rw [sum_Ico_eq_sum_range]
        exact sum_congr rfl fun j _ => by rw [add_comm]
      rw [this]
      refine sum_le_sum_of_subset_of_nonneg (fun j hj => ?_) fun j _ _ => sq_nonneg _
      exact mem_range.2 (mem_Ico.1 hj).2
  · exact sum_le_sum_of_subset_of_nonneg (fun j hj => mem_range.2 (by have := mem_range.1 hj; omega))
      fun j _ _ => sq_nonneg _

/-- **C177 (convolution).**  For all frames of `n` samples, truncated or not: the magnitudes of the samples stored by
`conv` add up to at most the product of the sums of magnitudes; their energy is at most the squared sum of magnitudes
of one frame times the energy of the other; and the square of every stored sample is at most the product of the
energies. -/
theorem C177_conv {m : List ℝ} {f1 f2 n d : ℕ} (h0 : 0 < n) (h31 : 2 * n < 2147483648) (h1 : f1 + n ≤ m.length)
    (h2 : f2 + n ≤ m.length) (hd : d + n ≤ m.length) :
    ∃ m' z, conv m f1 (f1 + n) f2 d = .ok m' ∧ Wrote m m' d z ∧ z.length = n ∧
      magnitudes z ≤ magnitudes (seg m f1 (f1 + n)) * magnitudes (seg m f2 (f2 + n)) ∧
      Seq.energy z ≤ magnitudes (seg m f1 (f1 + n)) ^ 2 * Seq.energy (seg m f2 (f2 + n)) ∧
      Seq.energy z ≤ magnitudes (seg m f2 (f2 + n)) ^ 2 * Seq.energy (seg m f1 (f1 + n)) ∧
      ∀ v ∈ z, v ^ 2 ≤ Seq.energy (seg m f1 (f1 + n)) * Seq.energy (seg m f2 (f2 + n)) := by
  obtain ⟨m', e, w⟩ := C46_conv h0 h31 h1 h2 hd
  have a1 : (seg m f1 (f1 + n)).length = n := by rw [seg_length h1]; omega
  have a2 : (seg m f2 (f2 + n)).length = n := by rw [seg_length h2]; omega
  refine ⟨m', _, e, w, by simp, l1 a1 a2, l2 a1 a2, ?_, fun v hv => ?_⟩
  · have := l2 a2 a1
    rwa [show (List.range n).map (convolution (seg m f2 (f2 + n)) (seg m f1 (f1 + n))) =
      (List.range n).map (convolution (seg m f1 (f1 + n)) (seg m f2 (f2 + n))) from
        List.map_congr_left fun k _ => convolution_comm _ _ k] at this
  · obtain ⟨k, hk, rfl⟩ := List.mem_map.1 hv
    exact conv_sq a1 a2 (List.mem_range.1 hk)

/-- **C177 (correlation).**  The square of every lag stored by `xcorr` without scaling is at most the product of the
energies of the two frames. -/
theorem C177_xcorr {m : List ℝ} {f1 f2 n d : ℕ} (h0 : 0 < n) (h31 : 2 * n < 2147483648) (h1 : f1 + n ≤ m.length)
    (h2 : f2 + n ≤ m.length) (hd : d + n ≤ m.length) :
    ∃ m' z, xcorr m f1 (f1 + n) f2 d .none = .ok m' ∧ Wrote m m' d z ∧ z.length = n ∧
      ∀ v ∈ z, v ^ 2 ≤ Seq.energy (seg m f1 (f1 + n)) * Seq.energy (seg m f2 (f2 + n)) := by
  obtain ⟨m', e, w⟩ := C46_xcorr_partial h0 h31 h1 h2 hd
  have a1 : (seg m f1 (f1 + n)).length = n := by rw [seg_length h1]; omega
  have a2 : (seg m f2 (f2 + n)).length = n := by rw [seg_length h2]; omega
  refine ⟨m', _, e, w, by simp, fun v hv => ?_⟩
  obtain ⟨k, hk, rfl⟩ := List.mem_map.1 hv
  exact corr_sq a1 a2 k

/-- The bounds cannot be improved: an impulse of height 2 and the frame 3, 1 attain the first three, and an impulse of
height 2 with one of height 3 the last. -/
theorem C177_attained :
    magnitudes ((List.range 2).map (convolution [2, 0] [3, 1])) = magnitudes [2, 0] * magnitudes [3, 1] ∧
    Seq.energy ((List.range 2).map (convolution [2, 0] [3, 1])) = magnitudes [2, 0] ^ 2 * Seq.energy [3, 1] ∧
    convolution [2, 0] [3, 0] 0 ^ 2 = Seq.energy [2, 0] * Seq.energy [(3 : ℝ), 0] ∧
    ∃ m' z, conv [2, 0, 3, 1] 0 (0 + 2) 2 0 = .ok m' ∧ Wrote [2, 0, 3, 1] m' 0 z ∧ z = [6, 2] := by
  have c : (List.range 2).map (convolution [2, 0] [3, 1]) = [6, 2] := by
    norm_num [List.range_succ, convolution, sum_range_succ]
  rw [c]
  refine ⟨by norm_num [magnitudes], by norm_num [magnitudes, Seq.energy, Seq.innerSelf],
    by norm_num [convolution, Seq.energy, Seq.innerSelf], ?_⟩
  obtain ⟨m', e, w⟩ := C46_conv (m := [2, 0, 3, 1]) (f1 := 0) (f2 := 2) (n := 2) (d := 0) (by norm_num) (by norm_num)
    (by simp) (by simp) (by simp)
  refine ⟨m', _, e, w, ?_⟩
  rw [← c]
  simp [seg]

end Edsp.Props.C177
