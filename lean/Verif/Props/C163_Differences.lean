import Verif.Props.C51_Temporal
import Verif.Props.C46_Convolution
import Verif.Lemmas.Close
import Mathlib.Algebra.Order.Chebyshev
import Mathlib.Tactic.NormNum

/-! # C163: difference functions and autocorrelation of the same frame -/

namespace Edsp.Props

open Edsp Edsp.Spec Edsp.Mem Finset

namespace C163

theorem energy_sum (l : List ℝ) : Seq.energy l = ∑ j ∈ range l.length, at0 l j ^ 2 := by
  unfold Seq.energy
  rw [CloseL.sum_sq, zero_add]
  induction l with
  | nil => simp
  | cons a l ih => rw [List.map_cons, List.sum_cons, ih, List.length_cons, sum_range_succ', add_comm]; rfl

theorem energy_drop (l : List ℝ) (k : ℕ) : Seq.energy (l.drop k) = ∑ j ∈ range (l.length - k), at0 l (j + k) ^ 2 := by
  rw [energy_sum, List.length_drop]
  refine sum_congr rfl fun j _ => ?_
  unfold at0
  simp [List.getD_eq_getElem?_getD, List.getElem?_drop, add_comm]

theorem energy_take (l : List ℝ) (k : ℕ) : Seq.energy (l.take (l.length - k)) = ∑ j ∈ range (l.length - k), at0 l j ^ 2 := by
  rw [energy_sum, List.length_take, min_eq_left (Nat.sub_le _ _)]
  refine sum_congr rfl fun j hj => ?_
  unfold at0
  rw [List.getD_eq_getElem?_getD, List.getD_eq_getElem?_getD, List.getElem?_take, if_pos (mem_range.mp hj)]

theorem square_correlation (x : List ℝ) (hx : x ≠ []) (k : ℕ) :
    x.length * squareDifference x k + 2 * correlation x x k = Seq.energy (x.drop k) + Seq.energy (x.take (x.length - k)) := by
  have hn : (x.length : ℝ) ≠ 0 := by simpa using hx
  unfold squareDifference correlation
  rw [mul_div_cancel₀ _ hn, energy_drop, energy_take, mul_sum, ← sum_add_distrib, ← sum_add_distrib]
  refine sum_congr rfl fun j _ => ?_
  show (at0 x j - at0 x (j + k)) ^ 2 + 2 * (at0 x (j + k) * at0 x j) = _
  ring

theorem magnitude_le (x : List ℝ) (k : ℕ) : magnitudeDifference x k ^ 2 ≤ (x.length - k : ℕ) / x.length * squareDifference x k := by
  unfold magnitudeDifference squareDifference
  have h := sq_sum_le_card_mul_sum_sq (s := range (x.length - k)) (f := fun j => |at0 x j - at0 x (j + k)|)
  simp only [card_range, sq_abs] at h
  rw [div_pow, div_mul_div_comm, ← sq]
  exact div_le_div_of_nonneg_right h (sq_nonneg _)

theorem square_zero (x : List ℝ) (hx : x ≠ []) (k : ℕ) :
    squareDifference x k = 0 ↔ ∀ j, j + k < x.length → at0 x (j + k) = at0 x j := by
  have hn : (x.length : ℝ) ≠ 0 := by simpa using hx
  unfold squareDifference
  rw [div_eq_zero_iff, or_iff_left hn, sum_eq_zero_iff_of_nonneg fun _ _ => sq_nonneg _]
  constructor
  · intro h j hj
    have := h j (mem_range.mpr (by omega))
    rw [sq_eq_zero_iff, sub_eq_zero] at this
    exact this.symm
  · intro h j hj
    rw [h j (by have := mem_range.mp hj; omega), sub_self]
    norm_num

theorem magnitude_zero (x : List ℝ) (hx : x ≠ []) (k : ℕ) :
    magnitudeDifference x k = 0 ↔ ∀ j, j + k < x.length → at0 x (j + k) = at0 x j := by
  have hn : (x.length : ℝ) ≠ 0 := by simpa using hx
  unfold magnitudeDifference
  rw [div_eq_zero_iff, or_iff_left hn, sum_eq_zero_iff_of_nonneg fun _ _ => abs_nonneg _]
  constructor
  · intro h j hj
    have := h j (mem_range.mpr (by omega))
    rw [abs_eq_zero, sub_eq_zero] at this
    exact this.symm
  · intro h j hj
    rw [h j (by have := mem_range.mp hj; omega), sub_self, abs_zero]

theorem at0_map {x : List ℝ} {f : ℝ → ℝ} {j : ℕ} (hj : j < x.length) : at0 (x.map f) j = f (at0 x j) := by
  unfold at0
  simp [hj]

end C163

open C163

/-- The value stored for lag `k`. -/
def lagOf (S : List ℝ) (k : ℕ) : ℝ := S.getD k 0

/-- **C163, three functions of one frame.**  For every lag `k` of a frame of `N` samples, `N` times the squared
difference plus twice the autocorrelation is the energy of the frame without its first `k` samples plus that without its
last `k` samples; the magnitude difference is at most `√((N-k)/N)` times the root of the squared difference; and both
differences vanish exactly if every sample equals the one `k` places before. -/
theorem C163_lags {m : List ℝ} {first N d : ℕ} (hN : 0 < N) (h31 : 2 * N < 2147483648) (hm : first + N ≤ m.length)
    (hd : d + N ≤ m.length) (ho : d + N ≤ first ∨ first + N ≤ d) :
    ∃ a b c A B R, Feature.amdf m first (first + N) d = .ok a ∧ Wrote m a d A ∧
      Feature.asdf m first (first + N) d = .ok b ∧ Wrote m b d B ∧
      Spectral.autocorr m first (first + N) d .none = .ok c ∧ Wrote m c d R ∧
      A.length = N ∧ B.length = N ∧ R.length = N ∧ ∀ k < N,
        N * lagOf B k + 2 * lagOf R k =
          Seq.energy (seg m (first + k) (first + N)) + Seq.energy (seg m first (first + N - k)) ∧
        0 ≤ lagOf A k ∧ lagOf A k ^ 2 ≤ (N - k : ℕ) / N * lagOf B k ∧
        (lagOf A k = 0 ↔ ∀ j, j + k < N → m[first + (j + k)]? = m[first + j]?) ∧
        (lagOf B k = 0 ↔ ∀ j, j + k < N → m[first + (j + k)]? = m[first + j]?) := by
  obtain ⟨a, e1, w1⟩ := Feature.C51_amdf hN hm hd ho
  obtain ⟨b, e2, w2⟩ := Feature.C51_asdf hN hm hd ho
  obtain ⟨c, e3, w3⟩ := Spectral.C46_autocorr_partial hN h31 hm hd
  refine ⟨a, b, c, _, _, _, e1, w1, e2, w2, e3, w3, by simp, by simp, by simp, fun k hk => ?_⟩
  have hl : (seg m first (first + N)).length = N := by rw [seg_length hm]; omega
  have hne : seg m first (first + N) ≠ [] := by intro h; rw [h] at hl; simp at hl; omega
  have get : ∀ F : ℕ → ℝ, lagOf ((List.range N).map F) k = F k := by intro F; unfold lagOf; simp [hk]
  have hat : ∀ j < N, at0 (seg m first (first + N)) j = m[first + j]?.getD 0 := by
    intro j hj
    unfold at0 seg
    simp [List.getD_eq_getElem?_getD, List.getElem?_drop, hj]
  have hper : (∀ j, j + k < N → m[first + (j + k)]? = m[first + j]?) ↔
      ∀ j, j + k < (seg m first (first + N)).length →
        at0 (seg m first (first + N)) (j + k) = at0 (seg m first (first + N)) j := by
    rw [hl]
    refine forall_congr' fun j => forall_congr' fun hj => ?_
    have i1 : first + (j + k) < m.length := by omega
    have i2 : first + j < m.length := by omega
    rw [hat _ hj, hat j (by omega), List.getElem?_eq_getElem i1, List.getElem?_eq_getElem i2]
    simp
  rw [get, get, get, hper, magnitude_zero _ hne, square_zero _ hne]
  refine ⟨?_, ?_, ?_, Iff.rfl, Iff.rfl⟩
  · have := square_correlation _ hne k
    rw [hl] at this
    rw [this]
    congr 2
    · unfold seg
      rw [List.drop_take, List.drop_drop]
      congr 1; omega
    · unfold seg
      rw [List.take_take]
      congr 1; omega
  · unfold magnitudeDifference
    exact div_nonneg (sum_nonneg fun _ _ => abs_nonneg _) (Nat.cast_nonneg _)
  · have := magnitude_le (seg m first (first + N)) k
    rwa [hl] at this

/-- **C163, offsets and amplification.**  If the frame of another memory is `g` times the frame plus an offset, then the
magnitude differences are `|g|` times and the squared differences `g²` times those of the frame, whatever the offset. -/
theorem C163_affine {m m2 : List ℝ} {first N d : ℕ} {g t : ℝ} (hN : 0 < N) (hm : first + N ≤ m.length)
    (hm2 : first + N ≤ m2.length) (hd : d + N ≤ m.length) (hd2 : d + N ≤ m2.length) (ho : d + N ≤ first ∨ first + N ≤ d)
    (hg : seg m2 first (first + N) = (seg m first (first + N)).map fun v => g * v + t) :
    ∃ a a2 b b2 A B, Feature.amdf m first (first + N) d = .ok a ∧ Wrote m a d A ∧
      Feature.amdf m2 first (first + N) d = .ok a2 ∧ Wrote m2 a2 d (A.map fun v => |g| * v) ∧
      Feature.asdf m first (first + N) d = .ok b ∧ Wrote m b d B ∧
      Feature.asdf m2 first (first + N) d = .ok b2 ∧ Wrote m2 b2 d (B.map fun v => g ^ 2 * v) := by
  obtain ⟨a, e1, w1⟩ := Feature.C51_amdf hN hm hd ho
  obtain ⟨b, e2, w2⟩ := Feature.C51_asdf hN hm hd ho
  obtain ⟨a2, e3, w3⟩ := Feature.C51_amdf hN hm2 hd2 ho
  obtain ⟨b2, e4, w4⟩ := Feature.C51_asdf hN hm2 hd2 ho
  refine ⟨a, a2, b, b2, _, _, e1, w1, e3, ?_, e2, w2, e4, ?_⟩
  · rw [hg] at w3
    rw [List.map_map]
    convert w3 using 2
    funext k
    unfold magnitudeDifference
    rw [List.length_map, Function.comp_apply, ← mul_div_assoc, mul_sum]
    congr 1
    refine sum_congr rfl fun j hj => ?_
    have := mem_range.mp hj
    rw [at0_map (by omega), at0_map (by omega), ← abs_mul]
    congr 1; ring
  · rw [hg] at w4
    rw [List.map_map]
    convert w4 using 2
    funext k
    unfold squareDifference
    rw [List.length_map, Function.comp_apply, ← mul_div_assoc, mul_sum]
    congr 1
    refine sum_congr rfl fun j hj => ?_
    have := mem_range.mp hj
    rw [at0_map (by omega), at0_map (by omega)]
    ring

/-- A frame that meets the hypotheses, with a lag at which the differences vanish and one at which they do not. -/
theorem C163_example :
    squareDifference [1, 2, 1] 2 = 0 ∧ squareDifference [1, 2, 1] 1 = 2 / 3 ∧ magnitudeDifference [1, 2, 1] 1 = 2 / 3 ∧
    ∃ a, Feature.asdf [1, 2, 1, 0, 0, 0] 0 (0 + 3) 3 = .ok a := by
  refine ⟨by norm_num [squareDifference, at0, sum_range_succ], by norm_num [squareDifference, at0, sum_range_succ],
    by norm_num [magnitudeDifference, at0, sum_range_succ], ?_⟩
  obtain ⟨a, h, -⟩ := Feature.C51_asdf (m := [1, 2, 1, 0, 0, 0]) (first := 0) (N := 3) (d := 3) (by norm_num) (by simp)
    (by simp) (by simp)
  exact ⟨a, h⟩

end Edsp.Props
