import Verif.Props.C67_Hilbert
import Verif.Props.C68_Spectrum
import Verif.Props.C69_RealTransforms

/-!
# C171: the energy of a frame in its Hartley, cosine and analytic transforms
-/

namespace Edsp.Props.C171

open Finset Edsp.Mem Edsp.Spec Edsp.Fourier Edsp.Spectral

/-- The sum of the squares of a sequence. -/
def squares (x : List ℝ) : ℝ := (x.map fun v => v ^ 2).sum

/-! ## Lemmas -/

theorem squares_eq {x : List ℝ} {n : ℕ} (h : x.length = n) : squares x = ∑ j ∈ range n, x.getD j 0 ^ 2 := by
  unfold squares
  conv_lhs => rw [← map_range_getD 0 x, h]
  rw [List.map_map, ← List.sum_toFinset _ List.nodup_range, List.toFinset_range]
  rfl

theorem hartley_energy {x : List ℝ} {n : ℕ} (hx : x.length = n) :
    ∑ k ∈ range n, hartleySum x k ^ 2 = n * ∑ j ∈ range n, x.getD j 0 ^ 2 := by
  have e : ∑ j ∈ range n, x.getD j 0 * hartleySum ((List.range n).map (hartleySum x)) j =
      ∑ k ∈ range n, hartleySum x k ^ 2 := by
    have h1 : ∀ j ∈ range n, x.getD j 0 * hartleySum ((List.range n).map (hartleySum x)) j = ∑ k ∈ range n,
        hartleySum x k * (x.getD j 0 * (Real.cos (2 * Real.pi / n * j * k) + Real.sin (2 * Real.pi / n * j * k))) := by
      intro j _
      conv_lhs => rw [hartleySum, List.length_map, List.length_range]
      rw [mul_sum]
      refine sum_congr rfl fun k hk => ?_
      rw [getD_map_range _ 0 (mem_range.mp hk), show 2 * Real.pi / n * k * j = 2 * Real.pi / n * j * k by ring]
      ring
    rw [sum_congr rfl h1, sum_comm]
    refine sum_congr rfl fun k _ => ?_
    rw [← mul_sum, sq]
    congr 1
    rw [hartleySum, hx]
  rw [← e, mul_sum]
  refine sum_congr rfl fun j hj => ?_
  rw [hartley_round hx (mem_range.mp hj)]
  ring

theorem cosine_energy {x : List ℝ} {n : ℕ} (hx : x.length = n) (h0 : 0 < n) :
    (2 * cosineSum x 0) ^ 2 + 2 * ∑ k ∈ Ico 1 n, (2 * cosineSum x k) ^ 2 = 4 * n * ∑ j ∈ range n, x.getD j 0 ^ 2 := by
  have e : ∑ j ∈ range n, x.getD j 0 * inverseCosineSum ((List.range n).map fun k => 2 * cosineSum x k) j =
      cosineSum x 0 * cosineSum x 0 + ∑ k ∈ Ico 1 n, 2 * cosineSum x k * cosineSum x k := by
    have h1 : ∀ j ∈ range n, x.getD j 0 * inverseCosineSum ((List.range n).map fun k => 2 * cosineSum x k) j =
        cosineSum x 0 * x.getD j 0 + ∑ k ∈ Ico 1 n,
          2 * cosineSum x k * (x.getD j 0 * Real.cos (Real.pi / n * (j + 1 / 2) * k)) := by
      intro j _
      rw [inverseCosineSum, List.length_map, List.length_range, getD_map_range _ 0 h0, mul_add, mul_sum]
      congr 1
      · ring
      · refine sum_congr rfl fun k hk => ?_
        rw [getD_map_range _ 0 (mem_Ico.mp hk).2,
          show Real.pi / n * k * (j + 1 / 2) = Real.pi / n * ((j : ℝ) + 1 / 2) * k by ring]
        ring
    rw [sum_congr rfl h1, sum_add_distrib, sum_comm, ← mul_sum]
    congr 1
    · congr 1
      rw [cosineSum, hx]
      simp
    · refine sum_congr rfl fun k _ => ?_
      rw [← mul_sum]
      congr 1
      rw [cosineSum, hx]
  have e2 : ∑ j ∈ range n, x.getD j 0 * inverseCosineSum ((List.range n).map fun k => 2 * cosineSum x k) j =
      n * ∑ j ∈ range n, x.getD j 0 ^ 2 := by
    rw [mul_sum]
    refine sum_congr rfl fun j hj => ?_
    have := Lee.cosine_round hx (mem_range.mp hj)
    rw [show inverseCosineSum ((List.range n).map fun k => 2 * cosineSum x k) j = n * x.getD j 0 by linarith]
    ring
  have e3 : ∑ k ∈ Ico 1 n, (2 * cosineSum x k) ^ 2 = 2 * ∑ k ∈ Ico 1 n, 2 * cosineSum x k * cosineSum x k := by
    rw [mul_sum]
    exact sum_congr rfl fun k _ => by ring
  rw [e3]
  linear_combination 4 * e2 - 4 * e

theorem complex_energy {n : ℕ} (h0 : 0 < n) (f : ℕ → ℂ) :
    ∑ k ∈ range n, ‖F n f k‖ ^ 2 = n * ∑ j ∈ range n, ‖f j‖ ^ 2 := by
  have e : ∑ j ∈ range n, (starRingEnd ℂ) (f j) * B n (F n f) j = ∑ k ∈ range n, F n f k * (starRingEnd ℂ) (F n f k) := by
    unfold B
    simp only [mul_sum]
    rw [sum_comm]
    refine sum_congr rfl fun k _ => ?_
    conv_rhs => rw [F, map_sum, ← F]
    rw [mul_sum]
    refine sum_congr rfl fun j _ => ?_
    rw [map_mul, ← Complex.exp_conj]
    have : (starRingEnd ℂ) (-(2 * Real.pi * Complex.I * j * k / n)) = 2 * Real.pi * Complex.I * j * k / n := by
      rw [map_neg, map_div₀]
      simp only [map_mul, Complex.conj_ofReal, Complex.conj_I, map_natCast, map_ofNat]
      ring
    rw [this]
    ring
  have e1 : ∑ k ∈ range n, F n f k * (starRingEnd ℂ) (F n f k) = ((∑ k ∈ range n, ‖F n f k‖ ^ 2 : ℝ) : ℂ) := by
    rw [Complex.ofReal_sum]
    exact sum_congr rfl fun k _ => by rw [Complex.mul_conj, Complex.normSq_eq_norm_sq]
  have e2 : ∑ j ∈ range n, (starRingEnd ℂ) (f j) * B n (F n f) j = ((n * ∑ j ∈ range n, ‖f j‖ ^ 2 : ℝ) : ℂ) := by
    rw [Complex.ofReal_mul, Complex.ofReal_sum, mul_sum]
    refine sum_congr rfl fun j hj => ?_
    rw [B_F h0.ne' f (mem_range.mp hj), ← Complex.normSq_eq_norm_sq, Complex.normSq_eq_conj_mul_self,
      Complex.ofReal_natCast]
    ring
  rw [e1, e2] at e
  exact (Complex.ofReal_injective e).symm

/-! ## Theorems -/

/-- C171: the squares of the Hartley coefficients add up to `n` times the energy of the frame. -/
theorem C171_hartley {s m : List ℝ} {first n d : ℕ} (h0 : 0 < n) (h31 : n < 2147483648)
    (hs : first + n ≤ s.length) (hd : d + n ≤ m.length) :
    ∃ m' H, hartley s first (first + n) m d = .ok m' ∧ Wrote m m' d H ∧ H.length = n ∧
      squares H = n * squares (seg s first (first + n)) := by
  obtain ⟨m', h, w⟩ := C69_hartley h0 h31 hs hd
  have hx := seg_len hs
  refine ⟨m', _, h, w, by simp, ?_⟩
  rw [squares_eq hx, ← hartley_energy hx, squares_eq (by simp : _ = n)]
  exact sum_congr rfl fun k hk => by rw [getD_map_range _ 0 (mem_range.mp hk)]

/-- C171: the square of cosine coefficient 0 and twice the squares of the others add up to `4 n` times the energy
of the frame. -/
theorem C171_cosine {s m : List ℝ} {first n d : ℕ} (h0 : 0 < n) (h31 : n < 2147483648)
    (hs : first + n ≤ s.length) (hd : d + n ≤ m.length) :
    ∃ m' X, dct s first (first + n) m d = .ok m' ∧ Wrote m m' d X ∧ X.length = n ∧
      X.getD 0 0 ^ 2 + 2 * ∑ k ∈ Ico 1 n, X.getD k 0 ^ 2 = 4 * n * squares (seg s first (first + n)) := by
  obtain ⟨m', h, w⟩ := C69_dct h0 h31 hs hd
  have hx := seg_len hs
  refine ⟨m', _, h, w, by simp, ?_⟩
  rw [squares_eq hx, ← cosine_energy hx h0, getD_map_range _ 0 h0]
  congr 2
  exact sum_congr rfl fun k hk => by rw [getD_map_range _ 0 (mem_Ico.mp hk).2]

/-- C171: the imaginary part of the analytic signal has the energy of the frame less that of its mean and of its
component at half the sample rate; so never more, and as much exactly if the frame has neither. -/
theorem C171_analytic {s : List ℝ} {m : List ℂ} {first n d : ℕ} (h0 : 0 < n) (h31 : n < 2147483648)
    (hs : first + n ≤ s.length) (hd : d + n ≤ m.length) :
    ∃ m' z, hilbert s first (first + n) m d = .ok m' ∧ Wrote m m' d z ∧ z.length = n ∧
      n * squares (z.map Complex.im) = n * squares (seg s first (first + n)) -
        ((seg s first (first + n)).sum ^ 2 + if n % 2 = 0 then
          (∑ j ∈ range n, (-1) ^ j * (seg s first (first + n)).getD j 0) ^ 2 else 0) := by
  obtain ⟨m', z, h, w, hl, hre, hbin⟩ := C67_analytic h0 h31 hs hd
  have hx := seg_len hs
  refine ⟨m', z, h, w, hl, ?_⟩
  generalize seg s first (first + n) = x at *
  have hn : (n : ℝ) ≠ 0 := Nat.cast_ne_zero.mpr h0.ne'
  have pz := complex_energy h0 fun j => z.getD j 0
  have px := parseval (x := x) (by omega)
  rw [hx] at px
  -- the bins of the analytic signal and of the frame
  have hF : ∀ k < n, F n (fun j => z.getD j 0) k = if k = 0 ∨ 2 * k = n then bin (ofReals x) k
      else if 2 * k < n then 2 * bin (ofReals x) k else 0 := fun k hk => by
    rw [← hbin k hk, bin_eq, hl]
  have hsym : ∀ k, 0 < k → k < n → ‖bin (ofReals x) (n - k)‖ ^ 2 = ‖bin (ofReals x) k‖ ^ 2 := fun k _ hk => by
    have := C45_redundant (x := x) (by omega) (k := k) (by omega)
    rw [hx] at this
    rw [this, RCLike.norm_conj]
  rw [fold_bins h0 hsym] at px
  have hz : ∑ k ∈ range n, ‖F n (fun j => z.getD j 0) k‖ ^ 2 = ‖bin (ofReals x) 0‖ ^ 2 +
      (if n % 2 = 0 then ‖bin (ofReals x) (n / 2)‖ ^ 2 else 0) +
        2 * ∑ k ∈ Ico 1 ((n + 1) / 2), 2 * ‖bin (ofReals x) k‖ ^ 2 := by
    have he : ∀ k ∈ range n, ‖F n (fun j => z.getD j 0) k‖ ^ 2 + ‖F n (fun j => z.getD j 0) (if k = 0 then 0 else n - k)‖ ^ 2 =
        2 * (if k = 0 ∨ 2 * k = n then ‖bin (ofReals x) k‖ ^ 2 else 2 * ‖bin (ofReals x) k‖ ^ 2) := by
      intro k hk
      have hk := mem_range.mp hk
      rcases Nat.eq_zero_or_pos k with rfl | hp
      · rw [if_pos rfl, hF 0 h0, if_pos (Or.inl rfl), if_pos (Or.inl rfl)]
        ring
      · rw [if_neg hp.ne', hF k hk, hF (n - k) (by omega)]
        by_cases hm : 2 * k = n
        · rw [if_pos (Or.inr hm), if_pos (Or.inr (by omega)), if_pos (Or.inr hm), hsym k hp hk]
          ring
        · rw [if_neg (show ¬ (k = 0 ∨ 2 * k = n) by omega), if_neg (show ¬ (n - k = 0 ∨ 2 * (n - k) = n) by omega),
            if_neg (show ¬ (k = 0 ∨ 2 * k = n) by omega)]
          by_cases hlt : 2 * k < n
          · rw [if_pos hlt, if_neg (by omega), norm_mul, norm_zero, Complex.norm_ofNat]
            ring
          · rw [if_neg hlt, if_pos (by omega), norm_mul, norm_zero, Complex.norm_ofNat, mul_pow, hsym k hp hk]
            ring
    have hr : ∑ k ∈ range n, ‖F n (fun j => z.getD j 0) (if k = 0 then 0 else n - k)‖ ^ 2 =
        ∑ k ∈ range n, ‖F n (fun j => z.getD j 0) k‖ ^ 2 := by
      obtain ⟨r, rfl⟩ : ∃ r, n = r + 1 := ⟨n - 1, by omega⟩
      rw [sum_range_succ', sum_range_succ' (fun k => ‖F (r + 1) (fun j => z.getD j 0) k‖ ^ 2), if_pos rfl]
      congr 1
      rw [← sum_range_reflect]
      refine sum_congr rfl fun k hk => ?_
      have hk := mem_range.mp hk
      rw [if_neg (by omega), show r + 1 - (r - 1 - k + 1) = k + 1 by omega]
    have hsum := sum_congr rfl he
    rw [sum_add_distrib, hr, ← mul_sum, fold_bins h0 (f := fun k => if k = 0 ∨ 2 * k = n then ‖bin (ofReals x) k‖ ^ 2
      else 2 * ‖bin (ofReals x) k‖ ^ 2) (fun k hp hk => by
        by_cases hm : 2 * k = n
        · rw [if_pos (Or.inr (by omega)), if_pos (Or.inr hm), hsym k hp hk]
        · rw [if_neg (by omega), if_neg (by omega), hsym k hp hk])] at hsum
    have hmid : (if n % 2 = 0 then (if n / 2 = 0 ∨ 2 * (n / 2) = n then ‖bin (ofReals x) (n / 2)‖ ^ 2
        else 2 * ‖bin (ofReals x) (n / 2)‖ ^ 2) else 0) = if n % 2 = 0 then ‖bin (ofReals x) (n / 2)‖ ^ 2 else 0 := by
      by_cases hp : n % 2 = 0
      · rw [if_pos hp, if_pos hp, if_pos (Or.inr (by omega))]
      · rw [if_neg hp, if_neg hp]
    have hI : ∑ k ∈ Ico 1 ((n + 1) / 2), (if k = 0 ∨ 2 * k = n then ‖bin (ofReals x) k‖ ^ 2
        else 2 * ‖bin (ofReals x) k‖ ^ 2) = ∑ k ∈ Ico 1 ((n + 1) / 2), 2 * ‖bin (ofReals x) k‖ ^ 2 :=
      sum_congr rfl fun k hk => by have := mem_Ico.mp hk; rw [if_neg (by omega)]
    rw [hmid, hI, if_pos (Or.inl rfl)] at hsum
    linarith
  rw [hz, ← mul_sum] at pz
  -- the energy of the analytic signal
  have ez : ∑ j ∈ range n, ‖z.getD j 0‖ ^ 2 = squares x + squares (z.map Complex.im) := by
    rw [squares_eq hx, squares_eq (by simp [hl] : (z.map Complex.im).length = n), ← sum_add_distrib]
    refine sum_congr rfl fun j _ => ?_
    have e1 : x.getD j 0 = (z.getD j 0).re := by
      rw [← hre, List.getD_eq_getElem?_getD, List.getElem?_map, List.getD_eq_getElem?_getD]
      cases z[j]? <;> simp
    have e2 : (z.map Complex.im).getD j 0 = (z.getD j 0).im := by
      rw [List.getD_eq_getElem?_getD, List.getElem?_map, List.getD_eq_getElem?_getD]
      cases z[j]? <;> simp
    rw [e1, e2, Complex.sq_norm, Complex.normSq_apply]
    ring
  rw [ez] at pz
  rw [← squares_eq hx] at px
  have b0 : ‖bin (ofReals x) 0‖ ^ 2 = x.sum ^ 2 := by
    have : bin (ofReals x) 0 = ((∑ j ∈ range n, x.getD j 0 : ℝ) : ℂ) := by
      unfold bin
      rw [show (ofReals x).length = n by simp [ofReals, hx], Complex.ofReal_sum]
      refine sum_congr rfl fun j _ => ?_
      rw [ofReals_getD]
      simp
    rw [this, Complex.norm_real, Real.norm_eq_abs, sq_abs]
    congr 1
    conv_rhs => rw [← map_range_getD 0 x, hx]
    rw [← List.sum_toFinset _ List.nodup_range, List.toFinset_range]
  have bh : n % 2 = 0 → ‖bin (ofReals x) (n / 2)‖ ^ 2 = (∑ j ∈ range n, (-1) ^ j * x.getD j 0) ^ 2 := fun hp => by
    have : bin (ofReals x) (n / 2) = ((∑ j ∈ range n, (-1) ^ j * x.getD j 0 : ℝ) : ℂ) := by
      unfold bin
      rw [show (ofReals x).length = n by simp [ofReals, hx], Complex.ofReal_sum]
      refine sum_congr rfl fun j _ => ?_
      have ha : 2 * Real.pi * (n / 2 : ℕ) * j / n = j * Real.pi := by
        obtain ⟨r, hr⟩ : ∃ r, n = 2 * r := ⟨n / 2, by omega⟩
        have hr0 : (r : ℝ) ≠ 0 := Nat.cast_ne_zero.mpr (by omega)
        rw [show n / 2 = r by omega, hr]
        push_cast
        field_simp
      rw [ofReals_getD, ha, Real.cos_nat_mul_pi, Real.sin_nat_mul_pi]
      push_cast
      ring
    rw [this, Complex.norm_real, Real.norm_eq_abs, sq_abs]
  rw [b0] at px pz
  by_cases hp : n % 2 = 0
  · rw [if_pos hp, bh hp] at px pz
    rw [if_pos hp]
    linarith
  · rw [if_neg hp] at px pz
    rw [if_neg hp]
    linarith

/-! ## Cases that meet the hypotheses -/

example : ∃ m' H, hartley [3, 4] 0 2 [0, 0] 0 = .ok m' ∧ Wrote [0, 0] m' 0 H ∧ squares H = 50 := by
  obtain ⟨m', H, h, w, -, e⟩ := C171_hartley (s := [3, 4]) (m := [0, 0]) (first := 0) (n := 2) (d := 0) (by omega)
    (by omega) (by simp) (by simp)
  refine ⟨m', H, h, w, e.trans ?_⟩
  norm_num [squares, seg]

example : ∃ m' z, hilbert [1, 1, -1, -1] 0 4 [0, 0, 0, 0] 0 = .ok m' ∧ Wrote [0, 0, 0, 0] m' 0 z ∧
    squares (z.map Complex.im) = 4 := by
  obtain ⟨m', z, h, w, -, e⟩ := C171_analytic (s := [1, 1, -1, -1]) (m := [0, 0, 0, 0]) (first := 0) (n := 4) (d := 0)
    (by omega) (by omega) (by simp) (by simp)
  refine ⟨m', z, h, w, ?_⟩
  norm_num [squares, seg, sum_range_succ] at e
  rw [squares, List.map_map]
  linarith

end Edsp.Props.C171
