import Verif.Props.C46_Convolution
import Verif.Props.C68_Spectrum

/-!
# C170: the autocorrelation of a frame and its spectrum tell the same
-/

namespace Edsp.Props.C170

open Finset Edsp.Mem Edsp.Spec Edsp.Fourier Edsp.Spectral

/-! ## Lemmas -/

/-- Lag `l` of the first `n` values of a sequence. -/
def R (x : ℕ → ℝ) (n l : ℕ) : ℝ := ∑ j ∈ range (n - l), x (j + l) * x j

theorem R_succ (x : ℕ → ℝ) {n l : ℕ} (h : l ≤ n) : R x (n + 1) l = R x n l + x n * x (n - l) := by
  unfold R
  rw [show n + 1 - l = n - l + 1 by omega, sum_range_succ, Nat.sub_add_cancel h]

theorem R_out (x : ℕ → ℝ) {n l : ℕ} (h : n ≤ l) : R x n l = 0 := by
  unfold R
  rw [Nat.sub_eq_zero_of_le h, sum_range_zero]

/-- The square of a trigonometric sum, sorted by lags. -/
theorem lag_sum (x : ℕ → ℝ) (θ : ℝ) (n : ℕ) :
    (∑ j ∈ range n, x j * Real.cos (θ * j)) ^ 2 + (∑ j ∈ range n, x j * Real.sin (θ * j)) ^ 2 =
      R x n 0 + 2 * ∑ l ∈ range n, R x n (l + 1) * Real.cos (θ * (l + 1 : ℕ)) := by
  induction n with
  | zero => simp [R]
  | succ n ih =>
    have e1 : ∑ l ∈ range (n + 1), R x (n + 1) (l + 1) * Real.cos (θ * (l + 1 : ℕ)) =
        ∑ l ∈ range n, R x n (l + 1) * Real.cos (θ * (l + 1 : ℕ)) +
          ∑ l ∈ range n, x n * x (n - (l + 1)) * Real.cos (θ * (l + 1 : ℕ)) := by
      rw [sum_range_succ, R_out x (le_refl (n + 1)), zero_mul, add_zero, ← sum_add_distrib]
      refine sum_congr rfl fun l hl => ?_
      rw [R_succ x (by have := mem_range.mp hl; omega)]
      ring
    have e2 : ∑ l ∈ range n, x n * x (n - (l + 1)) * Real.cos (θ * (l + 1 : ℕ)) =
        x n * (∑ j ∈ range n, x j * Real.cos (θ * j)) * Real.cos (θ * n) +
          x n * (∑ j ∈ range n, x j * Real.sin (θ * j)) * Real.sin (θ * n) := by
      rw [← sum_range_reflect, mul_assoc, mul_assoc, sum_mul, sum_mul, mul_sum, mul_sum, ← sum_add_distrib]
      refine sum_congr rfl fun l hl => ?_
      have hl := mem_range.mp hl
      rw [show n - (n - 1 - l + 1) = l by omega, show n - 1 - l + 1 = n - l by omega, Nat.cast_sub hl.le, mul_sub,
        Real.cos_sub]
      ring
    have ht := Real.sin_sq_add_cos_sq (θ * n)
    rw [e1, e2, R_succ x (Nat.zero_le n), sum_range_succ, sum_range_succ, Nat.sub_zero]
    linear_combination ih + x n ^ 2 * ht

theorem bin_sq (z : List ℝ) (k : ℕ) : ‖bin (ofReals z) k‖ ^ 2 =
    (∑ j ∈ range z.length, z.getD j 0 * Real.cos (2 * Real.pi * k * j / z.length)) ^ 2 +
      (∑ j ∈ range z.length, z.getD j 0 * Real.sin (2 * Real.pi * k * j / z.length)) ^ 2 := by
  have hl : (ofReals z).length = z.length := by simp [ofReals]
  have e : bin (ofReals z) k = ((∑ j ∈ range z.length, z.getD j 0 * Real.cos (2 * Real.pi * k * j / z.length) : ℝ) : ℂ) +
      ((-∑ j ∈ range z.length, z.getD j 0 * Real.sin (2 * Real.pi * k * j / z.length) : ℝ) : ℂ) * Complex.I := by
    unfold bin
    rw [hl, Complex.ofReal_neg, Complex.ofReal_sum, Complex.ofReal_sum, neg_mul, ← sub_eq_add_neg, sum_mul, ← sum_sub_distrib]
    refine sum_congr rfl fun j _ => ?_
    rw [ofReals_getD]
    push_cast
    ring
  rw [e, Complex.sq_norm, Complex.normSq_add_mul_I, neg_sq]

theorem pad_sum {z x : List ℝ} {n : ℕ} (hz : z = x ++ List.replicate n 0) (hx : x.length = n) (t : ℕ → ℝ) :
    ∑ j ∈ range z.length, z.getD j 0 * t j = ∑ j ∈ range n, x.getD j 0 * t j := by
  have hl : z.length = n + n := by simp [hz, hx]
  rw [hl, sum_range_add, sum_eq_zero (s := range n) (f := fun i => z.getD (n + i) 0 * t (n + i)), add_zero]
  · refine sum_congr rfl fun j hj => ?_
    have hj : j < x.length := by rw [hx]; exact mem_range.mp hj
    rw [hz, List.getD_eq_getElem?_getD, List.getElem?_append_left hj, ← List.getD_eq_getElem?_getD]
  · intro i hi
    rw [hz, List.getD_eq_getElem?_getD, List.getElem?_append_right (by omega), List.getElem?_replicate]
    split <;> simp

theorem corr_R {x : List ℝ} {n : ℕ} (hx : x.length = n) (l : ℕ) : R (fun j => x.getD j 0) n l = correlation x x l := by
  unfold R correlation
  rw [hx]

theorem pow_of_corr {z x : List ℝ} {n : ℕ} (hz : z = x ++ List.replicate n 0) (hx : x.length = n) (h0 : 0 < n) (k : ℕ) :
    ‖bin (ofReals z) k‖ ^ 2 = correlation x x 0 +
      2 * ∑ l ∈ Ico 1 n, correlation x x l * Real.cos (Real.pi * k * l / n) := by
  have hn : (n : ℝ) ≠ 0 := Nat.cast_ne_zero.mpr h0.ne'
  have hl : z.length = 2 * n := by simp [hz, hx]; omega
  have ha : ∀ j : ℕ, 2 * Real.pi * k * j / z.length = Real.pi * k / n * j := fun j => by
    rw [hl]
    push_cast
    field_simp
  rw [bin_sq]
  simp only [ha]
  rw [pad_sum hz hx, pad_sum hz hx, lag_sum (fun j => x.getD j 0)]
  have e : ∑ l ∈ range n, R (fun j => x.getD j 0) n (l + 1) * Real.cos (Real.pi * k / n * (l + 1 : ℕ)) =
      ∑ l ∈ Ico 1 n, correlation x x l * Real.cos (Real.pi * k * l / n) := by
    obtain ⟨r, rfl⟩ : ∃ r, n = r + 1 := ⟨n - 1, by omega⟩
    rw [sum_range_succ, R_out _ (le_refl (r + 1)), zero_mul, add_zero, sum_Ico_eq_sum_range, Nat.add_sub_cancel]
    refine sum_congr rfl fun l _ => ?_
    rw [corr_R hx, Nat.add_comm l 1]
    congr 2
    ring
  rw [e, corr_R hx]

theorem corr_of_pow {z x : List ℝ} {n : ℕ} (hz : z = x ++ List.replicate n 0) (hx : x.length = n) (h0 : 0 < n)
    {l : ℕ} (hl : l < n) : 2 * n * correlation x x l = ‖bin (ofReals z) 0‖ ^ 2 +
      (-1) ^ l * ‖bin (ofReals z) n‖ ^ 2 + 2 * ∑ k ∈ Ico 1 n, ‖bin (ofReals z) k‖ ^ 2 * Real.cos (Real.pi * k * l / n) := by
  have hn : (n : ℝ) ≠ 0 := Nat.cast_ne_zero.mpr h0.ne'
  have hzl : z.length = 2 * n := by simp [hz, hx]; omega
  have hb : ∀ k, F (2 * n) (fun j => ((x.getD j 0 : ℝ) : ℂ)) k = bin (ofReals z) k := fun k => by
    rw [bin_ofReals, hzl]
    refine F_congr (fun j _ => ?_) k
    rw [hz, List.getD_eq_getElem?_getD, List.getD_eq_getElem?_getD]
    rcases Nat.lt_or_ge j x.length with h | h
    · rw [List.getElem?_append_left h]
    · rw [List.getElem?_append_right h, List.getElem?_eq_none h, List.getElem?_replicate]
      split <;> rfl
  have h1 := B_mul_conj (N := 2 * n) (by omega) (fun j => ((x.getD j 0 : ℝ) : ℂ)) (fun j => ((x.getD j 0 : ℝ) : ℂ)) l
  rw [circ_corr hx hx hl] at h1
  have h2 := congrArg Complex.re h1
  unfold B at h2
  rw [Complex.re_sum] at h2
  have h3 : ∀ k ∈ range (2 * n), (F (2 * n) (fun j => ((x.getD j 0 : ℝ) : ℂ)) k *
      (starRingEnd ℂ) (F (2 * n) (fun j => ((x.getD j 0 : ℝ) : ℂ)) k) *
        Complex.exp (2 * Real.pi * Complex.I * l * k / (2 * n : ℕ))).re =
      ‖bin (ofReals z) k‖ ^ 2 * Real.cos (Real.pi * k * l / n) := fun k _ => by
    have e : (2 * Real.pi * Complex.I * l * k / (2 * n : ℕ) : ℂ) = ((Real.pi * k * l / n : ℝ) : ℂ) * Complex.I := by
      have : (n : ℂ) ≠ 0 := Nat.cast_ne_zero.mpr h0.ne'
      push_cast
      field_simp
    rw [hb, Complex.mul_conj, Complex.normSq_eq_norm_sq, e, Complex.re_ofReal_mul, Complex.exp_ofReal_mul_I_re]
  rw [sum_congr rfl h3, fold_bins (by omega)] at h2
  · have e0 : ((2 * n : ℕ) * (correlation x x l : ℂ)).re = 2 * n * correlation x x l := by
      rw [← Complex.ofReal_natCast, ← Complex.ofReal_mul, Complex.ofReal_re]
      push_cast
      ring
    rw [e0] at h2
    rw [← h2, if_pos (by omega), show 2 * n / 2 = n by omega, show (2 * n + 1) / 2 = n by omega]
    have e1 : Real.cos (Real.pi * n * l / n) = (-1) ^ l := by
      rw [show Real.pi * n * l / n = l * Real.pi by field_simp, Real.cos_nat_mul_pi]
    rw [e1]
    simp
    ring
  · intro k _ hk
    have := C45_redundant (x := z) (by omega) (k := k) (by omega)
    rw [hzl] at this
    rw [this, RCLike.norm_conj, Nat.cast_sub hk.le]
    congr 1
    rw [show Real.pi * ((2 * n : ℕ) - k) * l / n = l * (2 * Real.pi) - Real.pi * k * l / n by push_cast; field_simp,
      Real.cos_nat_mul_two_pi_sub]

/-! ## Theorems -/

/-- C170: for a frame of `n` samples with `n` zeros behind it, the spectrum of the `2n` samples is the cosine sum of
the autocorrelation of the frame, and the autocorrelation is the cosine sum of the spectrum. -/
theorem C170_formulas {m : List ℝ} {first n d : ℕ} (h0 : 0 < n) (h31 : 2 * n < 2147483648)
    (hs : first + 2 * n ≤ m.length) (hd : d + (n + 1) ≤ m.length)
    (hz : seg m first (first + 2 * n) = seg m first (first + n) ++ List.replicate n 0) :
    ∃ a b P r, spectrum m first (first + 2 * n) d = .ok a ∧ Wrote m a d P ∧ P.length = n + 1 ∧
      autocorr m first (first + n) d .none = .ok b ∧ Wrote m b d r ∧ r.length = n ∧
      (∀ k ≤ n, P.getD k 0 = r.getD 0 0 + 2 * ∑ l ∈ Ico 1 n, r.getD l 0 * Real.cos (Real.pi * k * l / n)) ∧
      ∀ l < n, 2 * n * r.getD l 0 = P.getD 0 0 + (-1) ^ l * P.getD n 0 +
        2 * ∑ k ∈ Ico 1 n, P.getD k 0 * Real.cos (Real.pi * k * l / n) := by
  obtain ⟨a, ha, wa⟩ := C68_spectrum (n := 2 * n) (by omega) h31 hs (d := d) (by omega)
  obtain ⟨b, hb, wb⟩ := C46_autocorr_partial h0 h31 (m := m) (f1 := first) (d := d) (by omega) (by omega)
  have hx : (seg m first (first + n)).length = n := by rw [seg_length (by omega)]; omega
  rw [show 2 * n / 2 + 1 = n + 1 by omega] at wa
  refine ⟨a, b, _, _, ha, wa, by simp, hb, wb, by simp, fun k hk => ?_, fun l hl => ?_⟩
  · rw [getD_map_range _ 0 (by omega), getD_map_range _ 0 h0, pow_of_corr hz hx h0]
    congr 2
    refine sum_congr rfl fun l hl => ?_
    rw [getD_map_range _ 0 (mem_Ico.mp hl).2]
  · rw [getD_map_range _ 0 hl, getD_map_range _ 0 (by omega), getD_map_range _ 0 (by omega), corr_of_pow hz hx h0 hl]
    congr 2
    refine sum_congr rfl fun k hk => ?_
    rw [getD_map_range _ 0 (by have := mem_Ico.mp hk; omega)]

/-- C170: two frames have the same autocorrelation exactly if, with as many zeros behind them, they have the same
spectrum. -/
theorem C170_same {m m2 : List ℝ} {first n d : ℕ} (h0 : 0 < n) (h31 : 2 * n < 2147483648)
    (hs : first + 2 * n ≤ m.length) (hd : d + (n + 1) ≤ m.length) (hs2 : first + 2 * n ≤ m2.length)
    (hd2 : d + (n + 1) ≤ m2.length)
    (hz : seg m first (first + 2 * n) = seg m first (first + n) ++ List.replicate n 0)
    (hz2 : seg m2 first (first + 2 * n) = seg m2 first (first + n) ++ List.replicate n 0) :
    ∃ a b a2 b2, spectrum m first (first + 2 * n) d = .ok a ∧ spectrum m2 first (first + 2 * n) d = .ok a2 ∧
      autocorr m first (first + n) d .none = .ok b ∧ autocorr m2 first (first + n) d .none = .ok b2 ∧
      (seg a d (d + (n + 1)) = seg a2 d (d + (n + 1)) ↔ seg b d (d + n) = seg b2 d (d + n)) := by
  obtain ⟨a, b, P, r, ha, wa, la, hb, wb, lb, h1, h2⟩ := C170_formulas h0 h31 hs hd hz
  obtain ⟨a', b', P', r', ha', wa', la', hb', wb', lb', h1', h2'⟩ := C170_formulas h0 h31 hs2 hd2 hz2
  refine ⟨a, b, a', b', ha, ha', hb, hb', ?_⟩
  have eP := wrote_seg wa
  have eP' := wrote_seg wa'
  have er := wrote_seg wb
  have er' := wrote_seg wb'
  rw [la] at eP
  rw [la'] at eP'
  rw [lb] at er
  rw [lb'] at er'
  rw [eP, eP', er, er']
  have hn : (2 * n : ℝ) ≠ 0 := by have : (n : ℝ) ≠ 0 := Nat.cast_ne_zero.mpr h0.ne'; positivity
  constructor
  · rintro rfl
    rw [← map_range_getD 0 r, ← map_range_getD 0 r', lb, lb']
    refine List.map_congr_left fun l hl => ?_
    have hl := List.mem_range.mp hl
    exact mul_left_cancel₀ hn ((h2 l hl).trans (h2' l hl).symm)
  · rintro rfl
    rw [← map_range_getD 0 P, ← map_range_getD 0 P', la, la']
    refine List.map_congr_left fun k hk => ?_
    have hk := List.mem_range.mp hk
    exact (h1 k (by omega)).trans (h1' k (by omega)).symm

/-! ## A case that meets the hypotheses -/

example : ∃ a b P r, spectrum [1, 2, 0, 0] 0 4 0 = .ok a ∧ Wrote [1, 2, 0, 0] a 0 P ∧
    autocorr [1, 2, 0, 0] 0 2 0 .none = .ok b ∧ Wrote [1, 2, 0, 0] b 0 r ∧ P.getD 0 0 = r.getD 0 0 + 2 * r.getD 1 0 := by
  obtain ⟨a, b, P, r, ha, wa, -, hb, wb, -, h, -⟩ := C170_formulas (m := [1, 2, 0, 0]) (first := 0) (n := 2) (d := 0)
    (by omega) (by omega) (by simp) (by simp) (by simp [seg])
  exact ⟨a, b, P, r, ha, wa, hb, wb, by simpa using h 0 (by omega)⟩

end Edsp.Props.C170
