import Verif.Props.C45_Transforms

/-!
# C168: a frame and its spectrum are not both concentrated
-/

namespace Edsp.Props.C168

open Finset Edsp.Mem Edsp.Spec Edsp.Fourier Edsp.Spectral

/-- The number of entries of a sequence that are not zero. -/
noncomputable def nonzeros (x : List ℂ) : ℕ := ((range x.length).filter fun j => x.getD j 0 ≠ 0).card

/-- The sum of the magnitudes of a sequence. -/
noncomputable def total (x : List ℂ) : ℝ := ∑ j ∈ range x.length, ‖x.getD j 0‖

/-! ## Lemmas -/

theorem exp_norm (a j n : ℕ) : ‖Complex.exp (2 * Real.pi * Complex.I * j * a / n)‖ = 1 := by
  have e : (2 * Real.pi * Complex.I * j * a / n : ℂ) = ((2 * Real.pi * j * a / n : ℝ) : ℂ) * Complex.I := by
    push_cast
    ring
  rw [e, Complex.norm_exp_ofReal_mul_I]

theorem F_le (n : ℕ) (f : ℕ → ℂ) (k : ℕ) : ‖F n f k‖ ≤ ∑ j ∈ range n, ‖f j‖ := by
  refine (norm_sum_le _ _).trans (sum_le_sum fun j _ => ?_)
  rw [norm_mul, Complex.exp_neg, norm_inv, exp_norm, inv_one, mul_one]

theorem B_le (n : ℕ) (f : ℕ → ℂ) (k : ℕ) : ‖B n f k‖ ≤ ∑ j ∈ range n, ‖f j‖ := by
  refine (norm_sum_le _ _).trans (sum_le_sum fun j _ => ?_)
  rw [norm_mul, exp_norm, mul_one]

theorem sample_le {n : ℕ} (h : n ≠ 0) (f : ℕ → ℂ) {j : ℕ} (hj : j < n) :
    n * ‖f j‖ ≤ ∑ k ∈ range n, ‖F n f k‖ := by
  have := B_le n (F n f) j
  rwa [B_F h f hj, norm_mul, Complex.norm_natCast] at this

theorem sum_support (n : ℕ) (f : ℕ → ℂ) {c : ℝ} (h : ∀ j < n, ‖f j‖ ≤ c) :
    ∑ j ∈ range n, ‖f j‖ ≤ ((range n).filter fun j => f j ≠ 0).card * c := by
  have e : ∑ j ∈ range n, ‖f j‖ = ∑ j ∈ (range n).filter (fun j => f j ≠ 0), ‖f j‖ := by
    rw [sum_filter]
    refine sum_congr rfl fun j _ => ?_
    by_cases h0 : f j = 0 <;> simp [h0]
  rw [e, ← nsmul_eq_mul]
  exact sum_le_card_nsmul _ _ _ fun j hj => h j (mem_range.mp (mem_filter.mp hj).1)

theorem product {n p : ℕ} {A C q : ℝ} (hA : 0 < A) (hC : C ≤ q * A) (h : n * A ≤ p * C) : (n : ℝ) ≤ p * q := by
  have h1 : (p : ℝ) * C ≤ p * (q * A) := mul_le_mul_of_nonneg_left hC (Nat.cast_nonneg p)
  have h2 : (n : ℝ) * A ≤ p * q * A := by rw [mul_assoc]; exact h.trans h1
  exact le_of_mul_le_mul_right h2 hA

theorem total_pos {n : ℕ} {f : ℕ → ℂ} {j : ℕ} (hj : j < n) (h : f j ≠ 0) : 0 < ∑ j ∈ range n, ‖f j‖ :=
  sum_pos' (fun _ _ => norm_nonneg _) ⟨j, mem_range.mpr hj, norm_pos_iff.mpr h⟩

/-- The sum over all `n` samples, times `n`, through the bound of each sample. -/
theorem all_samples {n : ℕ} (f : ℕ → ℂ) {C : ℝ} (h : ∀ j < n, n * ‖f j‖ ≤ C) :
    n * ∑ j ∈ range n, ‖f j‖ ≤ ((range n).filter fun j => f j ≠ 0).card * C := by
  rcases Nat.eq_zero_or_pos n with h0 | h0
  · subst h0
    simp
  have hn : (0 : ℝ) < n := Nat.cast_pos.mpr h0
  have := sum_support n f (c := C / n) fun j hj => by
    rw [le_div_iff₀ hn, mul_comm]
    exact h j hj
  calc n * ∑ j ∈ range n, ‖f j‖ ≤ n * (((range n).filter fun j => f j ≠ 0).card * (C / n)) :=
        mul_le_mul_of_nonneg_left this hn.le
    _ = _ := by field_simp

/-- The bins past the middle repeat the magnitudes of those before it. -/
theorem half_sum {n : ℕ} (g : ℕ → ℝ) (h0 : ∀ k, 0 ≤ g k) (hs : ∀ k ≤ n, g (n - k) = g k) :
    ∑ k ∈ range n, g k ≤ 2 * ∑ k ∈ range (n / 2 + 1), g k := by
  rcases Nat.eq_zero_or_pos n with hz | hz
  · subst hz
    simpa using h0 0
  obtain ⟨r, hr⟩ : ∃ r, n = n / 2 + 1 + r := ⟨n - (n / 2 + 1), by omega⟩
  have e1 : ∑ k ∈ range n, g k = ∑ k ∈ range (n / 2 + 1), g k + ∑ i ∈ range r, g (n / 2 + 1 + i) := by
    conv_lhs => rw [hr]
    rw [sum_range_add]
  have e2 : ∑ i ∈ range r, g (n / 2 + 1 + i) = ∑ i ∈ range r, g (i + 1) := by
    rw [← sum_range_reflect (fun i => g (i + 1))]
    refine sum_congr rfl fun i hi => ?_
    have hi := mem_range.mp hi
    rw [← hs (n / 2 + 1 + i) (by omega)]
    congr 1
    omega
  have e3 : ∑ i ∈ range r, g (i + 1) ≤ ∑ k ∈ range (n / 2 + 1), g k := by
    rw [sum_range_succ']
    have : ∑ i ∈ range r, g (i + 1) ≤ ∑ i ∈ range (n / 2), g (i + 1) :=
      sum_le_sum_of_subset_of_nonneg (range_subset_range.mpr (by omega)) fun _ _ _ => h0 _
    linarith [h0 0]
  rw [e1, e2]
  linarith

theorem nonzeros_map (n : ℕ) (f : ℕ → ℂ) :
    nonzeros ((List.range n).map f) = ((range n).filter fun j => f j ≠ 0).card := by
  unfold nonzeros
  rw [List.length_map, List.length_range]
  congr 1
  refine filter_congr fun j hj => ?_
  rw [getD_map_range f 0 (mem_range.mp hj)]

theorem total_map (n : ℕ) (f : ℕ → ℂ) : total ((List.range n).map f) = ∑ j ∈ range n, ‖f j‖ := by
  unfold total
  rw [List.length_map, List.length_range]
  exact sum_congr rfl fun j hj => by rw [getD_map_range f 0 (mem_range.mp hj)]

/-! ## Theorems -/

/-- C168: for the complex transform no bin exceeds the sum of the magnitudes of the samples, no sample exceeds
the mean of the magnitudes of the bins, and the number of samples that are not zero, times the number of bins that are
not zero, is at least the length of the frame. -/
theorem C168_complex {s m : List ℂ} {first n d : ℕ} (h0 : 0 < n) (h31 : n < 2147483648)
    (hs : first + n ≤ s.length) (hd : d + n ≤ m.length) :
    ∃ m', cdft s first (first + n) m d = .ok m' ∧
      (∀ k < n, ‖(seg m' d (d + n)).getD k 0‖ ≤ total (seg s first (first + n))) ∧
      (∀ j < n, n * ‖(seg s first (first + n)).getD j 0‖ ≤ total (seg m' d (d + n))) ∧
      ((∃ j < n, (seg s first (first + n)).getD j 0 ≠ 0) →
        n ≤ nonzeros (seg s first (first + n)) * nonzeros (seg m' d (d + n))) := by
  obtain ⟨m', h1, w⟩ := C45_cdft h0 h31 hs hd
  refine ⟨m', h1, ?_⟩
  have e := wrote_seg w
  rw [List.length_map, List.length_range] at e
  rw [e]
  have hl : (seg s first (first + n)).length = n := by rw [seg_length hs]; omega
  generalize seg s first (first + n) = x at hl
  have hb : bin x = F n fun j => x.getD j 0 := by
    funext k
    rw [bin_eq, hl]
  rw [nonzeros_map, total_map, hb]
  unfold total nonzeros
  rw [hl]
  refine ⟨fun k hk => ?_, fun j hj => sample_le h0.ne' (fun j => x.getD j 0) hj, fun ⟨j, hj, hx⟩ => ?_⟩
  · rw [getD_map_range _ 0 hk]
    exact F_le n _ k
  · have hA := total_pos (f := fun j => x.getD j 0) hj hx
    have hC := sum_support n (F n fun j => x.getD j 0) fun k _ => F_le n _ k
    have h := product hA hC (all_samples (fun j => x.getD j 0) fun j hj => sample_le h0.ne' (fun j => x.getD j 0) hj)
    exact_mod_cast h

/-- C168: for the transform of a real frame, of whose bins the first half is stored: no bin exceeds the
sum of the magnitudes of the samples; a sample is at most twice the sum of the magnitudes of the stored bins, divided by
the length; the number of samples that are not zero, times twice the number of stored bins that are not zero,
is at least the length; and without negative samples no bin is larger than the first. -/
theorem C168_real {s : List ℝ} {m : List ℂ} {first n d : ℕ} (h0 : 0 < n) (h31 : n < 2147483648)
    (hs : first + n ≤ s.length) (hd : d + (n / 2 + 1) ≤ m.length) :
    ∃ m', dft s first (first + n) m d = .ok m' ∧
      (∀ k < n / 2 + 1, ‖(seg m' d (d + (n / 2 + 1))).getD k 0‖ ≤ ∑ j ∈ range n, |(seg s first (first + n)).getD j 0|) ∧
      (∀ j < n, n * |(seg s first (first + n)).getD j 0| ≤ 2 * total (seg m' d (d + (n / 2 + 1)))) ∧
      ((∃ j < n, (seg s first (first + n)).getD j 0 ≠ 0) →
        n ≤ nonzeros (ofReals (seg s first (first + n))) * (2 * nonzeros (seg m' d (d + (n / 2 + 1))))) ∧
      ((∀ v ∈ seg s first (first + n), 0 ≤ v) → ∀ k < n / 2 + 1,
        ‖(seg m' d (d + (n / 2 + 1))).getD k 0‖ ≤ ((seg m' d (d + (n / 2 + 1))).getD 0 0).re) := by
  obtain ⟨m', h1, w⟩ := C45_dft h0 h31 hs hd
  refine ⟨m', h1, ?_⟩
  have e := wrote_seg w
  rw [List.length_map, List.length_range] at e
  rw [e]
  have hl : (seg s first (first + n)).length = n := by rw [seg_length hs]; omega
  generalize seg s first (first + n) = x at hl
  have ho : (ofReals x).length = n := by simp [ofReals, hl]
  have hb : bin (ofReals x) = F n fun j => ((x.getD j 0 : ℝ) : ℂ) := by
    funext k
    rw [bin_eq, ho]
    simp only [ofReals_getD]
  have hsum : ∑ j ∈ range n, ‖((x.getD j 0 : ℝ) : ℂ)‖ = ∑ j ∈ range n, |x.getD j 0| :=
    sum_congr rfl fun j _ => by rw [Complex.norm_real, Real.norm_eq_abs]
  have hF : ∀ k, ‖F n (fun j => ((x.getD j 0 : ℝ) : ℂ)) k‖ ≤ ∑ j ∈ range n, |x.getD j 0| := fun k =>
    hsum ▸ F_le n _ k
  have hsym : ∀ k ≤ n, ‖F n (fun j => ((x.getD j 0 : ℝ) : ℂ)) (n - k)‖ = ‖F n (fun j => ((x.getD j 0 : ℝ) : ℂ)) k‖ :=
    fun k hk => by rw [← F_herm h0.ne' x hk, RCLike.norm_conj]
  have hhalf := half_sum (fun k => ‖F n (fun j => ((x.getD j 0 : ℝ) : ℂ)) k‖) (fun _ => norm_nonneg _) hsym
  have hsam : ∀ j < n, n * ‖((x.getD j 0 : ℝ) : ℂ)‖ ≤
      2 * ∑ k ∈ range (n / 2 + 1), ‖F n (fun j => ((x.getD j 0 : ℝ) : ℂ)) k‖ := fun j hj =>
    (sample_le h0.ne' (fun j => ((x.getD j 0 : ℝ) : ℂ)) hj).trans hhalf
  rw [nonzeros_map, total_map, hb]
  refine ⟨fun k hk => ?_, fun j hj => ?_, fun ⟨j, hj, hx⟩ => ?_, fun hv k hk => ?_⟩
  · rw [getD_map_range _ 0 hk]
    exact hF k
  · have := hsam j hj
    rwa [Complex.norm_real, Real.norm_eq_abs] at this
  · have hA := total_pos (f := fun j => ((x.getD j 0 : ℝ) : ℂ)) hj (by simpa using hx)
    have hC := sum_support (n / 2 + 1) (F n fun j => ((x.getD j 0 : ℝ) : ℂ)) fun k _ => F_le n _ k
    have h := product (q := 2 * _) hA (by rw [mul_assoc]; exact mul_le_mul_of_nonneg_left hC two_pos.le)
      (all_samples (fun j => ((x.getD j 0 : ℝ) : ℂ)) hsam)
    unfold nonzeros
    rw [ho]
    simp only [ofReals_getD]
    exact_mod_cast h
  · rw [getD_map_range _ 0 hk, getD_map_range _ 0 (by omega)]
    refine (hF k).trans (le_of_eq ?_)
    unfold F
    rw [Complex.re_sum]
    refine sum_congr rfl fun j hj => ?_
    have : 0 ≤ x.getD j 0 := by
      have hj : j < x.length := by rw [hl]; exact mem_range.mp hj
      rw [List.getD_eq_getElem?_getD, List.getElem?_eq_getElem hj]
      exact hv _ (List.getElem_mem hj)
    rw [abs_of_nonneg this]
    simp

/-! ## Cases that meet the hypotheses -/

/-- One sample out of four: all four bins are used. -/
example : ∃ m', cdft [0, 1, 0, 0] 0 4 [0, 0, 0, 0] 0 = .ok m' ∧
    4 ≤ nonzeros (seg m' 0 4) := by
  obtain ⟨m', h1, -, -, h4⟩ := C168_complex (s := [0, 1, 0, 0]) (m := [0, 0, 0, 0]) (first := 0) (n := 4) (d := 0)
    (by omega) (by omega) (by simp) (by simp)
  refine ⟨m', h1, ?_⟩
  have h := h4 ⟨1, by omega, by simp [seg]⟩
  have e : nonzeros (seg [0, 1, 0, 0] 0 (0 + 4)) = 1 := by
    have e' : (seg [0, 1, 0, 0] 0 (0 + 4) : List ℂ) = [0, 1, 0, 0] := by simp [seg]
    rw [e']
    unfold nonzeros
    rw [card_eq_one]
    refine ⟨1, Finset.ext fun j => ?_⟩
    rw [mem_filter, mem_range, mem_singleton]
    constructor
    · rintro ⟨hj, hx⟩
      have hj : j < 4 := by simpa using hj
      interval_cases j <;> simp_all
    · rintro rfl
      simp
  rw [e, one_mul] at h
  simpa using h

/-- A frame without negative samples. -/
example : ∃ m', dft [1, 0, 2, 5] 0 4 [0, 0, 0] 0 = .ok m' ∧
    ∀ k < 3, ‖(seg m' 0 3).getD k 0‖ ≤ ((seg m' 0 3).getD 0 0).re := by
  obtain ⟨m', h1, -, -, -, h5⟩ := C168_real (s := [1, 0, 2, 5]) (m := [0, 0, 0]) (first := 0) (n := 4) (d := 0)
    (by omega) (by omega) (by simp) (by simp)
  exact ⟨m', h1, by simpa using h5 (by simp [seg])⟩

end Edsp.Props.C168
