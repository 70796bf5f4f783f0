import Verif.Lemmas.Spectral

/-!
# C45: the Fourier transforms and their inverses
-/

namespace Edsp.Spectral

open Complex Finset Edsp.Mem Edsp.Spec Edsp.Fourier

theorem cdft_ok {s m : List ℂ} {first n d : ℕ} (h0 : 0 < n) (h31 : n < 2147483648) (hs : first + n ≤ s.length)
    (hd : d + n ≤ m.length) :
    ∃ m', cdft s first (first + n) m d = .ok m' ∧
      Wrote m m' d (forward n (seg s first (first + n))) := by
  obtain ⟨m', h1, h2⟩ := cdft_exec h0 (Or.inl rfl) hs hd
  refine ⟨m', ?_, h2⟩
  simp only [cdft, distance_ok (Nat.le_add_right first n), bind, Except.bind, Nat.add_sub_cancel_left,
    make_ok h31, h1, pure, Except.pure]

theorem cidft_ok {s m : List ℂ} {first n d : ℕ} (h0 : 0 < n) (h31 : n < 2147483648) (hs : first + n ≤ s.length)
    (hd : d + n ≤ m.length) :
    ∃ m', cidft s first (first + n) m d = .ok m' ∧
      Wrote m m' d ((backward n (seg s first (first + n))).map fun v => v / (n : ℂ)) := by
  obtain ⟨m1, h1, h2⟩ := cidft_exec h0 (Or.inl rfl) hs hd
  obtain ⟨m', h3, h4⟩ := idftScale_exec (n := n) (pl := some .backward) h2 (by simp [backward])
  refine ⟨m', ?_, h4⟩
  simp only [cidft, distance_ok (Nat.le_add_right first n), bind, Except.bind, Nat.add_sub_cancel_left,
    make_ok h31, h1, h3]

theorem dft_ok {s : List ℝ} {m : List ℂ} {first n d : ℕ} (h0 : 0 < n) (h31 : n < 2147483648)
    (hs : first + n ≤ s.length) (hd : d + (n / 2 + 1) ≤ m.length) :
    ∃ m', dft s first (first + n) m d = .ok m' ∧ Wrote m m' d (r2c n (seg s first (first + n))) := by
  obtain ⟨m', h1, h2⟩ := dft_exec h0 (Or.inl rfl) hs hd
  refine ⟨m', ?_, h2⟩
  simp only [dft, distance_ok (Nat.le_add_right first n), bind, Except.bind, Nat.add_sub_cancel_left,
    make_ok h31, h1, pure, Except.pure]

theorem idft_ok {s : List ℂ} {m : List ℝ} {first h d : ℕ} (h0 : 0 < h) (h31 : 2 * h < 2147483648)
    (hs : first + (h + 1) ≤ s.length) (hd : d + 2 * h ≤ m.length) :
    ∃ m', idft s first (first + (h + 1)) m d = .ok m' ∧
      Wrote m m' d ((c2r (2 * h) (seg s first (first + (h + 1)))).map fun v => v / ((2 * h : ℕ) : ℝ)) := by
  have e1 : makeIfftSize ((h + 1 : ℕ) : ℤ) = ((2 * h : ℕ) : ℤ) := by unfold makeIfftSize; push_cast; ring
  have e2 : 2 * h / 2 + 1 = h + 1 := by omega
  obtain ⟨m1, h1, h2⟩ := idft_exec (n := 2 * h) (s := s) (p := first) (d := d) (m := m) (by omega)
    (Or.inl rfl) (by omega) (by omega)
  obtain ⟨m', h3, h4⟩ := idftScale_exec (n := 2 * h) (pl := some .c2r) h2 (by simp [c2r])
  rw [e2] at h4
  refine ⟨m', ?_, h4⟩
  simp only [idft, distance_ok (Nat.le_add_right first (h + 1)), bind, Except.bind,
    Nat.add_sub_cancel_left, e1, make_ok h31, h1, h3]

/-- C45: the complex transform stores the `n` bins of the sequence and nothing else. -/
theorem C45_cdft {s m : List ℂ} {first n d : ℕ} (h0 : 0 < n) (h31 : n < 2147483648)
    (hs : first + n ≤ s.length) (hd : d + n ≤ m.length) :
    ∃ m', cdft s first (first + n) m d = .ok m' ∧
      Wrote m m' d ((List.range n).map (bin (seg s first (first + n)))) := by
  obtain ⟨m', h1, h2⟩ := cdft_ok h0 h31 hs hd
  refine ⟨m', h1, ?_⟩
  have e : (List.range n).map (bin (seg s first (first + n))) = forward n (seg s first (first + n)) := by
    rw [forward_eq]
    refine List.map_congr_left fun k _ => ?_
    rw [bin_eq, seg_length hs, Nat.add_sub_cancel_left]
  rw [e]
  exact h2

/-- C45: the real transform of `n` samples stores the first `n/2 + 1` bins and nothing else. -/
theorem C45_dft {s : List ℝ} {m : List ℂ} {first n d : ℕ} (h0 : 0 < n) (h31 : n < 2147483648)
    (hs : first + n ≤ s.length) (hd : d + (n / 2 + 1) ≤ m.length) :
    ∃ m', dft s first (first + n) m d = .ok m' ∧
      Wrote m m' d ((List.range (n / 2 + 1)).map (bin (ofReals (seg s first (first + n))))) := by
  obtain ⟨m', h1, h2⟩ := dft_ok h0 h31 hs hd
  refine ⟨m', h1, ?_⟩
  have e : (List.range (n / 2 + 1)).map (bin (ofReals (seg s first (first + n)))) =
      r2c n (seg s first (first + n)) := by
    rw [r2c_eq]
    refine List.map_congr_left fun k _ => ?_
    rw [bin_ofReals, seg_length hs, Nat.add_sub_cancel_left]
  rw [e]
  exact h2

/-- C45: the number of bins promised by `make_fft_size` is the number stored by `dft`. -/
theorem C45_bins (n : ℕ) : makeFftSize n = ((n / 2 + 1 : ℕ) : ℤ) := by
  unfold makeFftSize
  rw [Int.tdiv_eq_ediv_of_nonneg (by omega)]
  push_cast
  rfl

/-- The bins left out by the real transform are the conjugates of those stored. -/
theorem C45_redundant {x : List ℝ} (h0 : 0 < x.length) {k : ℕ} (hk : k ≤ x.length) :
    bin (ofReals x) (x.length - k) = (starRingEnd ℂ) (bin (ofReals x) k) := by
  rw [bin_ofReals, bin_ofReals, F_herm (by omega) x hk]

/-- C45: the inverse complex transform of the complex transform is the sequence. -/
theorem C45_cidft_cdft {s m m2 : List ℂ} {first n d d2 : ℕ} (h0 : 0 < n) (h31 : n < 2147483648)
    (hs : first + n ≤ s.length) (hd : d + n ≤ m.length) (hd2 : d2 + n ≤ m2.length) :
    ∃ X m', cdft s first (first + n) m d = .ok X ∧ cidft X d (d + n) m2 d2 = .ok m' ∧
      Wrote m2 m' d2 (seg s first (first + n)) := by
  obtain ⟨X, h1, w1⟩ := cdft_ok h0 h31 hs hd
  have hl := wrote_length w1
  obtain ⟨m', h2, w2⟩ := cidft_ok (s := X) (first := d) (d := d2) (m := m2) h0 h31 (by omega) hd2
  refine ⟨X, m', h1, h2, ?_⟩
  have hX : seg X d (d + n) = forward n (seg s first (first + n)) := by
    have := wrote_seg w1
    rwa [forward_eq, List.length_map, List.length_range, ← forward_eq] at this
  rw [hX] at w2
  have hxl : (seg s first (first + n)).length = n := by rw [seg_length hs]; omega
  have : (backward n (forward n (seg s first (first + n)))).map (fun v => v / (n : ℂ)) =
      seg s first (first + n) := by
    generalize seg s first (first + n) = x at hxl
    have hn : (n : ℂ) ≠ 0 := Nat.cast_ne_zero.mpr (by omega)
    conv_rhs => rw [← map_range_getD 0 x, hxl]
    rw [backward_eq, List.map_map]
    refine List.map_congr_left fun j hj => ?_
    have hj := List.mem_range.mp hj
    rw [Function.comp, B_congr (g := F n fun j => x.getD j 0), B_F (by omega) _ hj]
    · field_simp
    · intro k hk
      rw [forward_eq, getD_map_range _ _ hk]
  rwa [this] at w2

/-- C45: the complex transform of the inverse complex transform is the spectrum. -/
theorem C45_cdft_cidft {s m m2 : List ℂ} {first n d d2 : ℕ} (h0 : 0 < n) (h31 : n < 2147483648)
    (hs : first + n ≤ s.length) (hd : d + n ≤ m.length) (hd2 : d2 + n ≤ m2.length) :
    ∃ x m', cidft s first (first + n) m d = .ok x ∧ cdft x d (d + n) m2 d2 = .ok m' ∧
      Wrote m2 m' d2 (seg s first (first + n)) := by
  obtain ⟨X, h1, w1⟩ := cidft_ok h0 h31 hs hd
  have hl := wrote_length w1
  obtain ⟨m', h2, w2⟩ := cdft_ok (s := X) (first := d) (d := d2) (m := m2) h0 h31 (by omega) hd2
  refine ⟨X, m', h1, h2, ?_⟩
  have hX : seg X d (d + n) = (backward n (seg s first (first + n))).map fun v => v / (n : ℂ) := by
    have := wrote_seg w1
    rwa [List.length_map, backward_eq, List.length_map, List.length_range, ← backward_eq] at this
  rw [hX] at w2
  have hxl : (seg s first (first + n)).length = n := by rw [seg_length hs]; omega
  have : forward n ((backward n (seg s first (first + n))).map fun v => v / (n : ℂ)) =
      seg s first (first + n) := by
    generalize seg s first (first + n) = x at hxl
    have hn : (n : ℂ) ≠ 0 := Nat.cast_ne_zero.mpr (by omega)
    conv_rhs => rw [← map_range_getD 0 x, hxl]
    rw [forward_eq]
    refine List.map_congr_left fun k hk => ?_
    have hk := List.mem_range.mp hk
    rw [F_congr (g := fun j => B n (fun j => x.getD j 0) j * (n : ℂ)⁻¹)]
    · have : F n (fun j => B n (fun j => x.getD j 0) j * (n : ℂ)⁻¹) k =
          F n (B n fun j => x.getD j 0) k * (n : ℂ)⁻¹ := by
        unfold F
        rw [sum_mul]
        refine sum_congr rfl fun j _ => ?_
        ring
      rw [this, F_B (by omega) _ hk]
      field_simp
    · intro j hj
      rw [backward_eq, List.map_map, getD_map_range _ _ hj]
      simp only [Function.comp, div_eq_mul_inv]
  rwa [this] at w2

theorem re_B_F {n : ℕ} (h : n ≠ 0) (x : List ℝ) {j : ℕ} (hj : j < n) :
    (B n (F n fun j => ((x.getD j 0 : ℝ) : ℂ)) j).re / (n : ℝ) = x.getD j 0 := by
  rw [re_F_div n _ _ (B_F h (fun j => ((x.getD j 0 : ℝ) : ℂ)) hj)]
  have hn : (n : ℝ) ≠ 0 := Nat.cast_ne_zero.mpr h
  field_simp

/-- C45, even lengths: the inverse real transform of the real transform is the sequence.  The full claim is
this one for every length; it fails for odd lengths (`C45_odd_violates`, `C45_one_violates`). -/
theorem C45_idft_dft_partial {s m2 : List ℝ} {m : List ℂ} {first h d d2 : ℕ} (h0 : 0 < h)
    (h31 : 2 * h < 2147483648) (hs : first + 2 * h ≤ s.length) (hd : d + (h + 1) ≤ m.length)
    (hd2 : d2 + 2 * h ≤ m2.length) :
    ∃ X m', dft s first (first + 2 * h) m d = .ok X ∧ idft X d (d + (h + 1)) m2 d2 = .ok m' ∧
      Wrote m2 m' d2 (seg s first (first + 2 * h)) := by
  have e2 : 2 * h / 2 + 1 = h + 1 := by omega
  obtain ⟨X, h1, w1⟩ := dft_ok (n := 2 * h) (s := s) (m := m) (d := d) (by omega) h31 hs (by omega)
  have hl := wrote_length w1
  obtain ⟨m', h2, w2⟩ := idft_ok (s := X) (first := d) (d := d2) (m := m2) h0 h31 (by omega) hd2
  refine ⟨X, m', h1, h2, ?_⟩
  have hX : seg X d (d + (h + 1)) = r2c (2 * h) (seg s first (first + 2 * h)) := by
    have := wrote_seg w1
    rwa [r2c_eq, List.length_map, List.length_range, ← r2c_eq, e2] at this
  rw [hX] at w2
  have hxl : (seg s first (first + 2 * h)).length = 2 * h := by rw [seg_length hs]; omega
  have : (c2r (2 * h) (r2c (2 * h) (seg s first (first + 2 * h)))).map
      (fun v => v / ((2 * h : ℕ) : ℝ)) = seg s first (first + 2 * h) := by
    generalize seg s first (first + 2 * h) = x at hxl
    conv_rhs => rw [← map_range_getD 0 x, hxl]
    rw [r2c_eq, c2r_eq (F_zero_herm (by omega) x) (fun k _ hk => F_herm (by omega) x (by omega)),
      List.map_map]
    refine List.map_congr_left fun j hj => ?_
    exact re_B_F (by omega) x (List.mem_range.mp hj)
  rwa [this] at w2

/-- C45, odd lengths from 3 on: the inverse real transform of the real transform stores one sample less than
the sequence has; the last cell keeps what it held. -/
theorem C45_odd_violates {s m2 : List ℝ} {m : List ℂ} {first h d d2 : ℕ} (h0 : 0 < h)
    (h31 : 2 * h + 1 < 2147483648) (hs : first + (2 * h + 1) ≤ s.length) (hd : d + (h + 1) ≤ m.length)
    (hd2 : d2 + (2 * h + 1) ≤ m2.length) :
    ∃ X m', dft s first (first + (2 * h + 1)) m d = .ok X ∧ idft X d (d + (h + 1)) m2 d2 = .ok m' ∧
      m'[d2 + 2 * h]? = m2[d2 + 2 * h]? ∧
      makeIfftSize (makeFftSize ((2 * h + 1 : ℕ) : ℤ)) ≠ ((2 * h + 1 : ℕ) : ℤ) := by
  obtain ⟨X, h1, w1⟩ := dft_ok (n := 2 * h + 1) (s := s) (m := m) (d := d) (by omega) h31 hs (by omega)
  have hl := wrote_length w1
  obtain ⟨m', h2, w2⟩ := idft_ok (s := X) (first := d) (d := d2) (m := m2) h0 (by omega) (by omega)
    (by omega)
  refine ⟨X, m', h1, h2, ?_, ?_⟩
  · apply (wrote_iff.mp w2).2.2.2
    right
    simp [c2r]
  · rw [C45_bins]
    unfold makeIfftSize
    omega

/-- C45, length 1: the inverse real transform of the single bin is asked for a transform of size 0. -/
theorem C45_one_violates (v : ℝ) (w : ℂ) (u : ℝ) :
    ∃ X, dft [v] 0 1 [w] 0 = .ok X ∧ idft X 0 1 [u] 0 = .error .badHandle := by
  obtain ⟨X, h1, w1⟩ := dft_ok (s := [v]) (m := [w]) (first := 0) (n := 1) (d := 0) (by omega) (by omega)
    (by simp) (by simp)
  refine ⟨X, h1, ?_⟩
  have e1 : makeIfftSize 1 = ((0 : ℕ) : ℤ) := rfl
  simp only [idft, distance_ok (Nat.zero_le 1), bind, Except.bind, Nat.sub_zero, Nat.cast_one, e1,
    make_ok (by omega : 0 < 2147483648), Engine.idft, Engine.prepare]
  rfl

/-- C45: the sizes are inverse to each other exactly for the even lengths. -/
theorem C45_sizes (n : ℕ) : makeIfftSize (makeFftSize n) = n ↔ n % 2 = 0 := by
  rw [C45_bins]
  unfold makeIfftSize
  omega

/-- C45: the real transform of the inverse real transform is the half spectrum, provided its first and last
bins are real (`C45_imaginary_violates` otherwise). -/
theorem C45_dft_idft_partial {s m2 : List ℂ} {m : List ℝ} {first h d d2 : ℕ} (h0 : 0 < h)
    (h31 : 2 * h < 2147483648) (hs : first + (h + 1) ≤ s.length) (hd : d + 2 * h ≤ m.length)
    (hd2 : d2 + (h + 1) ≤ m2.length)
    (hz : ∀ v, s[first]? = some v → v.im = 0) (hl : ∀ v, s[first + h]? = some v → v.im = 0) :
    ∃ x m', idft s first (first + (h + 1)) m d = .ok x ∧ dft x d (d + 2 * h) m2 d2 = .ok m' ∧
      Wrote m2 m' d2 (seg s first (first + (h + 1))) := by
  have e2 : 2 * h / 2 + 1 = h + 1 := by omega
  obtain ⟨x, h1, w1⟩ := idft_ok (s := s) (m := m) (d := d) h0 h31 hs hd
  have hxlen := wrote_length w1
  obtain ⟨m', h2, w2⟩ := dft_ok (n := 2 * h) (s := x) (first := d) (d := d2) (m := m2) (by omega) h31
    (by omega) (by omega)
  refine ⟨x, m', h1, h2, ?_⟩
  have hX : seg x d (d + 2 * h) =
      (c2r (2 * h) (seg s first (first + (h + 1)))).map fun v => v / ((2 * h : ℕ) : ℝ) := by
    have := wrote_seg w1
    rwa [List.length_map, c2r, List.length_map, List.length_range, ← c2r] at this
  rw [hX] at w2
  have hyl : (seg s first (first + (h + 1))).length = h + 1 := by rw [seg_length hs]; omega
  have hy0 : ((seg s first (first + (h + 1))).getD 0 0).im = 0 := by
    rw [List.getD, seg_getElem?, if_pos (by omega), Nat.add_zero, List.getElem?_eq_getElem (by omega)]
    exact hz _ (List.getElem?_eq_getElem (by omega))
  have hyh : ((seg s first (first + (h + 1))).getD h 0).im = 0 := by
    rw [List.getD, seg_getElem?, if_pos (by omega), List.getElem?_eq_getElem (by omega)]
    exact hl _ (List.getElem?_eq_getElem (by omega))
  have : r2c (2 * h) ((c2r (2 * h) (seg s first (first + (h + 1)))).map
      fun v => v / ((2 * h : ℕ) : ℝ)) = seg s first (first + (h + 1)) := by
    generalize seg s first (first + (h + 1)) = y at hyl hy0 hyh
    have hN : ((2 * h : ℕ) : ℂ) ≠ 0 := Nat.cast_ne_zero.mpr (by omega)
    conv_rhs => rw [← map_range_getD 0 y, hyl]
    rw [r2c_eq, e2]
    refine List.map_congr_left fun k hk => ?_
    have hk := List.mem_range.mp hk
    have herm : ∀ j, (starRingEnd ℂ) (B (2 * h) (hermitian (2 * h) y) j) =
        B (2 * h) (hermitian (2 * h) y) j := by
      apply B_hermitian_conj (by omega)
      · simp only [hermitian, true_or, if_true, conj_ofReal]
      · intro k h1 h2
        unfold hermitian
        by_cases hc : 2 * k = 2 * h
        · rw [if_pos (Or.inr hc), if_pos (Or.inr (by omega)), conj_ofReal]
          have : 2 * h - k = k := by omega
          rw [this]
        · rw [if_neg (by omega), if_neg (by omega : ¬ (2 * h - k = 0 ∨ 2 * (2 * h - k) = 2 * h))]
          by_cases hlt : 2 * k < 2 * h
          · rw [if_pos hlt, if_neg (by omega)]
            have : 2 * h - (2 * h - k) = k := by omega
            rw [this]
          · rw [if_neg hlt, if_pos (by omega), Complex.conj_conj]
    rw [F_congr (g := fun j => B (2 * h) (hermitian (2 * h) y) j * ((2 * h : ℕ) : ℂ)⁻¹)]
    · have e3 : F (2 * h) (fun j => B (2 * h) (hermitian (2 * h) y) j * ((2 * h : ℕ) : ℂ)⁻¹) k =
          F (2 * h) (B (2 * h) (hermitian (2 * h) y)) k * ((2 * h : ℕ) : ℂ)⁻¹ := by
        unfold F
        rw [sum_mul]
        refine sum_congr rfl fun j _ => ?_
        ring
      rw [e3, F_B (by omega) _ (by omega)]
      have : hermitian (2 * h) y k = y.getD k 0 := by
        unfold hermitian
        split
        · rename_i hc
          apply Complex.conj_eq_iff_re.mp
          apply Complex.conj_eq_iff_im.mpr
          rcases hc with rfl | hc
          · exact hy0
          · have : k = h := by omega
            rw [this]; exact hyh
        · rw [if_pos (by omega)]
      rw [this]
      field_simp
    · intro j hj
      rw [c2r, List.map_map, getD_map_range _ _ hj]
      have := Complex.conj_eq_iff_re.mp (herm j)
      unfold B at this ⊢
      rw [Function.comp, ofReal_div, this, div_eq_mul_inv, ofReal_natCast]
  rwa [this] at w2

/-- C45: a half spectrum whose first bin is not real is not recovered. -/
theorem C45_imaginary_violates :
    ∃ x X, idft [I, 0] 0 2 [0, 0] 0 = .ok x ∧ dft x 0 2 [0, 0] 0 = .ok X ∧ X ≠ [I, 0] := by
  obtain ⟨x, h1, w1⟩ := idft_ok (s := [I, 0]) (m := [0, 0]) (first := 0) (h := 1) (d := 0) (by omega)
    (by omega) (by simp) (by simp)
  have hx : x = [0, 0] := by
    rw [wrote_full w1 (by simp [c2r])]
    have hr : List.range 2 = [0, 1] := rfl
    have hseg : seg [I, 0] 0 (0 + (1 + 1)) = [I, 0] := rfl
    rw [hseg]
    simp [c2r, hr, Finset.sum_range_succ, hermitian, List.getD]
  subst hx
  obtain ⟨X, h2, w2⟩ := dft_ok (s := [0, 0]) (m := [0, 0]) (first := 0) (n := 2) (d := 0) (by omega)
    (by omega) (by simp) (by simp)
  refine ⟨_, X, h1, h2, ?_⟩
  rw [wrote_full w2 (by simp [r2c])]
  have hr : List.range 2 = [0, 1] := rfl
  have hseg : seg [(0:ℝ), 0] 0 (0 + 2) = [0, 0] := rfl
  rw [hseg]
  intro e
  simp [r2c, hr, Finset.sum_range_succ, List.getD] at e
  exact I_ne_zero e.symm

/-- The empty sequence: there is no plan of size 0, so `cdft` of an empty range faults. -/
theorem C45_empty (s m : List ℂ) (p d : ℕ) : cdft s p p m d = .error .badHandle := by
  simp only [cdft, distance_ok (Nat.le_refl p), bind, Except.bind, Nat.sub_self,
    make_ok (by omega : 0 < 2147483648), Engine.cdft, Engine.prepare]
  rfl

/-! ### Concrete cases -/

example : ∃ X m', cdft [1, I, -1] 0 3 [0, 0, 0] 0 = .ok X ∧ cidft X 0 3 [0, 0, 0] 0 = .ok m' ∧
    Wrote [0, 0, 0] m' 0 (seg [1, I, -1] 0 3) :=
  C45_cidft_cdft (first := 0) (n := 3) (d := 0) (d2 := 0) (by omega) (by omega) (by simp) (by simp) (by simp)

example : ∃ X m', dft [1, 2, 3, 4] 0 4 [0, 0, 0] 0 = .ok X ∧ idft X 0 3 [9, 9, 9, 9, 9] 0 = .ok m' ∧
    Wrote [9, 9, 9, 9, 9] m' 0 (seg [1, 2, 3, 4] 0 4) :=
  C45_idft_dft_partial (first := 0) (h := 2) (d := 0) (d2 := 0) (by omega) (by omega) (by simp) (by simp)
    (by simp)

example : ∃ X m', dft [1, 2, 3] 0 3 [0, 0] 0 = .ok X ∧ idft X 0 2 [7, 7, 7] 0 = .ok m' ∧
    m'[2]? = some 7 := by
  obtain ⟨X, m', h1, h2, h3, _⟩ := C45_odd_violates (s := [1, 2, 3]) (m := [0, 0]) (m2 := [7, 7, 7])
    (first := 0) (h := 1) (d := 0) (d2 := 0) (by omega) (by omega) (by simp) (by simp) (by simp)
  exact ⟨X, m', h1, h2, h3⟩

end Edsp.Spectral
