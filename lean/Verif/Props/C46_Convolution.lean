import Verif.Lemmas.Spectral
import Mathlib.Algebra.BigOperators.Field
import Mathlib.Tactic.Linarith

/-!
# C46: convolution and correlation
-/

namespace Edsp.Spectral

open Complex Finset Edsp.Mem Edsp.Spec Edsp.Fourier

/-- The zero-padded buffer holds the range followed by zeros. -/
theorem padded_ok {m : List ℝ} {first n : ℕ} (h : first + n ≤ m.length) :
    ∃ b, padded m first (first + n) (2 * n) = .ok b ∧ b.length = 2 * n ∧
      ∀ j, b.getD j 0 = (seg m first (first + n)).getD j 0 := by
  have hl : (seg m first (first + n)).length = n := by rw [seg_length h]; omega
  obtain ⟨b, h1, h2⟩ := store_ok (seg m first (first + n)) (List.replicate (2 * n) (0 : ℝ)) 0
    (by simp; omega)
  refine ⟨b, ?_, by simpa using wrote_length h2, ?_⟩
  · simp only [padded, readRange_ok (Nat.le_add_right first n) h, bind, Except.bind, h1]
  · intro j
    rw [h2.2]
    simp only [List.take_zero, List.nil_append, Nat.zero_add, List.drop_replicate, hl]
    rcases Nat.lt_or_ge j n with hj | hj
    · rw [List.getD, List.getD, List.getElem?_append_left (by omega)]
    · rw [List.getD, List.getD, List.getElem?_append_right (by omega),
        List.getElem?_eq_none (l := seg m first (first + n)) (by omega), List.getElem?_replicate]
      split <;> rfl

theorem r2c_padded {N : ℕ} {b x : List ℝ} (hb : ∀ j, b.getD j 0 = x.getD j 0) :
    r2c N b = (List.range (N / 2 + 1)).map (F N fun j => ((x.getD j 0 : ℝ) : ℂ)) := by
  rw [r2c_eq]
  simp only [hb]

theorem zipWith_map_range {α β γ : Type} (f : α → β → γ) (g : ℕ → α) (h : ℕ → β) (n : ℕ) :
    List.zipWith f ((List.range n).map g) ((List.range n).map h) =
      (List.range n).map fun k => f (g k) (h k) := by
  apply List.ext_getElem
  · simp
  · intro i h1 h2
    simp

/-- One forward transform of a padded buffer into a fresh array of bins. -/
theorem fresh_dft {n : ℕ} (h0 : 0 < n) {pl : Option Kind} (hp : pl = none ∨ pl = some .r2c)
    {b x : List ℝ} (hb : b.length = 2 * n) (hx : ∀ j, b.getD j 0 = x.getD j 0) :
    Engine.dft ⟨(2 * n : ℕ), pl⟩ b 0 (List.replicate (n + 1) 0) 0 =
      .ok (⟨(2 * n : ℕ), some .r2c⟩,
        (List.range (n + 1)).map (F (2 * n) fun j => ((x.getD j 0 : ℝ) : ℂ))) := by
  have e2 : 2 * n / 2 + 1 = n + 1 := by omega
  obtain ⟨X, h1, w⟩ := dft_exec (n := 2 * n) (s := b) (m := List.replicate (n + 1) 0) (p := 0) (d := 0)
    (by omega) hp (by omega) (by simp)
  rw [h1, wrote_full w (by simp [r2c]), ← hb, seg_all, hb, r2c_padded hx, e2]

/-- The inverse transform into a fresh array. -/
theorem fresh_idft {n : ℕ} (h0 : 0 < n) {g : ℕ → ℂ} (hz : (starRingEnd ℂ) (g 0) = g 0)
    (hg : ∀ k, 0 < k → k < 2 * n → (starRingEnd ℂ) (g k) = g (2 * n - k)) :
    Engine.idft ⟨(2 * n : ℕ), none⟩ ((List.range (n + 1)).map g) 0 (List.replicate (2 * n) 0) 0 =
      .ok (⟨(2 * n : ℕ), some .c2r⟩, (List.range (2 * n)).map fun j => (B (2 * n) g j).re) := by
  have e2 : 2 * n / 2 + 1 = n + 1 := by omega
  obtain ⟨X, h1, w⟩ := idft_exec (n := 2 * n) (s := (List.range (n + 1)).map g)
    (m := List.replicate (2 * n) 0) (p := 0) (d := 0) (by omega) (Or.inl rfl) (by simp) (by simp)
  have hs : seg ((List.range (n + 1)).map g) 0 (0 + (2 * n / 2 + 1)) =
      (List.range (2 * n / 2 + 1)).map g := by
    rw [e2]
    have := seg_all ((List.range (n + 1)).map g)
    rwa [List.length_map, List.length_range] at this
  rw [hs, c2r_eq hz hg] at w
  rw [h1, wrote_full w (by simp)]

theorem bins_toNat (n : ℕ) : (makeFftSize ((2 * n : ℕ) : ℤ)).toNat = n + 1 := by
  unfold makeFftSize
  rw [Int.tdiv_eq_ediv_of_nonneg (by omega)]
  omega

theorem readRange_take {α : Type} (f : ℕ → α) (n : ℕ) :
    readRange ((List.range (2 * n)).map f) 0 n = .ok ((List.range n).map f) := by
  rw [readRange_ok (Nat.zero_le n) (by simp; omega)]
  congr 1
  unfold seg
  rw [List.drop_zero, Nat.sub_zero, ← List.map_take, List.take_range]
  congr 2
  omega

/-- The whole of `conv`, for two ranges and a destination anywhere in the block. -/
theorem conv_ok {m : List ℝ} {f1 f2 n d : ℕ} (h0 : 0 < n) (h31 : 2 * n < 2147483648)
    (h1 : f1 + n ≤ m.length) (h2 : f2 + n ≤ m.length) (hd : d + n ≤ m.length) :
    ∃ m', conv m f1 (f1 + n) f2 d = .ok m' ∧
      Wrote m m' d ((List.range n).map (convolution (seg m f1 (f1 + n)) (seg m f2 (f2 + n)))) := by
  have hl1 : (seg m f1 (f1 + n)).length = n := by rw [seg_length h1]; omega
  have hl2 : (seg m f2 (f2 + n)).length = n := by rw [seg_length h2]; omega
  obtain ⟨b1, p1, l1, g1⟩ := padded_ok h1
  obtain ⟨b2, p2, l2, g2⟩ := padded_ok h2
  generalize seg m f1 (f1 + n) = x at *
  generalize seg m f2 (f2 + n) = y at *
  have hN : 2 * n ≠ 0 := by omega
  obtain ⟨m', w1, w2⟩ := store_ok ((List.range n).map (convolution x y)) m d (by simpa using hd)
  refine ⟨m', ?_, w2⟩
  obtain ⟨o, s1, s2⟩ := idftScale_exec (n := 2 * n) (d := 0) (pl := some .c2r)
    (wrote_self (m := (List.range (2 * n)).map fun j =>
      (B (2 * n) (fun k => F (2 * n) (fun j => ((x.getD j 0 : ℝ) : ℂ)) k *
        F (2 * n) (fun j => ((y.getD j 0 : ℝ) : ℂ)) k) j).re) (d := 0) (e := 2 * n) (by omega) (by simp))
    (by rw [seg_length (by simp)]; rfl)
  have ho : o = (List.range (2 * n)).map fun j =>
      (B (2 * n) (fun k => F (2 * n) (fun j => ((x.getD j 0 : ℝ) : ℂ)) k *
        F (2 * n) (fun j => ((y.getD j 0 : ℝ) : ℂ)) k) j).re / ((2 * n : ℕ) : ℝ) := by
    have sa : ∀ f : ℕ → ℝ, seg ((List.range (2 * n)).map f) 0 (2 * n) = (List.range (2 * n)).map f := by
      intro f
      have := seg_all ((List.range (2 * n)).map f)
      rwa [List.length_map, List.length_range, Nat.zero_add] at this
    rw [sa] at s2
    rw [wrote_full s2 (by simp), List.map_map]
    rfl
  have hr : (List.range n).map (fun j =>
      (B (2 * n) (fun k => F (2 * n) (fun j => ((x.getD j 0 : ℝ) : ℂ)) k *
        F (2 * n) (fun j => ((y.getD j 0 : ℝ) : ℂ)) k) j).re / ((2 * n : ℕ) : ℝ)) =
      (List.range n).map (convolution x y) := by
    refine List.map_congr_left fun j hj => ?_
    rw [re_F_div (2 * n) _ (convolution x y j)]
    · have : ((2 * n : ℕ) : ℝ) ≠ 0 := Nat.cast_ne_zero.mpr hN
      field_simp
    · rw [B_mul hN, circ_conv hl1 hl2 (List.mem_range.mp hj)]
  have hin := fresh_idft (g := fun k => F (2 * n) (fun j => ((x.getD j 0 : ℝ) : ℂ)) k *
        F (2 * n) (fun j => ((y.getD j 0 : ℝ) : ℂ)) k) h0
    (by rw [map_mul, F_zero_herm hN, F_zero_herm hN])
    (fun k _ hk => by rw [map_mul, F_herm hN x (by omega), F_herm hN y (by omega)])
  have ef1 := fresh_dft h0 (Or.inl rfl) l1 g1
  have ef2 := fresh_dft h0 (Or.inr rfl) l2 g2
  have hd1 : distance f1 (f1 + n) = .ok n := by
    rw [distance_ok (Nat.le_add_right f1 n), Nat.add_sub_cancel_left]
  unfold conv
  rw [hd1]
  simp only [bind, Except.bind, show ¬ ¬ n > 0 from fun h => h h0, if_false,
    make_ok h31, p1, p2, bins_toNat, ef1, ef2, zipWith_map_range, hin, s1]
  rw [ho, readRange_take]
  simp only [hr, w1]

/-- C46: `conv` of two ranges of `n` samples stores the first `n` samples of their convolution and nothing
else, wherever the three ranges lie. -/
theorem C46_conv {m : List ℝ} {f1 f2 n d : ℕ} (h0 : 0 < n) (h31 : 2 * n < 2147483648)
    (h1 : f1 + n ≤ m.length) (h2 : f2 + n ≤ m.length) (hd : d + n ≤ m.length) :
    ∃ m', conv m f1 (f1 + n) f2 d = .ok m' ∧
      Wrote m m' d ((List.range n).map (convolution (seg m f1 (f1 + n)) (seg m f2 (f2 + n)))) :=
  conv_ok h0 h31 h1 h2 hd

/-- An empty first range is rejected. -/
theorem C46_empty (m : List ℝ) (p f2 d : ℕ) : conv m p p f2 d = .error .assertion := by
  unfold conv
  rw [distance_ok (Nat.le_refl p), Nat.sub_self]
  rfl

theorem make_limit {n : ℕ} (h : 2147483648 ≤ n) : Engine.make n = .error .overflow := by
  unfold Engine.make FitsInt
  rw [if_neg (by omega)]

/-- **C46 is false for long frames**: the transforms have twice the size of a frame, and from 2^30 samples on this does not
fit the `int` of the engine, although the frame itself can still be transformed. -/
theorem C46_long_violates {m : List ℝ} {f1 f2 n d : ℕ} (scale : Scale) (h : 1073741824 ≤ n) :
    conv m f1 (f1 + n) f2 d = .error .overflow ∧ xcorr m f1 (f1 + n) f2 d scale = .error .overflow ∧
    autocorr m f1 (f1 + n) d scale = .error .overflow := by
  have hp : ¬ ¬ n > 0 := by omega
  have hm : Engine.make ((2 * n : ℕ) : ℤ) = .error .overflow := make_limit (by omega)
  have hd : f1 + n - f1 = n := by omega
  refine ⟨?_, ?_, ?_⟩
  · unfold conv
    rw [distance_ok (by omega), hd]
    simp only [bind, Except.bind, hm, if_neg hp]
  · unfold xcorr
    rw [distance_ok (by omega), hd]
    simp only [bind, Except.bind, hm, if_neg hp]
  · unfold autocorr
    rw [distance_ok (by omega), hd]
    simp only [bind, Except.bind, hm, if_neg hp]

/-- The transform itself is limited to frames of less than 2^31 samples. -/
theorem C46_dft_long_violates {s : List ℝ} {m : List ℂ} {first n d : ℕ} (h : 2147483648 ≤ n) :
    dft s first (first + n) m d = .error .overflow := by
  have hm : Engine.make ((n : ℕ) : ℤ) = .error .overflow := make_limit h
  unfold dft
  rw [distance_ok (by omega), show first + n - first = n by omega]
  simp only [bind, Except.bind, hm]

example : conv ([] : List ℝ) 0 1073741824 0 0 = .error .overflow := by
  simpa using (C46_long_violates (m := []) (f1 := 0) (f2 := 0) (d := 0) .none (le_refl 1073741824)).1

theorem convolution_comm (x y : List ℝ) (m : ℕ) : convolution x y m = convolution y x m := by
  unfold convolution
  rw [← sum_range_reflect]
  refine sum_congr rfl fun i hi => ?_
  have hi := mem_range.mp hi
  have e1 : m + 1 - 1 - i = m - i := by omega
  have e2 : m - (m - i) = i := by omega
  rw [e1, e2, mul_comm]

/-- C46: swapping the two ranges does not change the result. -/
theorem C46_comm {m : List ℝ} {f1 f2 n d : ℕ} (h0 : 0 < n) (h31 : 2 * n < 2147483648)
    (h1 : f1 + n ≤ m.length) (h2 : f2 + n ≤ m.length) (hd : d + n ≤ m.length) :
    conv m f1 (f1 + n) f2 d = conv m f2 (f2 + n) f1 d := by
  obtain ⟨a, ha, wa⟩ := conv_ok h0 h31 h1 h2 hd
  obtain ⟨b, hb, wb⟩ := conv_ok h0 h31 h2 h1 hd
  rw [ha, hb]
  have : convolution (seg m f2 (f2 + n)) (seg m f1 (f1 + n)) =
      convolution (seg m f1 (f1 + n)) (seg m f2 (f2 + n)) := funext fun j => convolution_comm _ _ j
  rw [this] at wb
  rw [wrote_unique wa wb]

/-- C46: convolution with the unit impulse is the identity. -/
theorem C46_impulse {m : List ℝ} {f1 f2 n d : ℕ} (h0 : 0 < n) (h31 : 2 * n < 2147483648)
    (h1 : f1 + n ≤ m.length) (h2 : f2 + n ≤ m.length) (hd : d + n ≤ m.length)
    (himp : seg m f2 (f2 + n) = 1 :: List.replicate (n - 1) 0) :
    ∃ m', conv m f1 (f1 + n) f2 d = .ok m' ∧ Wrote m m' d (seg m f1 (f1 + n)) := by
  obtain ⟨a, ha, wa⟩ := conv_ok h0 h31 h1 h2 hd
  refine ⟨a, ha, ?_⟩
  have hl : (seg m f1 (f1 + n)).length = n := by rw [seg_length h1]; omega
  rw [himp] at wa
  have : (List.range n).map (convolution (seg m f1 (f1 + n)) (1 :: List.replicate (n - 1) 0)) =
      seg m f1 (f1 + n) := by
    generalize seg m f1 (f1 + n) = x at hl
    conv_rhs => rw [← map_range_getD 0 x, hl]
    refine List.map_congr_left fun j _ => ?_
    unfold convolution
    rw [sum_range_succ, sum_eq_zero]
    · simp [List.getD]
    · intro i hi
      have hi := mem_range.mp hi
      obtain ⟨k, hk⟩ : ∃ k, j - i = k + 1 := ⟨j - i - 1, by omega⟩
      rw [hk, List.getD_cons_succ, List.getD_eq_getElem?_getD (l := List.replicate _ _), List.getElem?_replicate]
      split <;> simp
  rwa [this] at wa

/-- What `xcorr` stores: the correlations divided by `1` or, with the biased option, by `2n`. -/
noncomputable def stored (scale : Scale) (n : ℕ) (v : ℝ) : ℝ :=
  if scale = .biased then v / (2 * n) else v

theorem factor_eq (scale : Scale) {n : ℕ} (h0 : 0 < n) (v : ℝ) :
    ((2 * n : ℕ) * v) / (scale.factor (2 * n) : ℝ) = stored scale n v := by
  have hN : (n : ℝ) ≠ 0 := Nat.cast_ne_zero.mpr (by omega)
  unfold Scale.factor stored
  split
  · push_cast; field_simp
  · push_cast; field_simp

theorem xcorr_ok {m : List ℝ} {f1 f2 n d : ℕ} (scale : Scale) (h0 : 0 < n) (h31 : 2 * n < 2147483648)
    (h1 : f1 + n ≤ m.length) (h2 : f2 + n ≤ m.length) (hd : d + n ≤ m.length) :
    ∃ m', xcorr m f1 (f1 + n) f2 d scale = .ok m' ∧
      Wrote m m' d ((List.range n).map fun l =>
        stored scale n (correlation (seg m f1 (f1 + n)) (seg m f2 (f2 + n)) l)) := by
  have hl1 : (seg m f1 (f1 + n)).length = n := by rw [seg_length h1]; omega
  have hl2 : (seg m f2 (f2 + n)).length = n := by rw [seg_length h2]; omega
  obtain ⟨b1, p1, l1, g1⟩ := padded_ok h1
  obtain ⟨b2, p2, l2, g2⟩ := padded_ok h2
  generalize seg m f1 (f1 + n) = x at *
  generalize seg m f2 (f2 + n) = y at *
  have hN : 2 * n ≠ 0 := by omega
  obtain ⟨m', w1, w2⟩ := store_ok ((List.range n).map fun l => stored scale n (correlation x y l)) m d
    (by simpa using hd)
  refine ⟨m', ?_, w2⟩
  have hr : ((List.range n).map (fun j =>
      (B (2 * n) (fun k => F (2 * n) (fun j => ((x.getD j 0 : ℝ) : ℂ)) k *
        (starRingEnd ℂ) (F (2 * n) (fun j => ((y.getD j 0 : ℝ) : ℂ)) k)) j).re)).map
          (fun v => v / (scale.factor (2 * n) : ℝ)) =
      (List.range n).map fun l => stored scale n (correlation x y l) := by
    rw [List.map_map]
    refine List.map_congr_left fun j hj => ?_
    rw [Function.comp, re_F_div (2 * n) _ (correlation x y j)]
    · exact factor_eq scale h0 _
    · rw [B_mul_conj hN, circ_corr hl1 hl2 (List.mem_range.mp hj)]
  have hin := fresh_idft (g := fun k => F (2 * n) (fun j => ((x.getD j 0 : ℝ) : ℂ)) k *
        (starRingEnd ℂ) (F (2 * n) (fun j => ((y.getD j 0 : ℝ) : ℂ)) k)) h0
    (by rw [map_mul, F_zero_herm hN, Complex.conj_conj]; congr 1; rw [F_zero_herm hN])
    (fun k _ hk => by
      rw [map_mul, F_herm hN x (by omega), Complex.conj_conj]
      congr 1
      rw [← F_herm hN y (by omega), Complex.conj_conj])
  have ef1 := fresh_dft h0 (Or.inl rfl) l1 g1
  have ef2 := fresh_dft h0 (Or.inr rfl) l2 g2
  have hd1 : distance f1 (f1 + n) = .ok n := by
    rw [distance_ok (Nat.le_add_right f1 n), Nat.add_sub_cancel_left]
  unfold xcorr
  rw [hd1]
  simp only [bind, Except.bind, show ¬ ¬ n > 0 from fun h => h h0, if_false,
    make_ok h31, p1, p2, bins_toNat, ef1, ef2, zipWith_map_range, hin, readRange_take, hr, w1]

theorem autocorr_ok {m : List ℝ} {f1 n d : ℕ} (scale : Scale) (h0 : 0 < n) (h31 : 2 * n < 2147483648)
    (h1 : f1 + n ≤ m.length) (hd : d + n ≤ m.length) :
    ∃ m', autocorr m f1 (f1 + n) d scale = .ok m' ∧
      Wrote m m' d ((List.range n).map fun l =>
        stored scale n (correlation (seg m f1 (f1 + n)) (seg m f1 (f1 + n)) l)) := by
  have hl1 : (seg m f1 (f1 + n)).length = n := by rw [seg_length h1]; omega
  obtain ⟨b1, p1, l1, g1⟩ := padded_ok h1
  generalize seg m f1 (f1 + n) = x at *
  have hN : 2 * n ≠ 0 := by omega
  obtain ⟨m', w1, w2⟩ := store_ok ((List.range n).map fun l => stored scale n (correlation x x l)) m d
    (by simpa using hd)
  refine ⟨m', ?_, w2⟩
  have hr : ((List.range n).map (fun j =>
      (B (2 * n) (fun k => F (2 * n) (fun j => ((x.getD j 0 : ℝ) : ℂ)) k *
        (starRingEnd ℂ) (F (2 * n) (fun j => ((x.getD j 0 : ℝ) : ℂ)) k)) j).re)).map
          (fun v => v / (scale.factor (2 * n) : ℝ)) =
      (List.range n).map fun l => stored scale n (correlation x x l) := by
    rw [List.map_map]
    refine List.map_congr_left fun j hj => ?_
    rw [Function.comp, re_F_div (2 * n) _ (correlation x x j)]
    · exact factor_eq scale h0 _
    · rw [B_mul_conj hN, circ_corr hl1 hl1 (List.mem_range.mp hj)]
  have hin := fresh_idft (g := fun k => F (2 * n) (fun j => ((x.getD j 0 : ℝ) : ℂ)) k *
        (starRingEnd ℂ) (F (2 * n) (fun j => ((x.getD j 0 : ℝ) : ℂ)) k)) h0
    (by rw [map_mul, Complex.conj_conj, mul_comm])
    (fun k _ hk => by rw [map_mul, F_herm hN x (by omega)])
  have ef1 := fresh_dft h0 (Or.inl rfl) l1 g1
  have hd1 : distance f1 (f1 + n) = .ok n := by
    rw [distance_ok (Nat.le_add_right f1 n), Nat.add_sub_cancel_left]
  have hm : ((List.range (n + 1)).map (F (2 * n) fun j => ((x.getD j 0 : ℝ) : ℂ))).map
      (fun v => v * (starRingEnd ℂ) v) =
      (List.range (n + 1)).map fun k => F (2 * n) (fun j => ((x.getD j 0 : ℝ) : ℂ)) k *
        (starRingEnd ℂ) (F (2 * n) (fun j => ((x.getD j 0 : ℝ) : ℂ)) k) := by
    rw [List.map_map]
    rfl
  unfold autocorr
  rw [hd1]
  simp only [bind, Except.bind, show ¬ ¬ n > 0 from fun h => h h0, if_false,
    make_ok h31, p1, bins_toNat, ef1, hm, hin, readRange_take, hr, w1]

/-- C46: raw `xcorr` stores the lags 0, …, n-1 of the cross correlation and nothing else, wherever the three
ranges lie.  (The full claim covers the scaled estimates; see `C46_biased_violates` and
`C46_unbiased_violates`.) -/
theorem C46_xcorr_partial {m : List ℝ} {f1 f2 n d : ℕ} (h0 : 0 < n) (h31 : 2 * n < 2147483648)
    (h1 : f1 + n ≤ m.length) (h2 : f2 + n ≤ m.length) (hd : d + n ≤ m.length) :
    ∃ m', xcorr m f1 (f1 + n) f2 d .none = .ok m' ∧
      Wrote m m' d ((List.range n).map (correlation (seg m f1 (f1 + n)) (seg m f2 (f2 + n)))) :=
  xcorr_ok .none h0 h31 h1 h2 hd

/-- C46: raw autocorrelation. -/
theorem C46_autocorr_partial {m : List ℝ} {f1 n d : ℕ} (h0 : 0 < n) (h31 : 2 * n < 2147483648)
    (h1 : f1 + n ≤ m.length) (hd : d + n ≤ m.length) :
    ∃ m', autocorr m f1 (f1 + n) d .none = .ok m' ∧
      Wrote m m' d ((List.range n).map (correlation (seg m f1 (f1 + n)) (seg m f1 (f1 + n)))) :=
  autocorr_ok .none h0 h31 h1 hd

/-- C46: autocorrelation is cross correlation with itself, with every scale option. -/
theorem C46_auto_is_cross {m : List ℝ} {f1 n d : ℕ} (scale : Scale) (h0 : 0 < n)
    (h31 : 2 * n < 2147483648) (h1 : f1 + n ≤ m.length) (hd : d + n ≤ m.length) :
    autocorr m f1 (f1 + n) d scale = xcorr m f1 (f1 + n) f1 d scale := by
  obtain ⟨a, ha, wa⟩ := autocorr_ok scale h0 h31 h1 hd
  obtain ⟨b, hb, wb⟩ := xcorr_ok scale h0 h31 h1 h1 hd
  rw [ha, hb, wrote_unique wa wb]

/-- C46: the peak of the autocorrelation is at lag 0. -/
theorem C46_peak (x : List ℝ) (l : ℕ) : |correlation x x l| ≤ correlation x x 0 := by
  have key : ∀ s : ℝ, s * s = 1 → s * correlation x x l ≤ correlation x x 0 := by
    intro s hs
    unfold correlation
    have sq : ∀ k ≤ x.length, ∀ o, o + k ≤ x.length →
        ∑ j ∈ range k, x.getD (j + o) 0 * x.getD (j + o) 0 ≤
          ∑ j ∈ range x.length, x.getD j 0 * x.getD j 0 := by
      intro k _ o ho
      have : ∑ j ∈ range k, x.getD (j + o) 0 * x.getD (j + o) 0 =
          ∑ j ∈ (range k).map (addRightEmbedding o), x.getD j 0 * x.getD j 0 := by
        rw [sum_map]; rfl
      rw [this]
      refine sum_le_sum_of_subset_of_nonneg ?_ fun i _ _ => mul_self_nonneg _
      intro i hi
      simp only [mem_map, mem_range, addRightEmbedding_apply] at hi ⊢
      obtain ⟨a, ha, rfl⟩ := hi
      omega
    rcases Nat.lt_or_ge l x.length with hl | hl
    · have h1 := sq (x.length - l) (by omega) l (by omega)
      have h2 := sq (x.length - l) (by omega) 0 (by omega)
      simp only [Nat.add_zero, Nat.sub_zero] at h2 ⊢
      have : s * ∑ j ∈ range (x.length - l), x.getD (j + l) 0 * x.getD j 0 ≤
          ∑ j ∈ range (x.length - l),
            (x.getD (j + l) 0 * x.getD (j + l) 0 + x.getD j 0 * x.getD j 0) / 2 := by
        rw [mul_sum]
        refine sum_le_sum fun j _ => ?_
        nlinarith [mul_self_nonneg (x.getD (j + l) 0 - s * x.getD j 0)]
      rw [← sum_div, sum_add_distrib] at this
      linarith
    · rw [Nat.sub_eq_zero_of_le hl]
      simp only [range_zero, sum_empty, mul_zero]
      exact sum_nonneg fun i _ => mul_self_nonneg _
  rw [abs_le]
  constructor
  · have := key (-1) (by norm_num)
    linarith
  · have := key 1 (by norm_num)
    linarith

/-- C46, biased estimate: every lag is half of the biased estimate `R(l)/n`, as soon as that is not 0. -/
theorem C46_biased_violates {m : List ℝ} {f1 f2 n d : ℕ} (h0 : 0 < n) (h31 : 2 * n < 2147483648)
    (h1 : f1 + n ≤ m.length) (h2 : f2 + n ≤ m.length) (hd : d + n ≤ m.length) :
    ∃ m', xcorr m f1 (f1 + n) f2 d .biased = .ok m' ∧ ∀ l < n,
      m'[d + l]? = some (correlation (seg m f1 (f1 + n)) (seg m f2 (f2 + n)) l / n / 2) := by
  obtain ⟨a, ha, wa⟩ := xcorr_ok .biased h0 h31 h1 h2 hd
  refine ⟨a, ha, fun l hl => ?_⟩
  rw [(wrote_iff.mp wa).2.2.1 l (by simpa using hl), List.getElem?_map, List.getElem?_range hl]
  simp only [Option.map_some, stored, if_true]
  congr 1
  field_simp

/-- C46, unbiased estimate: the option changes nothing, the raw correlation is stored; the unbiased estimate
would be `R(l)/(n-l)`. -/
theorem C46_unbiased_violates (m : List ℝ) (f1 l1 f2 d : ℕ) :
    xcorr m f1 l1 f2 d .unbiased = xcorr m f1 l1 f2 d .none ∧
    autocorr m f1 l1 d .unbiased = autocorr m f1 l1 d .none := ⟨rfl, rfl⟩

/-! ### Concrete cases -/

example : ∃ m', conv [1, 2, 3, 4, 5, 6] 0 3 3 0 = .ok m' ∧
    Wrote [1, 2, 3, 4, 5, 6] m' 0 [4, 13, 28] := by
  obtain ⟨m', h, w⟩ := C46_conv (m := [1, 2, 3, 4, 5, 6]) (f1 := 0) (f2 := 3) (n := 3) (d := 0) (by omega)
    (by omega) (by simp) (by simp) (by simp)
  refine ⟨m', h, ?_⟩
  have : (List.range 3).map (convolution (seg [1, 2, 3, 4, 5, 6] 0 (0 + 3))
      (seg [1, 2, 3, 4, 5, 6] 3 (3 + 3))) = [4, 13, 28] := by
    have hr : List.range 3 = [0, 1, 2] := rfl
    simp [seg, convolution, hr, Finset.sum_range_succ, List.getD]
    norm_num
  rwa [this] at w

example : ∃ m', xcorr [1, 2, 3, 4] 0 2 2 0 .none = .ok m' ∧ Wrote [1, 2, 3, 4] m' 0 [11, 6] := by
  obtain ⟨m', h, w⟩ := C46_xcorr_partial (m := [1, 2, 3, 4]) (f1 := 0) (f2 := 2) (n := 2) (d := 0)
    (by omega) (by omega) (by simp) (by simp) (by simp)
  refine ⟨m', h, ?_⟩
  have : (List.range 2).map (correlation (seg [1, 2, 3, 4] 0 (0 + 2))
      (seg [1, 2, 3, 4] 2 (2 + 2))) = [11, 6] := by
    have hr : List.range 2 = [0, 1] := rfl
    simp [seg, correlation, hr, Finset.sum_range_succ, List.getD]
    norm_num
  rwa [this] at w

/-- With the raw value 11 at lag 0 of two samples, the biased estimate 5.5 is stored as 2.75. -/
example : ∃ m', xcorr [1, 2, 3, 4] 0 2 2 0 .biased = .ok m' ∧ m'[0]? = some (11 / 4 : ℝ) := by
  obtain ⟨m', h, w⟩ := C46_biased_violates (m := [1, 2, 3, 4]) (f1 := 0) (f2 := 2) (n := 2) (d := 0)
    (by omega) (by omega) (by simp) (by simp) (by simp)
  refine ⟨m', h, ?_⟩
  have w0 := w 0 (by omega)
  rw [Nat.add_zero] at w0
  rw [w0]
  simp [seg, correlation, Finset.sum_range_succ, List.getD]
  norm_num

end Edsp.Spectral
