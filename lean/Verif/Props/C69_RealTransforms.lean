import Verif.Props.C48_Lee
import Mathlib.LinearAlgebra.Matrix.NonsingularInverse

/-!
# C69: the Hartley and cosine transforms of a range
-/

namespace Edsp.Spectral

open Complex Finset Edsp.Mem Edsp.Spec Edsp.Fourier

/-- C69: `hartley` of `n` samples stores the `n` documented sums and nothing else. -/
theorem C69_hartley {s m : List ℝ} {first n d : ℕ} (h0 : 0 < n) (h31 : n < 2147483648)
    (hs : first + n ≤ s.length) (hd : d + n ≤ m.length) :
    ∃ m', hartley s first (first + n) m d = .ok m' ∧
      Wrote m m' d ((List.range n).map (hartleySum (seg s first (first + n)))) := by
  obtain ⟨m', h1, h2⟩ := dht_exec h0 (Or.inl rfl) hs hd
  rw [dht_spec (seg_len hs)] at h2
  refine ⟨m', ?_, h2⟩
  simp only [hartley, distance_ok (Nat.le_add_right first n), bind, Except.bind, Nat.add_sub_cancel_left,
    make_ok h31, h1, pure, Except.pure]

/-- C69: the Hartley coefficients are the real minus the imaginary parts of the Fourier bins. -/
theorem C69_hartley_bin (x : List ℝ) (k : ℕ) :
    hartleySum x k = (bin (ofReals x) k).re - (bin (ofReals x) k).im := by
  unfold hartleySum bin
  have hl : (ofReals x).length = x.length := by simp [ofReals]
  rw [hl, Complex.re_sum, Complex.im_sum, ← sum_sub_distrib]
  refine sum_congr rfl fun j _ => ?_
  rw [ofReals_getD]
  have e : 2 * Real.pi / x.length * j * k = 2 * Real.pi * k * j / x.length := by ring
  simp only [e, mul_re, mul_im, sub_re, sub_im, ofReal_re, ofReal_im, I_re, I_im]
  ring

theorem hartley_round {x : List ℝ} {n : ℕ} (hx : x.length = n) {i : ℕ} (hi : i < n) :
    hartleySum ((List.range n).map (hartleySum x)) i = n * x.getD i 0 := by
  have h0 : n ≠ 0 := by omega
  have hn : (n : ℝ) ≠ 0 := Nat.cast_ne_zero.mpr h0
  unfold hartleySum
  rw [List.length_map, List.length_range, hx]
  have e1 : ∀ k ∈ range n, ((List.range n).map fun k : ℕ => ∑ j ∈ range n, x.getD j 0 *
      (Real.cos (2 * Real.pi / n * j * k) + Real.sin (2 * Real.pi / n * j * k))).getD k 0 *
      (Real.cos (2 * Real.pi / n * k * i) + Real.sin (2 * Real.pi / n * k * i)) =
      ∑ j ∈ range n, x.getD j 0 * (Real.cos (2 * Real.pi * ((k : ℤ) * ((j : ℤ) - i) : ℤ) / n) +
        Real.sin (2 * Real.pi * ((k : ℤ) * ((j : ℤ) + i) : ℤ) / n)) := by
    intro k hk
    rw [getD_map_range _ _ (mem_range.mp hk), sum_mul]
    refine sum_congr rfl fun j _ => ?_
    have a1 : 2 * Real.pi * ((k : ℤ) * ((j : ℤ) - i) : ℤ) / n = 2 * Real.pi / n * j * k - 2 * Real.pi / n * k * i := by
      push_cast; ring
    have a2 : 2 * Real.pi * ((k : ℤ) * ((j : ℤ) + i) : ℤ) / n = 2 * Real.pi / n * j * k + 2 * Real.pi / n * k * i := by
      push_cast; ring
    rw [a1, a2, Real.cos_sub, Real.sin_add]
    ring
  rw [sum_congr rfl e1, sum_comm]
  have e2 : ∀ j ∈ range n, ∑ k ∈ range n, x.getD j 0 *
      (Real.cos (2 * Real.pi * ((k : ℤ) * ((j : ℤ) - i) : ℤ) / n) +
        Real.sin (2 * Real.pi * ((k : ℤ) * ((j : ℤ) + i) : ℤ) / n)) =
      if j = i then n * x.getD i 0 else 0 := by
    intro j hj
    rw [← mul_sum, sum_add_distrib, cos_orth h0, sin_orth h0, add_zero]
    simp only [dvd_sub_small (mem_range.mp hj) hi]
    split
    · rename_i h; rw [h, mul_comm]
    · rw [mul_zero]
  rw [sum_congr rfl e2, sum_ite_eq', if_pos (mem_range.mpr hi)]

/-- C69: the Hartley transform of the Hartley transform is `n` times the samples. -/
theorem C69_hartley_twice {s m m2 : List ℝ} {first n d d2 : ℕ} (h0 : 0 < n) (h31 : n < 2147483648)
    (hs : first + n ≤ s.length) (hd : d + n ≤ m.length) (hd2 : d2 + n ≤ m2.length) :
    ∃ a b, hartley s first (first + n) m d = .ok a ∧ hartley a d (d + n) m2 d2 = .ok b ∧
      Wrote m2 b d2 ((seg s first (first + n)).map fun v => n * v) := by
  obtain ⟨a, h1, w1⟩ := C69_hartley h0 h31 hs hd
  have hl := wrote_length w1
  obtain ⟨b, h2, w2⟩ := C69_hartley (s := a) (first := d) (m := m2) (d := d2) h0 h31 (by omega) hd2
  refine ⟨a, b, h1, h2, ?_⟩
  have ha : seg a d (d + n) = (List.range n).map (hartleySum (seg s first (first + n))) := by
    have := wrote_seg w1
    rwa [List.length_map, List.length_range] at this
  have hx := seg_len hs
  rw [ha] at w2
  generalize seg s first (first + n) = x at *
  refine (congrArg (Wrote m2 b d2) ?_).mp w2
  conv_rhs => rw [← map_range_getD 0 x, hx]
  rw [List.map_map]
  refine List.map_congr_left fun i hi => ?_
  exact hartley_round hx (List.mem_range.mp hi)

/-- C69: `dct` stores twice the documented sums and nothing else. -/
theorem C69_dct {s m : List ℝ} {first n d : ℕ} (h0 : 0 < n) (h31 : n < 2147483648)
    (hs : first + n ≤ s.length) (hd : d + n ≤ m.length) :
    ∃ m', dct s first (first + n) m d = .ok m' ∧
      Wrote m m' d ((List.range n).map fun k => 2 * cosineSum (seg s first (first + n)) k) := by
  obtain ⟨m', h1, h2⟩ := dct_exec h0 (Or.inl rfl) hs hd
  rw [redft10_spec (seg_len hs)] at h2
  refine ⟨m', ?_, h2⟩
  simp only [dct, distance_ok (Nat.le_add_right first n), bind, Except.bind, Nat.add_sub_cancel_left,
    make_ok h31, h1, pure, Except.pure]

/-- C69: `idct` stores the documented sums divided by `n` and nothing else. -/
theorem C69_idct {s m : List ℝ} {first n d : ℕ} (h0 : 0 < n) (h31 : n < 2147483648)
    (hs : first + n ≤ s.length) (hd : d + n ≤ m.length) :
    ∃ m', idct s first (first + n) m d = .ok m' ∧
      Wrote m m' d ((List.range n).map fun k => inverseCosineSum (seg s first (first + n)) k / n) := by
  obtain ⟨m1, h1, h2⟩ := idct_exec h0 (Or.inl rfl) hs hd
  obtain ⟨m', h3, h4⟩ := idctScale_exec (n := n) (pl := some .redft01) h2 (by simp [redft01])
  refine ⟨m', ?_, ?_⟩
  · simp only [idct, distance_ok (Nat.le_add_right first n), bind, Except.bind, Nat.add_sub_cancel_left,
      make_ok h31, h1, h3]
  · rw [redft01_spec (seg_len hs), List.map_map] at h4
    refine (congrArg (Wrote m m' d) (List.map_congr_left fun k _ => ?_)).mp h4
    have hn : (n : ℝ) ≠ 0 := Nat.cast_ne_zero.mpr (by omega)
    rw [Function.comp]
    field_simp

/-- C69: `idct` after `dct` gives the samples back, for every number of samples. -/
theorem C69_idct_dct {s m m2 : List ℝ} {first n d d2 : ℕ} (h0 : 0 < n) (h31 : n < 2147483648)
    (hs : first + n ≤ s.length) (hd : d + n ≤ m.length) (hd2 : d2 + n ≤ m2.length) :
    ∃ a b, dct s first (first + n) m d = .ok a ∧ idct a d (d + n) m2 d2 = .ok b ∧
      Wrote m2 b d2 (seg s first (first + n)) := by
  obtain ⟨a, h1, w1⟩ := C69_dct h0 h31 hs hd
  have hl := wrote_length w1
  obtain ⟨b, h2, w2⟩ := C69_idct (s := a) (first := d) (m := m2) (d := d2) h0 h31 (by omega) hd2
  refine ⟨a, b, h1, h2, ?_⟩
  have ha : seg a d (d + n) = (List.range n).map fun k => 2 * cosineSum (seg s first (first + n)) k := by
    have := wrote_seg w1
    rwa [List.length_map, List.length_range] at this
  have hx := seg_len hs
  rw [ha] at w2
  generalize seg s first (first + n) = x at *
  refine (congrArg (Wrote m2 b d2) ?_).mp w2
  conv_rhs => rw [← map_range_getD 0 x, hx]
  refine List.map_congr_left fun i hi => ?_
  have := Lee.cosine_round hx (List.mem_range.mp hi)
  have hn : (n : ℝ) ≠ 0 := Nat.cast_ne_zero.mpr (by omega)
  field_simp
  linarith

/-- The other composition, of the sums. -/
theorem cosine_round' {x : List ℝ} {n : ℕ} (hx : x.length = n) {k : ℕ} (hk : k < n) :
    2 * cosineSum ((List.range n).map fun j => inverseCosineSum x j / n) k = x.getD k 0 := by
  have h0 : 0 < n := by omega
  have hn : (n : ℝ) ≠ 0 := Nat.cast_ne_zero.mpr (by omega)
  -- the two transforms as matrices
  let A : Matrix (Fin n) (Fin n) ℝ := fun k j => 2 * Real.cos (Real.pi / n * (j + 1 / 2) * k)
  let C : Matrix (Fin n) (Fin n) ℝ := fun j k =>
    (if (k : ℕ) = 0 then 1 / 2 else Real.cos (Real.pi / n * k * (j + 1 / 2))) / n
  have inv : ∀ (y : List ℝ), y.length = n → ∀ j : Fin n,
      inverseCosineSum y j / n = ∑ k : Fin n, C j k * y.getD k 0 := by
    intro y hy j
    unfold inverseCosineSum
    rw [hy, Fin.sum_univ_eq_sum_range (fun k => (if k = 0 then 1 / 2 else
      Real.cos (Real.pi / n * k * (j + 1 / 2))) / n * y.getD k 0) n, range_eq_Ico,
      sum_eq_sum_Ico_succ_bot h0, if_pos rfl, zero_add, add_div, sum_div]
    congr 1
    · ring
    · refine sum_congr rfl fun k hk => ?_
      have hk := mem_Ico.mp hk
      rw [if_neg (by omega)]
      ring
  have fwd : ∀ (y : List ℝ), y.length = n → ∀ k : Fin n,
      2 * cosineSum y k = ∑ j : Fin n, A k j * y.getD j 0 := by
    intro y hy k
    unfold cosineSum
    rw [hy, Fin.sum_univ_eq_sum_range (fun j => 2 * Real.cos (Real.pi / n * (j + 1 / 2) * k) * y.getD j 0) n,
      mul_sum]
    refine sum_congr rfl fun j _ => ?_
    ring
  have CA : C * A = 1 := by
    ext i j
    let e : List ℝ := (List.range n).map fun l => if l = (j : ℕ) then 1 else 0
    have he : e.length = n := by simp [e]
    have r := Lee.cosine_round he i.2
    have hg : ∀ l : ℕ, l < n → e.getD l 0 = if l = (j : ℕ) then 1 else 0 := fun l hl => getD_map_range _ _ hl
    rw [hg _ i.2] at r
    have r2 : inverseCosineSum ((List.range n).map fun k => 2 * cosineSum e k) i / n =
        if (i : ℕ) = j then 1 else 0 := by
      field_simp
      split at r <;> split <;> first | contradiction | linarith
    rw [inv _ (by simp)] at r2
    rw [Matrix.mul_apply, Matrix.one_apply]
    have hij : (if i = j then (1 : ℝ) else 0) = if (i : ℕ) = j then 1 else 0 := by
      by_cases h : i = j
      · rw [if_pos h, if_pos (congrArg _ h)]
      · rw [if_neg h, if_neg (fun h' => h (Fin.ext h'))]
    rw [hij, ← r2]
    refine sum_congr rfl fun k _ => ?_
    rw [getD_map_range _ _ k.2, fwd e he]
    congr 1
    rw [sum_congr rfl (fun (l : Fin n) _ => by rw [hg _ l.2]), sum_eq_single j]
    · simp
    · intro l _ hl
      rw [if_neg (fun h' => hl (Fin.ext h')), mul_zero]
    · intro h; exact absurd (mem_univ j) h
  have AC : A * C = 1 := mul_eq_one_comm.mp CA
  have step : ∀ k : Fin n, 2 * cosineSum ((List.range n).map fun j => inverseCosineSum x j / n) k = x.getD k 0 := by
    intro k
    rw [fwd _ (by simp)]
    have : ∀ j : Fin n, A k j * ((List.range n).map fun j => inverseCosineSum x j / n).getD j 0 =
        ∑ l : Fin n, A k j * C j l * x.getD l 0 := by
      intro j
      rw [getD_map_range _ _ j.2, inv x hx, mul_sum]
      refine sum_congr rfl fun l _ => ?_
      ring
    simp only [this]
    rw [sum_comm]
    have : ∀ l : Fin n, ∑ j : Fin n, A k j * C j l * x.getD l 0 = (if k = l then 1 else 0) * x.getD l 0 := by
      intro l
      rw [← sum_mul, ← Matrix.mul_apply, AC, Matrix.one_apply]
    simp only [this, ite_mul, one_mul, zero_mul, sum_ite_eq, mem_univ, if_true]
  exact step ⟨k, hk⟩

/-- C69: `dct` after `idct` gives the coefficients back. -/
theorem C69_dct_idct {s m m2 : List ℝ} {first n d d2 : ℕ} (h0 : 0 < n) (h31 : n < 2147483648)
    (hs : first + n ≤ s.length) (hd : d + n ≤ m.length) (hd2 : d2 + n ≤ m2.length) :
    ∃ a b, idct s first (first + n) m d = .ok a ∧ dct a d (d + n) m2 d2 = .ok b ∧
      Wrote m2 b d2 (seg s first (first + n)) := by
  obtain ⟨a, h1, w1⟩ := C69_idct h0 h31 hs hd
  have hl := wrote_length w1
  obtain ⟨b, h2, w2⟩ := C69_dct (s := a) (first := d) (m := m2) (d := d2) h0 h31 (by omega) hd2
  refine ⟨a, b, h1, h2, ?_⟩
  have ha : seg a d (d + n) = (List.range n).map fun k => inverseCosineSum (seg s first (first + n)) k / n := by
    have := wrote_seg w1
    rwa [List.length_map, List.length_range] at this
  have hx := seg_len hs
  rw [ha] at w2
  generalize seg s first (first + n) = x at *
  refine (congrArg (Wrote m2 b d2) ?_).mp w2
  conv_rhs => rw [← map_range_getD 0 x, hx]
  refine List.map_congr_left fun i hi => ?_
  exact cosine_round' hx (List.mem_range.mp hi)

/-- C69 is violated: the documentation of `dct` promises the plain sums, but a single sample comes back doubled. -/
theorem C69_dct_violates {s m : List ℝ} {first d : ℕ} {x : ℝ} (hx : s[first]? = some x) (h : x ≠ 0)
    (hd : d + 1 ≤ m.length) :
    ∃ m', dct s first (first + 1) m d = .ok m' ∧ m'[d]? = some (2 * x) ∧ cosineSum [x] 0 = x ∧ 2 * x ≠ x := by
  obtain ⟨hlt, hv⟩ := List.getElem?_eq_some_iff.mp hx
  obtain ⟨m', h1, w⟩ := C69_dct (m := m) (d := d) (n := 1) one_pos (by norm_num) (by omega : first + 1 ≤ s.length) hd
  have hseg : seg s first (first + 1) = [x] := by
    unfold seg
    rw [Nat.add_sub_cancel_left, List.take_one, List.head?_drop, hx]
    rfl
  have hc : cosineSum [x] 0 = x := by simp [cosineSum]
  refine ⟨m', h1, ?_, hc, fun h' => h (by linarith)⟩
  rw [hseg] at w
  have hw := w.2
  have hd' : d < m.length := by omega
  have := wrote_seg w
  rw [List.length_map, List.length_range] at this
  have h3 := congrArg (fun l => l[0]?) this
  simp only [List.range_one, List.map_cons, List.map_nil, hc, List.getElem?_cons_zero] at h3
  have hl := wrote_length w
  rw [seg_getElem?, if_pos (by omega), Nat.add_zero] at h3
  exact h3

/-- Ranges meeting the hypotheses. -/
example : ∃ a b, dct [3, -1, 4, 1, -5] 0 (0 + 5) [0, 0, 0, 0, 0] 0 = .ok a ∧ idct a 0 (0 + 5) [0, 0, 0, 0, 0, 7] 0 = .ok b ∧
    Wrote [0, 0, 0, 0, 0, 7] b 0 [3, -1, 4, 1, -5] := by
  obtain ⟨a, b, h1, h2, w⟩ := C69_idct_dct (s := [3, -1, 4, 1, -5]) (m := [0, 0, 0, 0, 0]) (m2 := [0, 0, 0, 0, 0, 7])
    (first := 0) (n := 5) (d := 0) (d2 := 0) (by norm_num) (by norm_num) (by simp) (by simp) (by simp)
  exact ⟨a, b, h1, h2, w⟩

end Edsp.Spectral
