import Verif.Props.C70_Cepstrum
import Verif.Props.C68_Spectrum
import Mathlib.Algebra.BigOperators.Intervals

/-!
# C174: the transforms of a convolution

`conv` of two frames whose echo fits the frame (C46), analysed with `dft`, `spectrum` and `cepstrum`.
-/

namespace Edsp.Props.C174

open Complex Finset Edsp Edsp.Mem Edsp.Spec Edsp.Fourier Edsp.Spectral

/-- Nothing of the samples `x` from position `a` on. -/
def SilentFrom (x : List ℝ) (a : ℕ) : Prop := ∀ j, a ≤ j → x.getD j 0 = 0

/-- The transform of a convolution that fits into `n` samples, at any size from `n` on. -/
theorem F_conv {x y : List ℝ} {a b n N : ℕ} (hx : SilentFrom x a) (hy : SilentFrom y b) (hab : a + b ≤ n + 1)
    (hN : n ≤ N) (k : ℕ) :
    F N (fun j => ((((List.range n).map (convolution x y)).getD j 0 : ℝ) : ℂ)) k =
      F N (fun j => ((x.getD j 0 : ℝ) : ℂ)) k * F N (fun j => ((y.getD j 0 : ℝ) : ℂ)) k := by
  set f : ℕ → ℂ := fun j => ((x.getD j 0 : ℝ) : ℂ) * exp (-(2 * Real.pi * I * j * k / N)) with hf
  set g : ℕ → ℂ := fun j => ((y.getD j 0 : ℝ) : ℂ) * exp (-(2 * Real.pi * I * j * k / N)) with hg
  have hval : ∀ m, ((List.range n).map (convolution x y)).getD m 0 = convolution x y m := by
    intro m
    rcases Nat.lt_or_ge m n with h | h
    · simp [List.getD, h]
    · rw [List.getD, List.getElem?_eq_none (by simpa using h), Option.getD_none, convolution]
      refine (sum_eq_zero fun i _ => ?_).symm
      rcases Nat.lt_or_ge i a with hi | hi
      · rw [hy (m - i) (by omega), mul_zero]
      · rw [hx i hi, zero_mul]
  have e1 : ∀ m ∈ range N, ((((List.range n).map (convolution x y)).getD m 0 : ℝ) : ℂ) *
      exp (-(2 * Real.pi * I * m * k / N)) = ∑ i ∈ range (m + 1), f i * g (m - i) := by
    intro m _
    rw [hval, convolution, ofReal_sum, sum_mul]
    refine sum_congr rfl fun i hi => ?_
    have hi := mem_range.1 hi
    have e : exp (-(2 * Real.pi * I * m * k / N)) =
        exp (-(2 * Real.pi * I * i * k / N)) * exp (-(2 * Real.pi * I * (m - i : ℕ) * k / N)) := by
      rw [← Complex.exp_add]
      congr 1
      rw [Nat.cast_sub (by omega)]
      ring
    rw [e, hf, hg]
    push_cast
    ring
  have e2 : ∀ i ∈ range N, ∑ j ∈ range (N - i), f i * g j = f i * ∑ j ∈ range N, g j := by
    intro i _
    rw [mul_sum]
    rcases Nat.lt_or_ge i a with hi | hi
    · refine sum_subset (fun j hj => mem_range.2 (by have := mem_range.1 hj; omega)) fun j _ h2 => ?_
      have h2 : N - i ≤ j := by simpa using h2
      have : g j = 0 := by rw [hg]; dsimp only; rw [hy j (by omega)]; simp
      rw [this, mul_zero]
    · have : f i = 0 := by rw [hf]; dsimp only; rw [hx i hi]; simp
      simp [this]
  unfold F
  rw [sum_congr rfl e1, sum_range_diag_flip N fun i j => f i * g j, sum_congr rfl e2, ← sum_mul]

/-- What `conv` stores, seen as a frame. -/
theorem conv_frame {m : List ℝ} {f1 f2 n d : ℕ} (h0 : 0 < n) (h31 : 2 * n < 2147483648) (h1 : f1 + n ≤ m.length)
    (h2 : f2 + n ≤ m.length) (hd : d + n ≤ m.length) :
    ∃ m', conv m f1 (f1 + n) f2 d = .ok m' ∧ m'.length = m.length ∧
      seg m' d (d + n) = (List.range n).map (convolution (seg m f1 (f1 + n)) (seg m f2 (f2 + n))) := by
  obtain ⟨m', e, w⟩ := C46_conv h0 h31 h1 h2 hd
  have := wrote_seg w
  rw [List.length_map, List.length_range] at this
  exact ⟨m', e, wrote_length w, this⟩

/-- **C174 (dft, spectrum).**  Two frames of `n` samples, the first silent from `a` on and the second from `b` on, with
`a + b ≤ n + 1`: the bins stored by `dft` for their convolution are the products of the bins stored for the frames,
and so are the values stored by `spectrum`. -/
theorem C174_product {m : List ℝ} {f1 f2 n d a b : ℕ} (h0 : 0 < n) (h31 : 2 * n < 2147483648)
    (h1 : f1 + n ≤ m.length) (h2 : f2 + n ≤ m.length) (hd : d + n ≤ m.length) (hab : a + b ≤ n + 1)
    (hx : SilentFrom (seg m f1 (f1 + n)) a) (hy : SilentFrom (seg m f2 (f2 + n)) b)
    {c : List ℂ} {p : ℕ} (hc : p + (n / 2 + 1) ≤ c.length) {q : ℕ} (hq : q + (n / 2 + 1) ≤ m.length) :
    ∃ m', conv m f1 (f1 + n) f2 d = .ok m' ∧
      (∃ u v w X Y, dft m f1 (f1 + n) c p = .ok u ∧ dft m f2 (f2 + n) c p = .ok v ∧ dft m' d (d + n) c p = .ok w ∧
        X.length = n / 2 + 1 ∧ Y.length = n / 2 + 1 ∧
        Wrote c u p X ∧ Wrote c v p Y ∧ Wrote c w p (List.zipWith (· * ·) X Y)) ∧
      (∃ u v w X Y, spectrum m f1 (f1 + n) q = .ok u ∧ spectrum m f2 (f2 + n) q = .ok v ∧
        spectrum m' d (d + n) q = .ok w ∧ X.length = n / 2 + 1 ∧ Y.length = n / 2 + 1 ∧
        Wrote m u q X ∧ Wrote m v q Y ∧ Wrote m' w q (List.zipWith (· * ·) X Y)) := by
  obtain ⟨m', e, hl, hseg⟩ := conv_frame h0 h31 h1 h2 hd
  have l1 : (seg m f1 (f1 + n)).length = n := by rw [seg_length h1]; omega
  have l2 : (seg m f2 (f2 + n)).length = n := by rw [seg_length h2]; omega
  have key : ∀ k, bin (ofReals (seg m' d (d + n))) k =
      bin (ofReals (seg m f1 (f1 + n))) k * bin (ofReals (seg m f2 (f2 + n))) k := by
    intro k
    rw [bin_ofReals, bin_ofReals, bin_ofReals, hseg, l1, l2, List.length_map, List.length_range]
    exact F_conv hx hy hab le_rfl k
  refine ⟨m', e, ?_, ?_⟩
  · obtain ⟨u, u1, u2⟩ := C45_dft (s := m) h0 (by omega) h1 hc
    obtain ⟨v, v1, v2⟩ := C45_dft (s := m) h0 (by omega) h2 hc
    obtain ⟨w, w1, w2⟩ := C45_dft (s := m') h0 (by omega) (by omega : d + n ≤ m'.length) hc
    refine ⟨u, v, w, _, _, u1, v1, w1, by simp, by simp, u2, v2, ?_⟩
    rw [zipWith_map_range]
    refine (congrArg (Wrote c w p) (List.map_congr_left fun k _ => ?_)).mp w2
    exact key k
  · obtain ⟨u, u1, u2⟩ := C68_spectrum (m := m) h0 (by omega) h1 hq
    obtain ⟨v, v1, v2⟩ := C68_spectrum (m := m) h0 (by omega) h2 hq
    obtain ⟨w, w1, w2⟩ := C68_spectrum (m := m') (d := q) h0 (by omega) (by omega : d + n ≤ m'.length) (by omega)
    refine ⟨u, v, w, _, _, u1, v1, w1, by simp, by simp, u2, v2, ?_⟩
    rw [zipWith_map_range]
    refine (congrArg (Wrote m' w q) (List.map_congr_left fun k _ => ?_)).mp w2
    rw [key k, norm_mul, mul_pow]

/-- The bins of the padded convolution. -/
theorem bin_conv {x y : List ℝ} {a b n : ℕ} (lx : x.length = n) (ly : y.length = n) (hx : SilentFrom x a)
    (hy : SilentFrom y b) (hab : a + b ≤ n + 1) (k : ℕ) :
    bin (ofReals (zeroPad ((List.range n).map (convolution x y)))) k =
      bin (ofReals (zeroPad x)) k * bin (ofReals (zeroPad y)) k := by
  rw [bin_zeroPad lx, bin_zeroPad ly, bin_zeroPad (n := n) (by simp)]
  exact F_conv hx hy hab (by omega) k

/-- No zero up to the middle, no zero at all. -/
theorem all_ne {x : List ℝ} {n : ℕ} (hl : x.length = n)
    (hz : ∀ k, k ≤ n → bin (ofReals (zeroPad x)) k ≠ 0) : ∀ k, k < 2 * n → bin (ofReals (zeroPad x)) k ≠ 0 := by
  intro k hk
  rcases Nat.lt_or_ge n k with h | h
  · have hN : (zeroPad x).length = 2 * n := by simp [zeroPad, hl]; omega
    have := C45_redundant (x := zeroPad x) (by omega) (k := 2 * n - k) (by omega)
    rw [hN, show 2 * n - (2 * n - k) = k by omega] at this
    rw [this]
    exact (map_ne_zero _).mpr (hz _ (by omega))
  · exact hz k h

/-- **C174 (cepstrum).**  Under the same conditions, whenever `cepstrum` succeeds for both frames it succeeds for their
convolution and stores the sums of what it stores for the frames; if it fails for one of them, it fails for the
convolution. -/
theorem C174_cepstrum {m : List ℝ} {f1 f2 n d e a b : ℕ} (h0 : 0 < n) (h31 : 2 * n < 2147483648)
    (h1 : f1 + n ≤ m.length) (h2 : f2 + n ≤ m.length) (hd : d + n ≤ m.length) (he : e + n ≤ m.length)
    (hab : a + b ≤ n + 1) (hx : SilentFrom (seg m f1 (f1 + n)) a) (hy : SilentFrom (seg m f2 (f2 + n)) b) :
    ∃ m', conv m f1 (f1 + n) f2 d = .ok m' ∧
      (∀ u v, cepstrum m f1 (f1 + n) e = .ok u → cepstrum m f2 (f2 + n) e = .ok v →
        ∃ w X Y, cepstrum m' d (d + n) e = .ok w ∧ X.length = n ∧ Y.length = n ∧ Wrote m u e X ∧ Wrote m v e Y ∧
          Wrote m' w e (List.zipWith (· + ·) X Y)) ∧
      (∀ z, cepstrum m f1 (f1 + n) e = .error z ∨ cepstrum m f2 (f2 + n) e = .error z →
        cepstrum m' d (d + n) e = .error z) := by
  obtain ⟨m', ec, hl, hseg⟩ := conv_frame h0 h31 h1 h2 hd
  have l1 : (seg m f1 (f1 + n)).length = n := by rw [seg_length h1]; omega
  have l2 : (seg m f2 (f2 + n)).length = n := by rw [seg_length h2]; omega
  have key := bin_conv l1 l2 hx hy hab
  rw [← hseg] at key
  -- success is the absence of zero bins
  have dec : ∀ (q : List ℝ) (p : ℕ), p + n ≤ q.length → e + n ≤ q.length →
      (∀ k, k ≤ n → bin (ofReals (zeroPad (seg q p (p + n)))) k ≠ 0) ∨
      (cepstrum q p (p + n) e = .error .domain ∧ ∃ k, k ≤ n ∧ bin (ofReals (zeroPad (seg q p (p + n)))) k = 0) := by
    intro q p hp _
    by_cases h : ∃ k, k ≤ n ∧ bin (ofReals (zeroPad (seg q p (p + n)))) k = 0
    · obtain ⟨k, hk, hz⟩ := h
      exact Or.inr ⟨C70_zero_bin_violates h0 h31 hp hk hz, k, hk, hz⟩
    · exact Or.inl fun k hk hz => h ⟨k, hk, hz⟩
  refine ⟨m', ec, fun u v eu ev => ?_, fun z hz => ?_⟩
  · have z1 : ∀ k, k ≤ n → bin (ofReals (zeroPad (seg m f1 (f1 + n)))) k ≠ 0 := by
      rcases dec m f1 h1 he with h | h
      · exact h
      · rw [h.1] at eu; cases eu
    have z2 : ∀ k, k ≤ n → bin (ofReals (zeroPad (seg m f2 (f2 + n)))) k ≠ 0 := by
      rcases dec m f2 h2 he with h | h
      · exact h
      · rw [h.1] at ev; cases ev
    have z3 : ∀ k, k ≤ n → bin (ofReals (zeroPad (seg m' d (d + n)))) k ≠ 0 := fun k hk => by
      rw [key k]; exact mul_ne_zero (z1 k hk) (z2 k hk)
    obtain ⟨u', u1, u2⟩ := C70_cepstrum_partial h0 h31 h1 he z1
    obtain ⟨v', v1, v2⟩ := C70_cepstrum_partial h0 h31 h2 he z2
    obtain ⟨w, w1, w2⟩ := C70_cepstrum_partial (m := m') (d := e) h0 h31 (by omega) (by omega) z3
    obtain rfl : u = u' := Except.ok.inj (eu.symm.trans u1)
    obtain rfl : v = v' := Except.ok.inj (ev.symm.trans v1)
    refine ⟨w, _, _, w1, by simp, by simp, u2, v2, ?_⟩
    rw [zipWith_map_range]
    refine (congrArg (Wrote m' w e) (List.map_congr_left fun j _ => ?_)).mp w2
    have l3 : (seg m' d (d + n)).length = n := by rw [hseg]; simp
    unfold realCepstrum
    rw [l1, l2, l3, ← add_div, ← sum_add_distrib]
    congr 1
    refine sum_congr rfl fun k hk => ?_
    have hk := mem_range.1 hk
    rw [key k, norm_mul, Real.log_mul (norm_ne_zero_iff.2 (all_ne l1 z1 k hk))
      (norm_ne_zero_iff.2 (all_ne l2 z2 k hk)), add_mul]
  · have fin : ∀ k, k ≤ n → bin (ofReals (zeroPad (seg m f1 (f1 + n)))) k *
        bin (ofReals (zeroPad (seg m f2 (f2 + n)))) k = 0 → cepstrum m' d (d + n) e = .error .domain :=
      fun k hk h => C70_zero_bin_violates h0 h31 (by omega) hk (by rw [key k]; exact h)
    rcases hz with hz | hz
    · rcases dec m f1 h1 he with h | ⟨h, k, hk, hb⟩
      · obtain ⟨u', u1, -⟩ := C70_cepstrum_partial h0 h31 h1 he h
        rw [u1] at hz; cases hz
      · rw [h] at hz
        rw [← Except.error.inj hz]
        exact fin k hk (by rw [hb, zero_mul])
    · rcases dec m f2 h2 he with h | ⟨h, k, hk, hb⟩
      · obtain ⟨u', u1, -⟩ := C70_cepstrum_partial h0 h31 h2 he h
        rw [u1] at hz; cases hz
      · rw [h] at hz
        rw [← Except.error.inj hz]
        exact fin k hk (by rw [hb, mul_zero])

/-- A sample and a smaller one after it: no bin vanishes. -/
theorem two_ne {s t : ℝ} (h : |t| < |s|) (k : ℕ) : bin (ofReals (zeroPad [s, t, 0, 0])) k ≠ 0 := by
  rw [bin_zeroPad (n := 4) rfl]
  have e : F (2 * 4) (fun j => (([s, t, 0, 0].getD j 0 : ℝ) : ℂ)) k =
      s + t * exp (((-(2 * Real.pi * k / 8) : ℝ) : ℂ) * I) := by
    unfold F
    norm_num [sum_range_succ]
    left
    congr 1
    ring
  rw [e]
  intro h0
  have h1 : (s : ℂ) = -(t * exp (((-(2 * Real.pi * k / 8) : ℝ) : ℂ) * I)) := by linear_combination h0
  have h2 := congrArg norm h1
  rw [norm_neg, norm_mul, Complex.norm_exp_ofReal_mul_I, mul_one, norm_real, norm_real, Real.norm_eq_abs,
    Real.norm_eq_abs] at h2
  linarith

/-- Two frames of four cells: both cepstra exist, and that of the convolution. -/
example : ∃ m' u v w X Y, conv [3, 1, 0, 0, 2, 1, 0, 0, 0, 0, 0, 0] 0 (0 + 4) 4 8 = .ok m' ∧
    cepstrum [3, 1, 0, 0, 2, 1, 0, 0, 0, 0, 0, 0] 0 (0 + 4) 8 = .ok u ∧
    cepstrum [3, 1, 0, 0, 2, 1, 0, 0, 0, 0, 0, 0] 4 (4 + 4) 8 = .ok v ∧
    cepstrum m' 8 (8 + 4) 8 = .ok w ∧ Wrote [3, 1, 0, 0, 2, 1, 0, 0, 0, 0, 0, 0] u 8 X ∧
    Wrote [3, 1, 0, 0, 2, 1, 0, 0, 0, 0, 0, 0] v 8 Y ∧ Wrote m' w 8 (List.zipWith (· + ·) X Y) := by
  have s1 : seg [(3 : ℝ), 1, 0, 0, 2, 1, 0, 0, 0, 0, 0, 0] 0 (0 + 4) = [3, 1, 0, 0] := by simp [seg]
  have s2 : seg [(3 : ℝ), 1, 0, 0, 2, 1, 0, 0, 0, 0, 0, 0] 4 (4 + 4) = [2, 1, 0, 0] := by simp [seg]
  have quiet : ∀ s t : ℝ, SilentFrom [s, t, 0, 0] 2 := by
    intro s t j hj
    match j, hj with
    | 2, _ => simp
    | 3, _ => simp
    | j + 4, _ => simp
  obtain ⟨m', e, h, -⟩ := C174_cepstrum (m := [3, 1, 0, 0, 2, 1, 0, 0, 0, 0, 0, 0]) (f1 := 0) (f2 := 4) (n := 4)
    (d := 8) (e := 8) (a := 2) (b := 2) (by norm_num) (by norm_num) (by simp) (by simp) (by simp) (by simp)
    (by norm_num) (by rw [s1]; exact quiet 3 1) (by rw [s2]; exact quiet 2 1)
  obtain ⟨u, hu, -⟩ := C70_cepstrum_partial (m := [3, 1, 0, 0, 2, 1, 0, 0, 0, 0, 0, 0]) (first := 0) (n := 4) (d := 8)
    (by norm_num) (by norm_num) (by simp) (by simp) (by rw [s1]; exact fun k _ => two_ne (by norm_num) k)
  obtain ⟨v, hv, -⟩ := C70_cepstrum_partial (m := [3, 1, 0, 0, 2, 1, 0, 0, 0, 0, 0, 0]) (first := 4) (n := 4) (d := 8)
    (by norm_num) (by norm_num) (by simp) (by simp) (by rw [s2]; exact fun k _ => two_ne (by norm_num) k)
  obtain ⟨w, X, Y, hw, -, -, wX, wY, wZ⟩ := h u v hu hv
  exact ⟨m', u, v, w, X, Y, e, hu, hv, hw, wX, wY, wZ⟩

end Edsp.Props.C174
