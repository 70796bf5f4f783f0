import Verif.Model.PySpectral
import Verif.Props.C45_Transforms
import Verif.Props.C46_Convolution
import Verif.Props.C47_Engine
import Verif.Props.C67_Hilbert
import Verif.Props.C68_Spectrum
import Verif.Props.C69_RealTransforms
import Verif.Props.C70_Cepstrum

/-!
# C90: the spectral functions of the Python package return the transforms of the elements of their arrays
-/

namespace Edsp.PySpectral

open Complex Edsp.Mem Edsp.Spec

theorem length_complexes (z : List ℂ) : (complexes z).cells.length = 2 * z.length := by
  unfold complexes
  induction z with
  | nil => rfl
  | cons v z ih => simp only [List.flatMap_cons, List.length_append, List.length_cons, List.length_nil] at ih ⊢; omega

theorem asComplex_complexes (z : List ℂ) : asComplex (complexes z).cells = z := by
  unfold complexes
  induction z with
  | nil => rfl
  | cons v z ih =>
    simp only [List.flatMap_cons, List.cons_append, List.nil_append, asComplex] at ih ⊢
    rw [ih]

theorem asComplex_length : ∀ x : List ℝ, (asComplex x).length = x.length / 2
  | [] => rfl
  | [_] => by simp [asComplex]
  | _ :: _ :: l => by
    simp only [asComplex, List.length_cons, asComplex_length l]
    omega

theorem size_of {n : ℕ} {a : Nums} (h31 : n < 2147483648)
    (h : (if a.cplx then a.cells.length / 2 else a.cells.length) = n) : size a = .ok n := by
  have e : Py.toInt32 n = n := by unfold Py.toInt32; omega
  unfold size
  rw [h]
  dsimp only
  rw [e, if_neg (by omega)]
  rfl

theorem size_floats {x : List ℝ} (h31 : x.length < 2147483648) : size (floats x) = .ok x.length :=
  size_of h31 rfl

theorem size_complexes {z : List ℂ} (h31 : z.length < 2147483648) : size (complexes z) = .ok z.length :=
  size_of h31 (by
    have := length_complexes z
    rw [this]
    simp [complexes])

theorem zeros_nat {α : Type} [Zero α] (k : ℕ) : (zeros (k : ℤ) : Except Fault (List α)) = .ok (List.replicate k 0) := by
  unfold zeros
  rw [if_neg (by omega)]
  rfl

theorem seg_whole {α : Type} (x : List α) : seg x 0 (0 + x.length) = x := by
  unfold seg
  simp

theorem seg_first {α : Type} (x y : List α) : seg (x ++ y) 0 (0 + x.length) = x := by
  unfold seg
  simp

theorem seg_second {α : Type} {x y z : List α} {n : ℕ} (h : y.length = n) :
    seg (x ++ y ++ z) x.length (x.length + n) = y := by
  subst h
  unfold seg
  simp

/-! ### Running a wrapper -/

theorem r2r_run {f : List ℝ → ℕ → ℕ → List ℝ → ℕ → Except Fault (List ℝ)} {a : Nums} {n : ℕ} {m' : List ℝ}
    (hs : size a = .ok n) (hf : f a.cells 0 n (List.replicate n 0) 0 = .ok m') : r2r f a = .ok (floats m') := by
  unfold r2r
  rw [hs]
  simp only [bind, Except.bind, zeros_nat, hf, pure, Except.pure]

theorem block_run {f : List ℝ → ℕ → ℕ → ℕ → Except Fault (List ℝ)} {k : ℕ → ℤ} {c : ℕ} {a : Nums} {n : ℕ}
    {m' : List ℝ} (hs : size a = .ok n) (hk : k n = c)
    (hf : f (a.cells ++ List.replicate c 0) 0 n a.cells.length = .ok m') :
    r2rBlock f k a = .ok (floats (m'.drop a.cells.length)) := by
  unfold r2rBlock
  rw [hs]
  simp only [bind, Except.bind, hk, zeros_nat, hf, pure, Except.pure]

theorem r2c_run {f : List ℝ → ℕ → ℕ → List ℂ → ℕ → Except Fault (List ℂ)} {k : ℕ → ℤ} {c : ℕ} {a : Nums} {n : ℕ}
    {m' : List ℂ} (hs : size a = .ok n) (hk : k n = c) (hf : f a.cells 0 n (List.replicate c 0) 0 = .ok m') :
    r2c f k a = .ok (complexes m') := by
  unfold r2c
  rw [hs]
  simp only [bind, Except.bind, hk, zeros_nat, hf, pure, Except.pure]

theorem c2r_run {f : List ℂ → ℕ → ℕ → List ℝ → ℕ → Except Fault (List ℝ)} {c : ℕ} {a : Nums} {n : ℕ}
    {m' : List ℝ} (hs : size a = .ok n) (hk : Spectral.makeIfftSize n = c)
    (hf : f (asComplex a.cells) 0 n (List.replicate c 0) 0 = .ok m') : c2r f a = .ok (floats m') := by
  unfold c2r
  rw [hs]
  simp only [bind, Except.bind, hk, zeros_nat, hf, pure, Except.pure]

theorem c2c_run {f : List ℂ → ℕ → ℕ → List ℂ → ℕ → Except Fault (List ℂ)} {a : Nums} {n : ℕ}
    {m' : List ℂ} (hs : size a = .ok n) (hf : f (asComplex a.cells) 0 n (List.replicate n 0) 0 = .ok m') :
    c2c f a = .ok (complexes m') := by
  unfold c2c
  rw [hs]
  simp only [bind, Except.bind, zeros_nat, hf, pure, Except.pure]

theorem c2c_fail {f : List ℂ → ℕ → ℕ → List ℂ → ℕ → Except Fault (List ℂ)} {a : Nums} {n : ℕ} {e : Fault}
    (hs : size a = .ok n) (hf : f (asComplex a.cells) 0 n (List.replicate n 0) 0 = .error e) :
    c2c f a = .error e := by
  unfold c2c
  rw [hs]
  simp only [bind, Except.bind, zeros_nat, hf]

theorem c2r_fail {f : List ℂ → ℕ → ℕ → List ℝ → ℕ → Except Fault (List ℝ)} {c : ℕ} {a : Nums} {n : ℕ}
    {e : Fault} (hs : size a = .ok n) (hk : Spectral.makeIfftSize n = c)
    (hf : f (asComplex a.cells) 0 n (List.replicate c 0) 0 = .error e) : c2r f a = .error e := by
  unfold c2r
  rw [hs]
  simp only [bind, Except.bind, hk, zeros_nat, hf]

theorem pair_run {f : List ℝ → ℕ → ℕ → ℕ → ℕ → Except Fault (List ℝ)} {a b : Nums} {n : ℕ} {m' : List ℝ}
    (hs : size a = .ok n) (hb : n ≤ b.cells.length)
    (hf : f (a.cells ++ b.cells ++ List.replicate n 0) 0 n a.cells.length (a.cells.length + b.cells.length) =
      .ok m') : pair f a b = .ok (floats (m'.drop (a.cells.length + b.cells.length))) := by
  unfold pair
  rw [hs]
  simp only [bind, Except.bind, zeros_nat, pure, Except.pure]
  rw [if_neg (by omega), hf]

theorem pair_fail {f : List ℝ → ℕ → ℕ → ℕ → ℕ → Except Fault (List ℝ)} {a b : Nums} {n : ℕ}
    (hs : size a = .ok n) (hb : b.cells.length < n) : pair f a b = .error .outOfBounds := by
  unfold pair
  rw [hs]
  simp only [bind, Except.bind, zeros_nat, pure, Except.pure]
  rw [if_pos hb]
  rfl

/-! ### Real arrays -/

theorem r2r_of {f : List ℝ → ℕ → ℕ → List ℝ → ℕ → Except Fault (List ℝ)} {x : List ℝ} {g : List ℝ → ℕ → ℝ}
    (h31 : x.length < 2147483648)
    (hf : ∃ m', f x 0 (0 + x.length) (List.replicate x.length 0) 0 = .ok m' ∧
      Wrote (List.replicate x.length 0) m' 0 ((List.range x.length).map (g (seg x 0 (0 + x.length))))) :
    r2r f (floats x) = .ok (floats ((List.range x.length).map (g x))) := by
  obtain ⟨m', h1, w⟩ := hf
  have hm := Spectral.wrote_full w (by simp)
  rw [seg_whole] at hm
  rw [Nat.zero_add] at h1
  rw [hm] at h1
  exact r2r_run (size_floats h31) h1

/-- C90, functions from real arrays to real arrays: `hartley`, `dct` and `idct` return as many numbers as they are
given, the documented sums of the elements (`dct` twice them, see `C69_dct_violates`). -/
theorem C90_real_partial {x : List ℝ} (h0 : x ≠ []) (h31 : x.length < 2147483648) :
    hartley (floats x) = .ok (floats ((List.range x.length).map (hartleySum x))) ∧
    dct (floats x) = .ok (floats ((List.range x.length).map fun k => 2 * cosineSum x k)) ∧
    idct (floats x) = .ok (floats ((List.range x.length).map fun k => inverseCosineSum x k / x.length)) := by
  have hp := List.length_pos_iff.mpr h0
  refine ⟨?_, ?_, ?_⟩
  · exact r2r_of (g := hartleySum) h31 (Spectral.C69_hartley hp h31 (by simp) (by simp))
  · exact r2r_of (g := fun x k => 2 * cosineSum x k) h31 (Spectral.C69_dct hp h31 (by simp) (by simp))
  · obtain ⟨m', h1, w⟩ := Spectral.C69_idct (s := x) (m := List.replicate x.length 0) (first := 0) (d := 0) hp h31
      (by simp) (by simp)
    exact r2r_of (g := fun x' k => inverseCosineSum x' k / x.length) h31 ⟨m', h1, w⟩

theorem block_of {f : List ℝ → ℕ → ℕ → ℕ → Except Fault (List ℝ)} {k : ℕ → ℤ} {c : ℕ} {x : List ℝ}
    {g : List ℝ → ℕ → ℝ} (h31 : x.length < 2147483648) (hk : k x.length = c)
    (hf : ∃ m', f (x ++ List.replicate c 0) 0 (0 + x.length) x.length = .ok m' ∧
      Wrote (x ++ List.replicate c 0) m' x.length
        ((List.range c).map (g (seg (x ++ List.replicate c 0) 0 (0 + x.length))))) :
    r2rBlock f k (floats x) = .ok (floats ((List.range c).map (g x))) := by
  obtain ⟨m', h1, w⟩ := hf
  rw [seg_first] at w
  rw [Nat.zero_add] at h1
  rw [block_run (size_floats h31) hk h1, w.2]
  congr 2
  simp [floats]

/-- C90, `spectrum`: one number per bin of the half spectrum, the squared magnitude of the bin. -/
theorem C90_spectrum_partial {x : List ℝ} (h0 : x ≠ []) (h31 : x.length < 2147483648) :
    spectrum (floats x) =
      .ok (floats ((List.range (x.length / 2 + 1)).map fun k => ‖bin (ofReals x) k‖ ^ 2)) := by
  have hp := List.length_pos_iff.mpr h0
  exact block_of (g := fun x k => ‖bin (ofReals x) k‖ ^ 2) h31 (Spectral.C45_bins _)
    (Spectral.C68_spectrum hp h31 (by simp) (by simp))

/-- C90, `cepstrum`: the real cepstrum, provided no bin of the padded sequence is 0 (see `C70_zero_bin_violates`). -/
theorem C90_cepstrum_partial {x : List ℝ} (h0 : x ≠ []) (h31 : 2 * x.length < 2147483648)
    (hz : ∀ k, k ≤ x.length → bin (ofReals (zeroPad x)) k ≠ 0) :
    cepstrum (floats x) = .ok (floats ((List.range x.length).map (realCepstrum x))) := by
  have hp := List.length_pos_iff.mpr h0
  exact block_of (g := realCepstrum) (by omega) rfl
    (Spectral.C70_cepstrum_partial hp h31 (by simp) (by simp) (by rw [seg_first]; exact hz))

theorem r2c_of {f : List ℝ → ℕ → ℕ → List ℂ → ℕ → Except Fault (List ℂ)} {k : ℕ → ℤ} {c : ℕ} {x : List ℝ}
    {z m' : List ℂ} (h31 : x.length < 2147483648) (hk : k x.length = c) (hc : z.length = c)
    (h1 : f x 0 (0 + x.length) (List.replicate c 0) 0 = .ok m') (w : Wrote (List.replicate c 0) m' 0 z) :
    r2c f k (floats x) = .ok (complexes z) := by
  have hm := Spectral.wrote_full w (by simpa using hc)
  rw [Nat.zero_add] at h1
  rw [hm] at h1
  exact r2c_run (size_floats h31) hk h1

/-- C90, `rfft` of a real array: the complex array with the bins `0, …, n/2` of the transform of the elements. -/
theorem C90_rfft_partial {x : List ℝ} (h0 : x ≠ []) (h31 : x.length < 2147483648) :
    rfft (floats x) = .ok (complexes ((List.range (x.length / 2 + 1)).map (bin (ofReals x)))) := by
  have hp := List.length_pos_iff.mpr h0
  obtain ⟨m', h1, w⟩ := Spectral.C45_dft (s := x) (m := List.replicate (x.length / 2 + 1) 0) (first := 0) (d := 0)
    hp h31 (by simp) (by simp)
  rw [seg_whole] at w
  exact r2c_of h31 (Spectral.C45_bins _) (by simp) h1 w

/-- C90, `hilbert` of a real array: the analytic signal of the elements, as many complex numbers. -/
theorem C90_hilbert_partial {x : List ℝ} (h0 : x ≠ []) (h31 : x.length < 2147483648) :
    ∃ z, hilbert (floats x) = .ok (complexes z) ∧ z.length = x.length ∧ z.map Complex.re = x ∧
      ∀ k, k < x.length → bin z k =
        if k = 0 ∨ 2 * k = x.length then bin (ofReals x) k
        else if 2 * k < x.length then 2 * bin (ofReals x) k else 0 := by
  have hp := List.length_pos_iff.mpr h0
  obtain ⟨m', z, h1, w, h2, h3, h4⟩ := Spectral.C67_analytic (s := x) (m := List.replicate x.length 0) (first := 0)
    (d := 0) hp h31 (by simp) (by simp)
  rw [seg_whole] at h3 h4
  exact ⟨z, r2c_of h31 rfl h2 h1 w, h2, h3, h4⟩

/-! ### Pairs of real arrays -/

theorem pair_of {f : List ℝ → ℕ → ℕ → ℕ → ℕ → Except Fault (List ℝ)} {x y : List ℝ} {g : List ℝ → List ℝ → ℕ → ℝ}
    (h31 : x.length < 2147483648) (hl : y.length = x.length)
    (hf : ∃ m', f (x ++ y ++ List.replicate x.length 0) 0 (0 + x.length) x.length (x.length + y.length) = .ok m' ∧
      Wrote (x ++ y ++ List.replicate x.length 0) m' (x.length + y.length)
        ((List.range x.length).map (g (seg (x ++ y ++ List.replicate x.length 0) 0 (0 + x.length))
          (seg (x ++ y ++ List.replicate x.length 0) x.length (x.length + x.length))))) :
    pair f (floats x) (floats y) = .ok (floats ((List.range x.length).map (g x y))) := by
  obtain ⟨m', h1, w⟩ := hf
  rw [seg_second hl] at w
  rw [List.append_assoc, seg_first] at w
  rw [Nat.zero_add] at h1
  rw [pair_run (b := floats y) (size_floats h31) (by simp [floats, hl]) h1, w.2, ← List.append_assoc]
  congr 2
  have e : (floats x).cells.length + (floats y).cells.length = (x ++ y).length := by simp [floats]
  have e2 : x.length + y.length = (x ++ y).length := by simp
  rw [e, e2, List.take_left, List.append_assoc (x ++ y), List.drop_left, List.drop_of_length_le (by simp; omega),
    List.append_nil]

/-- C90, `conv` and `xcorr` of two real arrays of the same length. Missing: a shorter second array is read beyond its
end (`C90_short_violates`). -/
theorem C90_pair_partial {x y : List ℝ} (h0 : x ≠ []) (hl : y.length = x.length) (h31 : 2 * x.length < 2147483648) :
    conv (floats x) (floats y) = .ok (floats ((List.range x.length).map (convolution x y))) ∧
    xcorr (floats x) (floats y) = .ok (floats ((List.range x.length).map (correlation x y))) := by
  have hp := List.length_pos_iff.mpr h0
  constructor
  · exact pair_of (g := convolution) (by omega) hl
      (Spectral.C46_conv hp h31 (by simp) (by simp [hl]) (by simp; omega))
  · exact pair_of (g := correlation) (by omega) hl
      (Spectral.C46_xcorr_partial hp h31 (by simp) (by simp [hl]) (by simp; omega))

/-- C90 is violated: a second array that is shorter than the first is read beyond its end. -/
theorem C90_short_violates {x y : List ℝ} (hl : y.length < x.length) (h31 : x.length < 2147483648) :
    conv (floats x) (floats y) = .error .outOfBounds ∧ xcorr (floats x) (floats y) = .error .outOfBounds := by
  exact ⟨pair_fail (size_floats h31) hl, pair_fail (size_floats h31) hl⟩

/-! ### Complex arrays -/

theorem c2c_of {f : List ℂ → ℕ → ℕ → List ℂ → ℕ → Except Fault (List ℂ)} {z v m' : List ℂ}
    (h31 : z.length < 2147483648) (hv : v.length = z.length)
    (h1 : f z 0 (0 + z.length) (List.replicate z.length 0) 0 = .ok m')
    (w : Wrote (List.replicate z.length 0) m' 0 v) : c2c f (complexes z) = .ok (complexes v) := by
  have hm := Spectral.wrote_full w (by simpa using hv)
  rw [Nat.zero_add] at h1
  rw [hm] at h1
  exact c2c_run (size_complexes h31) (by rw [asComplex_complexes]; exact h1)

/-- C90, `fft` and `ifft` of a complex array: the transform of the elements, and the inverse sums divided by their
number. Missing: real arrays (`C90_real_fft_violates`). -/
theorem C90_complex_partial {z : List ℂ} (h0 : z ≠ []) (h31 : z.length < 2147483648) :
    fft (complexes z) = .ok (complexes ((List.range z.length).map (bin z))) ∧
    ifft (complexes z) = .ok (complexes ((List.range z.length).map fun j => inverseSum z j / z.length)) := by
  have hp := List.length_pos_iff.mpr h0
  constructor
  · obtain ⟨m', h1, w⟩ := Spectral.C45_cdft (s := z) (m := List.replicate z.length 0) (first := 0) (d := 0) hp h31
      (by simp) (by simp)
    rw [seg_whole] at w
    exact c2c_of h31 (by simp) h1 w
  · obtain ⟨m', h1, w⟩ := Spectral.cidft_ok (s := z) (m := List.replicate z.length 0) (first := 0) (d := 0) hp h31
      (by simp) (by simp)
    rw [seg_whole, Spectral.backward_spec rfl, List.map_map] at w
    exact c2c_of h31 (by simp) h1 w

/-- C90, `irfft` of a complex array of `h + 1 ≥ 2` bins: `2 h` samples. -/
theorem C90_irfft_partial {z : List ℂ} {h : ℕ} (h0 : 0 < h) (hz : z.length = h + 1) (h31 : 2 * h < 2147483648) :
    irfft (complexes z) =
      .ok (floats ((List.range (2 * h)).map fun j => halfInverseSum (2 * h) z j / (2 * h : ℕ))) := by
  obtain ⟨m', h1, w⟩ := Spectral.idft_ok (s := z) (m := List.replicate (2 * h) 0) (first := 0) (d := 0) h0 h31
    (by omega) (by simp)
  have hm := Spectral.wrote_full w (by simp [Spectral.c2r])
  rw [← hz, seg_whole, Spectral.c2r_spec (by omega), List.map_map] at hm
  rw [Nat.zero_add] at h1
  have ek : Spectral.makeIfftSize ((z.length : ℕ) : ℤ) = ((2 * h : ℕ) : ℤ) := by
    unfold Spectral.makeIfftSize; rw [hz]; push_cast; ring
  rw [hm] at h1
  exact c2r_run (size_complexes (by omega)) ek (by rw [asComplex_complexes, hz]; exact h1)

/-! ### There and back -/

theorem bins_back {m m' : List ℂ} {z : List ℂ} (h : Wrote m m' 0 z) (hl : z.length = m.length) : m' = z :=
  Spectral.wrote_full h hl

/-- C90: `ifft(fft(z))` and `fft(ifft(z))` are `z`, for every complex array. -/
theorem C90_complex_round_trip {z : List ℂ} (h0 : z ≠ []) (h31 : z.length < 2147483648) :
    (∃ r, fft (complexes z) = .ok r ∧ ifft r = .ok (complexes z)) ∧
    (∃ r, ifft (complexes z) = .ok r ∧ fft r = .ok (complexes z)) := by
  have hp := List.length_pos_iff.mpr h0
  constructor
  · obtain ⟨X, m', h1, h2, w⟩ := Spectral.C45_cidft_cdft (s := z) (m := List.replicate z.length 0)
      (m2 := List.replicate z.length 0) (first := 0) (d := 0) (d2 := 0) hp h31 (by simp) (by simp) (by simp)
    obtain ⟨X', h1', wX⟩ := Spectral.C45_cdft (s := z) (m := List.replicate z.length 0) (first := 0) (d := 0) hp h31
      (by simp) (by simp)
    rw [h1] at h1'
    cases h1'
    have hX := Spectral.wrote_full wX (by simp)
    have hXl : X.length = z.length := by rw [hX]; simp
    rw [seg_whole] at w
    refine ⟨complexes X, c2c_of h31 hXl h1 (by rw [hX]; rw [hX] at wX; exact wX), ?_⟩
    rw [← hXl] at h2 w h31
    exact c2c_of h31 hXl.symm h2 w
  · obtain ⟨X, m', h1, h2, w⟩ := Spectral.C45_cdft_cidft (s := z) (m := List.replicate z.length 0)
      (m2 := List.replicate z.length 0) (first := 0) (d := 0) (d2 := 0) hp h31 (by simp) (by simp) (by simp)
    obtain ⟨X', h1', wX⟩ := Spectral.cidft_ok (s := z) (m := List.replicate z.length 0) (first := 0) (d := 0) hp h31
      (by simp) (by simp)
    rw [h1] at h1'
    cases h1'
    have hX := Spectral.wrote_full wX (by simp [Spectral.backward])
    have hXl : X.length = z.length := by rw [hX]; simp [Spectral.backward]
    rw [seg_whole] at w
    refine ⟨complexes X, c2c_of h31 hXl h1 (by rw [hX]; rw [hX] at wX; exact wX), ?_⟩
    rw [← hXl] at h2 w h31
    exact c2c_of h31 hXl.symm h2 w

/-- C90: `irfft(rfft(x))` is `x` for an even number of elements. Missing: odd numbers (`C90_odd_violates`). -/
theorem C90_real_round_trip_partial {x : List ℝ} {h : ℕ} (h0 : 0 < h) (hx : x.length = 2 * h)
    (h31 : x.length < 2147483648) : ∃ r, rfft (floats x) = .ok r ∧ irfft r = .ok (floats x) := by
  have e2 : x.length / 2 + 1 = h + 1 := by omega
  obtain ⟨X, m', h1, h2, w⟩ := Spectral.C45_idft_dft_partial (s := x) (m := List.replicate (h + 1) 0)
    (m2 := List.replicate (2 * h) 0) (first := 0) (d := 0) (d2 := 0) h0 (by omega) (by omega) (by simp) (by simp)
  obtain ⟨X', h1', wX⟩ := Spectral.C45_dft (s := x) (m := List.replicate (h + 1) 0) (first := 0) (d := 0)
    (n := 2 * h) (by omega) (by omega) (by omega) (by simp)
  rw [h1] at h1'
  cases h1'
  have hX := Spectral.wrote_full wX (by simp)
  have hXl : X.length = h + 1 := by rw [hX]; simp
  rw [← hx, seg_whole] at w
  have hm := Spectral.wrote_full w (by simp)
  have hne : x ≠ [] := by intro hc; rw [hc] at hx; simp at hx; omega
  have hr := C90_rfft_partial hne h31
  refine ⟨_, hr, ?_⟩
  have hXe : (List.range (x.length / 2 + 1)).map (bin (ofReals x)) = X := by
    rw [hX, ← hx, seg_whole]
  rw [hXe]
  have ek : Spectral.makeIfftSize ((X.length : ℕ) : ℤ) = ((2 * h : ℕ) : ℤ) := by
    unfold Spectral.makeIfftSize; rw [hXl]; push_cast; ring
  rw [Nat.zero_add] at h2
  rw [hm] at h2
  exact c2r_run (size_complexes (by omega)) ek (by rw [asComplex_complexes, hXl]; exact h2)

/-- C90 is violated: for an odd number of elements `irfft(rfft(x))` has one element less than `x`. -/
theorem C90_odd_violates {x : List ℝ} {h : ℕ} (h0 : 0 < h) (hx : x.length = 2 * h + 1)
    (h31 : x.length < 2147483648) :
    ∃ r y, rfft (floats x) = .ok r ∧ irfft r = .ok (floats y) ∧ y.length + 1 = x.length := by
  have hne : x ≠ [] := by intro hc; rw [hc] at hx; simp at hx
  refine ⟨_, _, C90_rfft_partial hne h31, C90_irfft_partial (h := h) h0 (by simp; omega) (by omega), ?_⟩
  simp
  omega

/-- C90: `idct(dct(x))` is `x`. -/
theorem C90_cosine_round_trip {x : List ℝ} (h0 : x ≠ []) (h31 : x.length < 2147483648) :
    ∃ r, dct (floats x) = .ok r ∧ idct r = .ok (floats x) := by
  have hp := List.length_pos_iff.mpr h0
  refine ⟨_, (C90_real_partial h0 h31).2.1, ?_⟩
  obtain ⟨a, b, h1, h2, w⟩ := Spectral.C69_idct_dct (s := x) (m := List.replicate x.length 0)
    (m2 := List.replicate x.length 0) (first := 0) (d := 0) (d2 := 0) hp h31 (by simp) (by simp) (by simp)
  obtain ⟨a', h1', wa⟩ := Spectral.C69_dct (s := x) (m := List.replicate x.length 0) (first := 0) (d := 0) hp h31
    (by simp) (by simp)
  rw [h1] at h1'
  cases h1'
  have ha := Spectral.wrote_full wa (by simp)
  rw [seg_whole] at ha w
  have hb := Spectral.wrote_full w (by simp)
  have hal : a.length = x.length := by rw [ha]; simp
  rw [← ha]
  rw [Nat.zero_add] at h2
  rw [hb] at h2
  exact r2r_run (a := floats a) (n := x.length) (by rw [← hal]; exact size_floats (by omega)) h2

/-! ### Arrays of the other type -/

theorem read_beyond {α : Type} {z : List α} {n : ℕ} (h : z.length < n) :
    readRange z 0 (0 + n) = .error .outOfBounds := by
  unfold readRange
  rw [distance_ok (Nat.zero_le _)]
  simp only [bind, Except.bind]
  rw [if_neg (by omega)]
  rfl

theorem prepared {n : ℕ} (h0 : 0 < n) (k : Spectral.Kind) :
    Spectral.Engine.prepare ⟨n, none⟩ k = .ok ⟨n, some k⟩ := by
  unfold Spectral.Engine.prepare
  dsimp only
  rw [if_pos (by omega)]

/-- C90 is violated: given a real array, `fft` and `ifft` read twice as many numbers as there are. -/
theorem C90_real_fft_violates {x : List ℝ} (h0 : x ≠ []) (h31 : x.length < 2147483648) :
    fft (floats x) = .error .outOfBounds ∧ ifft (floats x) = .error .outOfBounds := by
  have hp := List.length_pos_iff.mpr h0
  have hl := asComplex_length x
  have hr := read_beyond (z := asComplex x) (n := x.length) (by omega)
  have hm := Spectral.make_ok h31
  constructor
  · refine c2c_fail (size_floats h31) ?_
    simp only [Spectral.cdft, distance_ok (Nat.zero_le x.length), bind, Except.bind, Nat.sub_zero, hm,
      Spectral.Engine.cdft, prepared hp, Spectral.Engine.executeDft, Int.toNat_natCast]
    have : (floats x).cells = x := rfl
    rw [this, hr]
  · refine c2c_fail (size_floats h31) ?_
    simp only [Spectral.cidft, distance_ok (Nat.zero_le x.length), bind, Except.bind, Nat.sub_zero, hm,
      Spectral.Engine.cidft, prepared hp, Spectral.Engine.executeDft, Int.toNat_natCast]
    have : (floats x).cells = x := rfl
    rw [this, hr]

/-- C90 is violated: so does `irfft`, for at least two elements. -/
theorem C90_real_irfft_violates {x : List ℝ} {h : ℕ} (h0 : 0 < h) (hx : x.length = h + 1)
    (h31 : 2 * h < 2147483648) : irfft (floats x) = .error .outOfBounds := by
  have hl := asComplex_length x
  have e2 : 2 * h / 2 + 1 = h + 1 := by omega
  have hr := read_beyond (z := asComplex x) (n := h + 1) (by omega)
  have hm := Spectral.make_ok h31
  have ek : Spectral.makeIfftSize ((h + 1 : ℕ) : ℤ) = ((2 * h : ℕ) : ℤ) := by
    unfold Spectral.makeIfftSize; push_cast; ring
  refine c2r_fail (c := 2 * h) (n := h + 1) (by rw [← hx]; exact size_floats (by omega)) ek ?_
  simp only [Spectral.idft, distance_ok (Nat.zero_le (h + 1)), bind, Except.bind, Nat.sub_zero, ek, hm,
    Spectral.Engine.idft, prepared (by omega : 0 < 2 * h), Spectral.Engine.executeC2r, Int.toNat_natCast, e2]
  have : (floats x).cells = x := rfl
  rw [this, hr]

/-- C90 is violated: `rfft` of a complex array transforms the parts of the first half of the elements, one after the
other, and leaves the other half out. -/
theorem C90_complex_rfft_violates {z : List ℂ} (h0 : z ≠ []) (h31 : z.length < 2147483648) :
    rfft (complexes z) = rfft (floats ((complexes z).cells.take z.length)) := by
  have hp := List.length_pos_iff.mpr h0
  have hc := length_complexes z
  have hl : ((complexes z).cells.take z.length).length = z.length := by rw [List.length_take, hc]; omega
  have hne : (complexes z).cells.take z.length ≠ [] := by
    intro h; rw [h] at hl; simp at hl; omega
  rw [C90_rfft_partial hne (by omega)]
  obtain ⟨m', h1, w⟩ := Spectral.C45_dft (s := (complexes z).cells) (m := List.replicate (z.length / 2 + 1) 0)
    (first := 0) (d := 0) hp h31 (by omega) (by simp)
  have hm := Spectral.wrote_full w (by simp)
  have hseg : seg (complexes z).cells 0 (0 + z.length) = (complexes z).cells.take z.length := by
    unfold seg
    simp
  rw [hseg] at hm
  rw [hm, Nat.zero_add] at h1
  rw [hl]
  exact r2c_run (size_complexes h31) (Spectral.C45_bins _) h1

/-- The last elements of a complex array make no difference to `rfft`. -/
example : rfft (complexes [1, 2]) = rfft (complexes [1, 3]) := by
  rw [C90_complex_rfft_violates (by simp) (by simp), C90_complex_rfft_violates (by simp) (by simp)]
  simp [complexes]

/-! ### Concrete cases -/

example : ∃ r, rfft (floats [1, 2, 3, 4]) = .ok r ∧ irfft r = .ok (floats [1, 2, 3, 4]) :=
  C90_real_round_trip_partial (h := 2) (by norm_num) rfl (by simp)

example : conv (floats [1, 2]) (floats [3, 4]) = .ok (floats [3, 10]) := by
  rw [(C90_pair_partial (x := [1, 2]) (y := [3, 4]) (by simp) rfl (by simp)).1]
  congr 2
  simp [List.range_succ, convolution, Finset.sum_range_succ]
  norm_num

example : fft (complexes [1, I]) = .ok (complexes [1 + I, 1 - I]) := by
  rw [(C90_complex_partial (by simp) (by simp)).1]
  congr 2
  simp [List.range_succ, bin, Finset.sum_range_succ]
  ring

end Edsp.PySpectral
