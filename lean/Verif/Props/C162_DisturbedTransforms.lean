import Verif.Lemmas.Close
import Verif.Props.C45_Transforms
import Verif.Props.C69_RealTransforms
import Verif.Props.C46_Convolution
import Verif.Props.C156_Overshoot
import Mathlib.Tactic.NormNum

/-! # C162: small disturbances in transforms, convolutions and filters -/

namespace Edsp.Spec

/-- Two complex sequences of the same length that differ by at most `δ` everywhere. -/
def CloseC (δ : ℝ) (x y : List ℂ) : Prop := List.Forall₂ (fun a b => ‖a - b‖ ≤ δ) x y

/-- The outputs of a device for neighbouring signals are at most `L` times as far from each other as the signals. -/
def Amplifies (T : List ℝ → List ℝ) (L : ℝ) : Prop :=
  ∀ (ε : ℝ) (x y : List ℝ), 0 ≤ ε → Close ε x y → Close (L * ε) (T x) (T y)

end Edsp.Spec

namespace Edsp.Props

open Edsp Edsp.Spec Edsp.LayoutL Edsp.BilinearL Edsp.AnalogL Edsp.PolarityL Edsp.OvershootL Edsp.ConvL Finset
open Filter (Tendsto atTop)

namespace C162

theorem getD_close {ε : ℝ} {x y : List ℝ} (h : Close ε x y) {j : ℕ} (hj : j < x.length) :
    |x.getD j 0 - y.getD j 0| ≤ ε := by
  have hl := CloseL.length_eq h
  have := (List.forall₂_iff_get.mp h).2 j hj (hl ▸ hj)
  simpa [hj, hl ▸ hj] using this

theorem seg_close {ε : ℝ} {x y : List ℝ} (h : Close ε x y) (a b : ℕ) : Close ε (seg x a b) (seg y a b) :=
  List.forall₂_take _ (List.forall₂_drop _ h)

theorem wrote_rel {α : Type} {R : α → α → Prop} (hR : ∀ a, R a a) {m X Y : List α} {d r : ℕ} {F G : ℕ → α}
    (hX : Wrote m X d ((List.range r).map F)) (hY : Wrote m Y d ((List.range r).map G)) (h : ∀ k < r, R (F k) (G k)) :
    List.Forall₂ R X Y := by
  have hs : ∀ l : List α, List.Forall₂ R l l := fun l => List.forall₂_same.mpr fun a _ => hR a
  rw [hX.2, hY.2]
  simp only [List.length_map, List.length_range]
  refine List.rel_append (List.rel_append (hs _) ?_) (hs _)
  rw [List.forall₂_map_left_iff, List.forall₂_map_right_iff]
  exact List.forall₂_same.mpr fun k hk => h k (List.mem_range.mp hk)

theorem sum_bound {N : ℕ} {ε c : ℝ} {u v : ℕ → ℝ} (hu : ∀ j < N, |u j| ≤ ε) (hv : ∀ j < N, |v j| ≤ c) (hε : 0 ≤ ε) :
    |∑ j ∈ range N, u j * v j| ≤ N * (ε * c) := by
  refine (abs_sum_le_sum_abs _ _).trans ?_
  have : ∑ j ∈ range N, |u j * v j| ≤ ∑ _j ∈ range N, ε * c := sum_le_sum fun j hj => by
    have hj := mem_range.mp hj
    rw [abs_mul]
    exact mul_le_mul (hu j hj) (hv j hj) (abs_nonneg _) hε
  simpa using this

theorem unit_norm (θ : ℝ) : ‖((Real.cos θ : ℝ) : ℂ) - Complex.I * ((Real.sin θ : ℝ) : ℂ)‖ = 1 := by
  have e : ((Real.cos θ : ℝ) : ℂ) - Complex.I * ((Real.sin θ : ℝ) : ℂ) = Complex.exp (((-θ : ℝ) : ℂ) * Complex.I) := by
    rw [Complex.exp_mul_I, ← Complex.ofReal_cos, ← Complex.ofReal_sin, Real.cos_neg, Real.sin_neg]
    push_cast
    ring
  rw [e, Complex.norm_exp_ofReal_mul_I]

theorem bin_close {ε : ℝ} {x y : List ℝ} (h : Close ε x y) (k : ℕ) :
    ‖bin (ofReals x) k - bin (ofReals y) k‖ ≤ x.length * ε := by
  have hl := CloseL.length_eq h
  have e1 : (ofReals x).length = x.length := by simp [ofReals]
  have e2 : (ofReals y).length = x.length := by simp [ofReals, hl]
  unfold bin
  rw [e1, e2, ← sum_sub_distrib]
  refine (norm_sum_le _ _).trans ?_
  have : ∀ j ∈ range x.length, ‖(ofReals x).getD j 0 * (((Real.cos (2 * Real.pi * k * j / x.length) : ℝ) : ℂ) -
      Complex.I * ((Real.sin (2 * Real.pi * k * j / x.length) : ℝ) : ℂ)) - (ofReals y).getD j 0 *
      (((Real.cos (2 * Real.pi * k * j / x.length) : ℝ) : ℂ) -
      Complex.I * ((Real.sin (2 * Real.pi * k * j / x.length) : ℝ) : ℂ))‖ ≤ ε := by
    intro j hj
    rw [← sub_mul, norm_mul, unit_norm, mul_one, Spectral.ofReals_getD, Spectral.ofReals_getD, ← Complex.ofReal_sub,
      Complex.norm_real]
    exact getD_close h (mem_range.mp hj)
  simpa using sum_le_sum this

theorem lti_close {T : List ℝ → List ℝ} (h : Lti T) {L : ℝ} (hL : ∀ n, ∑ j ∈ range n, |imp T j| ≤ L) : Amplifies T L := by
  intro ε x y hε hxy
  have hl := CloseL.length_eq hxy
  refine List.forall₂_iff_get.mpr ⟨by rw [h.len, h.len, hl], fun n h1 h2 => ?_⟩
  have hn : n < x.length := by rwa [h.len] at h1
  have e1 := out_list h x hn
  have e2 := out_list h y (hl ▸ hn)
  rw [getD_get h1] at e1
  rw [getD_get h2] at e2
  show |(T x)[n] - (T y)[n]| ≤ L * ε
  rw [e1, e2, ← sum_sub_distrib]
  calc |∑ j ∈ range (n + 1), (imp T j * x.getD (n - j) 0 - imp T j * y.getD (n - j) 0)|
      ≤ ∑ j ∈ range (n + 1), |imp T j * x.getD (n - j) 0 - imp T j * y.getD (n - j) 0| := abs_sum_le_sum_abs _ _
    _ ≤ ∑ j ∈ range (n + 1), |imp T j| * ε := sum_le_sum fun j _ => by
        rw [← mul_sub, abs_mul]
        exact mul_le_mul_of_nonneg_left (getD_close hxy (by omega)) (abs_nonneg _)
    _ = (∑ j ∈ range (n + 1), |imp T j|) * ε := (sum_mul ..).symm
    _ ≤ L * ε := mul_le_mul_of_nonneg_right (hL _) hε

theorem lti_sum_le {T : List ℝ → List ℝ} (h : Lti T) {L : ℝ} (hT : Amplifies T L) (n : ℕ) :
    ∑ j ∈ range (n + 1), |imp T j| ≤ L := by
  let u : ℕ → ℝ := fun i => if 0 ≤ imp T (n - i) then 1 else -1
  have hc : Close 1 ((List.range (n + 1)).map u) ((List.range (n + 1)).map fun _ => 0) := by
    unfold Close
    rw [List.forall₂_map_left_iff, List.forall₂_map_right_iff]
    refine List.forall₂_same.mpr fun k _ => ?_
    simp only [u]
    split <;> simp
  have := getD_close (hT 1 _ _ zero_le_one hc) (j := n) (by rw [h.len]; simp)
  rw [out_eq h u (by omega), out_eq h (fun _ => 0) (by omega), mul_one] at this
  have e : ∑ j ∈ range (n + 1), imp T j * u (n - j) = ∑ j ∈ range (n + 1), |imp T j| := by
    refine sum_congr rfl fun j hj => ?_
    have hj := mem_range.mp hj
    simp only [u]
    rw [show n - (n - j) = j by omega]
    split
    · rename_i h; rw [abs_of_nonneg h, mul_one]
    · rename_i h; rw [abs_of_neg (not_le.mp h)]; ring
  rw [e] at this
  simpa using (le_abs_self _).trans this

/-- A device that passes constants amplifies no disturbance exactly if its impulse response is nowhere negative. -/
theorem one_iff {T : List ℝ → List ℝ} (h : Lti T) (h1 : Answers T (constant 1) (constant 1)) :
    Amplifies T 1 ↔ ∀ k, 0 ≤ imp T k := by
  have hlim := dc_sum h h1
  constructor
  · intro hT k
    by_contra hk
    push Not at hk
    have hb : ∀ n ≥ k, ∑ j ∈ range (n + 1), imp T j ≤ 1 + 2 * imp T k := by
      intro n hn
      have hs := lti_sum_le h hT n
      have hmem : k ∈ range (n + 1) := mem_range.mpr (by omega)
      rw [← add_sum_erase _ _ hmem] at hs ⊢
      have : ∑ j ∈ (range (n + 1)).erase k, imp T j ≤ ∑ j ∈ (range (n + 1)).erase k, |imp T j| :=
        sum_le_sum fun j _ => le_abs_self _
      rw [abs_of_neg hk] at hs
      linarith
    have := le_of_tendsto hlim (Filter.eventually_atTop.mpr ⟨k, hb⟩)
    linarith
  · intro hk
    refine lti_close h fun n => ?_
    have e : ∀ n, ∑ j ∈ range n, |imp T j| = ∑ j ∈ range n, imp T j := fun n =>
      sum_congr rfl fun j _ => abs_of_nonneg (hk j)
    rw [e]
    have hm : Monotone fun n => ∑ j ∈ range (n + 1), imp T j := by
      refine monotone_nat_of_le_succ fun n => ?_
      rw [sum_range_succ _ (n + 1)]
      linarith [hk (n + 1)]
    have := hm.ge_of_tendsto hlim n
    simp only [sum_range_succ] at this
    linarith [hk n]

theorem section_bound {f : Biquad ℝ} (hs : f.stability = true) : ∃ L, ∀ n, ∑ j ∈ range n, |imp (fun xs => (f.filter xs).2) j| ≤ L := by
  obtain ⟨D, ρ, h0, h1, hd⟩ := C09_decay ((f.tick 1).1) hs
  have hD : 0 ≤ D := by
    have := (abs_nonneg _).trans (hd 0)
    simpa using this
  have st : ∀ n, f.stateAt unit (n + 1) = ((f.tick 1).1).stateAt (fun _ => 0) n := by
    intro n
    induction n with
    | zero => simp [Biquad.stateAt, unit]
    | succ n ih =>
      show ((f.stateAt unit (n + 1)).tick (unit (n + 1))).1 = _
      rw [ih]
      simp [Biquad.stateAt, unit]
  have hi : ∀ k, |imp (fun xs => (f.filter xs).2) (k + 1)| ≤ D * ρ ^ k := by
    intro k
    rw [imp_section]
    have e : f.response unit (k + 1) = ((f.tick 1).1).response (fun _ => 0) k := by
      unfold Biquad.response
      rw [st]
      simp [unit]
    rw [e]
    exact hd k
  refine ⟨|imp (fun xs => (f.filter xs).2) 0| + D * (1 / (1 - ρ)), fun n => ?_⟩
  have h2 : ∀ n, ∑ j ∈ range n, ρ ^ j ≤ 1 / (1 - ρ) := by
    intro n
    rw [le_div_iff₀ (by linarith), geom_sum_mul_neg]
    have := pow_nonneg h0 n
    linarith
  rcases n with _ | n
  · simp only [range_zero, sum_empty]
    have := h2 0
    simp only [range_zero, sum_empty] at this
    have := mul_nonneg hD this
    positivity
  · rw [sum_range_succ', add_comm]
    refine add_le_add le_rfl ?_
    calc ∑ k ∈ range n, |imp (fun xs => (f.filter xs).2) (k + 1)| ≤ ∑ k ∈ range n, D * ρ ^ k := sum_le_sum fun k _ => hi k
      _ = D * ∑ k ∈ range n, ρ ^ k := (mul_sum ..).symm
      _ ≤ D * (1 / (1 - ρ)) := mul_le_mul_of_nonneg_left (h2 n) hD

end C162

open C162

/-- **C162, Fourier transform**: a disturbance of at most `ε` changes no bin by more than `N ε`. -/
theorem C162_dft {ε : ℝ} {s t : List ℝ} {m : List ℂ} {first n d : ℕ} (h : Close ε s t) (hε : 0 ≤ ε) (h0 : 0 < n)
    (h31 : n < 2147483648) (hs : first + n ≤ s.length) (hd : d + (n / 2 + 1) ≤ m.length) :
    ∃ X Y, Spectral.dft s first (first + n) m d = .ok X ∧ Spectral.dft t first (first + n) m d = .ok Y ∧
      CloseC (n * ε) X Y := by
  have hl := CloseL.length_eq h
  obtain ⟨X, e1, w1⟩ := Spectral.C45_dft h0 h31 hs hd
  obtain ⟨Y, e2, w2⟩ := Spectral.C45_dft (s := t) h0 h31 (hl ▸ hs) hd
  refine ⟨X, Y, e1, e2, wrote_rel (fun a => by rw [sub_self, norm_zero]; positivity) w1 w2 fun k _ => ?_⟩
  have := bin_close (seg_close h first (first + n)) k
  rwa [Spectral.seg_len hs] at this

/-- **C162, Hartley and cosine transform**: no coefficient changes by more than `√2 N ε`, respectively `2 N ε`. -/
theorem C162_real_transforms {ε : ℝ} {s t m : List ℝ} {first n d : ℕ} (h : Close ε s t) (hε : 0 ≤ ε) (h0 : 0 < n)
    (h31 : n < 2147483648) (hs : first + n ≤ s.length) (hd : d + n ≤ m.length) :
    (∃ X Y, Spectral.hartley s first (first + n) m d = .ok X ∧ Spectral.hartley t first (first + n) m d = .ok Y ∧
      Close (n * (ε * Real.sqrt 2)) X Y) ∧
    (∃ X Y, Spectral.dct s first (first + n) m d = .ok X ∧ Spectral.dct t first (first + n) m d = .ok Y ∧
      Close (2 * (n * ε)) X Y) := by
  have hl := CloseL.length_eq h
  have hc := seg_close h first (first + n)
  have l1 := Spectral.seg_len hs
  have l2 := Spectral.seg_len (s := t) (hl ▸ hs)
  constructor
  · obtain ⟨X, e1, w1⟩ := Spectral.C69_hartley h0 h31 hs hd
    obtain ⟨Y, e2, w2⟩ := Spectral.C69_hartley (s := t) h0 h31 (hl ▸ hs) hd
    refine ⟨X, Y, e1, e2, wrote_rel (fun a => by rw [sub_self, abs_zero]; positivity) w1 w2 fun k _ => ?_⟩
    unfold hartleySum
    rw [l1, l2, ← sum_sub_distrib]
    simp only [← sub_mul]
    refine sum_bound (fun j hj => getD_close hc (by rw [l1]; exact hj)) (fun j _ => ?_) hε
    apply Real.abs_le_sqrt
    set θ := 2 * Real.pi / n * j * k
    nlinarith [Real.sin_sq_add_cos_sq θ, sq_nonneg (Real.cos θ - Real.sin θ)]
  · obtain ⟨X, e1, w1⟩ := Spectral.C69_dct h0 h31 hs hd
    obtain ⟨Y, e2, w2⟩ := Spectral.C69_dct (s := t) h0 h31 (hl ▸ hs) hd
    refine ⟨X, Y, e1, e2, wrote_rel (fun a => by rw [sub_self, abs_zero]; positivity) w1 w2 fun k _ => ?_⟩
    unfold cosineSum
    rw [l1, l2, ← mul_sub, ← sum_sub_distrib, abs_mul, abs_two]
    simp only [← sub_mul]
    have := sum_bound (N := n) (c := 1) (ε := ε)
      (u := fun j => (seg s first (first + n)).getD j 0 - (seg t first (first + n)).getD j 0)
      (v := fun j => Real.cos (Real.pi / n * (j + 1 / 2) * k))
      (fun j hj => getD_close hc (by rw [l1]; exact hj)) (fun j _ => Real.abs_cos_le_one _) hε
    rw [mul_one] at this
    exact mul_le_mul_of_nonneg_left this zero_le_two

/-- **C162, convolution**: disturbing the first sequence changes no sample by more than the sum of the magnitudes of the
second times the disturbance. -/
theorem C162_conv {ε : ℝ} {m m2 : List ℝ} {f1 f2 n d : ℕ} (hε : 0 ≤ ε) (h0 : 0 < n) (h31 : 2 * n < 2147483648)
    (h1 : f1 + n ≤ m.length) (h2 : f2 + n ≤ m.length) (hd : d + n ≤ m.length) (hl : m.length = m2.length)
    (hx : Close ε (seg m f1 (f1 + n)) (seg m2 f1 (f1 + n))) (hh : seg m f2 (f2 + n) = seg m2 f2 (f2 + n)) :
    ∃ a b S T, Spectral.conv m f1 (f1 + n) f2 d = .ok a ∧ Spectral.conv m2 f1 (f1 + n) f2 d = .ok b ∧
      Wrote m a d S ∧ Wrote m2 b d T ∧ S.length = n ∧
      Close (((seg m f2 (f2 + n)).map fun v => |v|).sum * ε) S T := by
  obtain ⟨a, e1, w1⟩ := Spectral.C46_conv h0 h31 h1 h2 hd
  obtain ⟨b, e2, w2⟩ := Spectral.C46_conv (m := m2) h0 h31 (hl ▸ h1) (hl ▸ h2) (hl ▸ hd)
  refine ⟨a, b, _, _, e1, e2, w1, w2, by simp, ?_⟩
  unfold Close
  rw [List.forall₂_map_left_iff, List.forall₂_map_right_iff]
  refine List.forall₂_same.mpr fun k hk => ?_
  have hk := List.mem_range.mp hk
  have lx : (seg m f1 (f1 + n)).length = n := Spectral.seg_len h1
  have lh : (seg m f2 (f2 + n)).length = n := Spectral.seg_len h2
  rw [← hh]
  generalize seg m f2 (f2 + n) = hs at lh
  generalize seg m f1 (f1 + n) = x at hx lx
  generalize seg m2 f1 (f1 + n) = y at hx
  unfold convolution
  rw [← sum_sub_distrib]
  have hS : (hs.map fun v => |v|).sum = ∑ j ∈ range n, |hs.getD j 0| := by
    conv_lhs => rw [list_eq hs, lh]
    rw [List.map_map, ← List.sum_toFinset _ List.nodup_range, List.toFinset_range]
    rfl
  have hle : ∑ j ∈ range (k + 1), |hs.getD j 0| ≤ ∑ j ∈ range n, |hs.getD j 0| :=
    sum_le_sum_of_subset_of_nonneg (range_subset_range.mpr (by omega)) fun _ _ _ => abs_nonneg _
  calc |∑ i ∈ range (k + 1), (x.getD i 0 * hs.getD (k - i) 0 - y.getD i 0 * hs.getD (k - i) 0)|
      ≤ ∑ i ∈ range (k + 1), |x.getD i 0 * hs.getD (k - i) 0 - y.getD i 0 * hs.getD (k - i) 0| := abs_sum_le_sum_abs _ _
    _ ≤ ∑ i ∈ range (k + 1), ε * |hs.getD (k - i) 0| := sum_le_sum fun i hi => by
        have := mem_range.mp hi
        rw [← sub_mul, abs_mul]
        exact mul_le_mul_of_nonneg_right (getD_close hx (by omega)) (abs_nonneg _)
    _ = ε * ∑ i ∈ range (k + 1), |hs.getD i 0| := by
        rw [← mul_sum]
        congr 1
        have := sum_range_reflect (fun i => |hs.getD i 0|) (k + 1)
        simpa using this
    _ ≤ (hs.map fun v => |v|).sum * ε := by
        rw [hS, mul_comm]
        exact mul_le_mul_of_nonneg_right hle hε

/-- **C162, stable filters**: there is one number for the filter, whatever the length of the signals, by which it
enlarges disturbances at most. -/
theorem C162_stable {c : Cascade ℝ} (hr : ∀ f ∈ active c, f.w0 = 0 ∧ f.w1 = 0) (hs : ∀ f ∈ active c, f.stability = true) :
    ∃ L, Amplifies (fromCascade c) L := by
  have e : fromCascade c = fun x => (through (active c) x).2 := by
    funext x; exact SteadyL.filter_out c x
  rw [e]
  generalize active c = fs at hr hs
  suffices ∃ L, 0 ≤ L ∧ Amplifies (fun x => (through fs x).2) L by
    obtain ⟨L, -, h⟩ := this
    exact ⟨L, h⟩
  induction fs with
  | nil => exact ⟨1, zero_le_one, fun ε x y _ h => by rw [one_mul]; exact h⟩
  | cons f fs ih =>
    obtain ⟨L, hL, h⟩ := ih (fun g hg => hr g (by simp [hg])) (fun g hg => hs g (by simp [hg]))
    obtain ⟨M, hM⟩ := section_bound (hs f (by simp))
    have hM0 : 0 ≤ M := by simpa using hM 0
    refine ⟨L * M, mul_nonneg hL hM0, fun ε x y hε hxy => ?_⟩
    rw [mul_assoc]
    exact h _ _ _ (mul_nonneg hM0 hε) (lti_close (section_lti (hr f (by simp))) hM ε x y hε hxy)

/-- **C162, low-passes**: a low-pass of second order enlarges no disturbance exactly for qualities up to 1/2 and cutoffs
up to a quarter of the sample rate. -/
theorem C162_low_passes (fc fs Q : ℝ) (h0 : 0 < fc) (h1 : fc < fs / 2) (hQ : 0 < Q) :
    ∀ design ∈ [Rbj.lowPass, Zoelzer.lowPass], ∃ f, design fc fs Q = .ok f ∧
      (Amplifies (fun xs => (f.filter xs).2) 1 ↔ Q ≤ 1 / 2 ∧ fc ≤ fs / 4) := by
  intro design hd
  obtain ⟨f, hf, -, ho⟩ := C156_low_passes fc fs Q h0 h1 hQ design hd
  obtain ⟨f', hf', ha⟩ := C155_low_passes fc fs Q h0 h1 hQ design hd
  obtain rfl := same_ok hf hf'
  refine ⟨f, hf, ?_⟩
  have rest : ∀ {a0 a1 a2 b0 b1 b2 : ℝ}, Biquad.ofCoeffs a0 a1 a2 b0 b1 b2 = .ok f → f.w0 = 0 ∧ f.w1 = 0 := by
    intro a0 a1 a2 b0 b1 b2 h
    unfold Biquad.ofCoeffs at h
    split at h
    · cases h
    · injection h with h; rw [← h]; exact ⟨rfl, rfl⟩
  have hr : f.w0 = 0 ∧ f.w1 = 0 := by
    simp only [List.mem_cons, List.not_mem_nil, or_false] at hd
    rcases hd with rfl | rfl
    · unfold Rbj.lowPass at hf
      simp only [bind, Except.bind] at hf
      repeat' (split at hf)
      all_goals first
        | cases hf
        | exact rest hf
    · unfold Zoelzer.lowPass at hf
      simp only [bind, Except.bind] at hf
      repeat' (split at hf)
      all_goals first
        | cases hf
        | exact rest hf
  have hdc : Answers (fun xs => (f.filter xs).2) (constant 1) (constant 1) := by
    have e : fromState f (0, 0) = fun xs => (f.filter xs).2 := by
      funext xs
      obtain ⟨g1, g2⟩ := hr
      cases f
      simp only at g1 g2
      subst g1 g2
      rfl
    rw [← e]
    exact (ha (0, 0) 1 0).1
  rw [one_iff (section_lti hr) hdc, ← order_iff (section_lti hr)]
  exact ho

/-- **C162, Butterworth low-passes**: exactly for order 1 and cutoffs up to a quarter of the sample rate. -/
theorem C162_butterworth {N n : Nat} (hn : 1 ≤ n) (hN : n ≤ N) {fs fc : ℝ} (h0 : 0 < fc) (h1 : fc < fs / 2) :
    ∃ c, Butterworth.lowPass false N n fs fc = .ok c ∧ (Amplifies (fromCascade c) 1 ↔ n = 1 ∧ fc ≤ fs / 4) := by
  obtain ⟨⟨c, hc, hp⟩, -⟩ := butter_parts false hn hN (fun _ => rfl) h0 h1
  obtain ⟨c', hc', hans⟩ := C155_butterworth_low false hn hN (fun _ => rfl) h0 h1
  obtain rfl := same_ok hc hc'
  refine ⟨c, hc, ?_⟩
  have hl := cascade_lti (parts_rest hp)
  rw [one_iff hl (hans 1 0).1, ← order_iff hl]
  by_cases h : n = 1
  · subst h
    obtain ⟨c', hc', -, ho⟩ := C156_butterworth_first hN h0 h1
    obtain rfl := same_ok hc hc'
    simpa using ho
  · obtain ⟨c', hc', -, ho⟩ := C156_butterworth_higher false (by omega) hN (fun _ => rfl) h0 h1
    obtain rfl := same_ok hc hc'
    simp [h, ho]

/-- The hypotheses can be met, and the bound is attained in bin 0: all samples larger by `1/8`. -/
theorem C162_example : Close (1 / 8) [1, -1 / 2] [9 / 8, -3 / 8] ∧
    (∃ X Y, Spectral.dft [1, -1 / 2] 0 (0 + 2) [0, 0] 0 = .ok X ∧ Spectral.dft [9 / 8, -3 / 8] 0 (0 + 2) [0, 0] 0 = .ok Y ∧
      CloseC ((2 : ℕ) * (1 / 8)) X Y) ∧
    ‖bin (ofReals [1, -1 / 2]) 0 - bin (ofReals [9 / 8, -3 / 8]) 0‖ = 2 * (1 / 8) := by
  have h : Close (1 / 8) [1, -1 / 2] [9 / 8, -3 / 8] := by
    refine List.Forall₂.cons ?_ (List.Forall₂.cons ?_ List.Forall₂.nil) <;> rw [abs_le] <;> norm_num
  refine ⟨h, C162_dft h (by norm_num) (by norm_num) (by norm_num) (by simp) (by simp), ?_⟩
  norm_num [bin, ofReals, sum_range_succ]

end Edsp.Props
