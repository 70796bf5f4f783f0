import Verif.Props.C131_OverlapAdd
import Verif.Props.C45_Transforms
import Verif.Props.C136_PureTones
import Mathlib.Algebra.BigOperators.Field

/-!
# C146: gain, noise bandwidth and leakage of the windows
-/

namespace Edsp.C146

open Finset Edsp.Spec Edsp.C38 Edsp.Win Edsp.C131

theorem cosineWindow_eq (as : List ℝ) (k : ℕ) (t : ℝ) :
    cosineWindow as k t = ∑ i ∈ range as.length, (-1) ^ (k + i) * as.getD i 0 * Real.cos ((k + i : ℕ) * t) := by
  induction as generalizing k with
  | nil => simp [cosineWindow]
  | cons a as ih =>
    rw [cosineWindow, ih, List.length_cons, sum_range_succ', add_comm]
    congr 1
    refine sum_congr rfl fun i _ => ?_
    rw [show k + 1 + i = k + (i + 1) by omega]
    simp [List.getD]

/-- The kernel of the transform. -/
noncomputable def ker (α : ℝ) : ℂ := (Real.cos α : ℂ) - Complex.I * (Real.sin α : ℂ)

theorem ker_cos (α β : ℝ) : (Real.cos β : ℂ) * ker α = (ker (α + β) + ker (α - β)) / 2 := by
  unfold ker
  rw [Real.cos_add, Real.cos_sub, Real.sin_add, Real.sin_sub]
  push_cast
  ring

theorem ker_turn (α : ℝ) (j : ℕ) : ker (α + j * (2 * Real.pi)) = ker α := by
  unfold ker
  rw [Real.cos_add_nat_mul_two_pi, Real.sin_add_nat_mul_two_pi]

theorem bin_ker (x : List ℝ) (k : ℕ) :
    bin (ofReals x) k = ∑ j ∈ range x.length, (x.getD j 0 : ℂ) * ker (2 * Real.pi * k * j / x.length) := by
  unfold bin
  rw [show (ofReals x).length = x.length by simp [ofReals]]
  refine sum_congr rfl fun j _ => ?_
  unfold ker
  congr 1
  simp only [ofReals, List.getD, List.getElem?_map]
  cases x[j]? <;> simp

theorem bin_turn (x : List ℝ) (k : ℕ) : bin (ofReals x) (k + x.length) = bin (ofReals x) k := by
  rw [bin_ker, bin_ker]
  refine sum_congr rfl fun j hj => ?_
  have h0 : (x.length : ℝ) ≠ 0 := by
    have := mem_range.1 hj
    exact_mod_cast (by omega : x.length ≠ 0)
  rw [← ker_turn (2 * Real.pi * k * j / x.length) j]
  congr 2
  push_cast
  field_simp

/-- The transform of a frame times a cosine of `k` periods. -/
theorem bin_cos {x y : List ℝ} (k : ℕ) (hy : y.length = x.length) (hk : k ≤ x.length)
    (h : ∀ j, j < x.length → y.getD j 0 = x.getD j 0 * Real.cos (k * (2 * Real.pi * j / x.length))) (b : ℕ) :
    bin (ofReals y) b = (bin (ofReals x) (b + k) + bin (ofReals x) (b + x.length - k)) / 2 := by
  rw [bin_ker, bin_ker, bin_ker, ← sum_add_distrib, sum_div, hy]
  refine sum_congr rfl fun j hj => ?_
  have hj := mem_range.1 hj
  have h0 : (x.length : ℝ) ≠ 0 := by exact_mod_cast (by omega : x.length ≠ 0)
  rw [h j hj, Complex.ofReal_mul, mul_assoc, ker_cos, ← mul_add, ← mul_div_assoc]
  congr 3
  · congr 1
    push_cast
    field_simp
  · rw [← ker_turn _ j]
    congr 1
    rw [Nat.cast_sub (by omega)]
    push_cast
    field_simp
    ring

/-- The transform of a windowed frame, from that of the frame. -/
noncomputable def smeared (x : List ℝ) (a : ℝ) (as : List ℝ) (b : ℕ) : ℂ :=
  a * bin (ofReals x) b + ∑ i ∈ range as.length, ((-1) ^ (i + 1) * as.getD i 0 / 2 : ℝ) *
    (bin (ofReals x) (b + (i + 1)) + bin (ofReals x) (b + x.length - (i + 1)))

theorem bin_window {x w : List ℝ} {a : ℝ} {as : List ℝ} (hl : as.length ≤ x.length) (hw : x.length ≤ w.length)
    (hv : ∀ j, j < x.length → w.getD j 0 = a + cosineWindow as 1 (2 * Real.pi * j / x.length)) (b : ℕ) :
    bin (ofReals (List.zipWith (· * ·) x w)) b = smeared x a as b := by
  have hz : ∀ j, j < x.length → (List.zipWith (· * ·) x w).getD j 0 = x.getD j 0 * w.getD j 0 := by
    intro j hj
    simp [List.getD, List.getElem?_zipWith, List.getElem?_eq_getElem hj, List.getElem?_eq_getElem (lt_of_lt_of_le hj hw)]
  have hzl : (List.zipWith (· * ·) x w).length = x.length := by simp [hw]
  unfold smeared
  generalize List.zipWith (· * ·) x w = z at *
  rw [bin_ker, hzl]
  have hterm : ∀ j ∈ range x.length, (z.getD j 0 : ℂ) * ker (2 * Real.pi * b * j / x.length) =
      a * ((x.getD j 0 : ℂ) * ker (2 * Real.pi * b * j / x.length)) +
      ∑ i ∈ range as.length, ((-1) ^ (i + 1) * as.getD i 0 / 2 : ℝ) * (2 * ((x.getD j 0 * Real.cos ((i + 1 : ℕ) *
        (2 * Real.pi * j / x.length)) : ℝ) * ker (2 * Real.pi * b * j / x.length))) := by
    intro j hj
    have hj := mem_range.1 hj
    rw [hz j hj, hv j hj, cosineWindow_eq]
    push_cast
    rw [mul_add, add_mul, mul_sum, sum_mul]
    congr 1
    · ring
    · refine sum_congr rfl fun i _ => ?_
      rw [show 1 + i = i + 1 by omega]
      ring_nf
  rw [sum_congr rfl hterm, sum_add_distrib, ← mul_sum, sum_comm, ← bin_ker]
  congr 1
  refine sum_congr rfl fun i hi => ?_
  have hi := mem_range.1 hi
  rw [← mul_sum, ← mul_sum]
  congr 1
  have := bin_cos (x := x) (y := (List.range x.length).map fun j => x.getD j 0 * Real.cos ((i + 1 : ℕ) *
    (2 * Real.pi * j / x.length))) (i + 1) (by simp) (by omega) (by
      intro j hj
      simp [List.getD, List.getElem?_map, List.getElem?_range hj]) b
  rw [bin_ker] at this
  simp only [List.length_map, List.length_range] at this
  rw [eq_div_iff two_ne_zero] at this
  rw [← this, mul_comm]
  congr 1
  refine sum_congr rfl fun j hj => ?_
  have hj := mem_range.1 hj
  simp [List.getD, List.getElem?_map, List.getElem?_range hj]

/-- A stored window made of cosines, one sample longer than a frame. -/
theorem stored_window (k : Window) {a : ℝ} {as : List ℝ} (hk : coefficients k = some (a, as)) {L : ℕ} (hL : 1 ≤ L)
    {m : List ℝ} (hm : m.length = L + 1) :
    ∃ w, fn k m 0 m.length = .ok w ∧ w.length = L + 1 ∧
      (∀ j, j ≤ L → w.getD j 0 = a + cosineWindow as 1 (2 * Real.pi * j / L)) := by
  obtain ⟨w, h1, h2⟩ := C38_values_partial k (by rintro rfl; simp [coefficients] at hk) (m := m) (a := 0) (b := m.length)
    (by omega) le_rfl
  have hw := wrote_all h2 (by simp)
  refine ⟨w, h1, by rw [hw]; simp [hm], fun j hj => ?_⟩
  rw [hw, List.getD, List.getElem?_map, List.getElem?_range (by omega), Option.map_some, Option.getD_some, value_cos hk,
    angle, hm]
  congr 2
  push_cast
  rw [add_sub_cancel_right]

/-- **C146 (leakage).**  A frame of `L` samples times the first `L` samples of a cosine window of `L + 1` samples: every bin of
its transform is the bin of the frame times the constant of the window, plus the bins around it at a distance up to the
number of cosines, times half their coefficients with alternating signs. -/
theorem C146_leakage (k : Window) {a : ℝ} {as : List ℝ} (hk : coefficients k = some (a, as)) {L : ℕ} (hL : as.length ≤ L)
    (h0 : 1 ≤ L) (h31 : L < 2147483648) {m : List ℝ} (hm : m.length = L + 1) {x : List ℝ} (hx : x.length = L)
    {p : List ℂ} {d : ℕ} (hd : d + (L / 2 + 1) ≤ p.length) :
    ∃ w p', fn k m 0 m.length = .ok w ∧ Spectral.dft (List.zipWith (· * ·) x w) 0 L p d = .ok p' ∧
      Wrote p p' d ((List.range (L / 2 + 1)).map (smeared x a as)) := by
  obtain ⟨w, h1, h2, h3⟩ := stored_window k hk h0 hm
  have hzl : (List.zipWith (· * ·) x w).length = L := by simp [hx, h2]
  obtain ⟨p', g1, g2⟩ := Spectral.C45_dft (s := List.zipWith (· * ·) x w) (first := 0) (n := L) (m := p) (d := d) h0 h31
    (by omega) hd
  rw [Nat.zero_add] at g1 g2
  refine ⟨w, p', h1, g1, ?_⟩
  have hseg : seg (List.zipWith (· * ·) x w) 0 L = List.zipWith (· * ·) x w := by simp [seg, hzl.symm]
  rw [hseg] at g2
  have e : (List.range (L / 2 + 1)).map (smeared x a as) =
      (List.range (L / 2 + 1)).map (bin (ofReals (List.zipWith (· * ·) x w))) := by
    refine List.map_congr_left fun b _ => ?_
    rw [bin_window (a := a) (as := as) (by omega) (by omega)]
    intro j hj
    rw [h3 j (by omega), hx]
  rw [e]
  exact g2

/-- **C146 (tone).**  If the frame has one line, in bin `K`, further from both ends than the window has cosines, the
transform of the windowed frame has the line times the constant of the window in bin `K`, half the `i`-th coefficient in the bins `K ± i`,
and 0 everywhere else. -/
theorem C146_tone {x : List ℝ} {a : ℝ} {as : List ℝ} {K : ℕ} (hK : as.length < K) (hL : 2 * (K + as.length) < x.length)
    (hline : ∀ b, b < x.length → b ≠ K → b ≠ x.length - K → bin (ofReals x) b = 0) {b : ℕ} (hb : b ≤ x.length / 2) :
    smeared x a as b = bin (ofReals x) K * (if b = K then (a : ℂ) else
      ((-1) ^ (max b K - min b K) * as.getD (max b K - min b K - 1) 0 / 2 : ℝ)) := by
  unfold smeared
  have hup : ∀ i, i < as.length → bin (ofReals x) (b + (i + 1)) = if b + (i + 1) = K then bin (ofReals x) K else 0 := by
    intro i hi
    split_ifs with h
    · rw [h]
    · exact hline _ (by omega) h (by omega)
  have hdn : ∀ i, i < as.length → bin (ofReals x) (b + x.length - (i + 1)) =
      if K + (i + 1) = b then bin (ofReals x) K else 0 := by
    intro i hi
    split_ifs with h
    · rw [← h, show K + (i + 1) + x.length - (i + 1) = K + x.length by omega, bin_turn]
    · rcases lt_or_ge b (i + 1) with g | g
      · exact hline _ (by omega) (by omega) (by omega)
      · rw [show b + x.length - (i + 1) = b - (i + 1) + x.length by omega, bin_turn]
        exact hline _ (by omega) (by omega) (by omega)
  rw [sum_congr rfl fun i hi => by rw [hup i (mem_range.1 hi), hdn i (mem_range.1 hi)]]
  rcases lt_trichotomy b K with h | h | h
  · rw [if_neg (by omega), max_eq_right h.le, min_eq_left h.le, hline b (by omega) (by omega) (by omega), mul_zero, zero_add]
    rcases lt_or_ge (K - b - 1) as.length with g | g
    · rw [sum_eq_single (K - b - 1)]
      · rw [if_pos (by omega), if_neg (by omega), show K - b - 1 + 1 = K - b by omega, add_zero, mul_comm]
      · intro i _ hi
        rw [if_neg (by omega), if_neg (by omega), add_zero, mul_zero]
      · intro hi
        exact absurd (mem_range.2 g) hi
    · rw [List.getD, List.getElem?_eq_none g, sum_eq_zero]
      · simp
      · intro i hi
        have := mem_range.1 hi
        rw [if_neg (by omega), if_neg (by omega), add_zero, mul_zero]
  · subst h
    rw [if_pos rfl, sum_eq_zero, add_zero, mul_comm]
    intro i _
    rw [if_neg (by omega), add_zero, mul_zero]
  · rw [if_neg (by omega), max_eq_left h.le, min_eq_right h.le, hline b (by omega) (by omega) (by omega), mul_zero, zero_add]
    rcases lt_or_ge (b - K - 1) as.length with g | g
    · rw [sum_eq_single (b - K - 1)]
      · rw [if_neg (by omega), if_pos (by omega), show b - K - 1 + 1 = b - K by omega, zero_add, mul_comm]
      · intro i _ hi
        rw [if_neg (by omega), if_neg (by omega), add_zero, mul_zero]
      · intro hi
        exact absurd (mem_range.2 g) hi
    · rw [List.getD, List.getElem?_eq_none g, sum_eq_zero]
      · simp
      · intro i hi
        have := mem_range.1 hi
        rw [if_neg (by omega), if_neg (by omega), add_zero, mul_zero]

/-- **C146 (oscillator).**  A frame of `L` samples of the sine oscillator with `K` periods times a window of `L + 1` samples: in
the transform, bin `K` holds half the amplitude times `L` times the constant of the window, the bins next to it their
coefficients, and all others 0. -/
theorem C146_oscillator (k : Window) {a : ℝ} {as : List ℝ} (hk : coefficients k = some (a, as)) {dbg : Bool}
    {s s' : Osc.State} (hreach : C39.Reachable dbg .sin s) (hr : 0 < s.sampleRate) {K L : ℕ} (hK : as.length < K)
    (hL : 2 * (K + as.length) < L) (h31 : L < 2147483648) (hf : s.frequency * L = K * s.sampleRate) {xs : List ℝ}
    (hg : Osc.gen .sin L s = .ok (xs, s')) {m : List ℝ} (hm : m.length = L + 1) {p : List ℂ} {d : ℕ}
    (hd : d + (L / 2 + 1) ≤ p.length) :
    ∃ w p', ∃ X : ℂ, fn k m 0 m.length = .ok w ∧ Spectral.dft (List.zipWith (· * ·) xs w) 0 L p d = .ok p' ∧
      ‖X‖ = |s.amplitude| * L / 2 ∧
      Wrote p p' d ((List.range (L / 2 + 1)).map fun b => X * (if b = K then (a : ℂ) else
        ((-1) ^ (max b K - min b K) * as.getD (max b K - min b K - 1) 0 / 2 : ℝ))) := by
  have hL0 : 0 < L := by omega
  have hl : xs.length = L := by rw [C136.frame hreach hr hL0 hf hg]; simp
  have hb := C136.frame_bins hreach hr hL0 hf hg
  obtain ⟨w, p', h1, h2, h3⟩ := C146_leakage k hk (L := L) (by omega) hL0 h31 hm hl hd
  refine ⟨w, p', bin (ofReals xs) K, h1, h2, ?_, ?_⟩
  · rw [hb, if_pos (by simp), if_neg (by rw [C136.dvd_plus (by omega) (by omega) (by omega)]; omega), mul_zero, sub_zero,
      norm_mul, norm_mul, Complex.norm_exp_ofReal_mul_I, norm_div, norm_mul, Complex.norm_I, Complex.norm_real,
      Complex.norm_natCast, Real.norm_eq_abs]
    simp
    ring
  · have e : ((List.range (L / 2 + 1)).map fun b => bin (ofReals xs) K * (if b = K then (a : ℂ) else
        ((-1) ^ (max b K - min b K) * as.getD (max b K - min b K - 1) 0 / 2 : ℝ))) =
        (List.range (L / 2 + 1)).map (smeared xs a as) := by
      refine List.map_congr_left fun b hbm => ?_
      have := List.mem_range.1 hbm
      rw [C146_tone hK (by omega) ?_ (by omega)]
      intro c hc h4 h5
      rw [hb, if_neg (by rw [C136.dvd_minus (by omega) (by omega)]; exact h4),
        if_neg (by rw [C136.dvd_plus (by omega) (by omega) (by omega)]; omega)]
      simp
    rw [e]
    exact h3

theorem cosines {L l : ℕ} (h0 : 0 < l) (h1 : l < L) : ∑ j ∈ range L, Real.cos (l * (2 * Real.pi * j / L)) = 0 := by
  rw [← cos_sum h0 h1 0]
  refine sum_congr rfl fun j _ => ?_
  congr 1
  ring

theorem window_sum {L : ℕ} (as : List ℝ) (k : ℕ) (hk : 1 ≤ k) (hl : k + as.length ≤ L) :
    ∑ j ∈ range L, cosineWindow as k (2 * Real.pi * j / L) = 0 := by
  simp only [cosineWindow_eq]
  rw [sum_comm]
  refine sum_eq_zero fun i hi => ?_
  have := mem_range.1 hi
  rw [← mul_sum, cosines (by omega) (by omega), mul_zero]

theorem cos_prod {L p q : ℕ} (hp : 0 < p) (hpq : p < q) (h : p + q < L) :
    ∑ j ∈ range L, Real.cos (p * (2 * Real.pi * j / L)) * Real.cos (q * (2 * Real.pi * j / L)) = 0 := by
  have e : ∀ j ∈ range L, Real.cos (p * (2 * Real.pi * j / L)) * Real.cos (q * (2 * Real.pi * j / L)) =
      (Real.cos ((p + q : ℕ) * (2 * Real.pi * j / L)) + Real.cos ((q - p : ℕ) * (2 * Real.pi * j / L))) / 2 := by
    intro j _
    rw [Nat.cast_sub hpq.le, Nat.cast_add, add_mul, sub_mul, Real.cos_add, Real.cos_sub]
    ring
  rw [sum_congr rfl e, ← sum_div, sum_add_distrib, cosines (by omega) h, cosines (by omega) (by omega)]
  norm_num

theorem cos_square {L p : ℕ} (hp : 0 < p) (h : 2 * p < L) :
    ∑ j ∈ range L, Real.cos (p * (2 * Real.pi * j / L)) ^ 2 = L / 2 := by
  have e : ∀ j ∈ range L, Real.cos (p * (2 * Real.pi * j / L)) ^ 2 =
      1 / 2 + Real.cos ((2 * p : ℕ) * (2 * Real.pi * j / L)) / 2 := by
    intro j _
    rw [Real.cos_sq]
    rw [← mul_assoc]
    push_cast
    rfl
  rw [sum_congr rfl e, sum_add_distrib, ← sum_div (range L) (fun j : ℕ => Real.cos ((2 * p : ℕ) * (2 * Real.pi * j / L))),
    cosines (by omega) h]
  simp
  rfl

theorem window_energy {L : ℕ} (as : List ℝ) (k : ℕ) (hk : 1 ≤ k) (hl : 2 * (k + as.length) ≤ L + 1) :
    ∑ j ∈ range L, cosineWindow as k (2 * Real.pi * j / L) ^ 2 = L * (as.map fun c => c ^ 2 / 2).sum := by
  induction as generalizing k with
  | nil => simp [cosineWindow]
  | cons c as ih =>
    simp only [List.length_cons] at hl
    have e : ∀ j ∈ range L, cosineWindow (c :: as) k (2 * Real.pi * j / L) ^ 2 =
        c ^ 2 * Real.cos (k * (2 * Real.pi * j / L)) ^ 2 +
        2 * ((-1) ^ k * c) * (Real.cos (k * (2 * Real.pi * j / L)) * cosineWindow as (k + 1) (2 * Real.pi * j / L)) +
        cosineWindow as (k + 1) (2 * Real.pi * j / L) ^ 2 := by
      intro j _
      rw [cosineWindow]
      have : ((-1 : ℝ) ^ k) ^ 2 = 1 := by rw [← pow_mul, mul_comm, pow_mul]; norm_num
      linear_combination c ^ 2 * Real.cos (k * (2 * Real.pi * j / L)) ^ 2 * this
    have hx : ∑ j ∈ range L, Real.cos (k * (2 * Real.pi * j / L)) * cosineWindow as (k + 1) (2 * Real.pi * j / L) = 0 := by
      simp only [cosineWindow_eq, mul_sum]
      rw [sum_comm]
      refine sum_eq_zero fun i hi => ?_
      have hi := mem_range.1 hi
      have h := congrArg (fun v => (-1 : ℝ) ^ (k + 1 + i) * as.getD i 0 * v)
        (cos_prod (L := L) (p := k) (q := k + 1 + i) (by omega) (by omega) (by omega))
      simp only [mul_zero, mul_sum] at h
      refine Eq.trans (sum_congr rfl fun j _ => ?_) h
      ring
    rw [sum_congr rfl e, sum_add_distrib, sum_add_distrib, ← mul_sum, ← mul_sum, hx, cos_square (by omega) (by omega),
      ih (k + 1) (by omega) (by omega)]
    simp
    ring

/-- **C146 (gain).**  The values of a cosine window of `L + 1` samples add up to the constant of the window times `L` plus its
first value; their squares add up to `L` times the square of the constant and half the squares of the coefficients, plus the square of the
first value. -/
theorem C146_gain (k : Window) {a : ℝ} {as : List ℝ} (hk : coefficients k = some (a, as)) {L : ℕ} (hL : 2 * as.length < L)
    {m : List ℝ} (hm : m.length = L + 1) :
    ∃ w, fn k m 0 m.length = .ok w ∧ w.sum = L * a + k.value (L + 1) 0 ∧
      (w.map (· ^ 2)).sum = L * (a ^ 2 + (as.map fun c => c ^ 2 / 2).sum) + k.value (L + 1) 0 ^ 2 := by
  obtain ⟨w, h1, h2, h3⟩ := stored_window k hk (by omega : 1 ≤ L) hm
  have hL0 : (L : ℝ) ≠ 0 := by exact_mod_cast (by omega : L ≠ 0)
  have hw : w = (List.range (L + 1)).map fun j : ℕ => a + cosineWindow as 1 (2 * Real.pi * j / L) := by
    apply List.ext_getElem
    · simp [h2]
    · intro i g1 g2
      have := h3 i (by omega)
      rw [List.getD, List.getElem?_eq_getElem g1, Option.getD_some] at this
      rw [this, List.getElem_map, List.getElem_range]
  have hs : ∀ f : ℕ → ℝ, ((List.range (L + 1)).map f).sum = ∑ j ∈ range L, f j + f L := by
    intro f
    rw [List.range_succ, List.map_append, List.sum_append, ← List.sum_toFinset _ List.nodup_range, List.toFinset_range]
    simp
  have hend : a + cosineWindow as 1 (2 * Real.pi * L / L) = k.value (L + 1) 0 := by
    rw [value_cos hk, mul_div_cancel_right₀ _ hL0, cosineWindow_eq, cosineWindow_eq]
    congr 1
    refine sum_congr rfl fun i _ => ?_
    congr 1
    rw [Real.cos_nat_mul_two_pi, angle]
    simp
  refine ⟨w, h1, ?_, ?_⟩
  · rw [hw, hs, hend, sum_add_distrib, window_sum as 1 le_rfl (by omega)]
    simp
  · rw [hw, List.map_map, hs]
    simp only [Function.comp_apply]
    rw [hend]
    congr 1
    have e : ∀ j ∈ range L, (a + cosineWindow as 1 (2 * Real.pi * j / L)) ^ 2 =
        a ^ 2 + 2 * a * cosineWindow as 1 (2 * Real.pi * j / L) + cosineWindow as 1 (2 * Real.pi * j / L) ^ 2 :=
      fun j _ => by ring
    rw [sum_congr rfl e, sum_add_distrib, sum_add_distrib, ← mul_sum, window_sum as 1 le_rfl (by omega),
      window_energy as 1 le_rfl (by omega)]
    simp
    ring

/-! ## Cases -/

/-- A Hann window of 9 samples: the sum 4, the sum of the squares 3. -/
example : ∃ w, hanning (List.replicate 9 0) 0 9 = .ok w ∧ w.sum = 4 ∧ (w.map (· ^ 2)).sum = 3 := by
  obtain ⟨w, h1, h2, h3⟩ := C146_gain .hanning rfl (L := 8) (by norm_num) (m := List.replicate 9 0) rfl
  have hv : Window.hanning.value (8 + 1) 0 = 0 := by simp [Window.value, angle]
  rw [hv] at h2 h3
  exact ⟨w, h1, by rw [h2]; norm_num, by rw [h3]; norm_num⟩

/-- Three periods in 16 samples, under a Hann window of 17 samples. -/
example : ∃ w p' s' xs, ∃ X : ℂ, Osc.gen .sin 16 (Osc.sinOscillator 2 16 3 1) = .ok (xs, s') ∧
    hanning (List.replicate 17 0) 0 17 = .ok w ∧
    Spectral.dft (List.zipWith (· * ·) xs w) 0 16 (List.replicate 9 0) 0 = .ok p' ∧ ‖X‖ = 16 ∧
    p'[0 + 3]? = some (X * (0.5 : ℝ)) := by
  have hreach : C39.Reachable true .sin (Osc.sinOscillator 2 16 3 1) := ⟨_, [], ⟨_, _, _, _, rfl⟩, rfl⟩
  have hg := C39.C39_samples hreach (show 0 < (Osc.sinOscillator 2 16 3 1).sampleRate by norm_num [Osc.sinOscillator, Osc.base])
    (show C39.Ready .sin _ from trivial) 16
  obtain ⟨w, p', X, h1, h2, h3, h4⟩ := C146_oscillator .hanning rfl hreach (by norm_num [Osc.sinOscillator, Osc.base]) (K := 3) (L := 16)
    (by simp) (by simp) (by norm_num) (by norm_num [Osc.sinOscillator, Osc.base]) hg (m := List.replicate 17 0) rfl
    (p := List.replicate 9 0) (d := 0) (by simp)
  refine ⟨w, p', _, _, X, hg, h1, h2, by rw [h3]; norm_num [Osc.sinOscillator, Osc.base], ?_⟩
  rw [(Mem.wrote_iff.1 h4).2.2.1 3 (by simp)]
  rfl

/-- A constant frame of 8 samples times a Hamming window: bin 1 is `-0.23` times the sum of the frame, bin 2 is 0. -/
example (c : ℝ) : ∃ w p', ∃ u v : ℂ, hamming (List.replicate 9 0) 0 9 = .ok w ∧
    Spectral.dft (List.zipWith (· * ·) (List.replicate 8 c) w) 0 8 (List.replicate 5 0) 0 = .ok p' ∧
    p'[0 + 1]? = some u ∧ u = -0.23 * (8 * c) ∧ p'[0 + 2]? = some v ∧ v = 0 := by
  obtain ⟨w, p', h1, h2, h3⟩ := C146_leakage .hamming rfl (L := 8) (by simp) (by norm_num) (by norm_num)
    (m := List.replicate 9 0) rfl (x := List.replicate 8 c) (by simp) (p := List.replicate 5 0) (d := 0) (by simp)
  have hg := (Mem.wrote_iff.1 h3).2.2.1
  have hb : ∀ b : ℕ, bin (ofReals (List.replicate 8 c)) b = if 8 ∣ b then 8 * (c : ℂ) else 0 := by
    intro b
    have ho := Fourier.orth (N := 8) (by norm_num) (-(b : ℤ))
    have e : bin (ofReals (List.replicate 8 c)) b = c * ∑ j ∈ range 8, Fourier.om 8 ^ ((j : ℤ) * (-(b : ℤ))) := by
      rw [bin_ker, mul_sum, List.length_replicate]
      refine sum_congr rfl fun j hj => ?_
      congr 1
      · have := mem_range.1 hj
        rw [List.getD, List.getElem?_replicate, if_pos this, Option.getD_some]
      · rw [mul_neg, ← Fourier.exp_neg, ker, show -(2 * (Real.pi : ℂ) * Complex.I * j * b / (8 : ℕ)) =
          (((-(2 * Real.pi * b * j / (8 : ℕ)) : ℝ)) : ℂ) * Complex.I by push_cast; ring, Complex.exp_mul_I,
          ← Complex.ofReal_cos, ← Complex.ofReal_sin, Real.cos_neg, Real.sin_neg]
        push_cast
        ring
    rw [e, ho]
    simp only [Int.dvd_neg, Int.natCast_dvd_natCast]
    split_ifs
    · push_cast; ring
    · simp
  refine ⟨w, p', _, _, h1, h2, hg 1 (by simp), ?_, hg 2 (by simp), ?_⟩
  all_goals
    simp only [smeared, hb, List.length_replicate, List.length_singleton, sum_range_one]
    norm_num

end Edsp.C146
