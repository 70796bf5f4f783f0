import Verif.Spec.OverlapAdd
import Verif.Lemmas.Fourier
import Verif.Props.C38_Windows

/-! # C131: windowed frames added up give the signal back -/

namespace Edsp.C131

open Edsp Edsp.Spec Edsp.C38 Edsp.Win Finset

/-- Frames of length `R M + 1` every `M` samples. -/
theorem overlap_sum {w : List ℝ} {v : ℕ → ℝ} {R M : ℕ} (hM : 1 ≤ M) (hv : w = (List.range (R * M + 1)).map v)
    (x : ℕ → ℝ) {n : ℕ} (hn : R * M ≤ n) :
    overlapAdd w M x n =
      (∑ j ∈ range R, v (n % M + j * M) + if M ∣ n then v (R * M) else 0) * x n := by
  unfold overlapAdd
  rw [← sum_mul]
  congr 1
  have hq : R ≤ n / M := (Nat.le_div_iff_mul_le (by omega)).mpr hn
  have hdm := Nat.div_add_mod n M
  have hmod := Nat.mod_lt n (show 0 < M by omega)
  rw [← sum_range_reflect]
  have e : ∀ j ∈ range (n / M + 1), w.getD (n - (n / M + 1 - 1 - j) * M) 0 = w.getD (n % M + j * M) 0 := by
    intro j hj
    have hj := mem_range.mp hj
    congr 1
    have : (n / M + 1 - 1 - j) * M + j * M = M * (n / M) := by
      rw [← Nat.add_mul, mul_comm]
      congr 1
      omega
    omega
  rw [sum_congr rfl e]
  have hg : ∀ i, w.getD i 0 = if i < R * M + 1 then v i else 0 := by
    intro i
    rw [hv, List.getD, List.getElem?_map]
    split
    · rename_i h; rw [List.getElem?_range h]; rfl
    · rename_i h; rw [List.getElem?_eq_none (by simpa using h)]; rfl
  have hsub : ∑ j ∈ range (n / M + 1), w.getD (n % M + j * M) 0 =
      ∑ j ∈ range (R + 1), w.getD (n % M + j * M) 0 := by
    symm
    refine sum_subset (range_mono (by omega)) fun j _ hj => ?_
    rw [mem_range, not_lt] at hj
    rw [hg, if_neg]
    have : (R + 1) * M ≤ j * M := Nat.mul_le_mul_right M hj
    rw [Nat.add_mul] at this
    omega
  rw [hsub, sum_range_succ]
  congr 1
  · refine sum_congr rfl fun j hj => ?_
    have hj := mem_range.mp hj
    rw [hg, if_pos]
    have : (j + 1) * M ≤ R * M := Nat.mul_le_mul_right M hj
    rw [Nat.add_mul] at this
    omega
  · rw [hg]
    by_cases hd : M ∣ n
    · rw [Nat.mod_eq_zero_of_dvd hd, if_pos hd, zero_add, if_pos (by omega)]
    · have : n % M ≠ 0 := fun h => hd (Nat.dvd_of_mod_eq_zero h)
      rw [if_neg hd, if_neg (by omega)]

/-- Frames of length `R M` every `M` samples. -/
theorem overlap_sum_even {w : List ℝ} {v : ℕ → ℝ} {R M : ℕ} (hM : 1 ≤ M)
    (hv : w = (List.range (R * M)).map v) (x : ℕ → ℝ) {n : ℕ} (hn : R * M ≤ n) :
    overlapAdd w M x n = (∑ j ∈ range R, v (n % M + j * M)) * x n := by
  have hw : ∀ i, w.getD i 0 =
      ((List.range (R * M + 1)).map fun i => if i < R * M then v i else 0).getD i 0 := by
    intro i
    rw [hv, List.getD, List.getElem?_map, List.getD, List.getElem?_map]
    rcases lt_trichotomy i (R * M) with h | h | h
    · rw [List.getElem?_range h, List.getElem?_range (by omega)]; simp [h]
    · rw [List.getElem?_eq_none (by simp [h]), List.getElem?_range (by omega)]; simp [h]
    · rw [List.getElem?_eq_none (by simp; omega), List.getElem?_eq_none (by simp; omega)]; rfl
  have := overlap_sum (R := R) hM (v := fun i => if i < R * M then v i else 0) rfl x hn
  simp only [lt_irrefl, if_false, ite_self, add_zero] at this
  have hs : overlapAdd w M x n = overlapAdd
      ((List.range (R * M + 1)).map fun i => if i < R * M then v i else 0) M x n := by
    unfold overlapAdd
    exact sum_congr rfl fun k _ => by rw [hw]
  rw [hs, this]
  congr 1
  refine sum_congr rfl fun j hj => ?_
  have hj := mem_range.mp hj
  have : (j + 1) * M ≤ R * M := Nat.mul_le_mul_right M hj
  rw [Nat.add_mul] at this
  have hmod := Nat.mod_lt n (show 0 < M by omega)
  rw [if_pos (by omega)]

theorem wrote_all {m m' ys : List ℝ} (h : Wrote m m' 0 ys) (hl : ys.length = m.length) : m' = ys := by
  obtain ⟨h1, h2, h3, -⟩ := Mem.wrote_iff.1 h
  apply List.ext_getElem?
  intro i
  rcases lt_or_ge i ys.length with hi | hi
  · have := h3 i hi
    rwa [Nat.zero_add] at this
  · rw [List.getElem?_eq_none hi, List.getElem?_eq_none (by omega)]

/-- Cosines at `R` equally spaced angles add up to nothing. -/
theorem cos_sum {R l : ℕ} (h0 : 0 < l) (h1 : l < R) (θ : ℝ) :
    ∑ j ∈ range R, Real.cos (θ + 2 * Real.pi * l * j / R) = 0 := by
  have hR : R ≠ 0 := by omega
  have ho := Fourier.orth hR (l : ℤ)
  rw [if_neg (by
    intro hd
    have := Int.le_of_dvd (by omega) hd
    omega)] at ho
  have e : ∀ j : ℕ, Fourier.om R ^ ((j : ℤ) * (l : ℤ)) =
      Complex.exp (((2 * Real.pi * l * j / R : ℝ) : ℂ) * Complex.I) := by
    intro j
    rw [← Fourier.exp_pos]
    congr 1
    push_cast
    ring
  simp only [e] at ho
  have h2 := congrArg (fun z => (Complex.exp ((θ : ℂ) * Complex.I) * z).re) ho
  simp only [mul_zero, Complex.zero_re, mul_sum, Complex.re_sum, ← Complex.exp_add] at h2
  rw [← h2]
  refine sum_congr rfl fun j _ => ?_
  rw [← add_mul, ← Complex.ofReal_add, Complex.exp_ofReal_mul_I_re]

theorem angle_step {R M : ℕ} (hR : 1 ≤ R) (hM : 1 ≤ M) (r j l : ℕ) :
    (l : ℝ) * angle (R * M + 1) (r + j * M) = l * (2 * Real.pi * r / (R * M)) + 2 * Real.pi * l * j / R := by
  have h1 : (R : ℝ) ≠ 0 := by exact_mod_cast (by omega : R ≠ 0)
  have h2 : (M : ℝ) ≠ 0 := by exact_mod_cast (by omega : M ≠ 0)
  unfold angle
  push_cast
  rw [add_sub_cancel_right]
  field_simp

theorem cosineWindow_sum {R M : ℕ} (hR : 1 ≤ R) (hM : 1 ≤ M) (r : ℕ) (as : List ℝ) (k : ℕ) (hk : 1 ≤ k)
    (hl : k + as.length ≤ R) :
    ∑ j ∈ range R, cosineWindow as k (angle (R * M + 1) (r + j * M)) = 0 := by
  induction as generalizing k with
  | nil => simp [cosineWindow]
  | cons a as ih =>
    simp only [cosineWindow, sum_add_distrib, ← mul_sum]
    rw [ih (k + 1) (by omega) (by simp at hl; omega), add_zero]
    simp only [angle_step hR hM]
    rw [cos_sum (by omega) (by simp at hl; omega), mul_zero]

/-- The coefficients of the windows that are sums of cosines. -/
noncomputable def coefficients : Window → Option (ℝ × List ℝ)
  | .blackman => some (0.42, [0.5, 0.08])
  | .blackmanHarris => some (0.35875, [0.48829, 0.14128, 0.01168])
  | .blackmanNuttall => some (0.3635819, [0.4891775, 0.1365995, 0.0106411])
  | .flattop => some (0.21557895, [0.41663158, 0.277263158, 0.083578947, 0.006947368])
  | .hamming => some (0.54, [0.46])
  | .hanning => some (0.5, [0.5])
  | _ => none

theorem value_cos {k : Window} {a : ℝ} {as : List ℝ} (h : coefficients k = some (a, as)) (N i : ℕ) :
    k.value N i = a + cosineWindow as 1 (angle N i) := by
  have e : ∀ t, cosineWindow (a :: as) 0 t = a + cosineWindow as 1 t := by
    intro t; rw [cosineWindow]; simp
  cases k <;> simp only [coefficients, Option.some.injEq, Prod.mk.injEq, reduceCtorEq] at h
  all_goals obtain ⟨rfl, rfl⟩ := h
  all_goals try exact e _
  simp only [Window.value, cosineWindow]
  rw [Real.sin_sq_eq_half_sub, mul_div_cancel₀ _ two_ne_zero]
  norm_num
  ring

/-- **C131, windows made of cosines.** A window of `R M + 1` samples every `M` samples, `R` larger than the number of
cosines: the sum of the windowed frames is the signal times `R` times the constant of the window, except that every
`M`-th sample receives the first value of the window once more. -/
theorem C131_cosine (k : Window) {a : ℝ} {as : List ℝ} (hk : coefficients k = some (a, as)) {R M : ℕ}
    (hM : 1 ≤ M) (hR : as.length < R) {m : List ℝ} (hm : m.length = R * M + 1) :
    ∃ w, fn k m 0 m.length = .ok w ∧ ∀ (x : ℕ → ℝ) n, R * M ≤ n →
      overlapAdd w M x n = (R * a + if M ∣ n then k.value (R * M + 1) 0 else 0) * x n := by
  have hl : 1 ≤ as.length := by
    cases k <;> simp only [coefficients, Option.some.injEq, Prod.mk.injEq, reduceCtorEq] at hk
    all_goals obtain ⟨-, rfl⟩ := hk
    all_goals simp
  have hRM : 2 ≤ R * M + 1 := by
    have : 1 * 1 ≤ R * M := Nat.mul_le_mul (by omega) hM
    omega
  obtain ⟨w, hw, hwr⟩ := C38_values_partial k (by rintro rfl; simp [coefficients] at hk) (m := m) (a := 0)
    (b := m.length) (by omega) le_rfl
  refine ⟨w, hw, fun x n hn => ?_⟩
  have hws := wrote_all hwr (by simp)
  rw [hm, Nat.sub_zero] at hws
  rw [overlap_sum hM hws x hn]
  have hsym := C38_symmetric k hRM (i := 0) (by omega)
  have e : R * M + 1 - 1 - 0 = R * M := by omega
  rw [e] at hsym
  rw [hsym]
  congr 2
  simp only [value_cos hk, sum_add_distrib]
  rw [cosineWindow_sum (by omega) hM _ as 1 le_rfl (by omega)]
  simp

theorem hann_end {N : ℕ} : Window.hanning.value N 0 = 0 := by simp [Window.value, angle]

theorem blackman_end {N : ℕ} : Window.blackman.value N 0 = 0 := by
  simp [Window.value, angle, cosineWindow]; norm_num

/-- **C131, Hann and Blackman.** A Hann window of `R M + 1` samples (`R ≥ 2`) gives the signal back times `R/2`, a
Blackman window (`R ≥ 3`) times `0.42 R`. -/
theorem C131_hann_blackman {R M : ℕ} (hM : 1 ≤ M) {m : List ℝ} (hm : m.length = R * M + 1) :
    (2 ≤ R → ∃ w, hanning m 0 m.length = .ok w ∧ ∀ (x : ℕ → ℝ) n, R * M ≤ n →
      overlapAdd w M x n = R / 2 * x n) ∧
    (3 ≤ R → ∃ w, blackman m 0 m.length = .ok w ∧ ∀ (x : ℕ → ℝ) n, R * M ≤ n →
      overlapAdd w M x n = 0.42 * R * x n) := by
  constructor
  · intro hR
    obtain ⟨w, hw, h⟩ := C131_cosine .hanning rfl hM (by simp; omega) hm
    refine ⟨w, hw, fun x n hn => ?_⟩
    rw [h x n hn, hann_end, ite_self, add_zero]
    ring
  · intro hR
    obtain ⟨w, hw, h⟩ := C131_cosine .blackman rfl hM (by simp; omega) hm
    refine ⟨w, hw, fun x n hn => ?_⟩
    rw [h x n hn, blackman_end, ite_self, add_zero]
    ring

/-- **C131, Bartlett, triangular and rectangular windows.** A Bartlett window of `2 M + 1` samples and a triangular
window of `2 M` samples give the signal back itself, a rectangular one of `R M` samples gives it times `R`. -/
theorem C131_straight {M : ℕ} (hM : 1 ≤ M) :
    (∀ m : List ℝ, m.length = 2 * M + 1 → ∃ w, bartlett m 0 m.length = .ok w ∧ ∀ (x : ℕ → ℝ) n, 2 * M ≤ n →
      overlapAdd w M x n = x n) ∧
    (∀ m : List ℝ, m.length = 2 * M → ∃ w, triangular m 0 m.length = .ok w ∧ ∀ (x : ℕ → ℝ) n, 2 * M ≤ n →
      overlapAdd w M x n = x n) ∧
    ∀ (R : ℕ) (m : List ℝ), 2 ≤ R → m.length = R * M →
      (∃ w, boxcar m 0 m.length = .ok w ∧ ∀ (x : ℕ → ℝ) n, R * M ≤ n → overlapAdd w M x n = R * x n) ∧
      ∃ w, rectangular m 0 m.length = .ok w ∧ ∀ (x : ℕ → ℝ) n, R * M ≤ n → overlapAdd w M x n = R * x n := by
  have hMr : (0 : ℝ) < M := by exact_mod_cast hM
  refine ⟨fun m hm => ?_, fun m hm => ?_, fun R m hR hm => ?_⟩
  · obtain ⟨w, hw, hwr⟩ := C38_values_partial .bartlett (by simp) (m := m) (a := 0)
      (b := m.length) (by omega) le_rfl
    refine ⟨w, hw, fun x n hn => ?_⟩
    have hws := wrote_all hwr (by simp)
    rw [hm, Nat.sub_zero] at hws
    rw [overlap_sum hM hws x hn, sum_range_succ, sum_range_one]
    have hmod : ((n % M : ℕ) : ℝ) < M := by exact_mod_cast Nat.mod_lt n (show 0 < M by omega)
    have hp : (0 : ℝ) ≤ ((n % M : ℕ) : ℝ) := Nat.cast_nonneg _
    have e : ∀ t : ℝ, 2 * t / (2 * M + 1 - 1) = t / M := by
      intro t; rw [add_sub_cancel_right]; field_simp
    have hq : ((n % M : ℕ) : ℝ) / M < 1 := by rwa [div_lt_one hMr]
    have hq0 : 0 ≤ ((n % M : ℕ) : ℝ) / M := by positivity
    have hend : Window.bartlett.value (2 * M + 1) (2 * M) = 0 := by
      simp only [Window.value]
      push_cast
      rw [e, mul_div_assoc, div_self hMr.ne']
      norm_num
    rw [hend, ite_self, add_zero]
    simp only [Window.value]
    push_cast
    rw [e, e, zero_mul, add_zero, one_mul, add_div, div_self hMr.ne', add_sub_cancel_right, abs_of_nonneg hq0,
      abs_of_nonpos (by linarith)]
    ring
  · obtain ⟨w, hw, hwr⟩ := C38_values_partial .triangular (by simp) (m := m) (a := 0)
      (b := m.length) (by omega) le_rfl
    refine ⟨w, hw, fun x n hn => ?_⟩
    have hws := wrote_all hwr (by simp)
    rw [hm, Nat.sub_zero] at hws
    rw [overlap_sum_even hM hws x hn, sum_range_succ, sum_range_one]
    have hmod : ((n % M : ℕ) : ℝ) + 1 ≤ M := by exact_mod_cast Nat.mod_lt n (show 0 < M by omega)
    have hp : (0 : ℝ) ≤ ((n % M : ℕ) : ℝ) := Nat.cast_nonneg _
    have hb : triangularBase (2 * M) = 2 * M := by
      unfold triangularBase
      rw [if_neg (by omega), if_neg (by omega)]
    simp only [Window.value, hb]
    push_cast
    have e : (2 * (M : ℝ)) / 2 = M := by ring
    rw [e, abs_div, abs_div, abs_of_pos hMr, abs_of_nonpos (by linarith), abs_of_nonneg (by linarith)]
    field_simp
    ring
  · have hRM : 2 * 1 ≤ R * M := Nat.mul_le_mul hR hM
    constructor
    · obtain ⟨w, hw, hwr⟩ := C38_values_partial .boxcar (by simp) (m := m) (a := 0)
        (b := m.length) (by omega) le_rfl
      refine ⟨w, hw, fun x n hn => ?_⟩
      have hws := wrote_all hwr (by simp)
      rw [hm, Nat.sub_zero] at hws
      rw [overlap_sum_even hM hws x hn]
      simp [Window.value]
    · obtain ⟨w, hw, hwr⟩ := C38_values_partial .rectangular (by simp) (m := m) (a := 0)
        (b := m.length) (by omega) le_rfl
      refine ⟨w, hw, fun x n hn => ?_⟩
      have hws := wrote_all hwr (by simp)
      rw [hm, Nat.sub_zero] at hws
      rw [overlap_sum_even hM hws x hn]
      simp [Window.value]

/-- A Hann window of 5 samples every 2, three frames added. -/
example : ∃ w, hanning (List.replicate 5 0) 0 5 = .ok w ∧ overlapAdd w 2 (fun n => n) 7 = 7 := by
  obtain ⟨w, hw, h⟩ := (C131_hann_blackman (R := 2) (M := 2) (by norm_num) (m := List.replicate 5 0) rfl).1 le_rfl
  exact ⟨w, hw, by rw [h _ 7 (by norm_num)]; norm_num⟩

example : ∃ w, triangular (List.replicate 8 0) 0 8 = .ok w ∧ overlapAdd w 4 (fun n => n) 21 = 21 := by
  obtain ⟨w, hw, h⟩ := (C131_straight (M := 4) (by norm_num)).2.1 (List.replicate 8 0) rfl
  exact ⟨w, hw, by rw [h _ 21 (by norm_num)]; norm_num⟩

/-- **C131 is false of the other windows.** Hamming, Blackman-Harris, Blackman-Nuttall and flat-top windows do not end
at 0, so that whatever the overlap every `M`-th sample of a constant signal comes out different from its neighbours. -/
theorem C131_ends_violates {k : Window} (hk : k ∈ [Window.hamming, .blackmanHarris, .blackmanNuttall, .flattop])
    {R M : ℕ} (hM : 2 ≤ M) (hR : 5 ≤ R) {m : List ℝ} (hm : m.length = R * M + 1) :
    ∃ w, fn k m 0 m.length = .ok w ∧ ∀ q, R ≤ q →
      overlapAdd w M (fun _ => 1) (q * M) ≠ overlapAdd w M (fun _ => 1) (q * M + 1) := by
  have key : ∀ {a : ℝ} {as : List ℝ}, coefficients k = some (a, as) → as.length ≤ 4 →
      k.value (R * M + 1) 0 ≠ 0 → ∃ w, fn k m 0 m.length = .ok w ∧ ∀ q, R ≤ q →
      overlapAdd w M (fun _ => 1) (q * M) ≠ overlapAdd w M (fun _ => 1) (q * M + 1) := by
    intro a as hc hl he
    obtain ⟨w, hw, h⟩ := C131_cosine k hc (by omega : 1 ≤ M) (by omega) hm
    refine ⟨w, hw, fun q hq => ?_⟩
    have hqM : R * M ≤ q * M := Nat.mul_le_mul_right M hq
    rw [h _ _ hqM, h _ _ (by omega), if_pos (Dvd.intro_left q rfl), if_neg]
    · intro hc
      apply he
      linarith
    · intro hd
      have := (Nat.dvd_add_right (Dvd.intro_left q rfl)).mp hd
      have := Nat.le_of_dvd one_pos this
      omega
  simp only [List.mem_cons, List.not_mem_nil, or_false] at hk
  rcases hk with rfl | rfl | rfl | rfl
  all_goals
    refine key rfl (by simp) ?_
    simp [Window.value, angle, cosineWindow]
    norm_num

example : ∃ w, hamming (List.replicate 11 0) 0 11 = .ok w ∧
    overlapAdd w 2 (fun _ => 1) (5 * 2) ≠ overlapAdd w 2 (fun _ => 1) (5 * 2 + 1) := by
  obtain ⟨w, hw, h⟩ := C131_ends_violates (k := .hamming) (by simp) (R := 5) (M := 2) le_rfl le_rfl
    (m := List.replicate 11 0) rfl
  exact ⟨w, hw, h 5 le_rfl⟩

/-- **C131 is false of Hann windows of even length**, the usual ones: `2 M` samples (`M ≥ 3`) every `M` give a constant signal
back with a ripple. -/
theorem C131_even_violates {M : ℕ} (hM : 3 ≤ M) {m : List ℝ} (hm : m.length = 2 * M) :
    ∃ w, hanning m 0 m.length = .ok w ∧ ∀ q, 2 ≤ q →
      overlapAdd w M (fun _ => 1) (q * M) ≠ overlapAdd w M (fun _ => 1) (q * M + 1) := by
  obtain ⟨w, hw, hwr⟩ := C38_values_partial .hanning (by simp) (m := m) (a := 0)
    (b := m.length) (by omega) le_rfl
  refine ⟨w, hw, fun q hq => ?_⟩
  have hws := wrote_all hwr (by simp)
  rw [hm, Nat.sub_zero] at hws
  have hqM : 2 * M ≤ q * M := Nat.mul_le_mul_right M hq
  rw [overlap_sum_even (by omega) hws _ hqM,
    overlap_sum_even (by omega) hws _ (show 2 * M ≤ q * M + 1 by omega)]
  have e0 : q * M % M = 0 := Nat.mul_mod_left q M
  have e1 : (q * M + 1) % M = 1 := by
    rw [Nat.add_mod, e0, zero_add, Nat.mod_mod]
    exact Nat.mod_eq_of_lt (by omega)
  rw [e0, e1, sum_range_succ, sum_range_one, sum_range_succ, sum_range_one, mul_one, mul_one]
  have hMr : (3 : ℝ) ≤ M := by exact_mod_cast hM
  set δ : ℝ := Real.pi / (2 * M - 1) with hδ
  have hd : (0 : ℝ) < 2 * M - 1 := by linarith
  have hδ0 : 0 < δ := div_pos Real.pi_pos hd
  have hδ3 : δ * (2 * M - 1) = Real.pi := by rw [hδ]; field_simp
  have hv : ∀ i : ℕ, Window.hanning.value (2 * M) i = 1 / 2 - Real.cos (2 * δ * i) / 2 := by
    intro i
    simp only [Window.value, angle]
    rw [Real.sin_sq_eq_half_sub, mul_div_cancel₀ _ two_ne_zero]
    congr 3
    rw [hδ]; push_cast; field_simp
  have hsum : ∀ r : ℕ, Window.hanning.value (2 * M) r + Window.hanning.value (2 * M) (r + M) =
      1 - Real.cos (δ * M) * Real.cos (δ * (2 * r + M)) := by
    intro r
    rw [hv, hv]
    have h1 := Real.cos_add (δ * (2 * r + M)) (δ * M)
    have h2 := Real.cos_sub (δ * (2 * r + M)) (δ * M)
    have a1 : δ * (2 * r + M) + δ * M = 2 * δ * ((r + M : ℕ) : ℝ) := by push_cast; ring
    have a2 : δ * (2 * r + M) - δ * M = 2 * δ * (r : ℝ) := by ring
    rw [a1] at h1
    rw [a2] at h2
    rw [h1, h2]
    ring
  have s0 := hsum 0
  have s1 := hsum 1
  rw [zero_mul, add_zero, one_mul]
  rw [s0, add_zero, s1]
  intro hc
  have hcos : Real.cos (δ * M) < 0 := by
    refine Real.cos_neg_of_pi_div_two_lt_of_lt ?_ ?_
    · nlinarith
    · nlinarith [Real.pi_pos]
  have hlt : Real.cos (δ * (2 * (1 : ℕ) + M)) < Real.cos (δ * (2 * (0 : ℕ) + M)) := by
    push_cast
    refine Real.cos_lt_cos_of_nonneg_of_le_pi ?_ ?_ ?_
    · positivity
    · nlinarith
    · nlinarith
  nlinarith

example : ∃ w, hanning (List.replicate 8 0) 0 8 = .ok w ∧
    overlapAdd w 4 (fun _ => 1) (2 * 4) ≠ overlapAdd w 4 (fun _ => 1) (2 * 4 + 1) := by
  obtain ⟨w, hw, h⟩ := C131_even_violates (M := 4) (by norm_num) (m := List.replicate 8 0) rfl
  exact ⟨w, hw, h 2 le_rfl⟩

end Edsp.C131
