import Verif.Lemmas.IntSamples
import Mathlib.Tactic.NormNum

/-!
# C113: the functions on samples of a signed integer type

`w` is the number of bits of the type (8, 16, 32; 64 where no floating point number is involved).
-/

namespace Edsp.Props

open Edsp Edsp.Spec Edsp.IntSamples

/-- **C113, mean.** If the sum of the samples and their number are values of the type, the mean is the exact one with its
fraction dropped; types narrower than `int` may leave their range on the way.
Missing: sums (`C113_mean_violates`, `C113_mean_overflow_violates`) and numbers (`C113_mean_length_violates`) that the type
does not hold. -/
theorem C113_mean_partial {w : Nat} (h0 : 0 < w) {l : List Int} (hl : ∀ x ∈ l, Fits w x) (hn : 0 < l.length)
    (hn' : (l.length : Int) < 2 ^ (w - 1)) (hs : Fits w l.sum) (hp : 32 ≤ w → ∀ k, Fits w (l.take k).sum) :
    IntSamples.mean w l = .ok (intMean l) := by
  have hz : Fits w 0 := ⟨by simp, by positivity⟩
  have hacc : accumulate w 0 l = .ok l.sum := by
    rcases lt_or_ge w 32 with h | h
    · rw [accumulate_narrow h h0 l hl 0 hz, zero_add, wrap_self h0 hs]
    · rw [accumulate_wide h l 0 hz (fun k => by simpa using hp h k), zero_add]
  have hw : wrap w l.length = l.length := by
    refine wrap_self h0 ⟨?_, hn'⟩
    have : (0 : Int) < 2 ^ (w - 1) := by positivity
    omega
  have hq := tdiv_fits hs (show (0 : Int) < l.length by exact_mod_cast hn)
  unfold IntSamples.mean
  simp only [hacc, hw, quot, bind, Except.bind, pure, Except.pure]
  rw [if_neg (by omega), op_ok (fits_mono (le_max_left w 32) hq)]
  simp only [wrap_self h0 hq]
  rw [intMean, tdiv_eq_cut _ hn]

/-- 16-bit samples: the sums leave the type on the way and come back. -/
example : IntSamples.mean 16 [30000, 30000, -30000, -29990] = .ok 2 := by
  rw [C113_mean_partial (by decide) (by decide) (by decide) (by decide) (by decide) (by intro h; omega)]
  congr 1
  rw [intMean, ← tdiv_eq_cut _ (by decide)]; rfl

/-- **C113 is violated by the mean of loud samples.** In a type narrower than `int`, `n` equal samples `A` whose sum is
not a value of the type do not have the mean `A`. -/
theorem C113_mean_violates {w : Nat} (hw : w < 32) (h0 : 0 < w) {n : Nat} {A : Int} (hA : 0 < A) (hf : Fits w A)
    (hn : (n : Int) < 2 ^ (w - 1)) (hbig : 2 ^ (w - 1) ≤ n * A) :
    ∃ m, IntSamples.mean w (List.replicate n A) = .ok m ∧ m < A := by
  have hz : Fits w 0 := ⟨by simp, by positivity⟩
  have hn0 : 0 < n := by
    rcases Nat.eq_zero_or_pos n with rfl | h
    · have : (0 : Int) < 2 ^ (w - 1) := by positivity
      simp at hbig; omega
    · exact h
  have hacc := accumulate_narrow hw h0 (List.replicate n A) (fun x hx => by rw [List.eq_of_mem_replicate hx]; exact hf) 0 hz
  rw [zero_add, List.sum_replicate, nsmul_eq_mul] at hacc
  have hwn : wrap w ((List.replicate n A).length : Int) = n := by
    rw [List.length_replicate]
    refine wrap_self h0 ⟨?_, hn⟩
    have : (0 : Int) < 2 ^ (w - 1) := by positivity
    omega
  have hsf := wrap_fits h0 ((n : Int) * A)
  have hq := tdiv_fits hsf (show (0 : Int) < n by exact_mod_cast hn0)
  refine ⟨Int.tdiv (wrap w (n * A)) n, ?_, ?_⟩
  · unfold IntSamples.mean
    simp only [hacc, hwn, quot, bind, Except.bind, pure, Except.pure]
    rw [if_neg (by omega), op_ok (fits_mono (le_max_left w 32) hq)]
    simp only [wrap_self h0 hq]
  · by_contra hge
    push Not at hge
    have h1 : (n : Int) * A ≤ n * Int.tdiv (wrap w (n * A)) n := by
      apply mul_le_mul_of_nonneg_left hge; positivity
    have hpos : 0 ≤ wrap w (n * A) := by
      by_contra hneg
      push Not at hneg
      have := Int.tdiv_nonneg (show 0 ≤ -wrap w (n * A) by omega) (show (0 : Int) ≤ n by positivity)
      rw [Int.neg_tdiv] at this
      omega
    have h2 : n * Int.tdiv (wrap w (n * A)) n ≤ wrap w (n * A) := by
      rw [Int.tdiv_eq_ediv_of_nonneg hpos]
      exact Int.mul_ediv_self_le (by omega)
    have := hsf.2
    omega

/-- Four samples of 10000 with 16 bits: the mean returned is less. -/
example : ∃ m, IntSamples.mean 16 (List.replicate 4 10000) = .ok m ∧ m < 10000 :=
  C113_mean_violates (by decide) (by decide) (by decide) (by decide) (by decide) (by decide)

/-- In a type as wide as `int` a sum that leaves the type is undefined behaviour, wherever it happens. -/
theorem C113_mean_overflow_violates {w : Nat} (hw : 32 ≤ w) {l : List Int} {k : Nat} (hk : ¬ Fits w (l.take k).sum) :
    IntSamples.mean w l = .error .overflow := by
  have hz : Fits w 0 := ⟨by simp, by positivity⟩
  unfold IntSamples.mean
  rw [accumulate_overflow hw l 0 ⟨k, by simpa using hk⟩ hz]
  rfl

/-- Two full-scale samples of 32 bits. -/
example : IntSamples.mean 32 [2147483647, 2147483647, -5] = .error .overflow :=
  C113_mean_overflow_violates (k := 2) (by decide) (by decide)

/-- In a type narrower than `int` a number of samples that is a multiple of `2^w` is a division by zero. -/
theorem C113_mean_length_violates {w : Nat} (hw : w < 32) (h0 : 0 < w) {l : List Int} (hl : ∀ x ∈ l, Fits w x)
    (hn : 2 ^ w ∣ l.length) : IntSamples.mean w l = .error .divByZero := by
  have hz : Fits w 0 := ⟨by simp, by positivity⟩
  have hwn : wrap w (l.length : Int) = 0 := by
    refine wrap_eq h0 hz ?_
    rw [zero_sub, dvd_neg]
    exact_mod_cast hn
  unfold IntSamples.mean
  rw [accumulate_narrow hw h0 l hl 0 hz]
  simp [hwn, quot, bind, Except.bind]

/-- 65536 samples of 16 bits. -/
example : IntSamples.mean 16 (List.replicate (2 ^ 16) 1) = .error .divByZero :=
  C113_mean_length_violates (by decide) (by decide)
    (fun x hx => by rw [List.eq_of_mem_replicate hx]; decide) (by rw [List.length_replicate])

/-- **C113, energy and power** of types up to 16 bits or from 32 bits on: exact if the sum of the squares is a value of the
type (and the number of samples, for the power).
Missing: all other samples (`C113_energy_violates`, `C113_energy_overflow_violates`). -/
theorem C113_energy_partial {w : Nat} (h0 : 0 < w) (hw : w ≤ 16 ∨ 32 ≤ w) {l : List Int} (hl : ∀ x ∈ l, Fits w x)
    (hs : Fits w (sumSquares l)) :
    IntSamples.energy w l = .ok (sumSquares l) ∧
      (0 < l.length → (l.length : Int) < 2 ^ (w - 1) →
        IntSamples.power w l = .ok (cut ((sumSquares l : ℚ) / l.length))) := by
  have hz : Fits w 0 := ⟨by simp, by positivity⟩
  have he : IntSamples.energy w l = .ok (sumSquares l) := by
    unfold IntSamples.energy
    rcases hw with h | h
    · rw [innerSelf_narrow h h0 l hl 0 hz, zero_add, wrap_self h0 hs]
    · rw [innerSelf_wide h l 0 le_rfl hz, zero_add, if_pos hs]
  refine ⟨he, fun hn hn' => ?_⟩
  have hwn : wrap w l.length = l.length := by
    refine wrap_self h0 ⟨?_, hn'⟩
    have : (0 : Int) < 2 ^ (w - 1) := by positivity
    omega
  have hq := tdiv_fits hs (show (0 : Int) < l.length by exact_mod_cast hn)
  unfold IntSamples.power
  simp only [he, hwn, quot, bind, Except.bind]
  rw [if_neg (by omega), op_ok (fits_mono (le_max_left w 32) hq), tdiv_eq_cut _ hn]

/-- 16-bit samples of low level. -/
example : IntSamples.power 16 [100, -100, 50] = .ok 7500 := by
  rw [(C113_energy_partial (by decide) (by decide) (by decide) (by decide)).2 (by decide) (by decide)]
  congr 1
  exact (tdiv_eq_cut 22500 (n := 3) (by decide)).symm

/-- **C113 is violated by the energy of ordinary samples** of at most 16 bits: it is too small by at least `2^w` as soon
as the sum of the squares is not a value of the type. -/
theorem C113_energy_violates {w : Nat} (h0 : 0 < w) (hw : w ≤ 16) {l : List Int} (hl : ∀ x ∈ l, Fits w x)
    (hs : 2 ^ (w - 1) ≤ sumSquares l) :
    ∃ e, IntSamples.energy w l = .ok e ∧ e + 2 ^ w ≤ sumSquares l := by
  have hz : Fits w 0 := ⟨by simp, by positivity⟩
  refine ⟨wrap w (sumSquares l), ?_, ?_⟩
  · unfold IntSamples.energy
    rw [innerSelf_narrow hw h0 l hl 0 hz, zero_add]
  · obtain ⟨c, hc⟩ := wrap_dvd w (sumSquares l)
    have hf := wrap_fits h0 (sumSquares l)
    have hp : (0 : Int) < 2 ^ w := by positivity
    have hlt : wrap w (sumSquares l) - sumSquares l < 0 := by have := hf.2; linarith
    have hc0 : c ≤ -1 := by
      by_contra h
      push Not at h
      have : 0 ≤ (2 : Int) ^ w * c := mul_nonneg hp.le (by omega)
      linarith
    have : (2 : Int) ^ w * c ≤ 2 ^ w * (-1) := mul_le_mul_of_nonneg_left hc0 hp.le
    linarith

/-- One 16-bit sample of 182, which is -45 dB of full scale, has a negative energy. -/
example : IntSamples.energy 16 [182] = .ok (-32412) ∧ sumSquares [182] = 33124 := by decide

/-- In wider types it is undefined behaviour. -/
theorem C113_energy_overflow_violates {w : Nat} (hw : 32 ≤ w) {l : List Int} (hs : ¬ Fits w (sumSquares l)) :
    IntSamples.energy w l = .error .overflow := by
  unfold IntSamples.energy
  rw [innerSelf_wide hw l 0 le_rfl ⟨by simp, by positivity⟩, zero_add, if_neg hs]

/-- One sample of 46341 with 32 bits. -/
example : IntSamples.energy 32 [46341] = .error .overflow :=
  C113_energy_overflow_violates (by decide) (by decide)

/-- **C113, largest absolute value.** Exact if the lowest value of the type is not among the samples.
Missing: ranges with that value (`C113_maxabs_violates`). -/
theorem C113_maxabs_partial {w : Nat} (h0 : 0 < w) {l : List Int} (hne : l ≠ []) (hl : ∀ x ∈ l, Fits w x)
    (hlow : lowest w ∉ l) : ∃ m, IntSamples.maxabs w l = .ok m ∧ IsMaxAbs l m := by
  cases l with
  | nil => exact absurd rfl hne
  | cons x xs =>
    have hf : ∀ y ∈ x :: xs, Fits w |y| := fun y hy => abs_fits_wide (hl y hy) (fun h => hlow (h ▸ hy))
    obtain ⟨m, h1, h2, h3⟩ := maxAbsLoop_ok (w := w) xs x (fun y hy => fits_mono (le_max_left w 32) (hf y hy))
    refine ⟨|m|, ?_, ⟨m, h1, rfl⟩, h3⟩
    unfold IntSamples.maxabs
    simp only [h2, absI, op_ok (fits_mono (le_max_left w 32) (hf m h1)), bind, Except.bind, pure, Except.pure,
      wrap_self h0 (hf m h1)]

/-- 16 bits. -/
example : ∃ m, IntSamples.maxabs 16 [5, -32767, 200] = .ok m ∧ IsMaxAbs [5, -32767, 200] m :=
  C113_maxabs_partial (by decide) (by decide) (by decide) (by decide)

/-- **C113 is violated by every range that contains the lowest value**: the largest absolute value returned is that value,
which is negative; with 32 bits or more it is undefined behaviour. -/
theorem C113_maxabs_violates {w : Nat} (h0 : 0 < w) {l : List Int} (hl : ∀ x ∈ l, Fits w x) (hlow : lowest w ∈ l) :
    IntSamples.maxabs w l = if w < 32 then .ok (lowest w) else .error .overflow := by
  cases l with
  | nil => simp at hlow
  | cons x xs =>
    split
    · next hw =>
      obtain ⟨m, h1, h2, h3⟩ := maxAbsLoop_ok (w := w) xs x (fun y hy => abs_fits_narrow hw (hl y hy))
      have hm : |m| = 2 ^ (w - 1) := by
        apply le_antisymm
        · have := hl m h1
          unfold Fits at this
          rw [abs_le]; exact ⟨this.1, this.2.le⟩
        · have := h3 _ hlow
          rwa [lowest_abs] at this
      unfold IntSamples.maxabs
      simp only [h2, absI, op_ok (abs_fits_narrow hw (hl m h1)), bind, Except.bind, pure, Except.pure]
      rw [hm, wrap_lowest h0]
    · next hw =>
      have hw : 32 ≤ w := by omega
      unfold IntSamples.maxabs
      rcases maxAbsLoop_lowest hw xs x hlow with h | h
      · simp only [h, bind, Except.bind]
      · have hne : op w |lowest w| = .error .overflow := by
          apply op_err; rw [max_eq_left hw, lowest_abs]; exact lowest_not
        simp only [h, absI, hne, bind, Except.bind]

/-- A full-scale negative sample of 16 bits. -/
example : IntSamples.maxabs 16 [5, -32768, 200] = .ok (-32768) :=
  C113_maxabs_violates (by decide) (by decide) (by decide)

/-- **C113, rectify** (up to 32 bits): absolute values, if the lowest value of the type is not among the samples.
Missing: ranges with that value (`C113_rectify_violates`). -/
theorem C113_rectify_partial {w : Nat} {l : List Int} (hl : ∀ x ∈ l, Fits w x) (hlow : lowest w ∉ l) :
    IntSamples.rectify w l = .ok (l.map fun x => |x|) := by
  unfold IntSamples.rectify
  refine mapM_ok l fun x hx => ?_
  rw [show |(x : ℝ)| = ((|x| : Int) : ℝ) by push_cast; rfl]
  exact ofReal_ok (isCut_int _) (abs_fits_wide (hl x hx) fun h => hlow (h ▸ hx))

/-- The lowest value is converted out of range. -/
theorem C113_rectify_violates {w : Nat} {l : List Int} (hlow : lowest w ∈ l) :
    IntSamples.rectify w l = .error .domain := by
  unfold IntSamples.rectify
  refine mapM_error l (fun x _ => ofReal_cases w _) hlow ?_
  rw [show |((lowest w : Int) : ℝ)| = ((|lowest w| : Int) : ℝ) by push_cast; rfl, lowest_abs]
  exact ofReal_err (isCut_int _) lowest_not

example : IntSamples.rectify 16 [-5, 7] = .ok [5, 7] := C113_rectify_partial (by decide) (by decide)
example : IntSamples.rectify 16 [-5, -32768, 7] = .error .domain := C113_rectify_violates (by decide)

/-- **C113, normalize** from integers to floating point numbers: every sample divided by the largest absolute value.
Missing: ranges with the lowest value of the type (`C113_normalize_sign_violates`). -/
theorem C113_normalize_partial {w : Nat} (h0 : 0 < w) {l : List Int} (hl : ∀ x ∈ l, Fits w x) (hlow : lowest w ∉ l)
    (hnz : ∃ x ∈ l, x ≠ 0) :
    ∃ m, IsMaxAbs l m ∧ 0 < m ∧ IntSamples.normalizeF w l = .ok (l.map fun (x : Int) => (x : ℝ) / m) := by
  obtain ⟨x, hx, hx0⟩ := hnz
  obtain ⟨m, hm, hM⟩ := C113_maxabs_partial h0 (List.ne_nil_of_mem hx) hl hlow
  have hm0 : 0 < m := (abs_pos.mpr hx0).trans_le (hM.2 x hx)
  refine ⟨m, hM, hm0, ?_⟩
  unfold IntSamples.normalizeF
  simp only [hm, bind, Except.bind]
  exact mapM_ok l fun y _ => if_neg hm0.ne'

example : ∃ m, IsMaxAbs [-5, 10] m ∧ 0 < m ∧ IntSamples.normalizeF 16 [-5, 10] = .ok ([-5, 10].map fun (x : Int) => (x : ℝ) / m) :=
  C113_normalize_partial (by decide) (by decide) (by decide) ⟨10, by decide, by decide⟩

/-- **C113 is violated by normalize for every range with a full-scale negative sample**: all signs are inverted. -/
theorem C113_normalize_sign_violates {w : Nat} (h0 : 0 < w) (hw : w < 32) {l : List Int} (hl : ∀ x ∈ l, Fits w x)
    (hlow : lowest w ∈ l) :
    ∃ out, IntSamples.normalizeF w l = .ok out ∧ List.Forall₂ (fun (x : Int) y => (0 < x → y < 0) ∧ (x < 0 → 0 < y)) l out := by
  have hm := C113_maxabs_violates h0 hl hlow
  rw [if_pos hw] at hm
  have hneg : (lowest w : ℝ) < 0 := by
    have : lowest w < 0 := by unfold lowest; have : (0 : Int) < 2 ^ (w - 1) := by positivity
                              linarith
    exact_mod_cast this
  unfold IntSamples.normalizeF
  simp only [hm, bind, Except.bind]
  refine mapM_exists l fun x _ => ⟨(x : ℝ) / lowest w, ?_, ?_, ?_⟩
  · rw [if_neg (by intro h; rw [h] at hneg; simp at hneg)]
  · intro h; exact div_neg_of_pos_of_neg (by exact_mod_cast h) hneg
  · intro h; exact div_pos_of_neg_of_neg (by exact_mod_cast h) hneg

/-- 16 bits. -/
example : ∃ out, IntSamples.normalizeF 16 [12000, -32768] = .ok out ∧
    List.Forall₂ (fun (x : Int) y => (0 < x → y < 0) ∧ (x < 0 → 0 < y)) [12000, -32768] out :=
  C113_normalize_sign_violates (by decide) (by decide) (by decide) (by decide)

/-- **C113 is violated by normalize with an integer output**: every sample but those of largest absolute value becomes 0. -/
theorem C113_normalize_int_violates {w : Nat} (h0 : 1 < w) {l : List Int} (hl : ∀ x ∈ l, Fits w x) (hlow : lowest w ∉ l)
    (hnz : ∃ x ∈ l, x ≠ 0) :
    ∃ m out, IsMaxAbs l m ∧ IntSamples.normalizeI w l = .ok out ∧
      List.Forall₂ (fun x y => y = if |x| = m then x.sign else 0) l out := by
  obtain ⟨x, hx, hx0⟩ := hnz
  obtain ⟨m, hm, hM⟩ := C113_maxabs_partial (by omega) (List.ne_nil_of_mem hx) hl hlow
  have hm0 : 0 < m := (abs_pos.mpr hx0).trans_le (hM.2 x hx)
  refine ⟨m, l.map fun y => if |y| = m then y.sign else 0, hM, ?_⟩
  have key : ∀ y ∈ l, Int.tdiv y m = if |y| = m then y.sign else 0 := by
    intro y hy
    have hle := hM.2 y hy
    split
    · next h =>
      rcases lt_trichotomy y 0 with h1 | h1 | h1
      · rw [abs_of_neg h1] at h
        rw [← h, Int.tdiv_neg, Int.tdiv_self h1.ne, Int.sign_eq_neg_one_of_neg h1]
      · subst h1; simp at h; omega
      · rw [abs_of_pos h1] at h
        rw [← h, Int.tdiv_self h1.ne', Int.sign_eq_one_of_pos h1]
    · next h =>
      have hlt := lt_of_le_of_ne hle h
      rcases le_or_gt 0 y with h1 | h1
      · exact Int.tdiv_eq_zero_of_lt h1 (by rwa [abs_of_nonneg h1] at hlt)
      · have := Int.tdiv_eq_zero_of_lt (show 0 ≤ -y by omega) (by rwa [abs_of_neg h1] at hlt)
        rw [Int.neg_tdiv] at this
        omega
  have hone : ∀ y : Int, Fits w (if |y| = m then y.sign else 0) := by
    intro y
    have h2 : (2 : Int) ≤ 2 ^ (w - 1) := by
      calc (2 : Int) = 2 ^ 1 := by norm_num
        _ ≤ 2 ^ (w - 1) := pow_le_pow_right₀ (by norm_num) (by omega)
    unfold Fits
    split
    · rcases Int.sign_trichotomy y with h | h | h <;> rw [h] <;> constructor <;> linarith
    · constructor <;> linarith
  have hmap : IntSamples.normalizeI w l = .ok (l.map fun y => if |y| = m then y.sign else 0) := by
    unfold IntSamples.normalizeI
    simp only [hm, bind, Except.bind]
    refine mapM_ok l fun y hy => ?_
    simp only [quot, key y hy]
    rw [if_neg hm0.ne', op_ok (fits_mono (le_max_left w 32) (hone y))]
    simp only [pure, Except.pure, wrap_self (show 0 < w by omega) (hone y)]
  refine ⟨hmap, ?_⟩
  rw [List.forall₂_map_right_iff]
  exact List.forall₂_same.mpr fun y _ => rfl

/-- 16 bits: nothing is left of -20000. -/
example : ∃ m out, IsMaxAbs [-20000, 30000] m ∧ IntSamples.normalizeI 16 [-20000, 30000] = .ok out ∧
    List.Forall₂ (fun x y => y = if |x| = m then x.sign else 0) [-20000, 30000] out :=
  C113_normalize_int_violates (by decide) (by decide) (by decide) ⟨30000, by decide, by decide⟩

/-- **C113, derivative.** The first sample and the differences between neighbours, if the differences are values of the
type.  Missing: other differences (`C113_derivative_violates`). -/
theorem C113_derivative_partial {w : Nat} (h0 : 0 < w) {x : Int} {l : List Int} (hl : ∀ y ∈ x :: l, Fits w y)
    (hd : ∀ d ∈ neighbours (fun a b => b - a) (x :: l), Fits w d) :
    IntSamples.derivative w (x :: l) = .ok (x :: neighbours (fun a b => b - a) (x :: l)) := by
  simp only [IntSamples.derivative]
  rcases lt_or_ge w 32 with h | h
  · rw [differences_narrow h h0 l x hl]
    have : (neighbours (fun a b => b - a) (x :: l)).map (wrap w) = neighbours (fun a b => b - a) (x :: l) := by
      conv_rhs => rw [← List.map_id (neighbours (fun a b => b - a) (x :: l))]
      exact List.map_congr_left fun d hd' => wrap_self h0 (hd d hd')
    simp only [this, bind, Except.bind, pure, Except.pure]
  · rw [differences_wide h, if_pos hd]; rfl

example : IntSamples.derivative 16 [100, 300, -50] = .ok [100, 200, -350] :=
  C113_derivative_partial (by decide) (by decide) (by decide)

/-- **C113 is violated by the derivative of any range with a larger jump**: the values stored are not the differences, or
the behaviour is undefined. -/
theorem C113_derivative_violates {w : Nat} (h0 : 0 < w) {x : Int} {l : List Int} (hl : ∀ y ∈ x :: l, Fits w y)
    {d : Int} (hd : d ∈ neighbours (fun a b => b - a) (x :: l)) (hf : ¬ Fits w d) :
    (w < 32 → ∃ out, IntSamples.derivative w (x :: l) = .ok out ∧ out ≠ x :: neighbours (fun a b => b - a) (x :: l)) ∧
      (32 ≤ w → IntSamples.derivative w (x :: l) = .error .overflow) := by
  simp only [IntSamples.derivative]
  refine ⟨fun h => ?_, fun h => ?_⟩
  · rw [differences_narrow h h0 l x hl]
    refine ⟨_, rfl, fun he => ?_⟩
    have he' := List.cons_inj_right x |>.mp he
    rw [← he'] at hd
    obtain ⟨c, _, rfl⟩ := List.mem_map.mp hd
    exact hf (wrap_fits h0 c)
  · rw [differences_wide h, if_neg (fun hh => hf (hh d hd))]; rfl

/-- A step of 16 bits from -20000 to 20000 is stored as a step down. -/
example : IntSamples.derivative 16 [-20000, 20000] = .ok [-20000, -25536] := by decide

/-- **C113, amplifier** with a floating point factor: the exact product without its fraction, where that is a value of the
type; without the clipping arguments a louder sample is undefined behaviour. -/
theorem C113_amplifier_partial {w : Nat} {factor : ℝ} {l : List Int}
    (h : ∀ x ∈ l, ∃ i, IsCut (factor * x) i ∧ Fits w i) :
    ∃ out, IntSamples.amplifier w factor l = .ok out ∧ List.Forall₂ (fun (x : Int) i => IsCut (factor * x) i) l out := by
  unfold IntSamples.amplifier
  refine mapM_exists l fun x hx => ?_
  obtain ⟨i, h1, h2⟩ := h x hx
  exact ⟨i, ofReal_ok h1 h2, h1⟩

theorem C113_amplifier_violates {w : Nat} {factor : ℝ} {l : List Int} {x i : Int} (hx : x ∈ l)
    (hi : IsCut (factor * x) i) (hf : ¬ Fits w i) : IntSamples.amplifier w factor l = .error .domain := by
  unfold IntSamples.amplifier
  exact mapM_error l (fun x _ => ofReal_cases w _) hx (ofReal_err hi hf)

/-- Half of 5 is stored as 2, of -5 as -2. -/
example : ∃ out, IntSamples.amplifier 16 (1 / 2) [5, -5] = .ok out ∧
    List.Forall₂ (fun (x : Int) i => IsCut (1 / 2 * x) i) [5, -5] out :=
  C113_amplifier_partial (by
    intro x hx
    simp only [List.mem_cons, List.not_mem_nil, or_false] at hx
    rcases hx with rfl | rfl
    · exact ⟨2, by norm_num [IsCut, abs_lt], by decide⟩
    · exact ⟨-2, by norm_num [IsCut, abs_lt, abs_of_neg], by decide⟩)

/-- Twice 20000 with 16 bits. -/
example : IntSamples.amplifier 16 2 [1, 20000] = .error .domain :=
  C113_amplifier_violates (x := 20000) (i := 40000) (by decide) (by norm_num [IsCut]) (by decide)

/-- **C113, amplifier with clipping** to limits that are values of the type: always defined, every value stored is the
product clipped to the limits, without its fraction. -/
theorem C113_amplifier_clip {w : Nat} {factor lo hi : ℝ} (hlo : -2 ^ (w - 1) ≤ lo) (hle : lo ≤ hi)
    (hhi : hi ≤ 2 ^ (w - 1) - 1) (l : List Int) :
    ∃ out, IntSamples.amplifierClip w factor lo hi l = .ok out ∧
      List.Forall₂ (fun (x : Int) i => IsCut (max lo (min hi (factor * x))) i) l out := by
  unfold IntSamples.amplifierClip
  refine mapM_exists l fun x _ => ?_
  have e : (if factor * x < lo then lo else if factor * x > hi then hi else factor * x : ℝ)
      = max lo (min hi (factor * x)) := by
    split
    · next h => rw [min_eq_right (h.le.trans hle), max_eq_left h.le]
    · next h =>
      push Not at h
      split
      · next h' => rw [min_eq_left h'.le, max_eq_right hle]
      · next h' => push Not at h'; rw [min_eq_right h', max_eq_right h]
  rw [e]
  have hcut := part_isCut (max lo (min hi (factor * x)))
  refine ⟨_, ofReal_ok hcut ?_, hcut⟩
  have h1 : -2 ^ (w - 1) ≤ max lo (min hi (factor * x)) := hlo.trans (le_max_left _ _)
  have h2 : max lo (min hi (factor * x)) ≤ 2 ^ (w - 1) - 1 := (max_le hle (min_le_left _ _)).trans hhi
  unfold part
  split
  · next h =>
    constructor
    · have := Int.floor_nonneg.mpr h
      have : (0 : Int) < 2 ^ (w - 1) := by positivity
      omega
    · rw [Int.floor_lt]; push_cast; linarith
  · next h =>
    push Not at h
    constructor
    · have := (Int.le_ceil (max lo (min hi (factor * x)))).trans' h1
      exact_mod_cast this
    · have : ⌈max lo (min hi (factor * x))⌉ ≤ 0 := Int.ceil_le.mpr (by simpa using h.le)
      have : (0 : Int) < 2 ^ (w - 1) := by positivity
      omega

/-- Three times 20000 and -20000 with 16 bits. -/
example : ∃ out, IntSamples.amplifierClip 16 3 (-32768) 32767 [20000, -20000] = .ok out ∧
    List.Forall₂ (fun (x : Int) i => IsCut (max (-32768) (min 32767 (3 * x))) i) [20000, -20000] out :=
  C113_amplifier_clip (by norm_num) (by norm_num) (by norm_num) _

/-- **C113, duration.** The number of samples over the sample rate, if the number is a value of the sample type.
Missing: longer signals (`C113_duration_violates`). -/
theorem C113_duration_partial {w : Nat} (h0 : 0 < w) {l : List Int} (hn : (l.length : Int) < 2 ^ (w - 1)) {rate : ℝ}
    (hr : 0 < rate) : IntSamples.duration w l rate = .ok (l.length / rate) := by
  have hp : (0 : Int) < 2 ^ (w - 1) := by positivity
  have : wrap w (l.length : Int) = l.length := wrap_self h0 ⟨by omega, hn⟩
  unfold IntSamples.duration
  rw [if_neg hr.ne', this]; simp

/-- **C113 is violated by every signal of between `2^(w-1)` and `2^w` samples**: its duration is negative. -/
theorem C113_duration_violates {w : Nat} (h0 : 0 < w) {l : List Int} (hn : 2 ^ (w - 1) ≤ (l.length : Int))
    (hn' : (l.length : Int) < 2 ^ w) {rate : ℝ} (hr : 0 < rate) :
    ∃ d, IntSamples.duration w l rate = .ok d ∧ d < 0 := by
  have h2 := two_pow h0
  have : wrap w (l.length : Int) = l.length - 2 ^ w := by
    refine wrap_eq h0 ⟨by linarith, by linarith⟩ ⟨-1, by ring⟩
  unfold IntSamples.duration
  rw [if_neg hr.ne', this]
  refine ⟨_, rfl, div_neg_of_neg_of_pos ?_ hr⟩
  exact_mod_cast (by linarith : (l.length : Int) - 2 ^ w < 0)

/-- One second of 16-bit sound at 48 kHz. -/
example : ∃ d, IntSamples.duration 16 (List.replicate 48000 0) 48000 = .ok d ∧ d < 0 :=
  C113_duration_violates (by decide) (by rw [List.length_replicate]; decide) (by rw [List.length_replicate]; decide)
    (by norm_num)
example : IntSamples.duration 16 [1, 2, 3] 48000 = .ok (3 / 48000) := by
  have := C113_duration_partial (w := 16) (l := [1, 2, 3]) (by decide) (by decide) (rate := 48000) (by norm_num)
  simpa using this

/-- **C113 is violated by `effective_duration`** for every sample rate that the sample type does not hold: the conversion
of the rate is undefined. -/
theorem C113_effective_duration_violates {w : Nat} (h0 : 0 < w) {l : List Int} (hne : l ≠ []) (hl : ∀ x ∈ l, Fits w x)
    (hlow : lowest w ∉ l) {rate : ℝ} (hr : 2 ^ (w - 1) ≤ rate) (threshold : ℝ) :
    IntSamples.effectiveDuration w l rate threshold = .error .domain := by
  obtain ⟨m, hm, hM⟩ := C113_maxabs_partial h0 hne hl hlow
  have hc : l.mapM (fun x => do
      let a ← absI w x
      return decide ((a : ℝ) > threshold * m)) = .ok (l.map fun x => decide (((|x| : Int) : ℝ) > threshold * m)) := by
    refine mapM_ok l fun x hx => ?_
    have hf : Fits w |x| := abs_fits_wide (hl x hx) (fun h => hlow (h ▸ hx))
    simp only [absI, op_ok (fits_mono (le_max_left w 32) hf), bind, Except.bind, pure, Except.pure]
  have hp : (0 : ℝ) < 2 ^ (w - 1) := by positivity
  have hrr : ofReal w rate = .error .domain := by
    refine ofReal_err (part_isCut rate) fun hf => ?_
    unfold part at hf
    rw [if_pos (by linarith)] at hf
    have : (2 : Int) ^ (w - 1) ≤ ⌊rate⌋ := Int.le_floor.mpr (by push_cast; exact hr)
    have := hf.2
    omega
  unfold IntSamples.effectiveDuration
  simp only [hm, bind, Except.bind, pure, Except.pure, hrr] at hc ⊢
  rw [hc]

/-- 16-bit sound at 44.1 kHz. -/
example : IntSamples.effectiveDuration 16 [5, -7000] 44100 (1 / 2) = .error .domain :=
  C113_effective_duration_violates (by decide) (by decide) (by decide) (by decide) (by norm_num) _

/-- **C113 is violated by `azcr`**: whatever the number of crossings, the rate is 0, except that it is 1 if every sample
differs in sign from the one before. -/
theorem C113_azcr_violates {w : Nat} (h0 : 1 < w) {x y : Int} {l : List Int}
    (hn : (l.length : Int) + 1 < 2 ^ (w - 1)) :
    IntSamples.azcr w (x :: y :: l) = .ok
      (if ∀ d ∈ neighbours (fun a b => if (b < 0) ≠ (a < 0) then 1 else 0) (x :: y :: l), d = 1 then 1 else 0) := by
  have hsign : (fun a b => if IntSamples.sign b ≠ IntSamples.sign a then (1 : Int) else 0)
      = fun a b => if (b < 0) ≠ (a < 0) then 1 else 0 := by
    funext a b
    unfold IntSamples.sign
    by_cases h1 : a < 0 <;> by_cases h2 : b < 0 <;> simp [h1, h2]
  have hc := crossings_count h0 (y :: l) 0 x le_rfl (by rw [List.length_cons]; push_cast; omega)
  rw [hsign, zero_add] at hc
  have hsum : ∀ (l : List Int) (x : Int),
      let ns := neighbours (fun a b => if (b < 0) ≠ (a < 0) then (1 : Int) else 0) (x :: l)
      0 ≤ ns.sum ∧ ns.sum ≤ l.length ∧ (ns.sum = l.length ↔ ∀ d ∈ ns, d = 1) := by
    intro l
    induction l with
    | nil => intro x; simp [neighbours]
    | cons y l ih =>
      intro x
      obtain ⟨h1, h2, h3⟩ := ih y
      simp only [neighbours, List.sum_cons, List.length_cons, List.mem_cons, forall_eq_or_imp]
      push_cast
      by_cases hb : (y < 0) ≠ (x < 0)
      · simp only [if_pos hb]
        exact ⟨by omega, by omega, by rw [← h3]; simp only [true_and]; omega⟩
      · simp only [if_neg hb]
        exact ⟨by omega, by omega, ⟨fun h => by omega, fun h => by omega⟩⟩
  obtain ⟨h1, h2, h3⟩ := hsum (y :: l) x
  rw [List.length_cons] at h2 h3
  push_cast at h2 h3
  set s := (neighbours (fun a b => if (b < 0) ≠ (a < 0) then (1 : Int) else 0) (x :: y :: l)).sum
  have hp : (0 : Int) < 2 ^ (w - 1) := by positivity
  have hwn : wrap w ((y :: l).length : Int) = l.length + 1 := by
    rw [List.length_cons]; push_cast
    exact wrap_self (by omega) ⟨by omega, hn⟩
  have hq : Int.tdiv s (l.length + 1) = if s = l.length + 1 then 1 else 0 := by
    split
    · next h => rw [h, Int.tdiv_self (by omega)]
    · next h => exact Int.tdiv_eq_zero_of_lt h1 (by omega)
  unfold IntSamples.azcr
  simp only [hc, hwn, bind, Except.bind, quot]
  rw [if_neg (by omega), hq, op_ok]
  · simp only [h3]
  · split <;> refine fits_mono (le_max_right w 32) ?_ <;> decide

/-- Two crossings in three steps. -/
example : IntSamples.azcr 16 [5, -5, 5, 6] = .ok 0 := by
  rw [C113_azcr_violates (by decide) (by decide)]; decide

end Edsp.Props
