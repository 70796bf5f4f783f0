import Verif.Lemmas.RoundedFeatures

/-!
# C121: centroid, spread and crest of a spectrum in floating point arithmetic
-/

namespace Edsp.Rounded

open Finset Edsp.Spec Edsp.FloatL Edsp.Feature Edsp.AgreeL

/-! ### Centroid -/

/-- **C121**, weighted centroid: for a non-negative spectrum with a positive line and a non-negative axis, the result is the
centre of gravity up to `2 n + 2` roundings. -/
theorem C121_weighted_centroid {p : ℕ} (hp : 1 ≤ p) {xs fs : List ℝ} (hl : xs.length = fs.length)
    (h0 : ∀ v ∈ xs, 0 ≤ v) (h1 : ∃ v ∈ xs, 0 < v) (hf : ∀ v ∈ fs, 0 ≤ v) :
    ∃ c, weightedCentroid p xs fs = some c ∧ 0 ≤ c ∧ Agree p (2 * xs.length + 2) c (gravity (at0 fs) xs) := by
  have hs := total_pos' h0 h1
  have hD := total_agree hp h0
  have hD0 := agree_pos hD hs
  have hz : ∀ y ∈ List.zipWith (fun x f => rnd p (f * x)) xs fs, 0 ≤ y :=
    zip_mem xs fs fun x hx f hf' => rnd_nonneg hp (mul_nonneg (hf f hf') (h0 x hx))
  have hN := accumulate_agree hp _ 0 le_rfl hz
  rw [zero_add, zip_sum _ xs fs hl, List.length_zipWith, hl, Nat.min_self] at hN
  have hT : Agree p 1 (∑ i ∈ range fs.length, rnd p (at0 fs i * at0 xs i)) (∑ i ∈ range fs.length, at0 fs i * at0 xs i) :=
    sum_agree _ fun i hi => rnd_agree hp (mul_nonneg (hf _ (at0_mem (mem_range.mp hi)))
      (h0 _ (at0_mem (by rw [hl]; exact mem_range.mp hi))))
  have hN' := trans hN hT
  have hN0 := accumulate_ge hp _ 0 le_rfl hz
  have hG : 0 ≤ ∑ i ∈ range fs.length, at0 fs i * at0 xs i := sum_nonneg fun i hi =>
    mul_nonneg (hf _ (at0_mem (mem_range.mp hi))) (h0 _ (at0_mem (by rw [hl]; exact mem_range.mp hi)))
  have hq := rnd_step hp (div_nonneg hN0 hD0.le) (div hN0 hG hD0 hs hN' hD)
  refine ⟨_, ?_, rnd_nonneg hp (div_nonneg hN0 hD0.le), ?_⟩
  · unfold weightedCentroid
    rw [weightedLoop_eq p xs fs _ hl]
    exact quotient_some p hD0.ne'
  · unfold gravity
    rw [hl] at hq ⊢
    rw [show 2 * fs.length + 2 = fs.length + 1 + fs.length + 1 by ring]
    exact hq

/-- **C121**, centroid: for a non-negative spectrum with a positive line, of at most `2^p + 1` lines, the result is the
centre of gravity of the indices up to `2 n + 2` roundings; it is not negative, and above the last index by roundings at
most. -/
theorem C121_centroid_partial {p : ℕ} (hp : 1 ≤ p) {xs : List ℝ} (hn : xs.length ≤ 2 ^ p + 1) (h0 : ∀ v ∈ xs, 0 ≤ v)
    (h1 : ∃ v ∈ xs, 0 < v) :
    ∃ c, centroid p xs = some c ∧ Agree p (2 * xs.length + 2) c (gravity (fun i => (i : ℝ)) xs) ∧ 0 ≤ c ∧
      c ≤ (xs.length - 1) * (1 + (2 : ℝ) ^ (-(p : ℤ))) ^ (2 * xs.length + 2) := by
  obtain ⟨c, e, c0, h⟩ := C121_weighted_centroid hp (fs := indices 0 xs.length) (indices_length _ _).symm h0 h1
    (fun v hv => mem_indices hv)
  rw [gravity_indices] at h
  rw [← centroid_eq hp hn] at e
  refine ⟨c, e, h, c0, h.1.trans (mul_le_mul_of_nonneg_right ?_ (pow_pos' p _).le)⟩
  have hs := total_pos' h0 h1
  refine (mean_between (lo := 0) (f := fun i => (i : ℝ)) (fun i hi => h0 _ (at0_mem hi)) hs
    (fun i hi => ⟨Nat.cast_nonneg i, ?_⟩)).2
  have : (i : ℝ) + 1 ≤ xs.length := by exact_mod_cast hi
  linarith

example : ∃ c, centroid 24 [1, 0, 2] = some c ∧ Agree 24 8 c (gravity (fun i => (i : ℝ)) [1, 0, 2]) := by
  obtain ⟨c, h1, h2, -⟩ := C121_centroid_partial (p := 24) (by norm_num) (xs := [1, 0, 2]) (by norm_num)
    (by intro v hv; simp only [List.mem_cons, List.not_mem_nil, or_false] at hv; rcases hv with rfl | rfl | rfl <;> norm_num)
    ⟨1, by simp, one_pos⟩
  exact ⟨c, h1, h2⟩

/-- The sample value of `C121_centroid_violates`. -/
theorem six_float {p : ℕ} (hp : 5 ≤ p) : IsFloat p (2 ^ p - 6) := by
  refine ⟨2 ^ p - 6, 0, ?_, by push_cast; simp⟩
  have : (32 : ℤ) ≤ 2 ^ p := by
    calc (32 : ℤ) = 2 ^ 5 := by norm_num
    _ ≤ 2 ^ p := pow_le_pow_right₀ (by norm_num) hp
  rw [abs_of_nonneg (by linarith)]
  linarith

theorem three_six {p : ℕ} (hp : 5 ≤ p) : rnd p (3 * (2 ^ p - 6)) = 3 * 2 ^ p - 16 := by
  obtain ⟨q, rfl⟩ : ∃ q, p = q + 5 := ⟨p - 5, by omega⟩
  have hq : (1 : ℝ) ≤ 2 ^ q := one_le_pow₀ (by norm_num)
  have e : (2 : ℝ) ^ (q + 5) = 32 * 2 ^ q := by rw [pow_add]; ring
  have z1 : (2 : ℝ) ^ ((2 : ℤ) + ((q + 5 : ℕ) : ℤ) - 1) = 64 * 2 ^ q := by
    rw [show (2 : ℤ) + ((q + 5 : ℕ) : ℤ) - 1 = ((q + 6 : ℕ) : ℤ) by push_cast; ring, zpow_natCast, pow_add]
    ring
  have z2 : (2 : ℝ) ^ ((2 : ℤ) + ((q + 5 : ℕ) : ℤ)) = 128 * 2 ^ q := by
    rw [show (2 : ℤ) + ((q + 5 : ℕ) : ℤ) = ((q + 7 : ℕ) : ℤ) by push_cast; ring, zpow_natCast, pow_add]
    ring
  have hpos : (0 : ℝ) < 3 * (2 ^ (q + 5) - 6) := by rw [e]; linarith
  rw [rnd_of (k := 2) (by rw [abs_of_pos hpos, z1, e]; linarith) (by rw [abs_of_pos hpos, z2, e]; linarith)]
  have ht : nearestEven (3 * (2 ^ (q + 5) - 6) / 2 ^ (2 : ℤ)) = 24 * 2 ^ q - 4 := by
    refine ne_tie_down ⟨12 * 2 ^ q - 2, by ring⟩ ?_
    push_cast
    rw [e]
    norm_num
    ring
  rw [ht, e]
  push_cast
  norm_num
  ring

theorem quotient_six {p : ℕ} (hp : 5 ≤ p) : rnd p ((3 * 2 ^ p - 16) / (2 ^ p - 6)) = 3 + 2 ^ (2 - (p : ℤ)) := by
  obtain ⟨q, rfl⟩ : ∃ q, p = q + 5 := ⟨p - 5, by omega⟩
  have hq : (1 : ℝ) ≤ 2 ^ q := one_le_pow₀ (by norm_num)
  have hq0 : (0 : ℝ) < 2 ^ q := by linarith
  have e : (2 : ℝ) ^ (q + 5) = 32 * 2 ^ q := by rw [pow_add]; ring
  have hx : (0 : ℝ) < 32 * 2 ^ q - 6 := by linarith
  have z0 : (2 : ℝ) ^ (2 - ((q + 5 : ℕ) : ℤ)) = 1 / (8 * 2 ^ q) := by
    rw [show 2 - ((q + 5 : ℕ) : ℤ) = -((q + 3 : ℕ) : ℤ) by push_cast; ring, zpow_neg, zpow_natCast, pow_add, one_div]
    congr 1
    ring
  have z1 : (2 : ℝ) ^ (2 - ((q + 5 : ℕ) : ℤ) + ((q + 5 : ℕ) : ℤ) - 1) = 2 := by
    rw [show 2 - ((q + 5 : ℕ) : ℤ) + ((q + 5 : ℕ) : ℤ) - 1 = 1 by ring]
    norm_num
  have z2 : (2 : ℝ) ^ (2 - ((q + 5 : ℕ) : ℤ) + ((q + 5 : ℕ) : ℤ)) = 4 := by
    rw [show 2 - ((q + 5 : ℕ) : ℤ) + ((q + 5 : ℕ) : ℤ) = 2 by ring]
    norm_num
  have hpos : (0 : ℝ) < (3 * 2 ^ (q + 5) - 16) / (2 ^ (q + 5) - 6) := by
    rw [e]
    exact div_pos (by linarith) hx
  rw [rnd_of (k := 2 - ((q + 5 : ℕ) : ℤ))]
  · have ht : nearestEven ((3 * 2 ^ (q + 5) - 16) / (2 ^ (q + 5) - 6) / 2 ^ (2 - ((q + 5 : ℕ) : ℤ))) = 24 * 2 ^ q + 1 := by
      have hv : (3 * (32 * 2 ^ q) - 16) / (32 * 2 ^ q - 6) / (1 / (8 * 2 ^ q)) =
          24 * (2 : ℝ) ^ q + 16 * 2 ^ q / (32 * 2 ^ q - 6) := by
        field_simp
        ring
      have l1 : (1 : ℝ) / 2 < 16 * 2 ^ q / (32 * 2 ^ q - 6) := by
        rw [lt_div_iff₀ hx]
        linarith
      have l2 : 16 * 2 ^ q / (32 * 2 ^ q - 6) < (3 : ℝ) / 2 := by
        rw [div_lt_iff₀ hx]
        linarith
      refine ne_of_lt ?_ ?_
      · rw [z0, e, hv]
        push_cast
        linarith
      · rw [z0, e, hv]
        push_cast
        linarith
    rw [ht, z0]
    push_cast
    field_simp
    ring
  · rw [abs_of_pos hpos, z1, e, le_div_iff₀ hx]
    linarith
  · rw [abs_of_pos hpos, z2, e, div_lt_iff₀ hx]
    linarith

/-- **C121 is violated**: the centroid of a spectrum whose only line is the last of four is above the last index. -/
theorem C121_centroid_violates {p : ℕ} (hp : 5 ≤ p) :
    ∃ x, IsFloat p x ∧ 0 < x ∧ centroid p [0, 0, 0, x] = some (3 + 2 ^ (2 - (p : ℤ))) ∧
      gravity (fun i => (i : ℝ)) [0, 0, 0, x] = 3 := by
  have h32 : (32 : ℝ) ≤ 2 ^ p := by
    calc (32 : ℝ) = 2 ^ 5 := by norm_num
    _ ≤ 2 ^ p := pow_le_pow_right₀ (by norm_num) hp
  have h32n : 32 ≤ 2 ^ p := by exact_mod_cast h32
  have hx : (0 : ℝ) < 2 ^ p - 6 := by linarith
  refine ⟨2 ^ p - 6, six_float hp, hx, ?_, ?_⟩
  · have hc : centroidLoop p 0 (0, 0) [0, 0, 0, 2 ^ p - 6] = (3 * 2 ^ p - 16, 2 ^ p - 6) := by
      have := centroidLoop_eq (by omega : 1 ≤ p) [0, 0, 0, 2 ^ p - 6] 0 (0, 0) (by
        simp only [List.length_cons, List.length_nil]; omega)
      rw [Nat.cast_zero] at this
      rw [this]
      simp only [List.length_cons, List.length_nil, indices_succ, weightedLoop, mul_zero, rnd_zero, add_zero, zero_add]
      push_cast
      rw [three_six hp, rnd_float (six_float hp)]
      congr 1
      rw [← three_six hp, rnd_rnd (by omega)]
    unfold centroid
    rw [hc, quotient_some p hx.ne', quotient_six hp]
  · unfold gravity total
    simp only [List.length_cons, List.length_nil, sum_range_succ, range_zero, sum_empty, at0_cons_zero, at0_cons_succ]
    push_cast
    field_simp
    ring

/-- The counter stops at `2^p`. -/
theorem centroidLoop_zeros {p : ℕ} (hp : 2 ≤ p) (rest : List ℝ) : ∀ m i : ℕ, i ≤ 2 ^ p →
    centroidLoop p (i : ℝ) (0, 0) (List.replicate m 0 ++ rest) = centroidLoop p ((min (i + m) (2 ^ p) : ℕ) : ℝ) (0, 0) rest
  | 0, i, h => by simp [Nat.min_eq_left h]
  | m + 1, i, h => by
    rw [List.replicate_succ, List.cons_append, centroidLoop, mul_zero, rnd_zero, add_zero, rnd_zero]
    have e : rnd p ((i : ℝ) + 1) = ((min (i + 1) (2 ^ p) : ℕ) : ℝ) := by
      rcases h.lt_or_eq with hlt | heq
      · rw [Nat.min_eq_left hlt, ← nat_exact (by omega : 1 ≤ p) (n := i + 1) hlt]
        push_cast
        rfl
      · rw [heq, Nat.min_eq_right (Nat.le_succ _)]
        push_cast
        exact rnd_succ hp
    rw [e, centroidLoop_zeros hp rest m _ (Nat.min_le_right _ _)]
    congr 2
    omega

/-- **C121 is violated** by long spectra: the index counts in the type of the elements and stops at `2^p` (for `float`
16777216), so that a single line beyond is reported there. -/
theorem C121_long_violates {p : ℕ} (hp : 2 ≤ p) (j : ℕ) :
    centroid p (List.replicate (2 ^ p + j) 0 ++ [1]) = some (2 ^ p) ∧
      gravity (fun i => (i : ℝ)) (List.replicate (2 ^ p + j) 0 ++ [1]) = 2 ^ p + j := by
  constructor
  · have h := centroidLoop_zeros hp [1] (2 ^ p + j) 0 (Nat.zero_le _)
    rw [Nat.cast_zero, Nat.min_eq_right (by omega)] at h
    have h1 : rnd p 1 = 1 := by simpa using nat_exact (by omega : 1 ≤ p) (n := 1) Nat.one_le_two_pow
    have h2 := nat_exact (by omega : 1 ≤ p) (n := 2 ^ p) le_rfl
    push_cast at h2 h
    unfold centroid
    rw [h]
    simp only [centroidLoop, mul_one, zero_add, h1, h2]
    rw [quotient_some p one_ne_zero, div_one, h2]
  · unfold gravity
    rw [total_eq, List.length_append, List.length_replicate, List.length_singleton, sum_range_succ, sum_eq_zero]
    · have : at0 (List.replicate (2 ^ p + j) 0 ++ [1]) (2 ^ p + j) = 1 := by
        unfold at0
        rw [List.getD, List.getElem?_append_right (by simp)]
        simp
      rw [this]
      simp
    · intro i hi
      have : at0 (List.replicate (2 ^ p + j) 0 ++ [1]) i = 0 := by
        unfold at0
        rw [List.getD, List.getElem?_append_left (by simpa using hi), List.getElem?_replicate,
          if_pos (mem_range.mp hi)]
        rfl
      rw [this, mul_zero]

/-! ### Spread -/

/-- **C121**, weighted spread: up to `n + 4` roundings the result is the root of the mean squared deviation from the centroid
that was computed, i.e. of the scatter and the squared error of the centroid. -/
theorem C121_weighted_spread {p : ℕ} (hp : 1 ≤ p) {xs fs : List ℝ} (hl : xs.length = fs.length)
    (h0 : ∀ v ∈ xs, 0 ≤ v) (h1 : ∃ v ∈ xs, 0 < v) (hf : ∀ v ∈ fs, 0 ≤ v) :
    ∃ c s, weightedCentroid p xs fs = some c ∧ weightedSpread p xs fs = some s ∧ 0 ≤ s ∧
      Agree p (xs.length + 4) s (Real.sqrt (scatter (at0 fs) xs + (c - gravity (at0 fs) xs) ^ 2)) := by
  obtain ⟨c, hc, -, -⟩ := C121_weighted_centroid hp hl h0 h1 hf
  have hs := total_pos' h0 h1
  have hD := total_agree hp h0
  have hD0 := agree_pos hD hs
  have hsq : ∀ f : ℝ, 0 ≤ rnd p (rnd p (f - c) * rnd p (f - c)) := fun f => rnd_nonneg hp (mul_self_nonneg _)
  have hz : ∀ y ∈ List.zipWith (fun x f => rnd p (rnd p (rnd p (f - c) * rnd p (f - c)) * x)) xs fs, 0 ≤ y :=
    zip_mem xs fs fun x hx f _ => rnd_nonneg hp (mul_nonneg (hsq f) (h0 x hx))
  have hN := accumulate_agree hp _ 0 le_rfl hz
  rw [zero_add, zip_sum _ xs fs hl, List.length_zipWith, hl, Nat.min_self] at hN
  have hT : Agree p 4 (∑ i ∈ range fs.length, rnd p (rnd p (rnd p (at0 fs i - c) * rnd p (at0 fs i - c)) * at0 xs i))
      (∑ i ∈ range fs.length, (at0 fs i - c) ^ 2 * at0 xs i) := by
    refine sum_agree _ fun i hi => ?_
    have hx0 := h0 _ (at0_mem (x := xs) (i := i) (by rw [hl]; exact mem_range.mp hi))
    have a1 := abs_rnd hp (at0 fs i - c)
    have a2 := mul (abs_nonneg _) (abs_nonneg _) (abs_nonneg _) (abs_nonneg _) a1 a1
    rw [abs_mul_abs_self, abs_mul_abs_self, ← sq (at0 fs i - c)] at a2
    have a3 := rnd_step hp (mul_self_nonneg _) a2
    have a4 := mul (hsq _) (sq_nonneg _) hx0 hx0 a3 (refl (at0 xs i))
    exact rnd_step hp (mul_nonneg (hsq _) hx0) a4
  have hN' := trans hN hT
  have hN0 := accumulate_ge hp _ 0 le_rfl hz
  have hG : 0 ≤ ∑ i ∈ range fs.length, (at0 fs i - c) ^ 2 * at0 xs i := sum_nonneg fun i hi =>
    mul_nonneg (sq_nonneg _) (h0 _ (at0_mem (by rw [hl]; exact mem_range.mp hi)))
  have hq0 := rnd_nonneg hp (div_nonneg hN0 hD0.le)
  have hq := rnd_step hp (div_nonneg hN0 hD0.le) (div hN0 hG hD0 hs hN' hD)
  have hq2 := mono hq0 (div_nonneg hG hs.le) (show fs.length + 4 + xs.length + 1 ≤ 2 * (xs.length + 3) by omega) hq
  have hr := rnd_step hp (Real.sqrt_nonneg _) (sqrt hq2)
  refine ⟨c, _, hc, ?_, rnd_nonneg hp (Real.sqrt_nonneg (rnd p (accumulate p 0 (List.zipWith
    (fun x f => rnd p (rnd p (rnd p (f - c) * rnd p (f - c)) * x)) xs fs) / accumulate p 0 xs))), ?_⟩
  · unfold weightedSpread
    rw [hc, Option.bind_some, weightedSpreadLoop_eq p c xs fs _ hl]
    simp only []
    rw [quotient_some p hD0.ne', Option.bind_some, root, if_neg (not_lt.mpr hq0)]
  · rw [← scatter_about hs.ne', hl]
    rw [hl] at hr
    exact hr

/-- **C121**, spread. -/
theorem C121_spread_partial {p : ℕ} (hp : 1 ≤ p) {xs : List ℝ} (hn : xs.length ≤ 2 ^ p + 1) (h0 : ∀ v ∈ xs, 0 ≤ v)
    (h1 : ∃ v ∈ xs, 0 < v) :
    ∃ c s, centroid p xs = some c ∧ spread p xs = some s ∧ 0 ≤ s ∧ Agree p (xs.length + 4) s
      (Real.sqrt (scatter (fun i => (i : ℝ)) xs + (c - gravity (fun i => (i : ℝ)) xs) ^ 2)) := by
  obtain ⟨c, s, e1, e2, s0, h⟩ := C121_weighted_spread hp (fs := indices 0 xs.length) (indices_length _ _).symm h0 h1
    (fun v hv => mem_indices hv)
  rw [gravity_indices, scatter_indices] at h
  rw [← centroid_eq hp hn] at e1
  rw [← spread_eq hp hn] at e2
  exact ⟨c, s, e1, e2, s0, h⟩

example : ∃ c s, weightedCentroid 24 [1, 0, 2] [100, 200, 300] = some c ∧
    weightedSpread 24 [1, 0, 2] [100, 200, 300] = some s ∧ 0 ≤ s := by
  obtain ⟨c, s, h1, h2, h3, -⟩ := C121_weighted_spread (p := 24) (by norm_num) (xs := [1, 0, 2]) (fs := [100, 200, 300])
    (by simp)
    (by intro v hv; simp only [List.mem_cons, List.not_mem_nil, or_false] at hv; rcases hv with rfl | rfl | rfl <;> norm_num)
    ⟨1, by simp, one_pos⟩
    (by intro v hv; simp only [List.mem_cons, List.not_mem_nil, or_false] at hv; rcases hv with rfl | rfl | rfl <;> norm_num)
  exact ⟨c, s, h1, h2, h3⟩

/-! ### Crest -/

theorem foldl_max (xs : List ℝ) : ∀ a : ℝ, 0 ≤ a →
    a ≤ xs.foldl (fun a x => if a < |x| then |x| else a) a ∧
    (∀ x ∈ xs, |x| ≤ xs.foldl (fun a x => if a < |x| then |x| else a) a) ∧
    (xs.foldl (fun a x => if a < |x| then |x| else a) a = a ∨
      ∃ x ∈ xs, xs.foldl (fun a x => if a < |x| then |x| else a) a = |x|) := by
  induction xs with
  | nil => intro a _; exact ⟨le_rfl, by simp, Or.inl rfl⟩
  | cons x xs ih =>
    intro a ha
    rw [List.foldl_cons]
    by_cases h : a < |x|
    · rw [if_pos h]
      obtain ⟨i1, i2, i3⟩ := ih |x| (abs_nonneg x)
      refine ⟨h.le.trans i1, ?_, ?_⟩
      · intro y hy
        rcases List.mem_cons.mp hy with rfl | hy
        · exact i1
        · exact i2 y hy
      · rcases i3 with i3 | ⟨y, hy, i3⟩
        · exact Or.inr ⟨x, List.mem_cons_self, i3⟩
        · exact Or.inr ⟨y, List.mem_cons_of_mem _ hy, i3⟩
    · rw [if_neg h]
      obtain ⟨i1, i2, i3⟩ := ih a ha
      refine ⟨i1, ?_, ?_⟩
      · intro y hy
        rcases List.mem_cons.mp hy with rfl | hy
        · exact (not_lt.mp h).trans i1
        · exact i2 y hy
      · rcases i3 with i3 | ⟨y, hy, i3⟩
        · exact Or.inl i3
        · exact Or.inr ⟨y, List.mem_cons_of_mem _ hy, i3⟩

theorem isFloat_abs {p : ℕ} {x : ℝ} (h : IsFloat p x) : IsFloat p |x| := by
  obtain ⟨m, k, hm, rfl⟩ := h
  refine ⟨|m|, k, by rwa [abs_abs], ?_⟩
  rw [abs_mul, abs_of_pos (two_zpow_pos k)]
  push_cast
  rfl

/-- **C121**, crest: for a signal with a sample that is not 0, the result is the largest magnitude over the sum of the
magnitudes up to `n + 1` roundings, positive and never above 1. -/
theorem C121_crest {p : ℕ} (hp : 1 ≤ p) {xs : List ℝ} (hf : ∀ v ∈ xs, IsFloat p v) (h1 : ∃ v ∈ xs, v ≠ 0) :
    ∃ c M, crest p xs = some c ∧ (∃ v ∈ xs, |v| = M) ∧ (∀ v ∈ xs, |v| ≤ M) ∧
      Agree p (xs.length + 1) c (M / (xs.map abs).sum) ∧ 0 < c ∧ c ≤ 1 := by
  obtain ⟨m1, m2, m3⟩ := foldl_max xs 0 le_rfl
  change 0 ≤ maxabs xs at m1
  change ∀ x ∈ xs, |x| ≤ maxabs xs at m2
  change maxabs xs = 0 ∨ ∃ x ∈ xs, maxabs xs = |x| at m3
  obtain ⟨v, hv, hv0⟩ := h1
  have hM : 0 < maxabs xs := lt_of_lt_of_le (abs_pos.mpr hv0) (m2 v hv)
  obtain ⟨w, hw, hwM⟩ : ∃ x ∈ xs, maxabs xs = |x| := by
    rcases m3 with m3 | m3
    · exact absurd m3 hM.ne'
    · exact m3
  have hA : ∀ y ∈ xs.map abs, 0 ≤ y := by
    intro y hy
    obtain ⟨z, _, rfl⟩ := List.mem_map.mp hy
    exact abs_nonneg z
  have hS : 0 < (xs.map abs).sum := by
    have := List.single_le_sum hA |w| (List.mem_map_of_mem hw)
    rw [← hwM] at this
    linarith
  have hD := accumulate_agree hp (xs.map abs) 0 le_rfl hA
  rw [zero_add, List.length_map] at hD
  have hD0 := agree_pos hD hS
  have hle : maxabs xs ≤ accumulate p 0 (xs.map abs) := by
    rw [hwM]
    refine (accumulate_above hp (xs.map abs) 0 le_rfl ⟨0, 0, by simp, by simp⟩ ?_).2 _ (List.mem_map_of_mem hw)
    intro y hy
    obtain ⟨z, hz, rfl⟩ := List.mem_map.mp hy
    exact ⟨abs_nonneg z, isFloat_abs (hf z hz)⟩
  refine ⟨_, maxabs xs, quotient_some p hD0.ne', ⟨w, hw, hwM.symm⟩, m2, ?_, rnd_pos hp (div_pos hM hD0), ?_⟩
  · have := rnd_step hp (div_nonneg m1 hD0.le) (div m1 m1 hD0 hS (refl (maxabs xs)) hD)
    rwa [Nat.zero_add] at this
  · have := rnd_mono hp ((div_le_one hD0).mpr hle)
    have h1 : rnd p 1 = 1 := by simpa using nat_exact hp (n := 1) Nat.one_le_two_pow
    rwa [h1] at this

example : ∃ c, crest 53 [1, 0, -3] = some c ∧ 0 < c ∧ c ≤ 1 := by
  obtain ⟨c, M, h1, -, -, -, h2, h3⟩ := C121_crest (p := 53) (by norm_num) (xs := [1, 0, -3])
    (by
      intro v hv
      simp only [List.mem_cons, List.not_mem_nil, or_false] at hv
      rcases hv with rfl | rfl | rfl
      · exact ⟨1, 0, by norm_num, by norm_num⟩
      · exact ⟨0, 0, by norm_num, by norm_num⟩
      · exact ⟨-3, 0, by norm_num, by norm_num⟩) ⟨1, by simp, one_ne_zero⟩
  exact ⟨c, h1, h2, h3⟩

end Edsp.Rounded
