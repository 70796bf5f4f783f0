import Verif.Props.C183_Centres
import Mathlib.Analysis.SpecificLimits.Basic

/-!
# C184: stable filters forget, and answer periodic signals periodically
-/

namespace Edsp.Props.C184

open Finset Filter Edsp Edsp.Spec Edsp.ConvL Edsp.OvershootL

/-- Sample `n` of what the device returns for the signal `x`. -/
def output (filt : List ℝ → List ℝ) (x : ℕ → ℝ) (n : ℕ) : ℝ := (filt ((List.range (n + 1)).map x)).getD n 0

/-- The impulse response dies out geometrically. -/
theorem imp_bound {T : List ℝ → List ℝ} (h : Lti T) {g : ℝ} (ha : Answers T (constant 1) (constant g)) :
    ∃ C ρ : ℝ, 0 ≤ C ∧ 0 < ρ ∧ ρ < 1 ∧ ∀ n, |imp T n| ≤ C * ρ ^ n := by
  obtain ⟨D, r, r0, r1, hb⟩ := C183.answers_bound h ha
  simp only [constant, mul_one] at hb
  have hD : 0 ≤ D := by simpa using (abs_nonneg _).trans (hb 0)
  have hρ0 : (0 : ℝ) < max r (1 / 2) := lt_max_of_lt_right (by norm_num)
  have hb' : ∀ n, |(∑ j ∈ range (n + 1), imp T j) - g| ≤ D * max r (1 / 2) ^ n := fun n =>
    (hb n).trans (mul_le_mul_of_nonneg_left (pow_le_pow_left₀ r0 (le_max_left ..) n) hD)
  set ρ := max r (1 / 2) with hρ
  refine ⟨2 * D / ρ + D + |g|, ρ, by positivity, hρ0, max_lt r1 (by norm_num), fun n => ?_⟩
  have hρ1 : ρ ≤ 1 := (max_lt r1 (by norm_num)).le
  cases n with
  | zero =>
    have := hb' 0
    simp only [zero_add, sum_range_one, pow_zero, mul_one] at this ⊢
    have h2 : |imp T 0| ≤ |imp T 0 - g| + |g| := by
      have := abs_add_le (imp T 0 - g) g
      rwa [sub_add_cancel] at this
    have h3 : 0 ≤ 2 * D / ρ := by positivity
    linarith
  | succ n =>
    have e : imp T (n + 1) = ((∑ j ∈ range (n + 1 + 1), imp T j) - g) - ((∑ j ∈ range (n + 1), imp T j) - g) := by
      rw [sum_range_succ _ (n + 1)]; ring
    rw [e]
    refine (abs_sub _ _).trans ?_
    have h1 := hb' (n + 1)
    have h2 := hb' n
    have hp : 0 < ρ ^ n := pow_pos hρ0 n
    have e2 : (2 * D / ρ + D + |g|) * ρ ^ (n + 1) = 2 * D * ρ ^ n + (D + |g|) * ρ ^ (n + 1) := by
      rw [pow_succ]; field_simp; ring
    have h3 : D * ρ ^ (n + 1) ≤ D * ρ ^ n := mul_le_mul_of_nonneg_left (pow_le_pow_of_le_one hρ0.le hρ1 (by omega)) hD
    have h4 : 0 ≤ (D + |g|) * ρ ^ (n + 1) := by positivity
    rw [e2]
    linarith

theorem lti_forgets {T : List ℝ → List ℝ} (h : Lti T) {g : ℝ} (ha : Answers T (constant 1) (constant g)) {x y : ℕ → ℝ}
    {K : ℕ} (hxy : ∀ n, K ≤ n → x n = y n) : Tendsto (fun n => output T x n - output T y n) atTop (nhds 0) := by
  obtain ⟨C, ρ, hC, hρ, hρ1, hb⟩ := imp_bound h ha
  have hi : Tendsto (imp T) atTop (nhds 0) := by
    refine squeeze_zero_norm (fun n => hb n) ?_
    simpa using (tendsto_pow_atTop_nhds_zero_of_lt_one hρ.le hρ1).const_mul C
  have e : ∀ n, K ≤ n → ∑ j ∈ range K, (x j - y j) * imp T (n - j) = output T x n - output T y n := by
    intro n hn
    unfold output
    rw [out_eq h x (Nat.lt_succ_self n), out_eq h y (Nat.lt_succ_self n), ← sum_sub_distrib]
    rw [← sum_range_reflect (fun j => imp T j * x (n - j) - imp T j * y (n - j))]
    rw [← sum_subset (s₁ := range K) (s₂ := range (n + 1))]
    · refine sum_congr rfl fun j hj => ?_
      have hj := mem_range.1 hj
      rw [show n + 1 - 1 - j = n - j by omega, show n - (n - j) = j by omega]
      ring
    · exact range_subset_range.2 (by omega)
    · intro j hj hj2
      have hj := mem_range.1 hj
      rw [mem_range, not_lt] at hj2
      rw [show n - (n + 1 - 1 - j) = j by omega, hxy j hj2, sub_self]
  have ht : Tendsto (fun n => ∑ j ∈ range K, (x j - y j) * imp T (n - j)) atTop (nhds (∑ j ∈ range K, (x j - y j) * 0)) :=
    tendsto_finsetSum _ fun j _ => (hi.comp (tendsto_sub_atTop_nat j)).const_mul _
  simp only [mul_zero, sum_const_zero] at ht
  exact ht.congr' (eventually_atTop.2 ⟨K, e⟩)

theorem lti_periodic {T : List ℝ → List ℝ} (h : Lti T) {g : ℝ} (ha : Answers T (constant 1) (constant g)) {x : ℕ → ℝ}
    {P : ℕ} (hP : 0 < P) (hx : ∀ n, x (n + P) = x n) : ∃ y : ℕ → ℝ, (∀ n, y (n + P) = y n) ∧ Answers T x y := by
  obtain ⟨C, ρ, hC, hρ, hρ1, hb⟩ := imp_bound h ha
  set B := ∑ i ∈ range P, |x (P - 1 - i)| with hB
  have hB0 : 0 ≤ B := sum_nonneg fun _ _ => abs_nonneg _
  -- from one period to the next
  have step : ∀ n, |output T x (n + P) - output T x n| ≤ C * B * ρ ^ n := by
    intro n
    have e : output T x (n + P) - output T x n = ∑ i ∈ range P, imp T (n + 1 + i) * x (P - 1 - i) := by
      unfold output
      rw [out_eq h x (Nat.lt_succ_self (n + P)), out_eq h x (Nat.lt_succ_self n), show n + P + 1 = (n + 1) + P by omega,
        sum_range_add]
      have e1 : ∑ j ∈ range (n + 1), imp T j * x (n + P - j) = ∑ j ∈ range (n + 1), imp T j * x (n - j) :=
        sum_congr rfl fun j hj => by
          have hj := mem_range.1 hj
          rw [show n + P - j = (n - j) + P by omega, hx]
      rw [e1, add_sub_cancel_left]
      exact sum_congr rfl fun i _ => by rw [show n + P - (n + 1 + i) = P - 1 - i by omega]
    rw [e, hB, mul_right_comm, mul_sum]
    refine (abs_sum_le_sum_abs _ _).trans (sum_le_sum fun i _ => ?_)
    rw [abs_mul]
    refine mul_le_mul_of_nonneg_right ((hb _).trans (mul_le_mul_of_nonneg_left ?_ hC)) (abs_nonneg _)
    exact pow_le_pow_of_le_one hρ.le hρ1.le (by omega)
  have hq1 : ρ ^ P < 1 := pow_lt_one₀ hρ.le hρ1 (by omega)
  have geo : ∀ r m, dist (output T x (r + m * P)) (output T x (r + (m + 1) * P)) ≤ C * B * (ρ ^ P) ^ m := by
    intro r m
    rw [dist_comm, Real.dist_eq, show r + (m + 1) * P = r + m * P + P by ring]
    refine (step _).trans (mul_le_mul_of_nonneg_left ?_ (mul_nonneg hC hB0))
    rw [← pow_mul]
    exact pow_le_pow_of_le_one hρ.le hρ1.le (by rw [mul_comm]; omega)
  have lim : ∀ r, ∃ l, Tendsto (fun m => output T x (r + m * P)) atTop (nhds l) := fun r =>
    cauchySeq_tendsto_of_complete (cauchySeq_of_le_geometric _ _ hq1 (geo r))
  choose l hl using lim
  refine ⟨fun n => l (n % P), fun n => by simp, C * B / (1 - ρ ^ P) / ρ ^ P, ρ, hρ.le, hρ1, fun N => ⟨?_, fun k hk => ?_⟩⟩
  · rw [h.len]; simp
  have hlen : k < (T ((List.range N).map x)).length := by rw [h.len]; simpa using hk
  refine ⟨_, List.getElem?_eq_getElem hlen, ?_⟩
  have e1 : (T ((List.range N).map x))[k] = output T x k := by
    rw [← getD_get hlen, out_eq h x hk, output, out_eq h x (Nat.lt_succ_self k)]
  have hd := dist_le_of_le_geometric_of_tendsto _ _ hq1 (geo (k % P)) (hl (k % P)) (k / P)
  rw [show k % P + k / P * P = k by rw [mul_comm]; exact Nat.mod_add_div k P, Real.dist_eq] at hd
  rw [e1]
  refine hd.trans ?_
  have hq0 : 0 < ρ ^ P := pow_pos hρ P
  have h1 : (ρ ^ P) ^ (k / P) * ρ ^ P ≤ ρ ^ k := by
    rw [← pow_mul, ← pow_add]
    refine pow_le_pow_of_le_one hρ.le hρ1.le ?_
    have := Nat.mod_add_div k P
    have := Nat.mod_lt k hP
    omega
  have h2 : (ρ ^ P) ^ (k / P) ≤ ρ ^ k / ρ ^ P := (le_div_iff₀ hq0).2 h1
  have h3 : 0 ≤ C * B / (1 - ρ ^ P) := div_nonneg (mul_nonneg hC hB0) (by linarith)
  calc C * B * (ρ ^ P) ^ (k / P) / (1 - ρ ^ P) = C * B / (1 - ρ ^ P) * (ρ ^ P) ^ (k / P) := by ring
    _ ≤ C * B / (1 - ρ ^ P) * (ρ ^ k / ρ ^ P) := mul_le_mul_of_nonneg_left h2 h3
    _ = C * B / (1 - ρ ^ P) / ρ ^ P * ρ ^ k := by ring

theorem answers_tendsto {T : List ℝ → List ℝ} {x y : ℕ → ℝ} (h : Answers T x y) :
    Tendsto (fun n => output T x n - y n) atTop (nhds 0) := by
  obtain ⟨C, ρ, h0, h1, hb⟩ := h
  refine squeeze_zero_norm (a := fun n => C * ρ ^ n) (fun n => ?_) ?_
  · obtain ⟨-, hk⟩ := hb (n + 1)
    obtain ⟨v, hv, hle⟩ := hk n (Nat.lt_succ_self n)
    rw [output, List.getD_eq_getElem?_getD, hv]
    exact hle
  · simpa using (tendsto_pow_atTop_nhds_zero_of_lt_one h0 h1).const_mul C

theorem period_sum {x : ℕ → ℝ} {P : ℕ} (hx : ∀ n, x (n + P) = x n) (m : ℕ) :
    ∑ r ∈ range P, x (m + r) = ∑ r ∈ range P, x r := by
  induction m with
  | zero => simp
  | succ m ih =>
    rw [← ih]
    have h1 := sum_range_succ (fun r => x (m + r)) P
    have h2 := sum_range_succ' (fun r => x (m + r)) P
    rw [hx m] at h1
    have e : ∑ r ∈ range P, x (m + 1 + r) = ∑ r ∈ range P, x (m + (r + 1)) :=
      sum_congr rfl fun r _ => by rw [show m + 1 + r = m + (r + 1) by omega]
    rw [e]
    simp only [add_zero] at h2
    linarith

theorem lti_mean {T : List ℝ → List ℝ} (h : Lti T) {g : ℝ} (ha : Answers T (constant 1) (constant g)) {x y : ℕ → ℝ}
    {P : ℕ} (hx : ∀ n, x (n + P) = x n) (hy : ∀ n, y (n + P) = y n) (hxy : Answers T x y) :
    ∑ r ∈ range P, y r = g * ∑ r ∈ range P, x r := by
  obtain ⟨C, ρ, hC, hρ, hρ1, hb⟩ := imp_bound h ha
  have hi : Tendsto (imp T) atTop (nhds 0) := by
    refine squeeze_zero_norm (fun n => hb n) ?_
    simpa using (tendsto_pow_atTop_nhds_zero_of_lt_one hρ.le hρ1).const_mul C
  have hS : Tendsto (fun n => ∑ j ∈ range (n + 1), imp T j) atTop (nhds g) := by
    have h1 := (answers_tendsto ha).add_const g
    rw [zero_add] at h1
    refine h1.congr fun n => ?_
    rw [output, out_eq h _ (Nat.lt_succ_self n)]
    simp [constant]
  have e : ∀ n, ∑ r ∈ range P, output T x (n + r) = (∑ j ∈ range (n + 1), imp T j) * (∑ r ∈ range P, x r) +
      ∑ r ∈ range P, ∑ i ∈ range r, imp T (n + 1 + i) * x (r - 1 - i) := by
    intro n
    have e1 : ∀ r, output T x (n + r) = ∑ j ∈ range (n + 1), imp T j * x (n - j + r) +
        ∑ i ∈ range r, imp T (n + 1 + i) * x (r - 1 - i) := by
      intro r
      rw [output, out_eq h x (Nat.lt_succ_self (n + r)), show n + r + 1 = (n + 1) + r by omega, sum_range_add]
      congr 1
      · refine sum_congr rfl fun j hj => ?_
        have hj := mem_range.1 hj
        rw [show n + r - j = n - j + r by omega]
      · exact sum_congr rfl fun i _ => by rw [show n + r - (n + 1 + i) = r - 1 - i by omega]
    rw [sum_congr rfl fun r _ => e1 r, sum_add_distrib, sum_comm, sum_mul]
    congr 1
    exact sum_congr rfl fun j _ => by rw [← mul_sum, period_sum hx]
  have h0 : Tendsto (fun n => ∑ r ∈ range P, ∑ i ∈ range r, imp T (n + 1 + i) * x (r - 1 - i)) atTop
      (nhds (∑ r ∈ range P, ∑ i ∈ range r, 0 * x (r - 1 - i))) :=
    tendsto_finsetSum _ fun r _ => tendsto_finsetSum _ fun i _ =>
      (hi.comp (by simpa only [add_assoc] using tendsto_add_atTop_nat (1 + i))).mul_const _
  simp only [zero_mul, sum_const_zero] at h0
  have h1 := (hS.mul_const (∑ r ∈ range P, x r)).add h0
  rw [add_zero] at h1
  have h2 : Tendsto (fun n => ∑ r ∈ range P, (output T x (n + r) - y (n + r))) atTop (nhds (∑ _r ∈ range P, 0)) :=
    tendsto_finsetSum _ fun r _ => (answers_tendsto hxy).comp (tendsto_add_atTop_nat r)
  rw [sum_const_zero] at h2
  have h3 := h2.add_const (∑ r ∈ range P, y r)
  rw [zero_add] at h3
  refine tendsto_nhds_unique (h3.congr fun n => ?_) h1
  rw [sum_sub_distrib, period_sum hy, sub_add_cancel, e]

theorem answers_unique {T : List ℝ → List ℝ} {x y z : ℕ → ℝ} {P : ℕ} (hP : 0 < P) (hy : ∀ n, y (n + P) = y n)
    (hz : ∀ n, z (n + P) = z n) (h1 : Answers T x y) (h2 : Answers T x z) : y = z := by
  funext n
  have h := (answers_tendsto h1).sub (answers_tendsto h2)
  rw [sub_zero] at h
  have ht : Tendsto (fun m => n + m * P) atTop atTop :=
    tendsto_atTop_mono (fun m => (Nat.le_mul_of_pos_right m hP).trans (Nat.le_add_left _ n)) tendsto_id
  have py : ∀ m, y (n + m * P) = y n := fun m => by
    induction m with
    | zero => simp
    | succ m ih => rw [show n + (m + 1) * P = n + m * P + P by ring, hy, ih]
  have pz : ∀ m, z (n + m * P) = z n := fun m => by
    induction m with
    | zero => simp
    | succ m ih => rw [show n + (m + 1) * P = n + m * P + P by ring, hz, ih]
  have h3 : Tendsto (fun _ : ℕ => z n - y n) atTop (nhds 0) := (h.comp ht).congr fun m => by
    simp only [Function.comp_apply, py, pz]; ring
  have := tendsto_nhds_unique h3 tendsto_const_nhds
  linarith

theorem lti_answers {T : List ℝ → List ℝ} (h : Lti T) {x y : ℕ → ℝ} {C ρ : ℝ} (h0 : 0 ≤ ρ) (h1 : ρ < 1)
    (hb : ∀ n, |output T x n - y n| ≤ C * ρ ^ n) : Answers T x y := by
  refine ⟨C, ρ, h0, h1, fun N => ⟨by rw [h.len]; simp, fun k hk => ?_⟩⟩
  have hlen : k < (T ((List.range N).map x)).length := by rw [h.len]; simpa using hk
  refine ⟨_, List.getElem?_eq_getElem hlen, ?_⟩
  have e1 : (T ((List.range N).map x))[k] = output T x k := by
    rw [← getD_get hlen, out_eq h x hk, output, out_eq h x (Nat.lt_succ_self k)]
  rw [e1]
  exact hb k

theorem answers_le {T : List ℝ → List ℝ} {x y : ℕ → ℝ} (h : Answers T x y) :
    ∃ C ρ : ℝ, 0 ≤ C ∧ 0 ≤ ρ ∧ ρ < 1 ∧ ∀ n, |output T x n - y n| ≤ C * ρ ^ n := by
  obtain ⟨C, ρ, h0, h1, hb⟩ := h
  have hle : ∀ n, |output T x n - y n| ≤ C * ρ ^ n := fun n => by
    obtain ⟨-, hk⟩ := hb (n + 1)
    obtain ⟨v, hv, hle⟩ := hk n (Nat.lt_succ_self n)
    rw [output, List.getD_eq_getElem?_getD, hv]
    exact hle
  exact ⟨C, ρ, by simpa using (abs_nonneg _).trans (hle 0), h0, h1, hle⟩

/-- Switched on one sample later. -/
theorem lti_later {T : List ℝ → List ℝ} (h : Lti T) {g : ℝ} (ha : Answers T (constant 1) (constant g)) {x y : ℕ → ℝ}
    (hxy : Answers T x y) : Answers T (fun n => x (n + 1)) (fun n => y (n + 1)) := by
  obtain ⟨C, ρ, hC, hρ, hρ1, hb⟩ := imp_bound h ha
  obtain ⟨D, r, hD, hr, hr1, hd⟩ := answers_le hxy
  refine lti_answers h (C := C * |x 0| + D) (ρ := max ρ r) (le_max_of_le_left hρ.le) (max_lt hρ1 hr1) fun n => ?_
  have e : output T (fun n => x (n + 1)) n = output T x (n + 1) - imp T (n + 1) * x 0 := by
    rw [output, output, out_eq h _ (Nat.lt_succ_self n), out_eq h x (Nat.lt_succ_self (n + 1)), sum_range_succ _ (n + 1),
      Nat.sub_self, add_sub_cancel_right]
    refine sum_congr rfl fun j hj => ?_
    have hj := mem_range.1 hj
    rw [show n - j + 1 = n + 1 - j by omega]
  have hm0 : 0 ≤ max ρ r := le_max_of_le_left hρ.le
  have hm1 : max ρ r ≤ 1 := (max_lt hρ1 hr1).le
  have p1 : ρ ^ (n + 1) ≤ max ρ r ^ n :=
    (pow_le_pow_left₀ hρ.le (le_max_left ..) _).trans (pow_le_pow_of_le_one hm0 hm1 (by omega))
  have p2 : r ^ (n + 1) ≤ max ρ r ^ n :=
    (pow_le_pow_left₀ hr (le_max_right ..) _).trans (pow_le_pow_of_le_one hm0 hm1 (by omega))
  have q1 : |imp T (n + 1) * x 0| ≤ C * |x 0| * max ρ r ^ n := by
    rw [abs_mul, mul_right_comm]
    exact mul_le_mul_of_nonneg_right ((hb _).trans (mul_le_mul_of_nonneg_left p1 hC)) (abs_nonneg _)
  have q2 := (hd (n + 1)).trans (mul_le_mul_of_nonneg_left p2 hD)
  rw [e, show output T x (n + 1) - imp T (n + 1) * x 0 - y (n + 1) =
    (output T x (n + 1) - y (n + 1)) - imp T (n + 1) * x 0 by ring]
  refine (abs_sub _ _).trans ?_
  rw [add_mul]
  linarith

theorem lti_later_by {T : List ℝ → List ℝ} (h : Lti T) {g : ℝ} (ha : Answers T (constant 1) (constant g)) {x y : ℕ → ℝ}
    (hxy : Answers T x y) (k : ℕ) : Answers T (fun n => x (n + k)) (fun n => y (n + k)) := by
  induction k with
  | zero => exact hxy
  | succ k ih =>
    have := lti_later h ha ih
    simpa only [add_assoc, add_comm 1 k] using this

theorem lti_neg {T : List ℝ → List ℝ} (h : Lti T) {x y : ℕ → ℝ} (hxy : Answers T x y) :
    Answers T (fun n => -x n) (fun n => -y n) := by
  obtain ⟨D, r, hD, hr, hr1, hd⟩ := answers_le hxy
  refine lti_answers h hr hr1 (C := D) fun n => ?_
  have e : output T (fun n => -x n) n = -output T x n := by
    rw [output, output, out_eq h _ (Nat.lt_succ_self n), out_eq h x (Nat.lt_succ_self n), ← sum_neg_distrib]
    exact sum_congr rfl fun j _ => by ring
  rw [e, ← abs_neg, show -(-output T x n - -y n) = output T x n - y n by ring]
  exact hd n

theorem lti_alternating {T : List ℝ → List ℝ} (h : Lti T) {g : ℝ} (ha : Answers T (constant 1) (constant g)) {x : ℕ → ℝ}
    {P : ℕ} (hP : 0 < P) (hx : ∀ n, x (n + P) = -x n) : ∃ y : ℕ → ℝ, (∀ n, y (n + P) = -y n) ∧ Answers T x y := by
  have hx2 : ∀ n, x (n + 2 * P) = x n := fun n => by
    rw [show n + 2 * P = n + P + P by ring, hx, hx, neg_neg]
  obtain ⟨y, hy, hxy⟩ := lti_periodic h ha (by omega : 0 < 2 * P) hx2
  have h1 := lti_neg h (lti_later_by h ha hxy P)
  simp only [hx, neg_neg] at h1
  have h2 := answers_unique (by omega : 0 < 2 * P) hy
    (fun n => by rw [show n + 2 * P + P = n + P + 2 * P by ring, hy]) hxy h1
  refine ⟨y, fun n => ?_, hxy⟩
  have := congrFun h2 n
  linarith

theorem stable_answers {c : Cascade ℝ} (hs : ∀ f ∈ active c, f.stability = true) :
    ∃ g, Answers (fun xs => (c.filter xs).2) (constant 1) (constant g) := by
  have := RampL.cascade_ramp hs 0 1
  have e : ramp 0 1 = constant 1 := by funext n; simp [ramp, constant]
  rw [e] at this
  refine ⟨RampL.facs (active c), ?_⟩
  have e2 : ramp (RampL.facs (active c) * 0) (RampL.facs (active c) * 1 + 0 * RampL.offs (active c)) =
      constant (RampL.facs (active c)) := by funext n; simp [ramp, constant]
  rw [e2] at this
  exact this

/-- **C184 (forgetting).**  A cascade after a reset, whatever calls were made on it before, all sections of which are
reported stable: for two signals that agree from some sample on, the outputs approach each other. -/
theorem C184_forgets {N : ℕ} {ops : List (Cascade.Op ℝ)} {c : Cascade ℝ} {o : List (List ℝ)}
    (h : (Cascade.new N).run ops = .ok (c, o)) (hs : ∀ f ∈ active c.reset, f.stability = true) {x y : ℕ → ℝ} {K : ℕ}
    (hxy : ∀ n, K ≤ n → x n = y n) :
    Tendsto (fun n => output (fun xs => (c.reset.filter xs).2) x n - output (fun xs => (c.reset.filter xs).2) y n) atTop
      (nhds 0) := by
  obtain ⟨g, hg⟩ := stable_answers hs
  exact lti_forgets (C181.cascade_lti h) hg hxy

/-- **C184 (periodic signals).**  The output for a signal of period `P` settles to a signal of period `P`. -/
theorem C184_periodic {N : ℕ} {ops : List (Cascade.Op ℝ)} {c : Cascade ℝ} {o : List (List ℝ)}
    (h : (Cascade.new N).run ops = .ok (c, o)) (hs : ∀ f ∈ active c.reset, f.stability = true) {x : ℕ → ℝ} {P : ℕ}
    (hP : 0 < P) (hx : ∀ n, x (n + P) = x n) :
    ∃ y : ℕ → ℝ, (∀ n, y (n + P) = y n) ∧ Answers (fun xs => (c.reset.filter xs).2) x y := by
  obtain ⟨g, hg⟩ := stable_answers hs
  exact lti_periodic (C181.cascade_lti h) hg hP hx

/-- **C184 (one answer).**  There is only one such signal. -/
theorem C184_unique {c : Cascade ℝ} {x y z : ℕ → ℝ} {P : ℕ} (hP : 0 < P) (hy : ∀ n, y (n + P) = y n)
    (hz : ∀ n, z (n + P) = z n) (h1 : Answers (fun xs => (c.reset.filter xs).2) x y)
    (h2 : Answers (fun xs => (c.reset.filter xs).2) x z) : y = z := answers_unique hP hy hz h1 h2

/-- **C184 (the mean level).**  The mean of the answer over a period is that of the signal times the factor by which the
cascade multiplies constants. -/
theorem C184_mean {N : ℕ} {ops : List (Cascade.Op ℝ)} {c : Cascade ℝ} {o : List (List ℝ)}
    (h : (Cascade.new N).run ops = .ok (c, o)) {g : ℝ}
    (hg : Answers (fun xs => (c.reset.filter xs).2) (constant 1) (constant g)) {x y : ℕ → ℝ} {P : ℕ}
    (hx : ∀ n, x (n + P) = x n) (hy : ∀ n, y (n + P) = y n) (hxy : Answers (fun xs => (c.reset.filter xs).2) x y) :
    (∑ r ∈ range P, y r) / P = g * ((∑ r ∈ range P, x r) / P) := by
  rw [lti_mean (C181.cascade_lti h) hg hx hy hxy, mul_div_assoc]

/-- **C184 (switching on).**  What the output settles to does not depend on the sample at which the filter starts. -/
theorem C184_start {N : ℕ} {ops : List (Cascade.Op ℝ)} {c : Cascade ℝ} {o : List (List ℝ)}
    (h : (Cascade.new N).run ops = .ok (c, o)) (hs : ∀ f ∈ active c.reset, f.stability = true) {x y : ℕ → ℝ}
    (hxy : Answers (fun xs => (c.reset.filter xs).2) x y) (k : ℕ) :
    Answers (fun xs => (c.reset.filter xs).2) (fun n => x (n + k)) (fun n => y (n + k)) := by
  obtain ⟨g, hg⟩ := stable_answers hs
  exact lti_later_by (C181.cascade_lti h) hg hxy k

/-- **C184 (alternating half periods).**  A signal whose second half period is the first one upside down is answered by a
signal of the same kind. -/
theorem C184_half_wave {N : ℕ} {ops : List (Cascade.Op ℝ)} {c : Cascade ℝ} {o : List (List ℝ)}
    (h : (Cascade.new N).run ops = .ok (c, o)) (hs : ∀ f ∈ active c.reset, f.stability = true) {x : ℕ → ℝ} {P : ℕ}
    (hP : 0 < P) (hx : ∀ n, x (n + P) = -x n) :
    ∃ y : ℕ → ℝ, (∀ n, y (n + P) = -y n) ∧ Answers (fun xs => (c.reset.filter xs).2) x y := by
  obtain ⟨g, hg⟩ := stable_answers hs
  exact lti_alternating (C181.cascade_lti h) hg hP hx

/-- What is in the running sum stays there. -/
theorem sum_zeros (w : ℝ) (n : ℕ) :
    ((⟨0, 0, 1, 0, -1, 1, w, 0⟩ : Biquad ℝ).filter (List.replicate n 0)).2 = List.replicate n w := by
  induction n with
  | zero => rfl
  | succ n ih =>
    rw [List.replicate_succ, List.replicate_succ]
    simp only [Biquad.filter, Biquad.tick]
    norm_num
    exact ih

/-- **C184 (unstable filters).**  The hypothesis is needed: the section `y(n) = x(n) + y(n-1)`, not reported stable, never
forgets a first sample 1. -/
theorem C184_needs_stability :
    ∃ (c : Cascade ℝ) (o : List (List ℝ)), (Cascade.new 1).run [.push ⟨0, 0, 1, 0, -1, 1, 0, 0⟩] = .ok (c, o) ∧
      (∀ f ∈ active c.reset, f.stability = false) ∧
      ∀ n, output (fun xs => (c.reset.filter xs).2) (fun k => if k = 0 then 1 else 0) n -
        output (fun xs => (c.reset.filter xs).2) (fun _ => 0) n = 1 := by
  refine ⟨⟨1, [⟨0, 0, 1, 0, -1, 1, 0, 0⟩]⟩, [[]], ?_, by simp [active, Cascade.reset, Biquad.reset, Biquad.stability], fun n => ?_⟩
  · simp [Cascade.run, Cascade.step, Cascade.new, Cascade.pushBack, Except.bind, Bind.bind, pure, Except.pure]
  have e : ∀ xs, (((⟨1, [⟨0, 0, 1, 0, -1, 1, 0, 0⟩]⟩ : Cascade ℝ).reset).filter xs).2 =
      ((⟨0, 0, 1, 0, -1, 1, 0, 0⟩ : Biquad ℝ).filter xs).2 := by
    intro xs
    rw [SteadyL.filter_out]
    rfl
  have e0 : (List.range (n + 1)).map (fun _ => (0 : ℝ)) = List.replicate (n + 1) 0 := by simp
  have e1 : (List.range (n + 1)).map (fun k => if k = 0 then (1 : ℝ) else 0) = 1 :: List.replicate n 0 := by
    rw [List.range_succ_eq_map]
    simp [Function.comp_def]
  have e2 : ((⟨0, 0, 1, 0, -1, 1, 0, 0⟩ : Biquad ℝ).filter (1 :: List.replicate n 0)).2 = List.replicate (n + 1) 1 := by
    have := sum_zeros 1 n
    rw [List.replicate_succ]
    simp only [Biquad.filter, Biquad.tick]
    norm_num
    exact this
  unfold output
  simp only [e, e0, e1, e2, sum_zeros]
  simp

/-- A cascade of one low-pass that has filtered a 5 before its reset, fed with the signals `1, 2, 4, 1, 2, 4, …` and
`1, 1, -1, -1, …`; and its answers to the silent signal and to a click. -/
example : ∃ (f : Biquad ℝ) (c : Cascade ℝ) (o : List (List ℝ)), Rbj.lowPass 1000 48000 2 = .ok f ∧
    (Cascade.new 1).run [.push f, .filter [5]] = .ok (c, o) ∧
    (∃ y : ℕ → ℝ, (∀ n, y (n + 3) = y n) ∧ Answers (fun xs => (c.reset.filter xs).2) (fun n => 2 ^ (n % 3)) y ∧
      (y 0 + y 1 + y 2) / 3 = 7 / 3) ∧
    (∃ y : ℕ → ℝ, (∀ n, y (n + 2) = -y n) ∧
      Answers (fun xs => (c.reset.filter xs).2) (fun n => if n % 4 < 2 then 1 else -1) y) ∧
    Tendsto (fun n => output (fun xs => (c.reset.filter xs).2) (fun k => if k = 7 then 1 else 0) n -
      output (fun xs => (c.reset.filter xs).2) (fun _ => 0) n) atTop (nhds 0) := by
  obtain ⟨f, hf, st, -⟩ := C16_low_pass 1000 48000 2 (by norm_num) (by norm_num) (by norm_num)
  obtain ⟨c, o, hc, hr⟩ : ∃ c o, (Cascade.new 1).run [.push f, .filter [5]] = .ok (c, o) ∧
      c.reset = ⟨1, [f.reset]⟩ := by
    refine ⟨⟨1, [(f.tick 5).1]⟩, [[], [(f.tick 5).2]], ?_, ?_⟩
    · simp [Cascade.run, Cascade.step, Cascade.new, Cascade.pushBack, Cascade.filter, Cascade.tick, Cascade.tickLoop,
        Except.bind, Bind.bind, pure, Except.pure]
    · simp [Cascade.reset, Biquad.reset, Biquad.tick]
  have hs : ∀ g ∈ active c.reset, g.stability = true := by
    intro g hg
    rw [hr] at hg
    have : g = f.reset := by simpa [active] using hg
    rw [this]
    exact st
  have hg : Answers (fun xs => (c.reset.filter xs).2) (constant 1) (constant 1) := by
    obtain ⟨f', hf', a⟩ := C157_low_passes 1000 48000 2 (by norm_num) (by norm_num) (by norm_num) Rbj.lowPass (by simp)
    obtain rfl : f' = f := by rw [hf] at hf'; injection hf' with h; exact h.symm
    have e : (fun xs => (c.reset.filter xs).2) = fromState f' (0, 0) := by
      funext xs
      rw [hr, SteadyL.filter_out]
      rfl
    have := a (0, 0) 0 1
    simp only [zero_mul, zero_add, one_mul] at this
    rw [e]
    have e1 : ramp 0 1 = constant 1 := by funext n; simp [ramp, constant]
    rwa [e1] at this
  obtain ⟨y, hy, hxy⟩ := C184_periodic hc hs (x := fun n => 2 ^ (n % 3)) (P := 3) (by norm_num) (by simp)
  have hm := C184_mean hc hg (P := 3) (by simp) hy hxy
  norm_num [sum_range_succ] at hm
  refine ⟨f, c, o, hf, hc, ⟨y, hy, hxy, ?_⟩, C184_half_wave hc hs (by norm_num) fun n => ?_,
    C184_forgets hc hs (K := 8) fun n hn => ?_⟩
  · linarith
  · by_cases h : n % 4 < 2
    · rw [if_pos h, if_neg (by omega)]
    · rw [if_neg h, if_pos (by omega), neg_neg]
  rw [if_neg (by omega)]

end Edsp.Props.C184
