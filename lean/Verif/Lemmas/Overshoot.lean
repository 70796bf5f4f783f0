import Verif.Spec.Overshoot
import Verif.Spec.Polarity
import Verif.Lemmas.Convolution
import Verif.Lemmas.Biquad
import Verif.Lemmas.Steady
import Mathlib.Analysis.SpecificLimits.Basic
import Mathlib.Analysis.Real.Pi.Bounds
import Mathlib.Analysis.SpecialFunctions.Trigonometric.Bounds

/-!
# Impulse responses without negative values
-/

namespace Edsp.OvershootL

open Finset Edsp.Spec Edsp.ConvL
open Filter (Tendsto atTop)

/-- The answer of a device to the unit impulse. -/
noncomputable def imp (T : List ℝ → List ℝ) (k : ℕ) : ℝ := (T (impulse k)).getD k 0

variable {T : List ℝ → List ℝ}

theorem imp_eq (h : Lti T) {k n : ℕ} (hk : k ≤ n) : (T (impulse n)).getD k 0 = imp T k := by
  have e : impulse n = impulse k ++ List.replicate (n - k) 0 := by
    unfold impulse
    rw [List.cons_append, ← List.replicate_add]
    congr 2; omega
  rw [e, ← causal_getD h _ _ (by simp [impulse])]
  rfl

/-- Every output is a sum over the impulse response. -/
theorem out_eq (h : Lti T) (x : ℕ → ℝ) {N n : ℕ} (hn : n < N) :
    (T ((List.range N).map x)).getD n 0 = ∑ j ∈ range (n + 1), imp T j * x (n - j) := by
  obtain ⟨M, rfl⟩ : ∃ M, N = M + 1 := ⟨N - 1, by omega⟩
  rw [lti_sum h _ M (by simp) n (by omega)]
  unfold convolution
  rw [← sum_range_reflect]
  refine sum_congr rfl fun j hj => ?_
  have hj' := mem_range.mp hj
  have e1 : n + 1 - 1 - j = n - j := by omega
  have e2 : n - (n - j) = j := by omega
  rw [e1, e2, imp_eq h (by omega), mul_comm]
  congr 1
  simp [show n - j < M + 1 by omega]

theorem getD_get {l : List ℝ} {n : ℕ} (hn : n < l.length) : l.getD n 0 = l[n] := by simp [hn]

theorem list_eq (xs : List ℝ) : xs = (List.range xs.length).map fun n => xs.getD n 0 := by
  apply List.ext_getElem
  · simp
  · intro n h1 h2
    simp [h1]

theorem out_list (h : Lti T) (xs : List ℝ) {n : ℕ} (hn : n < xs.length) :
    (T xs).getD n 0 = ∑ j ∈ range (n + 1), imp T j * xs.getD (n - j) 0 := by
  conv_lhs => rw [list_eq xs]
  exact out_eq h _ hn

theorem mem_out (h : Lti T) {xs : List ℝ} {y : ℝ} (hy : y ∈ T xs) : ∃ n < xs.length, y = (T xs).getD n 0 := by
  obtain ⟨n, hn, rfl⟩ := List.getElem_of_mem hy
  refine ⟨n, by rwa [h.len] at hn, ?_⟩
  simp [hn]

theorem getD_mem_out (h : Lti T) {xs : List ℝ} {n : ℕ} (hn : n < xs.length) : (T xs).getD n 0 ∈ T xs := by
  have : n < (T xs).length := by rwa [h.len]
  rw [getD_get this]
  exact List.getElem_mem this

/-- What a device settles to, in terms of the impulse response. -/
theorem answers_sum (h : Lti T) {x y : ℕ → ℝ} (ha : Answers T x y) :
    Tendsto (fun n => (∑ j ∈ range (n + 1), imp T j * x (n - j)) - y n) atTop (nhds 0) := by
  obtain ⟨D, ρ, h0, h1, hd⟩ := ha
  have hz : Tendsto (fun n => D * ρ ^ n) atTop (nhds 0) := by
    simpa using (tendsto_pow_atTop_nhds_zero_of_lt_one h0 h1).const_mul D
  refine squeeze_zero_norm (fun n => ?_) hz
  obtain ⟨v, hv, hb⟩ := (hd (n + 1)).2 n (by omega)
  have := out_eq h x (N := n + 1) (n := n) (by omega)
  rw [List.getD, hv] at this
  simp only [Option.getD_some] at this
  rw [← this]
  exact hb

theorem dc_sum (h : Lti T) {g : ℝ} (ha : Answers T (constant 1) (constant g)) :
    Tendsto (fun n => ∑ j ∈ range (n + 1), imp T j) atTop (nhds g) := by
  have := (answers_sum h ha).add_const g
  simpa [constant] using this

theorem alt_sum (h : Lti T) {r : ℝ} (ha : Answers T (alternating 1) (alternating r)) :
    Tendsto (fun n => ∑ j ∈ range (n + 1), (-1) ^ j * imp T j) atTop (nhds r) := by
  have h1 := answers_sum h ha
  rw [tendsto_zero_iff_abs_tendsto_zero] at h1
  rw [← tendsto_sub_nhds_zero_iff, tendsto_zero_iff_abs_tendsto_zero]
  refine h1.congr fun n => ?_
  have e : (∑ j ∈ range (n + 1), imp T j * alternating 1 (n - j)) - alternating r n =
      (-1) ^ n * ((∑ j ∈ range (n + 1), (-1) ^ j * imp T j) - r) := by
    unfold alternating
    rw [mul_sub, mul_sum]
    congr 1
    refine sum_congr rfl fun j hj => ?_
    have hj' := mem_range.mp hj
    have e : ((-1 : ℝ)) ^ (n - j) = (-1) ^ n * (-1) ^ j := by
      have e1 : n = (n - j) + j := by omega
      conv_rhs => rw [e1, pow_add, mul_assoc, ← pow_add, ← two_mul, pow_mul]
      norm_num
    rw [e]; ring
  simp only [Function.comp]
  rw [e, abs_mul, abs_pow, abs_neg, abs_one, one_pow, one_mul]

/-- The transform of the impulse response at a frequency, turned by the phase, is the gain. -/
theorem gain_sum (h : Lti T) {w g φ : ℝ} (ha : ∀ p, Answers T (sinusoid 1 w p) (sinusoid g w (p + φ))) :
    Tendsto (fun n => ∑ j ∈ range (n + 1), imp T j * Real.cos (w * j + φ)) atTop (nhds g) := by
  have h1 := answers_sum h (ha 0)
  have h2 := answers_sum h (ha (-(Real.pi / 2)))
  have bd : ∀ (c : ℕ → ℝ) (u : ℕ → ℝ), (∀ n, |c n| ≤ 1) → Tendsto u atTop (nhds 0) →
      Tendsto (fun n => c n * u n) atTop (nhds 0) := by
    intro c u hc hu
    rw [tendsto_zero_iff_abs_tendsto_zero] at hu
    refine squeeze_zero_norm (fun n => ?_) hu
    rw [Real.norm_eq_abs, abs_mul]
    simpa using mul_le_mul_of_nonneg_right (hc n) (abs_nonneg (u n))
  have h3 := bd (fun n => Real.cos (w * n + φ)) _ (fun n => Real.abs_cos_le_one _) h1
  have h4 := bd (fun n => Real.sin (w * n + φ)) _ (fun n => Real.abs_sin_le_one _) h2
  have h5 := (h3.add h4).add_const g
  rw [show (0 : ℝ) + 0 + g = g by ring] at h5
  refine h5.congr fun n => ?_
  unfold sinusoid
  have e0 : w * (n : ℝ) + (0 + φ) = w * n + φ := by ring
  have e1 : Real.cos (w * (n : ℝ) + (-(Real.pi / 2) + φ)) = Real.sin (w * n + φ) := by
    rw [show w * (n : ℝ) + (-(Real.pi / 2) + φ) = (w * n + φ) - Real.pi / 2 by ring, Real.cos_sub_pi_div_two]
  rw [e0, e1]
  have e2 : ∀ j ∈ range (n + 1), imp T j * Real.cos (w * j + φ) =
      Real.cos (w * n + φ) * (imp T j * (1 * Real.cos (w * ((n - j : ℕ) : ℝ) + 0))) +
      Real.sin (w * n + φ) * (imp T j * (1 * Real.cos (w * ((n - j : ℕ) : ℝ) + -(Real.pi / 2)))) := by
    intro j hj
    have hj' : j ≤ n := by have := mem_range.mp hj; omega
    rw [← sub_eq_add_neg, Real.cos_sub_pi_div_two, add_zero, Nat.cast_sub hj']
    have : w * (j : ℝ) + φ = (w * n + φ) - w * ((n : ℝ) - j) := by ring
    rw [this, Real.cos_sub]; ring
  rw [sum_congr rfl e2, sum_add_distrib, ← mul_sum, ← mul_sum]
  have e3 := Real.sin_sq_add_cos_sq (w * n + φ)
  generalize Real.cos (w * n + φ) = c at *
  generalize Real.sin (w * n + φ) = s at *
  linear_combination (-g) * e3

/-- The outputs of a device that keeps constants stay in the range of the samples exactly if no value of its impulse
response is negative. -/
theorem range_iff (h : Lti T) (h1 : Answers T (constant 1) (constant 1)) : KeepsRange T ↔ ∀ k, 0 ≤ imp T k := by
  have hlim := dc_sum h h1
  constructor
  · intro hT k0
    by_contra hneg
    push Not at hneg
    have hev := (hlim.eventually (lt_mem_nhds (show 1 + imp T k0 < 1 by linarith))).and
      (Filter.eventually_ge_atTop k0)
    obtain ⟨n, hn, hk⟩ := hev.exists
    set x : ℕ → ℝ := fun i => if i = n - k0 then -1 else 1 with hx
    have hy := hT (-1) 1 (by norm_num) (by norm_num) ((List.range (n + 1)).map x) (by
      intro v hv
      obtain ⟨i, -, rfl⟩ := List.mem_map.mp hv
      simp only [hx]
      split <;> norm_num) _ (getD_mem_out h (n := n) (by simp))
    rw [out_eq h x (by omega)] at hy
    have e : ∑ j ∈ range (n + 1), imp T j * x (n - j) = (∑ j ∈ range (n + 1), imp T j) - 2 * imp T k0 := by
      have e1 : ∀ j ∈ range (n + 1), imp T j * x (n - j) = imp T j - (if j = k0 then 2 * imp T j else 0) := by
        intro j hj
        have := mem_range.mp hj
        by_cases hjk : j = k0
        · simp only [hx]; rw [if_pos (by omega), if_pos hjk]; ring
        · simp only [hx]; rw [if_neg (by omega), if_neg hjk]; ring
      rw [sum_congr rfl e1, sum_sub_distrib, sum_ite_eq' (range (n + 1)) k0, if_pos (mem_range.mpr (by omega))]
    rw [e] at hy
    linarith [hy.2]
  · intro hk lo hi hlo hhi xs hxs y hy
    obtain ⟨n, hn, rfl⟩ := mem_out h hy
    rw [out_list h xs hn]
    have hmono : Monotone fun n => ∑ j ∈ range (n + 1), imp T j := by
      refine monotone_nat_of_le_succ fun n => ?_
      rw [sum_range_succ _ (n + 1)]
      linarith [hk (n + 1)]
    have hle := hmono.ge_of_tendsto hlim n
    have hb : ∀ j ∈ range (n + 1), lo ≤ xs.getD (n - j) 0 ∧ xs.getD (n - j) 0 ≤ hi := by
      intro j _
      have : n - j < xs.length := by omega
      rw [getD_get this]
      exact hxs _ (List.getElem_mem this)
    have hs0 : 0 ≤ ∑ j ∈ range (n + 1), imp T j := sum_nonneg fun j _ => hk j
    constructor
    · calc lo ≤ lo * ∑ j ∈ range (n + 1), imp T j := by nlinarith
        _ = ∑ j ∈ range (n + 1), imp T j * lo := by rw [← sum_mul, mul_comm]
        _ ≤ _ := sum_le_sum fun j hj => mul_le_mul_of_nonneg_left (hb j hj).1 (hk j)
    · calc _ ≤ ∑ j ∈ range (n + 1), imp T j * hi :=
            sum_le_sum fun j hj => mul_le_mul_of_nonneg_left (hb j hj).2 (hk j)
        _ = hi * ∑ j ∈ range (n + 1), imp T j := by rw [← sum_mul, mul_comm]
        _ ≤ hi := by nlinarith

theorem rising_iff (l : List ℝ) : (0 :: l).Pairwise (· ≤ ·) ↔
    ∀ n < l.length, (if n = 0 then 0 else l.getD (n - 1) 0) ≤ l.getD n 0 := by
  rw [← List.isChain_iff_pairwise, List.isChain_iff_getElem]
  constructor
  · intro h n hn
    have := h n (by simpa using hn)
    rw [getD_get hn]
    rcases n with _ | n
    · simpa using this
    · rw [if_neg (by omega), Nat.add_sub_cancel, getD_get (by omega)]
      simpa using this
  · intro h n hn
    have hn' : n < l.length := by simpa using hn
    have := h n hn'
    rw [getD_get hn'] at this
    rcases n with _ | n
    · simpa using this
    · rw [if_neg (by omega), Nat.add_sub_cancel, getD_get (by omega)] at this
      simpa using this

/-- Rising samples come out rising exactly if no value of the impulse response is negative. -/
theorem order_iff (h : Lti T) : KeepsOrder T ↔ ∀ k, 0 ≤ imp T k := by
  constructor
  · intro hT k
    have hx : (0 :: List.replicate (k + 1) (1 : ℝ)).Pairwise (· ≤ ·) := by
      rw [rising_iff]
      intro n hn
      simp only [List.length_replicate] at hn
      split
      · simp [hn]
      · simp [hn, show n - 1 < k + 1 by omega]
    have hy := (rising_iff _).mp (hT _ hx) k (by rw [h.len]; simp)
    rw [out_list h _ (n := k) (by simp)] at hy
    have e : ∀ n ≤ k, ∑ j ∈ range (n + 1), imp T j * (List.replicate (k + 1) (1 : ℝ)).getD (n - j) 0 =
        ∑ j ∈ range (n + 1), imp T j := by
      intro n hn
      refine sum_congr rfl fun j _ => ?_
      have : n - j < k + 1 := by omega
      simp [this]
    rw [e k le_rfl] at hy
    rcases k with _ | k
    · simpa using hy
    · rw [if_neg (by omega), Nat.add_sub_cancel, out_list h _ (by simp), e k (by omega), sum_range_succ _ (k + 1)] at hy
      linarith
  · intro hk xs hxs
    rw [rising_iff] at hxs ⊢
    intro n hn
    rw [h.len] at hn
    have key : ∀ n < xs.length, (if n = 0 then 0 else (T xs).getD (n - 1) 0) =
        ∑ j ∈ range (n + 1), imp T j * (if n - j = 0 then 0 else xs.getD (n - j - 1) 0) := by
      intro n hn
      rcases n with _ | n
      · simp
      · rw [if_neg (by omega), Nat.add_sub_cancel, out_list h xs (by omega), sum_range_succ _ (n + 1), Nat.sub_self,
          if_pos rfl, mul_zero, add_zero]
        refine sum_congr rfl fun j hj => ?_
        have := mem_range.mp hj
        rw [if_neg (by omega), show n + 1 - j - 1 = n - j by omega]
    rw [key n hn, out_list h xs hn]
    exact sum_le_sum fun j _ => mul_le_mul_of_nonneg_left (hxs (n - j) (by omega)) (hk j)

/-- Without negative values in the impulse response the gain nowhere exceeds that of constants. -/
theorem gain_le (h : Lti T) (hk : ∀ k, 0 ≤ imp T k) {g0 w g φ : ℝ} (h0 : Answers T (constant 1) (constant g0))
    (ha : ∀ p, Answers T (sinusoid 1 w p) (sinusoid g w (p + φ))) : g ≤ g0 := by
  refine le_of_tendsto_of_tendsto' (gain_sum h ha) (dc_sum h h0) fun n => sum_le_sum fun j _ => ?_
  nlinarith [hk j, Real.cos_le_one (w * j + φ)]

/-- ... and falls off at once: by at least a fixed multiple of the square of the frequency. -/
theorem gain_drop (h : Lti T) (hk : ∀ k, 0 ≤ imp T k) {g0 r : ℝ} (hr : |r| < g0)
    (h0 : Answers T (constant 1) (constant g0)) (h1 : Answers T (alternating 1) (alternating r)) :
    ∃ m > 0, ∃ d : ℕ, 1 ≤ d ∧ ∀ w g φ : ℝ, (∀ p, Answers T (sinusoid 1 w p) (sinusoid g w (p + φ))) →
      2 * m * (1 - |Real.cos (d * w / 2)|) ≤ g0 - g := by
  have hg0 : 0 < g0 := lt_of_le_of_lt (abs_nonneg r) hr
  obtain ⟨a, ha⟩ : ∃ a, 0 < imp T a := by
    by_contra hno
    push Not at hno
    have : ∀ n, ∑ j ∈ range (n + 1), imp T j = 0 := fun n =>
      sum_eq_zero fun j _ => le_antisymm (hno j) (hk j)
    have h2 := dc_sum h h0
    simp only [this] at h2
    exact hg0.ne (tendsto_nhds_unique tendsto_const_nhds h2)
  obtain ⟨b, hab, hb⟩ : ∃ b, b ≠ a ∧ 0 < imp T b := by
    by_contra hno
    push Not at hno
    have h2 := alt_sum h h1
    have h3 : Tendsto (fun n => ∑ j ∈ range (n + 1), (-1) ^ j * imp T j) atTop (nhds ((-1) ^ a * imp T a)) := by
      refine tendsto_const_nhds.congr' ?_
      filter_upwards [Filter.eventually_ge_atTop a] with n hn
      rw [sum_eq_single_of_mem a (mem_range.mpr (by omega)) fun j _ hj => by
        rw [le_antisymm (hno j hj) (hk j), mul_zero]]
    have h4 := tendsto_nhds_unique h3 h2
    have h5 : Tendsto (fun n => ∑ j ∈ range (n + 1), imp T j) atTop (nhds (imp T a)) := by
      refine tendsto_const_nhds.congr' ?_
      filter_upwards [Filter.eventually_ge_atTop a] with n hn
      rw [sum_eq_single_of_mem a (mem_range.mpr (by omega)) fun j _ hj => le_antisymm (hno j hj) (hk j)]
    have h6 := tendsto_nhds_unique h5 (dc_sum h h0)
    rw [← h4, abs_mul, abs_pow, abs_neg, abs_one, one_pow, one_mul, abs_of_pos ha, h6] at hr
    exact lt_irrefl _ hr
  wlog hlt : a < b generalizing a b
  · exact this b hb a hab.symm ha (by omega)
  refine ⟨min (imp T a) (imp T b), lt_min ha hb, b - a, by omega, fun w g φ hans => ?_⟩
  have hl := (dc_sum h h0).sub (gain_sum h hans)
  refine ge_of_tendsto hl ?_
  filter_upwards [Filter.eventually_ge_atTop b] with n hn
  rw [← sum_sub_distrib]
  have hterm : ∀ j, 0 ≤ imp T j - imp T j * Real.cos (w * j + φ) := fun j => by
    nlinarith [hk j, Real.cos_le_one (w * j + φ)]
  have hpair : (imp T a - imp T a * Real.cos (w * a + φ)) + (imp T b - imp T b * Real.cos (w * b + φ)) ≤
      ∑ j ∈ range (n + 1), (imp T j - imp T j * Real.cos (w * j + φ)) := by
    have hsub : ({a, b} : Finset ℕ) ⊆ range (n + 1) := by
      intro j hj
      rcases mem_insert.mp hj with rfl | hj
      · exact mem_range.mpr (by omega)
      · rw [mem_singleton.mp hj]; exact mem_range.mpr (by omega)
    have := sum_le_sum_of_subset_of_nonneg hsub fun j _ _ => hterm j
    rwa [sum_pair hlt.ne] at this
  refine le_trans ?_ hpair
  have h5 : min (imp T a) (imp T b) * (1 - Real.cos (w * a + φ)) ≤ imp T a * (1 - Real.cos (w * a + φ)) :=
    mul_le_mul_of_nonneg_right (min_le_left _ _) (by linarith [Real.cos_le_one (w * a + φ)])
  have h6 : min (imp T a) (imp T b) * (1 - Real.cos (w * b + φ)) ≤ imp T b * (1 - Real.cos (w * b + φ)) :=
    mul_le_mul_of_nonneg_right (min_le_right _ _) (by linarith [Real.cos_le_one (w * b + φ)])
  have h7 : Real.cos (w * a + φ) + Real.cos (w * b + φ) ≤ 2 * |Real.cos ((b - a : ℕ) * w / 2)| := by
    rw [Nat.cast_sub hlt.le, Real.cos_add_cos]
    have e : (w * (a : ℝ) + φ - (w * b + φ)) / 2 = -(((b : ℝ) - a) * w / 2) := by ring
    rw [e, Real.cos_neg]
    have := abs_le.mp (Real.abs_cos_le_one ((w * (a : ℝ) + φ + (w * b + φ)) / 2))
    have h8 := abs_nonneg (Real.cos (((b : ℝ) - a) * w / 2))
    have h9 : Real.cos ((w * (a : ℝ) + φ + (w * b + φ)) / 2) * Real.cos (((b : ℝ) - a) * w / 2) ≤
        |Real.cos (((b : ℝ) - a) * w / 2)| := by
      refine (le_abs_self _).trans ?_
      rw [abs_mul]
      nlinarith [Real.abs_cos_le_one ((w * (a : ℝ) + φ + (w * b + φ)) / 2)]
    linarith
  have h10 : 0 < min (imp T a) (imp T b) := lt_min ha hb
  nlinarith

/-- A device whose gain is flat of third order at 0 has an impulse response with negative values. -/
theorem flat_neg (h : Lti T) {g0 r : ℝ} (hr : |r| < g0) (h0 : Answers T (constant 1) (constant g0))
    (h1 : Answers T (alternating 1) (alternating r)) {C δ : ℝ} (hδ : 0 < δ)
    (hf : ∀ w, 0 < w → w < δ → ∃ g φ, (∀ p, Answers T (sinusoid 1 w p) (sinusoid g w (p + φ))) ∧ g0 - g ≤ C * w ^ 3) :
    ∃ k, imp T k < 0 := by
  by_contra hk
  push Not at hk
  obtain ⟨m, hm, d, hd, hb⟩ := gain_drop h hk hr h0 h1
  have hd1 : (1 : ℝ) ≤ d := by exact_mod_cast hd
  have hpi := Real.pi_gt_three
  have hC : 0 ≤ |C| := abs_nonneg C
  set w := min (δ / 2) (min (Real.pi / d) (m / (Real.pi ^ 2 * (|C| + 1)))) with hw
  have hw0 : 0 < w := by
    refine lt_min (by linarith) (lt_min (by positivity) (by positivity))
  have hw1 : w < δ := lt_of_le_of_lt (min_le_left _ _) (by linarith)
  have hw2 : w ≤ Real.pi / d := (min_le_right _ _).trans (min_le_left _ _)
  have hw3 : w ≤ m / (Real.pi ^ 2 * (|C| + 1)) := (min_le_right _ _).trans (min_le_right _ _)
  rw [le_div_iff₀ (by positivity)] at hw2 hw3
  obtain ⟨g, φ, hans, hg⟩ := hf w hw0 hw1
  have h2 := hb w g φ hans
  have h3 : 0 ≤ Real.cos (d * w / 2) := Real.cos_nonneg_of_neg_pi_div_two_le_of_le (by nlinarith) (by nlinarith)
  rw [abs_of_nonneg h3] at h2
  have h4 := Real.cos_le_one_sub_mul_cos_sq (x := d * w / 2) (by
    rw [abs_of_nonneg (by positivity)]; nlinarith)
  have h5 : w ^ 2 ≤ (d * w) ^ 2 := by
    rw [mul_pow]; nlinarith [pow_pos hw0 2, one_le_pow₀ hd1 (n := 2)]
  have h6 : m * w ^ 2 / Real.pi ^ 2 ≤ C * w ^ 3 := by
    refine le_trans ?_ (h2.trans hg)
    have e : 2 / Real.pi ^ 2 * (d * w / 2) ^ 2 = (d * w) ^ 2 / (2 * Real.pi ^ 2) := by field_simp
    rw [e] at h4
    have h7 : w ^ 2 / (2 * Real.pi ^ 2) ≤ (d * w) ^ 2 / (2 * Real.pi ^ 2) := by gcongr
    have h8 : 2 * m * (w ^ 2 / (2 * Real.pi ^ 2)) = m * w ^ 2 / Real.pi ^ 2 := by field_simp
    nlinarith
  rw [div_le_iff₀ (by positivity)] at h6
  have h9 : C * w ^ 3 * Real.pi ^ 2 ≤ |C| * w ^ 3 * Real.pi ^ 2 := by
    gcongr; exact le_abs_self C
  have h10 : w ^ 2 * (w * (Real.pi ^ 2 * (|C| + 1))) ≤ w ^ 2 * m := mul_le_mul_of_nonneg_left hw3 (by positivity)
  have h11 : 0 < w ^ 3 * Real.pi ^ 2 := by positivity
  nlinarith

/-- A sinusoid at the Nyquist frequency alternates. -/
theorem nyquist_answer {g φ : ℝ} (ha : ∀ p, Answers T (sinusoid 1 Real.pi p) (sinusoid g Real.pi (p + φ))) :
    ∃ r, |r| ≤ |g| ∧ Answers T (alternating 1) (alternating r) := by
  have h := ha 0
  have e : ∀ (n : ℕ) (φ : ℝ), Real.cos (Real.pi * n + φ) = (-1) ^ n * Real.cos φ := by
    intro n φ
    rw [Real.cos_add, mul_comm Real.pi, Real.cos_nat_mul_pi, Real.sin_nat_mul_pi]; ring
  have e1 : sinusoid 1 Real.pi 0 = alternating 1 := by
    funext n; simp only [sinusoid, alternating]; rw [e, Real.cos_zero]; ring
  have e2 : sinusoid g Real.pi (0 + φ) = alternating (g * Real.cos φ) := by
    funext n; simp only [sinusoid, alternating]; rw [e, zero_add]; ring
  rw [e1, e2] at h
  refine ⟨_, ?_, h⟩
  rw [abs_mul]
  nlinarith [abs_nonneg g, Real.abs_cos_le_one φ]

/-- Without negative values in the impulse response the gain of constants is not reached again, if alternating samples
are removed and nothing else is. -/
theorem flat_top (h : Lti T) (hk : ∀ k, 0 ≤ imp T k) (h0 : Answers T (constant 1) (constant 1))
    (h1 : Answers T (alternating 1) (alternating 0)) {w φ : ℝ} (hw0 : 0 < w) (hw1 : w < Real.pi)
    (ha : ∀ p, Answers T (sinusoid 1 w p) (sinusoid 1 w (p + φ)))
    (hp : ∀ v, 0 ≤ v → v < Real.pi → ∃ g θ, 0 < g ∧ ∀ p, Answers T (sinusoid 1 v p) (sinusoid g v (p + θ))) : False := by
  have hpi := Real.pi_pos
  -- all values that are not 0 are in phase
  have hone : ∀ j, 0 < imp T j → Real.cos (w * j + φ) = 1 := by
    intro j hj
    have hl := (dc_sum h h0).sub (gain_sum h ha)
    have h2 : imp T j - imp T j * Real.cos (w * j + φ) ≤ 1 - 1 := by
      refine ge_of_tendsto hl ?_
      filter_upwards [Filter.eventually_ge_atTop j] with n hn
      rw [← sum_sub_distrib]
      exact single_le_sum (f := fun j : ℕ => imp T j - imp T j * Real.cos (w * j + φ))
        (fun i _ => by nlinarith [hk i, Real.cos_le_one (w * i + φ)]) (mem_range.mpr (by omega))
    have h3 := Real.cos_le_one (w * j + φ)
    nlinarith
  obtain ⟨a, haa⟩ : ∃ a, 0 < imp T a := by
    by_contra hno
    push Not at hno
    have h2 := dc_sum h h0
    have : ∀ n, ∑ j ∈ range (n + 1), imp T j = 0 := fun n => sum_eq_zero fun j _ => le_antisymm (hno j) (hk j)
    simp only [this] at h2
    exact zero_ne_one (tendsto_nhds_unique tendsto_const_nhds h2)
  have hint : ∀ j, 0 < imp T j → ∃ k : ℤ, w * ((j : ℝ) - a) = k * (2 * Real.pi) := by
    intro j hj
    obtain ⟨k1, e1⟩ := (Real.cos_eq_one_iff _).mp (hone j hj)
    obtain ⟨k2, e2⟩ := (Real.cos_eq_one_iff _).mp (hone a haa)
    exact ⟨k1 - k2, by push_cast; linear_combination e2 - e1⟩
  -- a second such value
  obtain ⟨b, hab, hb⟩ : ∃ b, b ≠ a ∧ 0 < imp T b := by
    by_contra hno
    push Not at hno
    have h2 := alt_sum h h1
    have h3 : Tendsto (fun n => ∑ j ∈ range (n + 1), (-1) ^ j * imp T j) atTop (nhds ((-1) ^ a * imp T a)) := by
      refine tendsto_const_nhds.congr' ?_
      filter_upwards [Filter.eventually_ge_atTop a] with n hn
      rw [sum_eq_single_of_mem a (mem_range.mpr (by omega)) fun j _ hj => by
        rw [le_antisymm (hno j hj) (hk j), mul_zero]]
    have h4 := tendsto_nhds_unique h3 h2
    have : ((-1 : ℝ)) ^ a ≠ 0 := pow_ne_zero _ (by norm_num)
    exact haa.ne' ((mul_eq_zero.mp h4).resolve_left this)
  obtain ⟨k, hkb⟩ := hint b hb
  have hba : ((b : ℤ) - a : ℤ) ≠ 0 := by omega
  -- the frequency is a rational part of the sampling rate
  set q : ℚ := (k : ℚ) / ((b : ℤ) - a : ℤ) with hq
  have hwq : w = q * (2 * Real.pi) := by
    have h2 : (((b : ℤ) - a : ℤ) : ℝ) ≠ 0 := by exact_mod_cast hba
    have h3 : (q : ℝ) = k / (((b : ℤ) - a : ℤ) : ℝ) := by rw [hq]; push_cast; ring
    rw [h3, div_mul_eq_mul_div, eq_div_iff h2, ← hkb]; push_cast; ring
  have hM : 2 ≤ q.den := by
    by_contra hc
    have h2 := q.den_pos
    have h3 : q.den = 1 := by omega
    have h4 : (q.num : ℚ) = q := by rw [← Rat.num_div_den q, h3]; simp
    have h5 : w = q.num * (2 * Real.pi) := by rw [hwq]; congr 1; exact_mod_cast h4.symm
    have h6 : 0 < (q.num : ℝ) := by
      by_contra hc; push Not at hc; nlinarith
    have h7 : (1 : ℝ) ≤ q.num := by
      have : 0 < q.num := by exact_mod_cast h6
      exact_mod_cast this
    nlinarith
  have hdvd : ∀ j, 0 < imp T j → ∃ l : ℤ, ((j : ℝ) - a) = q.den * l := by
    intro j hj
    obtain ⟨k', hk'⟩ := hint j hj
    rw [hwq] at hk'
    have h2 : (q : ℝ) * ((j : ℝ) - a) = k' := by
      have : (2 * Real.pi) ≠ 0 := by positivity
      refine mul_right_cancel₀ this ?_
      linear_combination hk'
    have h3 : (q : ℝ) = q.num / q.den := by
      rw [← Rat.cast_intCast, ← Rat.cast_natCast, ← Rat.cast_div, Rat.num_div_den]
    have hden : (q.den : ℝ) ≠ 0 := by exact_mod_cast q.den_nz
    have h4 : (q.num : ℝ) * ((j : ℝ) - a) = k' * q.den := by
      rw [h3] at h2; field_simp at h2; linear_combination h2
    have h5 : q.num * ((j : ℤ) - a) = k' * q.den := by exact_mod_cast h4
    have h6 : (q.den : ℤ) ∣ q.num * ((j : ℤ) - a) := ⟨k', by rw [h5]; ring⟩
    have hcop : (q.den : ℤ).gcd q.num = 1 := by
      rw [Int.gcd_comm]; exact q.reduced
    obtain ⟨l, hl⟩ := Int.dvd_of_dvd_mul_right_of_gcd_one h6 hcop
    exact ⟨l, by exact_mod_cast hl⟩
  -- so that the gain at the mirrored frequency is 0
  have hM' : (2 : ℝ) ≤ q.den := by exact_mod_cast hM
  have hden : (q.den : ℝ) ≠ 0 := by exact_mod_cast q.den_nz
  obtain ⟨g, θ, hg, hans⟩ := hp (Real.pi - 2 * Real.pi / q.den) (by
    rw [sub_nonneg, div_le_iff₀ (by linarith)]; nlinarith) (by
    have : 0 < 2 * Real.pi / q.den := by positivity
    linarith)
  have h2 := gain_sum h hans
  have h3 := (alt_sum h h1).mul_const (Real.cos (θ - 2 * Real.pi / q.den * a))
  rw [zero_mul] at h3
  have h4 : ∀ n, ∑ j ∈ range (n + 1), imp T j * Real.cos ((Real.pi - 2 * Real.pi / q.den) * j + θ) =
      (∑ j ∈ range (n + 1), (-1) ^ j * imp T j) * Real.cos (θ - 2 * Real.pi / q.den * a) := by
    intro n
    rw [sum_mul]
    refine sum_congr rfl fun j _ => ?_
    rcases (hk j).eq_or_lt with hz | hj
    · rw [← hz]; ring
    · obtain ⟨l, hl⟩ := hdvd j hj
      have e : (Real.pi - 2 * Real.pi / q.den) * j + θ =
          (θ - 2 * Real.pi / q.den * a) + j * Real.pi - l * (2 * Real.pi) := by
        have : (j : ℝ) = a + q.den * l := by linarith
        rw [this]; field_simp; ring
      rw [e, Real.cos_sub_int_mul_two_pi, Real.cos_add_nat_mul_pi]; ring
  have h5 := tendsto_nhds_unique h2 (h3.congr fun n => (h4 n).symm)
  exact hg.ne' h5

/-- The unit impulse. -/
noncomputable def unit : ℕ → ℝ := fun n => if n = 0 then 1 else 0

theorem impulse_eq (k : ℕ) : impulse k = (List.range (k + 1)).map unit := by
  rw [List.range_succ_eq_map]
  simp only [List.map_cons, List.map_map, impulse, unit]
  congr 1
  symm
  refine List.eq_replicate_iff.mpr ⟨by simp, fun b hb => ?_⟩
  obtain ⟨i, -, rfl⟩ := List.mem_map.mp hb
  simp [unit]

theorem filter_range (f : Biquad ℝ) (x : ℕ → ℝ) (n : ℕ) :
    (f.filter ((List.range n).map x)).2 = (List.range n).map (f.response x) := by
  have := SteadyL.through_range [f] x n
  rwa [Biquad.through_eq_foldl] at this

theorem imp_section (f : Biquad ℝ) (k : ℕ) : imp (fun xs => (f.filter xs).2) k = f.response unit k := by
  unfold imp
  simp only [impulse_eq, filter_range]
  simp

/-- The recursion of the impulse response of a section. -/
structure Rec (a1 a2 b : ℝ) (h : ℕ → ℝ) : Prop where
  zero : h 0 = b
  one : h 1 = (2 - a1) * b
  two : h 2 = b - a1 * h 1 - a2 * b
  step : ∀ n, h (n + 3) = -a1 * h (n + 2) - a2 * h (n + 1)

theorem section_rec {f : Biquad ℝ} (hr : f.w0 = 0 ∧ f.w1 = 0) (h1 : f.b1 = 2 * f.b0) (h2 : f.b2 = f.b0) :
    Rec f.a1 f.a2 f.b0 (f.response unit) where
  zero := by rw [Biquad.response_zero, hr.1]; simp [unit]
  one := by rw [Biquad.response_one, Biquad.response_zero, hr.1, hr.2, h1]; simp [unit]; ring
  two := by rw [Biquad.response_step, Biquad.response_zero, hr.1, h2]; simp [unit]
  step := fun n => by rw [Biquad.response_step]; simp [unit]

/-- With real poles whose sum is not negative no value is negative. -/
theorem rec_nonneg {a1 a2 b : ℝ} {h : ℕ → ℝ} (hh : Rec a1 a2 b h) (hb : 0 < b) (hs : |a2| < 1 ∧ |a1| < 1 + a2)
    (h1 : a1 ≤ 0) (h2 : 4 * a2 ≤ a1 ^ 2) : ∀ k, 0 ≤ h k := by
  obtain ⟨hs2, hs1⟩ := hs
  obtain ⟨hs3, hs4⟩ := abs_lt.mp hs2
  have p0 : 0 ≤ h 0 := by rw [hh.zero]; exact hb.le
  have p1 : 0 ≤ h 1 := by rw [hh.one]; nlinarith
  have p2 : 0 ≤ h 2 := by rw [hh.two]; nlinarith
  by_cases ha : a2 ≤ 0
  · have key : ∀ n, 0 ≤ h (n + 1) ∧ 0 ≤ h (n + 2) := by
      intro n
      induction n with
      | zero => exact ⟨p1, p2⟩
      | succ n ih => exact ⟨ih.2, by rw [hh.step]; nlinarith [ih.1, ih.2]⟩
    intro k
    rcases k with _ | k
    · exact p0
    · exact (key k).1
  · push Not at ha
    set s := Real.sqrt (a1 ^ 2 - 4 * a2) with hsd
    have hs0 : 0 ≤ s := Real.sqrt_nonneg _
    have hss : s ^ 2 = a1 ^ 2 - 4 * a2 := Real.sq_sqrt (by linarith)
    have hs5 : s ≤ -a1 := by nlinarith
    set p := (-a1 + s) / 2 with hp
    set q := (-a1 - s) / 2 with hq
    have hpq : p + q = -a1 := by rw [hp, hq]; ring
    have hpm : p * q = a2 := by rw [hp, hq]; linear_combination (-1 / 4) * hss
    have q0 : 0 ≤ q := by rw [hq]; linarith
    have pp0 : 0 ≤ p := by rw [hp]; linarith
    have key : ∀ n, 0 ≤ h (n + 1) ∧ q * h (n + 1) ≤ h (n + 2) := by
      intro n
      induction n with
      | zero =>
        refine ⟨p1, ?_⟩
        have e : h (0 + 2) - q * h (0 + 1) = b * (1 + p) ^ 2 := by
          simp only [zero_add]
          rw [hh.two, hh.one, ← hpm, show a1 = -(p + q) by linarith]; ring
        nlinarith [mul_nonneg hb.le (sq_nonneg (1 + p))]
      | succ n ih =>
        refine ⟨by nlinarith [ih.1, ih.2], ?_⟩
        have e : h (n + 1 + 2) - q * h (n + 1 + 1) = p * (h (n + 2) - q * h (n + 1)) := by
          rw [show n + 1 + 2 = n + 3 by omega, hh.step, ← hpm, show a1 = -(p + q) by linarith]; ring
        nlinarith [mul_nonneg pp0 (show 0 ≤ h (n + 2) - q * h (n + 1) by linarith [ih.2])]
    intro k
    rcases k with _ | k
    · exact p0
    · exact (key k).1

/-- Complex poles: the quotient of neighbours falls by a fixed amount, so that it becomes negative. -/
theorem rec_complex {a1 a2 b : ℝ} {h : ℕ → ℝ} (hh : Rec a1 a2 b h) (hb : 0 < b) (hs : |a2| < 1 ∧ |a1| < 1 + a2)
    (h2 : a1 ^ 2 < 4 * a2) : ∃ k, h k < 0 := by
  by_contra hk
  push Not at hk
  obtain ⟨hs2, hs1⟩ := hs
  obtain ⟨hs3, hs4⟩ := abs_lt.mp hs2
  obtain ⟨hs5, hs6⟩ := abs_lt.mp hs1
  have ha : 0 < a2 := by nlinarith [sq_nonneg a1]
  set r := Real.sqrt a2 with hr
  have hr0 : 0 < r := Real.sqrt_pos.mpr ha
  have hrr : r ^ 2 = a2 := Real.sq_sqrt ha.le
  have hδ : 0 < 2 * r + a1 := by
    by_contra hc
    push Not at hc
    nlinarith
  have hpos : ∀ n, 0 < h (n + 1) := by
    intro n
    induction n with
    | zero => simp only [zero_add]; rw [hh.one]; exact mul_pos (by linarith) hb
    | succ n ih =>
      refine lt_of_le_of_ne (hk _) fun he => ?_
      have h3 := hk (n + 3)
      rw [hh.step, show n + 2 = n + 1 + 1 by omega, ← he] at h3
      nlinarith
  set t := h 2 / h 1 with ht
  have key : ∀ n : ℕ, h (n + 2) ≤ (t - n * (2 * r + a1)) * h (n + 1) := by
    intro n
    induction n with
    | zero =>
      have := (hpos 0).ne'
      simp only [zero_add] at this
      simp only [zero_add, Nat.cast_zero, zero_mul, sub_zero]
      rw [ht, div_mul_cancel₀ _ this]
    | succ n ih =>
      rw [show n + 1 + 2 = n + 3 by omega, show n + 1 + 1 = n + 2 by omega, hh.step]
      set u := t - n * (2 * r + a1) with hu
      have e : t - ((n + 1 : ℕ) : ℝ) * (2 * r + a1) = u - (2 * r + a1) := by push_cast; ring
      rw [e]
      have h3 := hpos n
      have h4 : 0 < h (n + 2) := hpos (n + 1)
      have hup : 0 < u := by
        by_contra hc
        push Not at hc
        nlinarith
      refine le_of_mul_le_mul_left ?_ hup
      nlinarith [mul_nonneg (sq_nonneg (u - r)) h4.le, mul_le_mul_of_nonneg_left ih ha.le]
  obtain ⟨n, hn⟩ := exists_nat_gt (t / (2 * r + a1))
  rw [div_lt_iff₀ hδ] at hn
  have h3 := key n
  have h4 : 0 < h (n + 2) := hpos (n + 1)
  nlinarith [hpos n]

/-- Real poles with a negative sum. -/
theorem rec_fast {a1 a2 b : ℝ} {h : ℕ → ℝ} (hh : Rec a1 a2 b h) (hb : 0 < b) (hs : |a2| < 1 ∧ |a1| < 1 + a2)
    (h1 : 0 < a1) : ∃ k, h k < 0 := by
  by_contra hk
  push Not at hk
  obtain ⟨hs2, hs1⟩ := hs
  obtain ⟨hs3, hs4⟩ := abs_lt.mp hs2
  obtain ⟨hs5, hs6⟩ := abs_lt.mp hs1
  have p1 : 0 < h 1 := by rw [hh.one]; exact mul_pos (by linarith) hb
  by_cases ha : 0 ≤ a2
  · have h3 := hk 3
    rw [show 3 = 0 + 3 from rfl, hh.step] at h3
    simp only [zero_add] at h3
    have h4 := hk 2
    have h5 : a1 * h 2 = 0 := by nlinarith [mul_nonneg h1.le h4, mul_nonneg ha p1.le]
    have h6 : a2 * h 1 = 0 := by nlinarith [mul_nonneg h1.le h4, mul_nonneg ha p1.le]
    have h7 : h 2 = 0 := (mul_eq_zero.mp h5).resolve_left h1.ne'
    have h8 : a2 = 0 := (mul_eq_zero.mp h6).resolve_right p1.ne'
    rw [hh.two, hh.one, h8] at h7
    have h9 : b * (1 - a1) ^ 2 = 0 := by linarith
    have h10 := (mul_eq_zero.mp h9).resolve_left hb.ne'
    have h11 := pow_eq_zero_iff (two_ne_zero) |>.mp h10
    linarith
  · push Not at ha
    set s := Real.sqrt (a1 ^ 2 - 4 * a2) with hsd
    have hs0 : 0 ≤ s := Real.sqrt_nonneg _
    have hss : s ^ 2 = a1 ^ 2 - 4 * a2 := Real.sq_sqrt (by nlinarith)
    have hs7 : a1 < s := by nlinarith
    have hs8 : s < a1 + 2 * (1 - a1) ∨ s < 2 := by
      right; nlinarith
    set p := (-a1 + s) / 2 with hp
    set q := (a1 + s) / 2 with hq
    have hpq : p - q = -a1 := by rw [hp, hq]; ring
    have hpm : p * q = -a2 := by rw [hp, hq]; linear_combination (1 / 4) * hss
    have pp0 : 0 < p := by rw [hp]; linarith
    have hlt : p < q := by linarith
    have hq1 : q < 1 := by
      -- the polynomial at -1 is positive
      by_contra hc
      push Not at hc
      have : (1 - q) * (1 + p) = 1 - a1 + a2 := by linear_combination hpq - hpm
      nlinarith
    have eA : ∀ n, h (n + 2) = -q * h (n + 1) + b * (1 + p) ^ 2 * p ^ n := by
      intro n
      induction n with
      | zero =>
        simp only [zero_add, pow_zero, mul_one]
        rw [hh.two, hh.one, show a2 = -(p * q) by linarith, show a1 = q - p by linarith]; ring
      | succ n ih =>
        rw [show n + 1 + 2 = n + 3 by omega, hh.step, show n + 1 + 1 = n + 2 by omega,
          show a2 = -(p * q) by linarith, show a1 = q - p by linarith, pow_succ]
        linear_combination p * ih
    have eB : ∀ n, h (n + 2) = p * h (n + 1) + b * (1 - q) ^ 2 * (-q) ^ n := by
      intro n
      induction n with
      | zero =>
        simp only [zero_add, pow_zero, mul_one]
        rw [hh.two, hh.one, show a2 = -(p * q) by linarith, show a1 = q - p by linarith]; ring
      | succ n ih =>
        rw [show n + 1 + 2 = n + 3 by omega, hh.step, show n + 1 + 1 = n + 2 by omega,
          show a2 = -(p * q) by linarith, show a1 = q - p by linarith, pow_succ]
        linear_combination (-q) * ih
    -- both together, at odd indices
    have hc : 0 < b * (1 - q) ^ 2 := mul_pos hb (pow_pos (by linarith) 2)
    have key : ∀ m : ℕ, b * (1 - q) ^ 2 * q ^ (2 * m + 1) * q ≤ p * (b * (1 + p) ^ 2 * p ^ (2 * m + 1)) := by
      intro m
      have hA := eA (2 * m + 1)
      have hB := eB (2 * m + 1)
      have e : (-q) ^ (2 * m + 1) = -q ^ (2 * m + 1) := Odd.neg_pow ⟨m, rfl⟩ q
      rw [e] at hB
      have h3 := hk (2 * m + 1 + 2)
      have h4 : q * h (2 * m + 1 + 1) ≤ b * (1 + p) ^ 2 * p ^ (2 * m + 1) := by linarith
      have h5 : b * (1 - q) ^ 2 * q ^ (2 * m + 1) ≤ p * h (2 * m + 1 + 1) := by linarith
      have hq0 : 0 < q := by linarith
      nlinarith [mul_le_mul_of_nonneg_left h4 pp0.le, mul_le_mul_of_nonneg_right h5 hq0.le]
    have hq0 : 0 < q := by linarith
    have hρ : 1 < (q / p) ^ 2 := by
      have : 1 < q / p := by rw [lt_div_iff₀ pp0]; linarith
      nlinarith
    obtain ⟨m, hm⟩ := pow_unbounded_of_one_lt (b * (1 + p) ^ 2 / (b * (1 - q) ^ 2)) hρ
    have h3 := key m
    rw [← pow_mul, div_pow, div_lt_div_iff₀ hc (by positivity)] at hm
    have h4 : q ^ (2 * m) * (b * (1 - q) ^ 2) * q ^ 2 ≤ b * (1 + p) ^ 2 * p ^ (2 * m) * p ^ 2 := by
      calc _ = b * (1 - q) ^ 2 * q ^ (2 * m + 1) * q := by ring
        _ ≤ _ := h3
        _ = _ := by ring
    have h5 : p ^ 2 < q ^ 2 := pow_lt_pow_left₀ hlt pp0.le two_ne_zero
    have h7 : 0 < q ^ (2 * m) * (b * (1 - q) ^ 2) := by positivity
    have h8 := mul_lt_mul_of_pos_left h5 h7
    have h9 := mul_lt_mul_of_pos_right hm (pow_pos pp0 2)
    linarith

/-- **Sections with a double zero at the Nyquist frequency.** -/
theorem section_iff {f : Biquad ℝ} (hr : f.w0 = 0 ∧ f.w1 = 0) (h1 : f.b1 = 2 * f.b0) (h2 : f.b2 = f.b0) (hb : 0 < f.b0)
    (hs : f.stability = true) :
    (∀ k, 0 ≤ imp (fun xs => (f.filter xs).2) k) ↔ f.a1 ≤ 0 ∧ 4 * f.a2 ≤ f.a1 ^ 2 := by
  have hh := section_rec hr h1 h2
  have hst : |f.a2| < 1 ∧ |f.a1| < 1 + f.a2 := by
    unfold Biquad.stability at hs
    simpa using hs
  simp only [imp_section]
  constructor
  · intro hk
    constructor
    · by_contra hc
      push Not at hc
      obtain ⟨k, hk'⟩ := rec_fast hh hb hst hc
      linarith [hk k]
    · by_contra hc
      push Not at hc
      obtain ⟨k, hk'⟩ := rec_complex hh hb hst hc
      linarith [hk k]
  · rintro ⟨h3, h4⟩
    exact rec_nonneg hh hb hst h3 h4

/-- Sections of one pole with a zero at the Nyquist frequency. -/
theorem single_iff {f : Biquad ℝ} (hr : f.w0 = 0 ∧ f.w1 = 0) (h1 : f.b1 = f.b0) (h2 : f.b2 = 0) (ha : f.a2 = 0)
    (hb : 0 < f.b0) (hs : f.stability = true) :
    (∀ k, 0 ≤ imp (fun xs => (f.filter xs).2) k) ↔ f.a1 ≤ 0 := by
  have hst : |f.a1| < 1 := by
    unfold Biquad.stability at hs
    rw [ha] at hs
    simpa using hs
  obtain ⟨hs1, hs2⟩ := abs_lt.mp hst
  simp only [imp_section]
  have e0 : f.response unit 0 = f.b0 := by rw [Biquad.response_zero, hr.1]; simp [unit]
  have e1 : f.response unit 1 = (1 - f.a1) * f.b0 := by
    rw [Biquad.response_one, Biquad.response_zero, hr.1, hr.2, h1]; simp [unit]; ring
  have e2 : ∀ n, f.response unit (n + 2) = -f.a1 * f.response unit (n + 1) := by
    intro n
    rw [Biquad.response_step, h2, ha]; simp [unit]
  have p1 : 0 < f.response unit 1 := by rw [e1]; exact mul_pos (by linarith) hb
  constructor
  · intro hk
    by_contra hc
    push Not at hc
    have := hk 2
    rw [e2 0] at this
    simp only [zero_add] at this
    nlinarith
  · intro hc
    have key : ∀ n, 0 ≤ f.response unit (n + 1) := by
      intro n
      induction n with
      | zero => exact p1.le
      | succ n ih => rw [e2]; exact mul_nonneg (by linarith) ih
    intro k
    rcases k with _ | k
    · rw [e0]; exact hb.le
    · exact key k

end Edsp.OvershootL
