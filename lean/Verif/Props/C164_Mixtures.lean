import Verif.Props.C49_Features
import Mathlib.Tactic.FieldSimp
import Mathlib.Tactic.Linarith
import Mathlib.Tactic.NormNum

/-! # C164: spectra that are mixed, scaled or given another axis -/

namespace Edsp.Props

open Edsp Edsp.Spec Edsp.Mem Edsp.Stat Finset

namespace C164

open Feature

variable {f : ℕ → ℝ} {x y : List ℝ}

theorem gravity_total (hx : total x ≠ 0) : gravity f x * total x = ∑ i ∈ range x.length, f i * at0 x i := by
  unfold gravity
  rw [div_mul_cancel₀ _ hx]

theorem scatter_total (hx : total x ≠ 0) :
    scatter f x * total x = (∑ i ∈ range x.length, f i ^ 2 * at0 x i) - gravity f x ^ 2 * total x := by
  have hg := gravity_total (f := f) hx
  unfold scatter
  rw [div_mul_cancel₀ _ hx]
  generalize gravity f x = g at *
  have e : ∑ i ∈ range x.length, (f i - g) ^ 2 * at0 x i =
      (∑ i ∈ range x.length, f i ^ 2 * at0 x i) - 2 * g * (∑ i ∈ range x.length, f i * at0 x i) + g ^ 2 * total x := by
    unfold total
    rw [mul_sum, mul_sum, ← sum_sub_distrib, ← sum_add_distrib]
    exact sum_congr rfl fun i _ => by ring
  rw [e, ← hg]
  ring

/-! ### Mixtures -/

theorem at0_zip (h : x.length = y.length) (i : ℕ) : at0 (List.zipWith (fun a b => a + b) x y) i = at0 x i + at0 y i := by
  unfold at0
  by_cases hi : i < x.length
  · simp [List.getD_eq_getElem?_getD, hi, h ▸ hi]
  · have h2 : ¬ i < y.length := h ▸ hi
    have h3 : (List.zipWith (fun a b => a + b) x y).length ≤ i := by simp [h]; omega
    rw [List.getD_eq_getElem?_getD, List.getD_eq_getElem?_getD, List.getD_eq_getElem?_getD, List.getElem?_eq_none h3,
      List.getElem?_eq_none (not_lt.mp hi), List.getElem?_eq_none (not_lt.mp h2)]
    simp

theorem length_zip (h : x.length = y.length) : (List.zipWith (fun a b : ℝ => a + b) x y).length = x.length := by
  simp [h]

theorem weighted_zip (h : x.length = y.length) : ∑ i ∈ range (List.zipWith (fun a b : ℝ => a + b) x y).length,
      f i * at0 (List.zipWith (fun a b => a + b) x y) i =
    (∑ i ∈ range x.length, f i * at0 x i) + ∑ i ∈ range y.length, f i * at0 y i := by
  rw [length_zip h, ← h, ← sum_add_distrib]
  exact sum_congr rfl fun i _ => by rw [at0_zip h]; ring

theorem total_zip (h : x.length = y.length) : total (List.zipWith (fun a b => a + b) x y) = total x + total y := by
  have := weighted_zip (f := fun _ => 1) h
  simpa [total] using this

theorem gravity_zip (h : x.length = y.length) (hx : 0 < total x) (hy : 0 < total y) :
    gravity f (List.zipWith (fun a b => a + b) x y) * (total x + total y) =
      gravity f x * total x + gravity f y * total y := by
  rw [← total_zip h, gravity_total (by rw [total_zip h]; positivity), weighted_zip h, gravity_total hx.ne',
    gravity_total hy.ne']

theorem scatter_zip (h : x.length = y.length) (hx : 0 < total x) (hy : 0 < total y) :
    scatter f (List.zipWith (fun a b => a + b) x y) * (total x + total y) =
      scatter f x * total x + scatter f y * total y +
        total x * total y / (total x + total y) * (gravity f x - gravity f y) ^ 2 := by
  have hg := gravity_zip (f := f) h hx hy
  have hs := scatter_total (f := f) (x := List.zipWith (fun a b => a + b) x y) (by rw [total_zip h]; positivity)
  have h1 := scatter_total (f := f) hx.ne'
  have h2 := scatter_total (f := f) hy.ne'
  rw [total_zip h, weighted_zip (f := fun i => f i ^ 2) h] at hs
  rw [hs, h1, h2]
  generalize gravity f (List.zipWith (fun a b => a + b) x y) = g at *
  generalize gravity f x = p at *
  generalize gravity f y = q at *
  generalize total x = s at *
  generalize total y = t at *
  have ht : s + t ≠ 0 := by positivity
  have e : g = (p * s + q * t) / (s + t) := by rw [← hg, mul_div_cancel_right₀ _ ht]
  rw [e]
  field_simp
  ring

/-! ### Gains -/

theorem weighted_map (g : ℝ) : ∑ i ∈ range (x.map fun v => g * v).length, f i * at0 (x.map fun v => g * v) i =
    g * ∑ i ∈ range x.length, f i * at0 x i := by
  rw [List.length_map, mul_sum]
  exact sum_congr rfl fun i hi => by rw [at0_map _ (mem_range.mp hi)]; ring

theorem total_map (g : ℝ) : total (x.map fun v => g * v) = g * total x := by
  have := weighted_map (f := fun _ => 1) (x := x) g
  simpa [total] using this

theorem gravity_map {g : ℝ} (hg : g ≠ 0) : gravity f (x.map fun v => g * v) = gravity f x := by
  unfold gravity
  rw [weighted_map, total_map, mul_div_mul_left _ _ hg]

theorem scatter_map {g : ℝ} (hg : g ≠ 0) : scatter f (x.map fun v => g * v) = scatter f x := by
  unfold scatter
  rw [gravity_map hg, weighted_map (f := fun i => (f i - gravity f x) ^ 2), total_map, mul_div_mul_left _ _ hg]

theorem gain_spectrum {g : ℝ} (hg : 0 < g) (h0 : ∀ v ∈ x, 0 ≤ v) (h1 : ∃ v ∈ x, 0 < v) :
    (∀ v ∈ x.map fun v => g * v, 0 ≤ v) ∧ ∃ v ∈ x.map fun v => g * v, 0 < v := by
  constructor
  · intro v hv
    obtain ⟨u, hu, rfl⟩ := List.mem_map.mp hv
    exact mul_nonneg hg.le (h0 u hu)
  · obtain ⟨u, hu, hp⟩ := h1
    exact ⟨g * u, List.mem_map.mpr ⟨u, hu, rfl⟩, mul_pos hg hp⟩

theorem sum_spectrum (h : x.length = y.length) (hx0 : ∀ v ∈ x, 0 ≤ v) (hx1 : ∃ v ∈ x, 0 < v) (hy0 : ∀ v ∈ y, 0 ≤ v) :
    (∀ v ∈ List.zipWith (fun a b => a + b) x y, 0 ≤ v) ∧ ∃ v ∈ List.zipWith (fun a b => a + b) x y, 0 < v := by
  constructor
  · intro v hv
    obtain ⟨i, hi, rfl⟩ := mem_at0 hv
    rw [length_zip h] at hi
    rw [at0_zip h]
    exact add_nonneg (hx0 _ (at0_mem hi)) (hy0 _ (at0_mem (h ▸ hi)))
  · obtain ⟨u, hu, hp⟩ := hx1
    obtain ⟨i, hi, rfl⟩ := mem_at0 hu
    refine ⟨_, at0_mem (i := i) (by rw [length_zip h]; exact hi), ?_⟩
    rw [at0_zip h]
    exact add_pos_of_pos_of_nonneg hp (hy0 _ (at0_mem (h ▸ hi)))

/-! ### Axes -/

theorem gravity_axis {a b : ℝ} {f' : ℕ → ℝ} (hf : ∀ i, i < x.length → f' i = a * f i + b) (hx : total x ≠ 0) :
    gravity f' x = a * gravity f x + b := by
  have e : ∑ i ∈ range x.length, f' i * at0 x i = a * (∑ i ∈ range x.length, f i * at0 x i) + b * total x := by
    unfold total
    rw [mul_sum, mul_sum, ← sum_add_distrib]
    exact sum_congr rfl fun i hi => by rw [hf i (mem_range.mp hi)]; ring
  unfold gravity
  rw [e]
  field_simp

theorem scatter_axis {a b : ℝ} {f' : ℕ → ℝ} (hf : ∀ i, i < x.length → f' i = a * f i + b) (hx : total x ≠ 0) :
    scatter f' x = a ^ 2 * scatter f x := by
  unfold scatter
  rw [gravity_axis hf hx, ← mul_div_assoc, mul_sum]
  congr 1
  exact sum_congr rfl fun i hi => by rw [hf i (mem_range.mp hi)]; ring

theorem geometric_gain {g : ℝ} (hg : 0 < g) (hl : x ≠ []) (hp : ∀ v ∈ x, 0 < v) {m : ℝ} (hm : geometricMean x = .ok m) :
    geometricMean (x.map fun v => g * v) = .ok (g * m) := by
  have hn : (x.length : ℝ) ≠ 0 := by simpa using hl
  have key : ∀ z : List ℝ, (∀ v ∈ z, 0 < v) → accumulateM flog 0 z = .ok (0 + (z.map Real.log).sum) := fun z hz =>
    accumulateM_ok z 0 fun v hv => by unfold flog; rw [if_neg (not_le.mpr (hz v hv))]
  have hs : ((x.map fun v => g * v).map Real.log).sum = (x.map Real.log).sum + x.length * Real.log g := by
    clear hm hn hl
    induction x with
    | nil => simp
    | cons a l ih =>
      simp only [List.map_cons, List.sum_cons, List.length_cons, ih fun v hv => hp v (by simp [hv])]
      rw [Real.log_mul hg.ne' (hp a (by simp)).ne']
      push_cast
      ring
  unfold geometricMean at hm ⊢
  rw [key x hp] at hm
  rw [key _ fun v hv => by obtain ⟨u, hu, rfl⟩ := List.mem_map.mp hv; exact mul_pos hg (hp u hu)]
  simp only [bind, Except.bind, pure, Except.pure, Stat.fdiv, List.length_map, hn, if_false, zero_add] at hm ⊢
  have hm := Except.ok.inj hm
  rw [← hm, hs, add_div, mul_div_cancel_left₀ _ hn, Real.exp_add, Real.exp_log hg, mul_comm]

end C164

open C164 Feature

/-- The centroid of the sum of two spectra is the mean of their centroids, weighted by their sums; and the square of the
spread is the mean of the squares plus the share of the distance of the two centroids. -/
theorem C164_mixture {x y : List ℝ} (h : x.length = y.length) (hx0 : ∀ v ∈ x, 0 ≤ v) (hx1 : ∃ v ∈ x, 0 < v)
    (hy0 : ∀ v ∈ y, 0 ≤ v) (hy1 : ∃ v ∈ y, 0 < v) :
    ∃ c c1 c2 s s1 s2, centroid x = .ok c1 ∧ centroid y = .ok c2 ∧
      centroid (List.zipWith (fun a b => a + b) x y) = .ok c ∧ c * (x.sum + y.sum) = c1 * x.sum + c2 * y.sum ∧
      min c1 c2 ≤ c ∧ c ≤ max c1 c2 ∧ spread x = .ok s1 ∧ spread y = .ok s2 ∧
      spread (List.zipWith (fun a b => a + b) x y) = .ok s ∧
      s ^ 2 * (x.sum + y.sum) = s1 ^ 2 * x.sum + s2 ^ 2 * y.sum + x.sum * y.sum / (x.sum + y.sum) * (c1 - c2) ^ 2 ∧
      min s1 s2 ≤ s := by
  have hx := total_pos hx0 hx1
  have hy := total_pos hy0 hy1
  obtain ⟨hz0, hz1⟩ := sum_spectrum h hx0 hx1 hy0
  have hz := total_pos hz0 hz1
  obtain ⟨s1, e1, q1, p1, -⟩ := C49_spread hx0 hx1
  obtain ⟨s2, e2, q2, p2, -⟩ := C49_spread hy0 hy1
  obtain ⟨s, e, q, p, -⟩ := C49_spread hz0 hz1
  have hg := gravity_zip (f := fun i => (i : ℝ)) h hx hy
  have hs := scatter_zip (f := fun i => (i : ℝ)) h hx hy
  rw [← q, ← q1, ← q2] at hs
  refine ⟨_, _, _, s, s1, s2, centroid_ok hx.ne', centroid_ok hy.ne', centroid_ok hz.ne', ?_, ?_, ?_, e1, e2, e, ?_, ?_⟩
  · rw [← total_eq, ← total_eq]; exact hg
  · by_contra hn
    have hn := not_le.mp hn
    have a1 := lt_of_lt_of_le hn (min_le_left _ _)
    have a2 := lt_of_lt_of_le hn (min_le_right _ _)
    nlinarith [mul_lt_mul_of_pos_right a1 hx, mul_lt_mul_of_pos_right a2 hy]
  · by_contra hn
    have hn := not_le.mp hn
    have a1 := lt_of_le_of_lt (le_max_left _ _) hn
    have a2 := lt_of_le_of_lt (le_max_right _ _) hn
    nlinarith [mul_lt_mul_of_pos_right a1 hx, mul_lt_mul_of_pos_right a2 hy]
  · rw [← total_eq, ← total_eq]; exact hs
  · by_contra hn
    have hn := not_le.mp hn
    have a1 := lt_of_lt_of_le hn (min_le_left _ _)
    have a2 := lt_of_lt_of_le hn (min_le_right _ _)
    have b1 : s ^ 2 < s1 ^ 2 := pow_lt_pow_left₀ a1 p (by norm_num)
    have b2 : s ^ 2 < s2 ^ 2 := pow_lt_pow_left₀ a2 p (by norm_num)
    have b3 : 0 ≤ total x * total y / (total x + total y) *
        (gravity (fun i => (i : ℝ)) x - gravity (fun i => (i : ℝ)) y) ^ 2 := by positivity
    nlinarith [mul_lt_mul_of_pos_right b1 hx, mul_lt_mul_of_pos_right b2 hy]

/-- A gain of the spectrum leaves centroid, spread, crest and flatness. -/
theorem C164_gain {x : List ℝ} {g : ℝ} (hg : 0 < g) (h0 : ∀ v ∈ x, 0 ≤ v) (h1 : ∃ v ∈ x, 0 < v) :
    (∃ c, centroid x = .ok c ∧ centroid (x.map fun v => g * v) = .ok c) ∧
    (∃ s, spread x = .ok s ∧ spread (x.map fun v => g * v) = .ok s) ∧
    (∃ c, crest x = .ok c ∧ crest (x.map fun v => g * v) = .ok c) ∧
    ((∀ v ∈ x, 0 < v) → ∃ r, flatness x = .ok r ∧ flatness (x.map fun v => g * v) = .ok r) := by
  have hx := total_pos h0 h1
  obtain ⟨hz0, hz1⟩ := gain_spectrum hg h0 h1
  have hz := total_pos hz0 hz1
  have hl : x ≠ [] := by obtain ⟨v, hv, -⟩ := h1; exact List.ne_nil_of_mem hv
  refine ⟨⟨_, centroid_ok hx.ne', ?_⟩, ?_, ?_, ?_⟩
  · rw [centroid_ok hz.ne', gravity_map hg.ne']
  · obtain ⟨s, e, q, p, -⟩ := C49_spread h0 h1
    obtain ⟨s', e', q', p', -⟩ := C49_spread hz0 hz1
    rw [scatter_map hg.ne', ← q] at q'
    have : s' = s := (pow_left_inj₀ p' p (by norm_num)).mp q'
    exact ⟨s, e, this ▸ e'⟩
  · obtain ⟨v, hv, hp⟩ := h1
    obtain ⟨c, mx, e, ⟨w, hw, hwm⟩, hle, hc, -⟩ := C49_crest ⟨v, hv, hp.ne'⟩
    obtain ⟨c', mx', e', ⟨w', hw', hwm'⟩, hle', hc', -⟩ := C49_crest (x := x.map fun v => g * v)
      ⟨g * v, List.mem_map.mpr ⟨v, hv, rfl⟩, (mul_pos hg hp).ne'⟩
    have hmm : mx' = g * mx := by
      apply le_antisymm
      · obtain ⟨u, hu, rfl⟩ := List.mem_map.mp hw'
        rw [hwm', abs_mul, abs_of_pos hg]
        exact mul_le_mul_of_nonneg_left (hle u hu) hg.le
      · have := hle' _ (List.mem_map.mpr ⟨w, hw, rfl⟩)
        rwa [abs_mul, abs_of_pos hg, ← hwm] at this
    have hsum : ((x.map fun v => g * v).map fun v => |v|).sum = g * (x.map fun v => |v|).sum := by
      rw [List.map_map, ← List.sum_map_mul_left]
      congr 1
      exact List.map_congr_left fun u _ => by simp [abs_mul, abs_of_pos hg]
    have hmx : 0 < mx := lt_of_lt_of_le (abs_pos.mpr hp.ne') (hle v hv)
    have hne : (x.map fun v => |v|).sum ≠ 0 := fun h => by rw [h, mul_zero] at hc; exact hmx.ne hc
    rw [hsum, hmm, ← hc] at hc'
    have : c' = c := mul_right_cancel₀ (mul_ne_zero hg.ne' hne) (by rw [hc']; ring)
    exact ⟨c, e, this ▸ e'⟩
  · intro hp
    obtain ⟨r, m, a, e, em, ea, hr, -⟩ := C49_flatness hl hp
    obtain ⟨r', m', a', e', em', ea', hr', -⟩ := C49_flatness (x := x.map fun v => g * v) (by simpa using hl)
      (fun v hv => by obtain ⟨u, hu, rfl⟩ := List.mem_map.mp hv; exact mul_pos hg (hp u hu))
    have hm := geometric_gain hg hl hp em
    rw [em'] at hm
    have hm := Except.ok.inj hm
    have hn : (x.length : ℝ) ≠ 0 := by simpa using hl
    have hmean : ∀ z : List ℝ, z.length = x.length → mean z = .ok (total z / x.length) := by
      intro z hz
      unfold mean
      rw [StatL.accumulate_eq, zero_add, List.map_id, ← total_eq, hz]
      exact StatL.fdiv_ok hn
    have ha : a' = g * a := by
      rw [hmean x rfl] at ea
      rw [hmean _ (by simp), total_map] at ea'
      rw [← Except.ok.inj ea, ← Except.ok.inj ea', mul_div_assoc]
    have hane : a ≠ 0 := by
      rw [hmean x rfl] at ea
      rw [← Except.ok.inj ea]
      exact div_ne_zero hx.ne' hn
    rw [hm, ha, ← hr] at hr'
    have : r' = r := mul_right_cancel₀ (mul_ne_zero hg.ne' hane) (by rw [hr']; ring)
    exact ⟨r, e, this ▸ e'⟩

/-- Measured on the axis `a f + b` instead of `f`, the centroid `c` becomes `a c + b` and the spread `s` becomes `|a| s`;
on the axis 0, 1, … they are those of the functions without an axis. -/
theorem C164_axis {m m2 : List ℝ} {p n q p2 q2 : ℕ} {a b : ℝ} (hp : p + n ≤ m.length) (hq : q + n ≤ m.length)
    (hp2 : p2 + n ≤ m2.length) (hq2 : q2 + n ≤ m2.length) (hs : seg m2 p2 (p2 + n) = seg m p (p + n))
    (h0 : ∀ v ∈ seg m p (p + n), 0 ≤ v) (h1 : ∃ v ∈ seg m p (p + n), 0 < v) :
    (seg m2 q2 (q2 + n) = (seg m q (q + n)).map (fun f => a * f + b) →
      ∃ c s, weightedCentroid m p (p + n) q = .ok c ∧ weightedCentroid m2 p2 (p2 + n) q2 = .ok (a * c + b) ∧
        weightedSpread m p (p + n) q = .ok s ∧ weightedSpread m2 p2 (p2 + n) q2 = .ok (|a| * s)) ∧
    (seg m q (q + n) = (List.range n).map (fun i : ℕ => (i : ℝ)) →
      ∃ c s, weightedCentroid m p (p + n) q = .ok c ∧ centroid (seg m p (p + n)) = .ok c ∧
        weightedSpread m p (p + n) q = .ok s ∧ spread (seg m p (p + n)) = .ok s) := by
  have hx := total_pos h0 h1
  have lp : (seg m p (p + n)).length = n := by rw [seg_length hp]; omega
  have lq : (seg m q (q + n)).length = n := by rw [seg_length hq]; omega
  obtain ⟨c, e1, c1, -⟩ := C49_weighted_centroid hp hq h0 h1
  obtain ⟨s, e3, s1, s0, -⟩ := C49_weighted_spread hp hq h0 h1
  constructor
  · intro hax
    obtain ⟨c', e2, c2, -⟩ := C49_weighted_centroid hp2 hq2 (by rw [hs]; exact h0) (by rw [hs]; exact h1)
    obtain ⟨s', e4, s2, s0', -⟩ := C49_weighted_spread hp2 hq2 (by rw [hs]; exact h0) (by rw [hs]; exact h1)
    have hf : ∀ i, i < (seg m p (p + n)).length → at0 (seg m2 q2 (q2 + n)) i = a * at0 (seg m q (q + n)) i + b := by
      intro i hi
      rw [hax, at0_map _ (by omega)]
    rw [hs, gravity_axis hf hx.ne', ← c1] at c2
    rw [hs, scatter_axis hf hx.ne', ← s1, ← sq_abs a, ← mul_pow] at s2
    have : s' = |a| * s := (pow_left_inj₀ s0' (mul_nonneg (abs_nonneg a) s0) (by norm_num)).mp s2
    exact ⟨c, s, e1, c2 ▸ e2, e3, this ▸ e4⟩
  · intro hax
    have hf : ∀ i, i < (seg m p (p + n)).length → at0 (seg m q (q + n)) i = 1 * (i : ℝ) + 0 := by
      intro i hi
      rw [hax]
      unfold at0
      rw [lp] at hi
      simp [List.getD_eq_getElem?_getD, hi]
    rw [gravity_axis (f := fun i => (i : ℝ)) hf hx.ne', one_mul, add_zero] at c1
    rw [scatter_axis (f := fun i => (i : ℝ)) hf hx.ne', one_pow, one_mul] at s1
    obtain ⟨s', e4, s2, s0', -⟩ := C49_spread h0 h1
    rw [← s1] at s2
    have : s' = s := (pow_left_inj₀ s0' s0 (by norm_num)).mp s2
    exact ⟨c, s, e1, by rw [centroid_ok hx.ne', c1], e3, this ▸ e4⟩

/-- Two lines at the bins 0 and 2, one with three times the height of the other; and the same on an axis in hertz. -/
theorem C164_example :
    (∃ c s, centroid [3, 0, 1] = .ok c ∧ spread [3, 0, 1] = .ok s ∧ c = 1 / 2 ∧ s ^ 2 = 3 / 4) ∧
    ∃ c s, weightedCentroid [3, 0, 1, 0, 1, 2] 0 3 3 = .ok c ∧
      weightedCentroid [3, 0, 1, 100, 150, 200] 0 3 3 = .ok (50 * c + 100) ∧
      weightedSpread [3, 0, 1, 0, 1, 2] 0 3 3 = .ok s ∧ weightedSpread [3, 0, 1, 100, 150, 200] 0 3 3 = .ok (50 * s) := by
  constructor
  · obtain ⟨c, c1, c2, s, s1, s2, e1, e2, e, hc, -, -, g1, g2, g, hs, -⟩ := C164_mixture (x := [3, 0, 0]) (y := [0, 0, 1]) rfl
      (by simp) ⟨3, by simp, by norm_num⟩ (by simp) ⟨1, by simp, one_pos⟩
    have k1 : c1 = 0 := by
      have := e1.symm.trans (centroid_ok (x := [3, 0, 0]) (by norm_num [total, at0, sum_range_succ]))
      rw [Except.ok.inj this]
      norm_num [gravity, total, at0, sum_range_succ]
    have k2 : c2 = 2 := by
      have := e2.symm.trans (centroid_ok (x := [0, 0, 1]) (by norm_num [total, at0, sum_range_succ]))
      rw [Except.ok.inj this]
      norm_num [gravity, total, at0, sum_range_succ]
    obtain ⟨t1, f1, -, -, -, z1⟩ := C49_spread (x := [3, 0, 0]) (by simp) ⟨3, by simp, by norm_num⟩
    obtain ⟨t2, f2, -, -, -, z2⟩ := C49_spread (x := [0, 0, 1]) (by simp) ⟨1, by simp, one_pos⟩
    have n1 : s1 = 0 := by
      rw [Except.ok.inj (g1.symm.trans f1)]
      refine z1 0 fun i hi => ?_
      rcases i with _ | _ | _ | i <;> simp_all [at0]
    have n2 : s2 = 0 := by
      rw [Except.ok.inj (g2.symm.trans f2)]
      refine z2 2 fun i hi => ?_
      rcases i with _ | _ | _ | i <;> simp_all [at0]
    have hz : List.zipWith (fun a b : ℝ => a + b) [3, 0, 0] [0, 0, 1] = [3, 0, 1] := by norm_num
    rw [hz] at e g
    refine ⟨c, s, e, g, ?_, ?_⟩
    · rw [k1, k2] at hc
      norm_num at hc
      linarith
    · rw [k1, k2, n1, n2] at hs
      norm_num at hs
      linarith
  · have := (C164_axis (m := [3, 0, 1, 0, 1, 2]) (m2 := [3, 0, 1, 100, 150, 200]) (p := 0) (n := 3) (q := 3) (p2 := 0) (q2 := 3)
      (a := 50) (b := 100) (by simp) (by simp) (by simp) (by simp) (by simp [seg])
      (by simp [seg]) ⟨3, by simp [seg], by norm_num⟩).1 (by norm_num [seg])
    simpa using this

end Edsp.Props
