import Verif.Props.C50_Rolloff
import Verif.Props.C34_Extrema
import Verif.Props.C36_Converters
import Mathlib.Analysis.SpecialFunctions.Pow.Real

/-!
# C51: temporal features
-/

namespace Edsp.Feature

open Finset Edsp.Mem Edsp.Spec Edsp.Stat Edsp.StatL

/-! ### Difference functions -/

theorem get_at0 {m : List ℝ} {a n : ℕ} (h : a + n ≤ m.length) {i : ℕ} (hi : i < n) :
    m[a + i]? = some (at0 (seg m a (a + n)) i) := by
  unfold at0
  rw [List.getD, seg_getElem?, if_pos (by omega), List.getElem?_eq_getElem (by omega)]
  rfl

theorem inner_ok (g : ℝ → ℝ) {N first i d : ℕ} (x : List ℝ) : ∀ (c j : ℕ) (m : List ℝ) (v : ℝ),
    j + c + i ≤ N → first + N ≤ m.length → seg m first (first + N) = x → m[d]? = some v →
    (d < first ∨ first + N ≤ d) →
    differenceInner g first i d c j m =
      .ok (m.set d (v + ∑ k ∈ range c, g (at0 x (j + k) - at0 x (j + k + i))))
  | 0, j, m, v, _, _, _, hv, _ => by
    simp only [differenceInner, range_zero, sum_empty, add_zero]
    congr 1
    apply List.ext_getElem?
    intro k
    rw [List.getElem?_set]
    split
    · rename_i h
      subst h
      rw [hv]
      have := (List.getElem?_eq_some_iff.mp hv).1
      simp [this]
    · rfl
  | c + 1, j, m, v, hb, hm, hx, hv, ho => by
    have hd : d < m.length := (List.getElem?_eq_some_iff.mp hv).1
    have r1 := read_ok (get_at0 hm (show j < N by omega))
    have r2 := read_ok (get_at0 hm (show j + i < N by omega))
    rw [hx] at r1 r2
    simp only [differenceInner, r1, r2, read_ok hv, write_ok hd, bind, Except.bind]
    rw [inner_ok g x c (j + 1) (m.set d (v + g (at0 x j - at0 x (j + i)))) _ (by omega) (by rw [List.length_set]; omega)
      (by rw [seg_set_of_out _ ho, hx]) (List.getElem?_set_self hd) ho, List.set_set, sum_range_succ']
    congr 2
    have e : ∀ k, j + 1 + k = j + (k + 1) := fun k => by omega
    simp only [e, Nat.add_zero]
    ring

theorem outer_ok (g : ℝ → ℝ) {N first : ℕ} (hN : 0 < N) (x : List ℝ) : ∀ (c i d : ℕ) (m : List ℝ),
    i + c ≤ N → first + N ≤ m.length → seg m first (first + N) = x → d + c ≤ m.length →
    (d + c ≤ first ∨ first + N ≤ d) →
    ∃ m', differenceOuter g N first c i d m = .ok m' ∧
      Wrote m m' d ((List.range c).map fun k =>
        (∑ j ∈ range (N - (i + k)), g (at0 x j - at0 x (j + (i + k)))) / N)
  | 0, i, d, m, _, _, _, hd, _ => ⟨m, rfl, wrote_nil m (by omega)⟩
  | c + 1, i, d, m, hi, hm, hx, hd, ho => by
    have hd' : d < m.length := by omega
    have hN' : (N : ℝ) ≠ 0 := Nat.cast_ne_zero.mpr (by omega)
    have hin := inner_ok g (N := N) (first := first) (i := i) (d := d) x (N - i) 0 (m.set d 0) 0 (by omega) (by rw [List.length_set]; omega)
      (by rw [seg_set_of_out _ (by omega), hx]) (List.getElem?_set_self hd') (by omega)
    rw [List.set_set] at hin
    simp only [zero_add] at hin
    obtain ⟨m', h1, w⟩ := outer_ok g hN x c (i + 1) (d + 1)
      (m.set d ((∑ j ∈ range (N - i), g (at0 x j - at0 x (j + i))) / N)) (by omega) (by rw [List.length_set]; omega)
      (by rw [seg_set_of_out _ (by omega), hx]) (by rw [List.length_set]; omega) (by omega)
    refine ⟨m', ?_, ?_⟩
    · have hl : d < (m.set d (∑ j ∈ range (N - i), g (at0 x j - at0 x (j + i)))).length := by
        rw [List.length_set]; exact hd'
      simp only [differenceOuter, write_ok hd', bind, Except.bind, hin, read_ok (List.getElem?_set_self hd'),
        fdiv_ok hN', write_ok hl, List.set_set]
      exact h1
    · rw [List.range_succ_eq_map, List.map_cons, List.map_map]
      refine wrote_cons hd' ?_
      have e : ((fun k => (∑ j ∈ range (N - (i + k)), g (at0 x j - at0 x (j + (i + k)))) / (N : ℝ)) ∘ Nat.succ) =
          fun k => (∑ j ∈ range (N - (i + 1 + k)), g (at0 x j - at0 x (j + (i + 1 + k)))) / N := by
        funext k
        simp only [Function.comp_apply]
        rw [show i + k.succ = i + 1 + k by omega]
      rw [e]
      exact w

/-- `amdf` into a disjoint range stores the average magnitude difference of every lag, and touches nothing else. -/
theorem C51_amdf {m : List ℝ} {first N d : ℕ} (hN : 0 < N) (hm : first + N ≤ m.length) (hd : d + N ≤ m.length)
    (ho : d + N ≤ first ∨ first + N ≤ d) :
    ∃ m', amdf m first (first + N) d = .ok m' ∧
      Wrote m m' d ((List.range N).map (magnitudeDifference (seg m first (first + N)))) := by
  obtain ⟨m', h1, w⟩ := outer_ok (fun x => |x|) hN _ N 0 d m (by omega) hm rfl hd ho
  refine ⟨m', ?_, ?_⟩
  · have r := read_ok (get_at0 hm hN)
    rw [Nat.add_zero] at r
    simp only [amdf, distance_ok (Nat.le_add_right first N), Nat.add_sub_cancel_left, bind, Except.bind, r]
    exact h1
  · have hl : (seg m first (first + N)).length = N := by rw [seg_length hm]; omega
    simp only [Nat.zero_add] at w
    have e : magnitudeDifference (seg m first (first + N)) = fun k =>
        (∑ j ∈ range (N - k), |at0 (seg m first (first + N)) j - at0 (seg m first (first + N)) (j + k)|) / N := by
      funext k
      unfold magnitudeDifference
      rw [hl]
    rw [e]
    exact w

/-- `asdf` into a disjoint range stores the average squared difference of every lag, and touches nothing else. -/
theorem C51_asdf {m : List ℝ} {first N d : ℕ} (hN : 0 < N) (hm : first + N ≤ m.length) (hd : d + N ≤ m.length)
    (ho : d + N ≤ first ∨ first + N ≤ d) :
    ∃ m', asdf m first (first + N) d = .ok m' ∧
      Wrote m m' d ((List.range N).map (squareDifference (seg m first (first + N)))) := by
  obtain ⟨m', h1, w⟩ := outer_ok (fun x => x * x) hN _ N 0 d m (by omega) hm rfl hd ho
  refine ⟨m', ?_, ?_⟩
  · have r := read_ok (get_at0 hm hN)
    rw [Nat.add_zero] at r
    simp only [asdf, distance_ok (Nat.le_add_right first N), Nat.add_sub_cancel_left, bind, Except.bind, r]
    exact h1
  · have hl : (seg m first (first + N)).length = N := by rw [seg_length hm]; omega
    simp only [Nat.zero_add] at w
    have e : squareDifference (seg m first (first + N)) = fun k =>
        (∑ j ∈ range (N - k), (at0 (seg m first (first + N)) j - at0 (seg m first (first + N)) (j + k)) *
          (at0 (seg m first (first + N)) j - at0 (seg m first (first + N)) (j + k))) / N := by
      funext k
      unfold squareDifference
      rw [hl]
      congr 1
      exact sum_congr rfl fun j _ => sq _
    rw [e]
    exact w

example : ∃ m', amdf [1, 3, 0, 9, 9, 9] 0 (0 + 3) 3 = .ok m' ∧
    Wrote [1, 3, 0, 9, 9, 9] m' 3 ((List.range 3).map (magnitudeDifference (seg [1, 3, 0, 9, 9, 9] 0 (0 + 3)))) :=
  C51_amdf (by omega) (by simp) (by simp) (by omega)

/-- Both difference functions vanish exactly at the periods of the signal (lag 0 among them) and are never
negative. -/
theorem C51_period {x : List ℝ} {k : ℕ} (hk : k < x.length) :
    0 ≤ magnitudeDifference x k ∧ 0 ≤ squareDifference x k ∧
    (magnitudeDifference x k = 0 ↔ ∀ j, j + k < x.length → at0 x (j + k) = at0 x j) ∧
    (squareDifference x k = 0 ↔ ∀ j, j + k < x.length → at0 x (j + k) = at0 x j) := by
  have hN : (0 : ℝ) < x.length := by exact_mod_cast (by omega : 0 < x.length)
  refine ⟨div_nonneg (sum_nonneg fun _ _ => abs_nonneg _) hN.le,
    div_nonneg (sum_nonneg fun _ _ => sq_nonneg _) hN.le, ?_, ?_⟩
  · unfold magnitudeDifference
    rw [div_eq_zero_iff, or_iff_left hN.ne', sum_eq_zero_iff_of_nonneg fun _ _ => abs_nonneg _]
    constructor
    · intro h j hj
      have := h j (mem_range.mpr (by omega))
      rw [abs_eq_zero] at this
      linarith
    · intro h j hj
      rw [h j (by have := mem_range.mp hj; omega), sub_self, abs_zero]
  · unfold squareDifference
    rw [div_eq_zero_iff, or_iff_left hN.ne', sum_eq_zero_iff_of_nonneg fun _ _ => sq_nonneg _]
    constructor
    · intro h j hj
      have := pow_eq_zero_iff (two_ne_zero) |>.mp (h j (mem_range.mpr (by omega)))
      linarith
    · intro h j hj
      rw [h j (by have := mem_range.mp hj; omega), sub_self]
      norm_num

/-- The empty range has no element to point to. -/
theorem C51_difference_empty : amdf [] 0 0 0 = .error .outOfBounds ∧ asdf [] 0 0 0 = .error .outOfBounds := by
  constructor <;> rfl

/-! ### Zero crossings -/

theorem azcrLoop_eq : ∀ (xs : List ℝ) (acc prev : ℝ), azcrLoop acc prev xs =
    acc + ∑ t ∈ range xs.length,
      if sign (at0 (prev :: xs) (t + 1)) ≠ sign (at0 (prev :: xs) t) then (1 : ℝ) else 0
  | [], acc, prev => by simp [azcrLoop]
  | x :: xs, acc, prev => by
    rw [azcrLoop, azcrLoop_eq xs, List.length_cons, sum_range_succ']
    simp only [at0_cons_succ, at0_cons_zero]
    ring

theorem azcr_ok {x : List ℝ} (h2 : 2 ≤ x.length) : azcr x = .ok ((∑ t ∈ range (x.length - 1),
    if sign (at0 x (t + 1)) ≠ sign (at0 x t) then (1 : ℝ) else 0) / ((x.length : ℝ) - 1)) := by
  have hne : ((x.length : ℝ) - 1) ≠ 0 := by
    have : (2 : ℝ) ≤ x.length := by exact_mod_cast h2
    linarith
  obtain ⟨v, xs, rfl⟩ := List.exists_cons_of_ne_nil (show x ≠ [] by rintro rfl; simp at h2)
  simp only [azcr]
  rw [azcrLoop_eq, zero_add]
  have e : ((((v :: xs).length : ℤ) - 1 : ℤ) : ℝ) = ((v :: xs).length : ℝ) - 1 := by push_cast; ring
  simp only [e]
  rw [fdiv_ok hne]
  rfl

/-- `azcr` is the share of adjacent samples of different sign (0 counted as positive), between 0 and 1; for a signal
without zeros it is the documented zero crossing rate. -/
theorem C51_azcr_partial {x : List ℝ} (h2 : 2 ≤ x.length) :
    ∃ z, azcr x = .ok z ∧ 0 ≤ z ∧ z ≤ 1 ∧
      z * (x.length - 1) = ((range (x.length - 1)).filter fun t => (at0 x (t + 1) < 0) ≠ (at0 x t < 0)).card ∧
      ((∀ v ∈ x, v ≠ 0) → z = crossingRate x) := by
  have h2' : (2 : ℝ) ≤ x.length := by exact_mod_cast h2
  have hN : (0 : ℝ) < (x.length : ℝ) - 1 := by linarith
  have hs : ∀ a b : ℝ, sign a ≠ sign b ↔ (a < 0) ≠ (b < 0) := by
    intro a b
    unfold sign
    by_cases ha : a < 0 <;> by_cases hb : b < 0 <;> simp [ha, hb] <;> norm_num
  have hc : (∑ t ∈ range (x.length - 1), if sign (at0 x (t + 1)) ≠ sign (at0 x t) then (1 : ℝ) else 0) =
      ((range (x.length - 1)).filter fun t => (at0 x (t + 1) < 0) ≠ (at0 x t < 0)).card := by
    rw [sum_ite, sum_const_zero, add_zero, sum_const, nsmul_eq_mul, mul_one]
    congr 2
    apply filter_congr
    intro t _
    rw [hs]
  refine ⟨_, azcr_ok h2, ?_, ?_, ?_, ?_⟩
  · rw [hc]; positivity
  · rw [hc, div_le_one hN]
    have := card_filter_le (range (x.length - 1)) fun t => (at0 x (t + 1) < 0) ≠ (at0 x t < 0)
    rw [card_range] at this
    have h : ((((range (x.length - 1)).filter fun t => (at0 x (t + 1) < 0) ≠ (at0 x t < 0)).card : ℕ) : ℝ) ≤
        ((x.length - 1 : ℕ) : ℝ) := by exact_mod_cast this
    rwa [Nat.cast_sub (by omega), Nat.cast_one] at h
  · rw [hc]; field_simp
  · intro hz
    unfold crossingRate
    congr 1
    refine sum_congr rfl fun t ht => ?_
    have ht := mem_range.mp ht
    have ha := hz _ (at0_mem (show t + 1 < x.length by omega))
    have hb := hz _ (at0_mem (show t < x.length by omega))
    congr 1
    rw [hs]
    apply propext
    rw [mul_neg_iff]
    rcases lt_or_gt_of_ne ha with ha | ha <;> rcases lt_or_gt_of_ne hb with hb | hb <;>
      simp [ha, hb, not_lt.mpr ha.le, not_lt.mpr hb.le]

example : ∃ z, azcr [1, -1, 1] = .ok z ∧ 0 ≤ z ∧ z ≤ 1 ∧ z * (([1, -1, 1] : List ℝ).length - 1) =
    ((range (([1, -1, 1] : List ℝ).length - 1)).filter fun t =>
      (at0 [1, -1, 1] (t + 1) < 0) ≠ (at0 [1, -1, 1] t < 0)).card ∧
    ((∀ v ∈ ([1, -1, 1] : List ℝ), v ≠ 0) → z = crossingRate [1, -1, 1]) := C51_azcr_partial (by simp)

/-- C51 is violated at zeros: the documented rate of 0, -1, 0 is 0, the code returns 1; and a single sample gives
0/0. -/
theorem C51_azcr_violates : azcr [0, -1, 0] = .ok 1 ∧ crossingRate [0, -1, 0] = 0 ∧
    azcr [1] = .error .divByZero := by
  refine ⟨?_, ?_, ?_⟩
  · norm_num [azcr, azcrLoop, sign, fdiv]
  · unfold crossingRate
    simp only [List.length_cons, List.length_nil, sum_range_succ, range_zero, sum_empty, at0_cons_zero, at0_cons_succ]
    norm_num [sum_range_succ, at0]
  · norm_num [azcr, azcrLoop, fdiv]

/-! ### Energy, power, rms, level, loudness -/

/-- `energy`, `power` and `rssq` are the sum of the squares, its mean and its root. -/
theorem C51_energy {x : List ℝ} (hl : x ≠ []) :
    Seq.energy x = ∑ i ∈ range x.length, at0 x i ^ 2 ∧
    (∃ p, Seq.power x = .ok p ∧ p * x.length = ∑ i ∈ range x.length, at0 x i ^ 2 ∧ 0 ≤ p) ∧
    0 ≤ Seq.rssq x ∧ Seq.rssq x ^ 2 = ∑ i ∈ range x.length, at0 x i ^ 2 := by
  have he : Seq.energy x = ∑ i ∈ range x.length, at0 x i ^ 2 := energy_eq x
  have h0 : 0 ≤ ∑ i ∈ range x.length, at0 x i ^ 2 := sum_nonneg fun _ _ => sq_nonneg _
  have hn := len_ne (K := ℝ) hl
  refine ⟨he, ⟨_, by unfold Seq.power; rw [if_neg hn, he], by field_simp, by positivity⟩, Real.sqrt_nonneg _, ?_⟩
  have : Seq.rssq x = Real.sqrt (Seq.energy x) := rfl
  rw [this, he, Real.sq_sqrt h0]

/-- C51 is violated by `rms` for every signal: the square of the result exceeds the mean square by 1/N. -/
theorem C51_rms_violates {x : List ℝ} (hl : x ≠ []) :
    ∃ r, Seq.rms x = .ok r ∧ r ^ 2 = (∑ i ∈ range x.length, at0 x i ^ 2) / x.length + 1 / x.length ∧
      r ^ 2 ≠ (∑ i ∈ range x.length, at0 x i ^ 2) / x.length := by
  have hn : (0 : ℝ) < x.length := len_pos hl
  have h0 : 0 ≤ ∑ i ∈ range x.length, at0 x i ^ 2 := sum_nonneg fun _ _ => sq_nonneg _
  have he : Seq.innerSelf 1 x = 1 + ∑ i ∈ range x.length, at0 x i ^ 2 := by
    have : Seq.innerSelf 1 x = accumulate (fun v => v * v) 1 x := rfl
    rw [this, accumulate_eq, sum_eq (fun v => v * v)]
    congr 1
    exact sum_congr rfl fun i _ => (sq _).symm
  have hsq : Real.sqrt (Seq.innerSelf 1 x / x.length) ^ 2 =
      (∑ i ∈ range x.length, at0 x i ^ 2) / x.length + 1 / x.length := by
    rw [he, Real.sq_sqrt (by positivity)]
    ring
  refine ⟨Real.sqrt (Seq.innerSelf 1 x / x.length), by unfold Seq.rms; simp only []; rw [if_neg hn.ne'], hsq, ?_⟩
  rw [hsq]
  have : 0 < 1 / (x.length : ℝ) := by positivity
  linarith

/-- `duration` is N over the sampling rate; `effective_duration` counts the samples above the threshold times the
largest magnitude, is at most the duration, falls when the threshold rises, and does not depend on the scale. -/
theorem C51_duration {x : List ℝ} (hl : x ≠ []) {fs : ℝ} (hfs : 0 < fs) {t : ℝ} :
    ∃ d e mx, duration x fs = .ok d ∧ d * fs = x.length ∧ effectiveDuration x fs t = .ok e ∧
      (∃ v ∈ x, mx = |v|) ∧ (∀ v ∈ x, |v| ≤ mx) ∧ e * fs = (x.filter fun v => |v| > t * mx).length ∧
      0 ≤ e ∧ e ≤ d ∧ (∀ t', t ≤ t' → ∃ e', effectiveDuration x fs t' = .ok e' ∧ e' ≤ e) ∧ (1 ≤ t → e = 0) ∧
      ∀ c, c ≠ 0 → effectiveDuration (x.map fun v => c * v) fs t = .ok e := by
  obtain ⟨mx, e1, ⟨w, hw, hwm⟩, e3⟩ := (Props.C34_maxabs_minabs hl).1
  have hmx : 0 ≤ mx := hwm ▸ abs_nonneg w
  have he : ∀ t, effectiveDuration x fs t = .ok ((x.countP fun v => |v| > t * mx : ℕ) / fs) := by
    intro t
    simp only [effectiveDuration, e1, bind, Except.bind]
    exact fdiv_ok hfs.ne'
  refine ⟨x.length / fs, _, mx, fdiv_ok hfs.ne', by field_simp, he t, ⟨w, hw, hwm⟩, e3, ?_, by positivity, ?_, ?_, ?_, ?_⟩
  · rw [List.countP_eq_length_filter]; field_simp
  · apply div_le_div_of_nonneg_right _ hfs.le
    exact_mod_cast List.countP_le_length
  · intro t' htt
    refine ⟨_, he t', div_le_div_of_nonneg_right ?_ hfs.le⟩
    have := List.countP_mono_left (l := x) (p := fun v => decide (|v| > t' * mx)) (q := fun v => decide (|v| > t * mx))
      (fun v _ hv => by
        simp only [gt_iff_lt, decide_eq_true_eq] at hv ⊢
        exact lt_of_le_of_lt (mul_le_mul_of_nonneg_right htt hmx) hv)
    exact_mod_cast this
  · intro ht
    have : (x.countP fun v => |v| > t * mx) = 0 := by
      rw [List.countP_eq_zero]
      intro v hv
      simp only [gt_iff_lt, decide_eq_true_eq, not_lt]
      nlinarith [e3 v hv]
    rw [this]
    simp
  · intro c hc
    obtain ⟨mx', f1, ⟨w', hw', hwm'⟩, f3⟩ := (Props.C34_maxabs_minabs (l := x.map fun v => c * v) (by simpa using hl)).1
    have hcp : 0 < |c| := abs_pos.mpr hc
    have hmm : mx' = |c| * mx := by
      apply le_antisymm
      · obtain ⟨u, hu, rfl⟩ := List.mem_map.mp hw'
        rw [hwm', abs_mul]
        exact mul_le_mul_of_nonneg_left (e3 u hu) hcp.le
      · rw [hwm, ← abs_mul]
        exact f3 _ (List.mem_map.mpr ⟨w, hw, rfl⟩)
    simp only [effectiveDuration, f1, bind, Except.bind]
    rw [fdiv_ok hfs.ne']
    congr 3
    rw [List.countP_map, hmm]
    apply List.countP_congr
    intro v _
    simp only [Function.comp_apply, gt_iff_lt, decide_eq_true_eq, abs_mul]
    rw [show t * (|c| * mx) = |c| * (t * mx) by ring]
    exact mul_lt_mul_iff_right₀ hcp

example : ∃ d e mx, duration [1, -2, 0] 8000 = .ok d ∧ d * 8000 = ([1, -2, 0] : List ℝ).length ∧
    effectiveDuration [1, -2, 0] 8000 (1 / 4) = .ok e ∧ (∃ v ∈ ([1, -2, 0] : List ℝ), mx = |v|) ∧
    (∀ v ∈ ([1, -2, 0] : List ℝ), |v| ≤ mx) := by
  obtain ⟨d, e, mx, h1, h2, h3, h4, h5, -⟩ := C51_duration (x := [1, -2, 0]) (by simp) (fs := 8000) (by norm_num)
    (t := 1 / 4)
  exact ⟨d, e, mx, h1, h2, h3, h4, h5⟩

theorem energy_scale (c : ℝ) (x : List ℝ) : Seq.energy (x.map fun v => c * v) = c ^ 2 * Seq.energy x := by
  rw [energy_eq, energy_eq, List.length_map]
  unfold energyUpTo
  rw [mul_sum]
  refine sum_congr rfl fun i hi => ?_
  rw [at0_map _ (mem_range.mp hi)]
  ring

/-- `leq` of a signal that is not silent is ten times the decimal logarithm of its mean square; scaling the signal by
`c` adds `20 log10 |c|`. -/
theorem C51_leq (dbg : Bool) {x : List ℝ} (h : ∃ v ∈ x, v ≠ 0) :
    ∃ l, leq dbg x = .ok l ∧ (10 : ℝ) ^ (l / 10) * x.length = ∑ i ∈ range x.length, at0 x i ^ 2 ∧
      ∀ c, c ≠ 0 → leq dbg (x.map fun v => c * v) = .ok (l + 20 * Real.logb 10 |c|) := by
  obtain ⟨v, hv, hne⟩ := h
  have hl : x ≠ [] := List.ne_nil_of_mem hv
  have hn : (0 : ℝ) < x.length := len_pos hl
  have he : 0 < Seq.energy x := by
    rw [energy_eq]
    obtain ⟨i, hi, hiv⟩ := mem_at0 hv
    have := single_le_sum (f := fun i => at0 x i ^ 2) (fun j _ => sq_nonneg _) (mem_range.mpr hi)
    rw [hiv] at this
    exact lt_of_lt_of_le (by positivity) this
  have hp : ∀ y : List ℝ, y.length = x.length → 0 < Seq.energy y →
      leq dbg y = .ok (10 * Real.logb 10 (Seq.energy y / x.length)) := by
    intro y hy hey
    have hpos : 0 < Seq.energy y / x.length := by positivity
    simp only [leq, Seq.power, hy, if_neg hn.ne', bind, Except.bind, Conv.pow2db, Conv.log10]
    rw [if_neg (by rintro ⟨_, h⟩; exact h hpos), if_neg (not_le.mpr hpos)]
    rfl
  refine ⟨_, hp x rfl he, ?_, ?_⟩
  · rw [mul_div_cancel_left₀ _ (by norm_num : (10 : ℝ) ≠ 0), Real.rpow_logb (by norm_num) (by norm_num) (by positivity)]
    have := energy_eq x
    unfold energyUpTo at this
    rw [← this]
    field_simp
  · intro c hc
    have hcp : 0 < |c| := abs_pos.mpr hc
    have hc2 : (0 : ℝ) < c ^ 2 := by positivity
    rw [hp _ (by simp) (by rw [energy_scale]; positivity), energy_scale, ← sq_abs c, mul_div_assoc,
      Real.logb_mul (by positivity) (by positivity), ← Real.rpow_natCast, Real.logb_rpow_eq_mul_logb_of_pos hcp]
    congr 1
    push_cast
    ring

/-- `loudness` is the energy to the power 0.67: 0 for silence, and scaling the signal by `c` multiplies it by
`|c|^1.34`. -/
theorem C51_loudness (x : List ℝ) :
    ∃ s, loudness x = .ok s ∧ s = (∑ i ∈ range x.length, at0 x i ^ 2) ^ (67 / 100 : ℝ) ∧
      ∀ c, loudness (x.map fun v => c * v) = .ok (|c| ^ (134 / 100 : ℝ) * s) := by
  have hok : ∀ y : List ℝ, loudness y = .ok (Seq.energy y ^ (67 / 100 : ℝ)) := by
    intro y
    have h0 : 0 ≤ Seq.energy y := by rw [energy_eq]; exact sum_nonneg fun _ _ => sq_nonneg _
    unfold loudness fpow
    rw [if_neg (by rintro ⟨_, h⟩; norm_num at h), if_neg (not_lt.mpr h0)]
  refine ⟨_, hok x, ?_, ?_⟩
  · rw [energy_eq]; rfl
  · intro c
    have h0 : 0 ≤ Seq.energy x := by rw [energy_eq]; exact sum_nonneg fun _ _ => sq_nonneg _
    rw [hok, energy_scale, ← sq_abs c, Real.mul_rpow (by positivity) h0, ← Real.rpow_natCast,
      ← Real.rpow_mul (abs_nonneg c)]
    norm_num

end Edsp.Feature
