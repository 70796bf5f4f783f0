import Verif.Lemmas.Close
import Mathlib.Tactic.NormNum
import Mathlib.Tactic.FieldSimp

/-! # C161: what mean, deviation, extrema and levels say about the samples -/

namespace Edsp.Props

open Edsp Edsp.Spec Edsp.Stat Edsp.StatL

namespace C161

theorem dev_ok {l : List ℝ} (hl : l ≠ []) : standardDeviation l = .ok (Real.sqrt (centralMoment 2 l)) := by
  unfold standardDeviation variance
  rw [moment_ok hl]
  simp [fsqrt, bind, Except.bind, centralMoment_two_nonneg]

theorem var_ok {l : List ℝ} (hl : l ≠ []) : variance l = .ok (centralMoment 2 l) := by
  unfold variance
  rw [moment_ok hl]

/-- The sum of the squared deviations. -/
theorem sum_dev {l : List ℝ} (hl : l ≠ []) :
    (l.map fun x => (x - avg l) ^ 2).sum = l.length * centralMoment 2 l := by
  have := len_ne hl
  unfold centralMoment avgOf
  generalize avg l = m
  unfold avg
  rw [List.length_map, mul_div_cancel₀ _ this]

theorem count_le {f : ℝ → ℝ} {c : ℝ} (p : ℝ → Bool) (l : List ℝ) (hf : ∀ x ∈ l, 0 ≤ f x) (hc : ∀ x ∈ l, p x = true → c ≤ f x) :
    (l.countP p : ℝ) * c ≤ (l.map f).sum := by
  induction l with
  | nil => simp
  | cons a l ih =>
    have h1 := ih (fun x hx => hf x (by simp [hx])) (fun x hx => hc x (by simp [hx]))
    rw [List.countP_cons, List.map_cons, List.sum_cons]
    by_cases hp : p a = true
    · have := hc a (by simp) hp
      rw [if_pos hp]; push_cast; linarith
    · have := hf a (by simp)
      rw [if_neg hp]; push_cast; linarith

theorem sum_sq_le (l : List ℝ) : l.sum ^ 2 ≤ l.length * (l.map fun x => x ^ 2).sum := by
  induction l with
  | nil => simp
  | cons a l ih =>
    rw [List.sum_cons, List.map_cons, List.sum_cons, List.length_cons]
    push_cast
    set S := l.sum
    set Q := (l.map fun x => x ^ 2).sum
    rcases Nat.eq_zero_or_pos l.length with h | h
    · have hl : l = [] := List.length_eq_zero_iff.mp h
      have hS : S = 0 := by simp [S, hl]
      have hQ : Q = 0 := by simp [Q, hl]
      simp [hS, hQ, h]
    · have hn : (0 : ℝ) < l.length := by exact_mod_cast h
      set n : ℝ := (l.length : ℝ)
      have h2 : 2 * a * S ≤ n * a ^ 2 + Q := by
        have : 0 ≤ (n * a - S) ^ 2 := sq_nonneg _
        have h3 : n * (2 * a * S) ≤ n * (n * a ^ 2 + Q) := by nlinarith
        exact le_of_mul_le_mul_left h3 hn
      nlinarith

theorem power_eq {l : List ℝ} (hl : l ≠ []) : avgOf (fun x => x ^ 2) l = centralMoment 2 l + avg l ^ 2 := by
  have e : (fun x : ℝ => x ^ 2) = fun x => (x - avg l) ^ 2 + ((2 * avg l) * (x - avg l) + avg l ^ 2) := by
    funext x; ring
  have h1 : avgOf (fun x => x - avg l) l = 0 := by
    have := centralMoment_one hl
    unfold centralMoment at this
    simpa using this
  rw [e, avgOf_add, avgOf_add, avgOf_mul, avgOf_const hl, h1, mul_zero, zero_add]
  rfl

theorem power_ok {l : List ℝ} (hl : l ≠ []) : Seq.power l = .ok (avgOf (fun x => x ^ 2) l) := by
  unfold Seq.power Seq.energy
  rw [if_neg (len_ne hl), CloseL.sum_sq, zero_add]
  unfold avgOf avg
  rw [List.length_map]

end C161

open C161

/-- **C161, few samples far from the mean**: at most the fraction `1/k²` of the samples is `k` standard deviations or
more from the mean. -/
theorem C161_far_samples {l : List ℝ} (hl : l ≠ []) {k : ℝ} (hk : 0 < k) :
    ∃ m s, Stat.mean l = .ok m ∧ standardDeviation l = .ok s ∧
      (0 < s → (l.countP (fun x => decide (k * s ≤ |x - m|)) : ℝ) ≤ l.length / k ^ 2) := by
  refine ⟨_, _, mean_ok hl, dev_ok hl, fun hs => ?_⟩
  have hv := Real.sq_sqrt (centralMoment_two_nonneg l)
  set s := Real.sqrt (centralMoment 2 l)
  have h := count_le (f := fun x => (x - avg l) ^ 2) (c := (k * s) ^ 2) (fun x => decide (k * s ≤ |x - avg l|)) l
    (fun x _ => sq_nonneg _) (fun x _ hp => by
      rw [decide_eq_true_eq] at hp
      rw [← sq_abs (x - avg l)]
      exact pow_le_pow_left₀ (by positivity) hp 2)
  rw [sum_dev hl, ← hv, mul_pow, ← mul_assoc] at h
  rw [le_div_iff₀ (by positivity)]
  exact le_of_mul_le_mul_right h (by positivity)

/-- **C161, no sample very far**: no sample is farther than `√(N-1)` standard deviations from the mean. -/
theorem C161_farthest_sample {l : List ℝ} (hl : l ≠ []) :
    ∃ m s, Stat.mean l = .ok m ∧ standardDeviation l = .ok s ∧ ∀ x ∈ l, |x - m| ≤ Real.sqrt (l.length - 1) * s := by
  refine ⟨_, _, mean_ok hl, dev_ok hl, fun x hx => ?_⟩
  have hN : (1 : ℝ) ≤ l.length := by exact_mod_cast List.length_pos_iff.mpr hl
  rw [← Real.sqrt_mul (by linarith)]
  apply Real.abs_le_sqrt
  have hs := sum_dev hl
  have h0 : (l.map fun x => x - avg l).sum = 0 := by
    have := centralMoment_one hl
    unfold centralMoment avgOf at this
    generalize avg l = m at this ⊢
    unfold avg at this
    rw [List.length_map, div_eq_zero_iff] at this
    rcases this with h | h
    · simpa using h
    · exact absurd h (len_ne hl)
  generalize avg l = m at hs h0 ⊢
  obtain ⟨a, b, rfl⟩ := List.append_of_mem hx
  have hc := sum_sq_le ((a ++ b).map fun x => x - m)
  simp only [List.map_append, List.map_cons, List.sum_append, List.sum_cons, List.map_map, List.length_append,
    List.length_map, List.length_cons] at hs h0 hc ⊢
  have ec : ((fun x : ℝ => x ^ 2) ∘ fun x => x - m) = fun x => (x - m) ^ 2 := rfl
  rw [ec] at hc
  push_cast at hs hc hN ⊢
  set V := centralMoment 2 (a ++ x :: b)
  set A := (a.map fun x => (x - m) ^ 2).sum + (b.map fun x => (x - m) ^ 2).sum
  have h1 : ((a.map fun x => x - m).sum + (b.map fun x => x - m).sum) = -(x - m) := by linarith
  have h2 : A = ((a.length : ℝ) + (b.length + 1)) * V - (x - m) ^ 2 := by simp only [A]; linarith
  rw [h1, h2] at hc
  have h3 : ((a.length : ℝ) + (b.length + 1)) * (x - m) ^ 2 ≤
      ((a.length : ℝ) + (b.length + 1)) * (((a.length : ℝ) + (b.length + 1) - 1) * V) := by nlinarith
  exact le_of_mul_le_mul_left h3 (by linarith)

/-- **C161, spread and extrema**: the variance is at most the product of the distances of the mean from the extrema, and
so at most a quarter of the square of the range; the first with equality exactly for signals of two values. -/
theorem C161_spread_and_range {l : List ℝ} (hl : l ≠ []) :
    ∃ m v lo hi, Stat.mean l = .ok m ∧ variance l = .ok v ∧ Seq.min l = .ok lo ∧ Seq.max l = .ok hi ∧
      v ≤ (hi - m) * (m - lo) ∧ (hi - m) * (m - lo) ≤ (hi - lo) ^ 2 / 4 ∧
      (v = (hi - m) * (m - lo) ↔ ∀ x ∈ l, x = lo ∨ x = hi) := by
  obtain ⟨hi, e1, -, b1⟩ := ExtremumL.max_ok hl
  obtain ⟨lo, e2, -, b2⟩ := ExtremumL.min_ok hl
  refine ⟨_, _, lo, hi, mean_ok hl, var_ok hl, e2, e1, ?_⟩
  have hp : ∀ x ∈ l, 0 ≤ (hi - x) * (x - lo) := fun x hx =>
    mul_nonneg (sub_nonneg.mpr (b1 x hx)) (sub_nonneg.mpr (b2 x hx))
  have e : avgOf (fun x => (hi - x) * (x - lo)) l = (hi - avg l) * (avg l - lo) - centralMoment 2 l := by
    have e' : (fun x : ℝ => (hi - x) * (x - lo)) = fun x => (hi + lo) * x + ((-1) * x ^ 2 + -(hi * lo)) := by
      funext x; ring
    rw [e', avgOf_add, avgOf_add, avgOf_mul, avgOf_mul, avgOf_const hl, avgOf_id, power_eq hl]
    ring
  have h0 := avgOf_nonneg hp
  rw [e] at h0
  refine ⟨by linarith, by nlinarith [sq_nonneg (hi - avg l - (avg l - lo))], ?_, ?_⟩
  · intro h x hx
    have hz := avgOf_eq_zero hl hp (by rw [e]; linarith) x hx
    rcases mul_eq_zero.mp hz with h | h
    · exact Or.inr (by linarith)
    · exact Or.inl (by linarith)
  · intro h
    have hz : avgOf (fun x => (hi - x) * (x - lo)) l = avgOf (fun _ => 0) l :=
      avgOf_congr fun x hx => by rcases h x hx with rfl | rfl <;> ring
    rw [e, avgOf_const hl] at hz
    linarith

/-- **C161, power, mean and peak**: the power is the square of the mean plus the variance, and lies between the squares
of the smallest and the largest magnitude; the norm lies between the largest magnitude and `√N` times it. -/
theorem C161_levels {l : List ℝ} (hl : l ≠ []) :
    ∃ m v p lo hi n, Stat.mean l = .ok m ∧ variance l = .ok v ∧ Seq.power l = .ok p ∧ Seq.minabs l = .ok lo ∧
      Seq.maxabs l = .ok hi ∧ Stat.norm l = .ok n ∧
      p = m ^ 2 + v ∧ |m| ≤ Real.sqrt p ∧ lo ≤ Real.sqrt p ∧ Real.sqrt p ≤ hi ∧ hi ≤ n ∧ n ≤ Real.sqrt l.length * hi := by
  obtain ⟨hi, e1, ⟨a, ha, rfl⟩, b1⟩ := ExtremumL.maxabs_ok hl
  obtain ⟨lo, e2, ⟨b, hb, rfl⟩, b2⟩ := ExtremumL.minabs_ok hl
  have hn : Stat.norm l = .ok (Real.sqrt ((l.map fun x => x ^ 2).sum)) := by
    have e : accumulate (fun x => |x| * |x|) 0 l = (l.map fun x => x ^ 2).sum := by
      rw [accumulate_eq, zero_add]
      congr 1
      refine List.map_congr_left fun a _ => ?_
      rw [abs_mul_abs_self, sq]
    unfold Stat.norm fsqrt
    rw [e, if_neg (not_lt.mpr (sum_map_nonneg fun x _ => sq_nonneg x))]
  refine ⟨_, _, _, _, _, _, mean_ok hl, var_ok hl, power_ok hl, e2, e1, hn, ?_⟩
  have hv := centralMoment_two_nonneg l
  have hp := power_eq hl
  have hlen : (0 : ℝ) < l.length := len_pos hl
  have hS : (l.map fun x => x ^ 2).sum = l.length * avgOf (fun x => x ^ 2) l := by
    unfold avgOf avg
    rw [List.length_map]
    field_simp
  have hup : avgOf (fun x => x ^ 2) l ≤ |a| ^ 2 := by
    rw [← avgOf_const hl (|a| ^ 2)]
    refine avgOf_mono fun x hx => ?_
    rw [← sq_abs x]
    exact pow_le_pow_left₀ (abs_nonneg _) (b1 x hx) 2
  have hlow : |b| ^ 2 ≤ avgOf (fun x => x ^ 2) l := by
    rw [← avgOf_const hl (|b| ^ 2)]
    refine avgOf_mono fun x hx => ?_
    rw [← sq_abs x]
    exact pow_le_pow_left₀ (abs_nonneg _) (b2 x hx) 2
  refine ⟨by linarith, Real.abs_le_sqrt (by linarith), Real.le_sqrt_of_sq_le hlow, ?_, ?_, ?_⟩
  · rw [← Real.sqrt_sq (abs_nonneg a)]
    exact Real.sqrt_le_sqrt hup
  · apply Real.le_sqrt_of_sq_le
    rw [sq_abs]
    exact List.single_le_sum (by simpa using fun x _ => sq_nonneg x) _ (List.mem_map_of_mem (f := fun x => x ^ 2) ha)
  · rw [← Real.sqrt_sq (abs_nonneg a), ← Real.sqrt_mul hlen.le, hS]
    exact Real.sqrt_le_sqrt (mul_le_mul_of_nonneg_left hup hlen.le)

/-- **C161 is false of `rms`**: its square exceeds the power by `1/N` for every signal, so that for signals of constant
magnitude it exceeds the largest magnitude. -/
theorem C161_rms_violates {l : List ℝ} (hl : l ≠ []) {c : ℝ} (hc : ∀ x ∈ l, |x| = c) :
    ∃ r hi, Seq.rms l = .ok r ∧ Seq.maxabs l = .ok hi ∧ hi < r := by
  obtain ⟨hi, e1, ⟨a, ha, rfl⟩, -⟩ := ExtremumL.maxabs_ok hl
  have hlen : (0 : ℝ) < l.length := len_pos hl
  refine ⟨_, _, if_neg hlen.ne', e1, ?_⟩
  apply Real.lt_sqrt_of_sq_lt
  have hS : (l.map fun x => x ^ 2).sum = l.length * c ^ 2 := by
    rw [← sum_map_const (c ^ 2) l]
    congr 1
    refine List.map_congr_left fun x hx => ?_
    rw [← hc x hx, sq_abs]
  rw [CloseL.sum_sq, hS, hc a ha, lt_div_iff₀ hlen]
  linarith

/-- **C161 for `rms`, where it does hold**: the square of the result is the power plus `1/N`; it is at least the
magnitude of the mean, the standard deviation and the smallest magnitude.  Missing: at most the largest magnitude. -/
theorem C161_rms_partial {l : List ℝ} (hl : l ≠ []) :
    ∃ r p m s lo, Seq.rms l = .ok r ∧ Seq.power l = .ok p ∧ Stat.mean l = .ok m ∧ standardDeviation l = .ok s ∧
      Seq.minabs l = .ok lo ∧ r ^ 2 = p + 1 / l.length ∧ |m| < r ∧ s < r ∧ lo < r := by
  obtain ⟨m, v, p, lo, hi, n, h1, h2, h3, h4, h5, h6, h7, h8, h9, -⟩ := C161_levels hl
  have hlen : (0 : ℝ) < l.length := len_pos hl
  have e : Seq.innerSelf 1 l / l.length = p + 1 / l.length := by
    have hp := h3
    rw [power_ok hl] at hp
    obtain rfl := Except.ok.inj hp
    rw [CloseL.sum_sq, add_div, add_comm]
    unfold avgOf avg
    rw [List.length_map]
  have hv : 0 ≤ v := by
    rw [var_ok hl] at h2
    obtain rfl := Except.ok.inj h2
    exact centralMoment_two_nonneg l
  have hs : standardDeviation l = .ok (Real.sqrt v) := by
    rw [var_ok hl] at h2
    obtain rfl := Except.ok.inj h2
    exact dev_ok hl
  have hp0 : 0 ≤ p := by rw [h7]; positivity
  have hpos : 0 < 1 / (l.length : ℝ) := by positivity
  have hlt : Real.sqrt p < Real.sqrt (Seq.innerSelf 1 l / l.length) := by
    rw [e]; exact Real.sqrt_lt_sqrt hp0 (by linarith)
  refine ⟨_, p, m, _, lo, if_neg hlen.ne', h3, h1, hs, h4, ?_, lt_of_le_of_lt h8 hlt, ?_, lt_of_le_of_lt h9 hlt⟩
  · rw [Real.sq_sqrt (by rw [e]; linarith), e]
  · refine lt_of_le_of_lt (Real.sqrt_le_sqrt ?_) hlt
    rw [h7]; nlinarith [sq_nonneg m]

/-- The bounds are attained: one of four samples is `√3` standard deviations from the mean. -/
theorem C161_example : Stat.mean [(1 : ℝ), 1, 1, 5] = .ok 2 ∧ variance [(1 : ℝ), 1, 1, 5] = .ok 3 ∧ (5 - 2) ^ 2 = (4 - 1) * 3 := by
  refine ⟨?_, ?_, by norm_num⟩
  · rw [mean_ok (by simp)]; norm_num [avg]
  · rw [var_ok (by simp)]; norm_num [centralMoment, avgOf, avg]

end Edsp.Props
