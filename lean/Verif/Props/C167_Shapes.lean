import Verif.Props.C31_Moments
import Verif.Props.C33_Means
import Verif.Props.C132_Order
import Verif.Props.C161_Spread
import Mathlib.Tactic.Linarith
import Mathlib.Tactic.FieldSimp
import Mathlib.Tactic.NormNum

/-! # C167: what skewness, kurtosis and equal means say about the samples -/

namespace Edsp.Props

open Edsp Edsp.Spec Edsp.Stat Edsp.StatL

namespace C167

variable {l : List ℝ}

theorem positive (h : ∃ x ∈ l, ∃ y ∈ l, x ≠ y) : l ≠ [] ∧ 0 < centralMoment 2 l := by
  obtain ⟨x, hx, y, hy, hxy⟩ := h
  have hl : l ≠ [] := by rintro rfl; simp at hx
  exact ⟨hl, lt_of_le_of_ne (centralMoment_two_nonneg l) fun hz => hxy ((centralMoment_two_eq_zero hl).1 hz.symm x hx y hy)⟩

theorem quadratic_avg (hl : l ≠ []) (c v : ℝ) : avgOf (fun x => ((x - avg l) ^ 2 - c * (x - avg l) - v) ^ 2) l =
    centralMoment 4 l - 2 * c * centralMoment 3 l + (c ^ 2 - 2 * v) * centralMoment 2 l + v ^ 2 := by
  have e : avgOf (fun x => ((x - avg l) ^ 2 - c * (x - avg l) - v) ^ 2) l =
      avgOf (fun x => (x - avg l) ^ 4 + ((-(2 * c)) * (x - avg l) ^ 3 + ((c ^ 2 - 2 * v) * (x - avg l) ^ 2 +
        ((2 * c * v) * (x - avg l) ^ 1 + v ^ 2)))) l := avgOf_congr fun x _ => by ring
  rw [e, avgOf_add, avgOf_add, avgOf_add, avgOf_add, avgOf_mul, avgOf_mul, avgOf_mul, avgOf_const hl]
  change centralMoment 4 l + (-(2 * c) * centralMoment 3 l + ((c ^ 2 - 2 * v) * centralMoment 2 l +
    (2 * c * v * centralMoment 1 l + v ^ 2))) = _
  rw [centralMoment_one hl]
  ring

theorem quadratic_iff (hl : l ≠ []) (c v : ℝ) : avgOf (fun x => ((x - avg l) ^ 2 - c * (x - avg l) - v) ^ 2) l = 0 ↔
    ∀ x ∈ l, (x - avg l) ^ 2 - c * (x - avg l) - v = 0 := by
  constructor
  · intro h x hx
    exact sq_eq_zero_iff.mp (avgOf_eq_zero hl (fun _ _ => sq_nonneg _) h x hx)
  · intro h
    rw [avgOf_congr (g := fun _ => 0) fun x hx => by rw [h x hx]; norm_num, avgOf_const hl]

theorem exp_avg_log (hl : l ≠ []) (hp : ∀ x ∈ l, 0 < x) (h : Real.exp (avgOf Real.log l) = avg l) :
    ∀ x ∈ l, x = avg l := by
  have ha : 0 < avg l := by rw [← avgOf_id]; exact avgOf_pos hl hp
  have hlog : avgOf Real.log l = Real.log (avg l) := by rw [← h, Real.log_exp]
  have hz : avgOf (fun x => (1 / avg l) * x + ((-1) * Real.log x + (Real.log (avg l) - 1))) l = 0 := by
    rw [avgOf_add, avgOf_mul, avgOf_add, avgOf_mul, avgOf_const hl, avgOf_id, hlog, one_div_mul_cancel ha.ne']
    ring
  have e : ∀ x ∈ l, (1 / avg l) * x + ((-1) * Real.log x + (Real.log (avg l) - 1)) =
      (x / avg l - 1) - Real.log (x / avg l) := by
    intro x hx
    rw [Real.log_div (hp x hx).ne' ha.ne']
    ring
  have h0 := avgOf_eq_zero hl (fun x hx => by
    rw [e x hx]
    exact sub_nonneg.mpr (Real.log_le_sub_one_of_pos (div_pos (hp x hx) ha))) hz
  intro x hx
  have := h0 x hx
  rw [e x hx, sub_eq_zero] at this
  by_contra hne
  have hlt := Real.log_lt_sub_one_of_pos (div_pos (hp x hx) ha) fun h1 => hne ((div_eq_one_iff_eq ha.ne').mp h1)
  exact hlt.ne' this

end C167

open C167

/-- Kurtosis 1: all samples have the same distance from the mean.  Kurtosis and skewness at the limit k = s² + 1: there are no
more than two different samples. -/
theorem C167_two_levels {l : List ℝ} (h : ∃ x ∈ l, ∃ y ∈ l, x ≠ y) :
    ∃ k s m d, kurtosis l = .ok k ∧ skewness l = .ok s ∧ Stat.mean l = .ok m ∧ standardDeviation l = .ok d ∧
      (k = 1 ↔ ∀ x ∈ l, |x - m| = d) ∧ (k = s ^ 2 + 1 ↔ ∃ p q, ∀ x ∈ l, x = p ∨ x = q) := by
  obtain ⟨k, hk, hk2, -⟩ := Edsp.C31.C32_kurtosis l h
  obtain ⟨hl, hpos⟩ := positive h
  have hv := hpos.ne'
  refine ⟨k, _, _, _, hk, Edsp.C31.skewness_val hl hv, mean_ok hl, C161.dev_ok hl, ?_, ?_⟩
  · have e := quadratic_avg hl 0 (centralMoment 2 l)
    rw [← hk2] at e
    have e : avgOf (fun x => ((x - avg l) ^ 2 - 0 * (x - avg l) - centralMoment 2 l) ^ 2) l =
        (k - 1) * centralMoment 2 l ^ 2 := by rw [e]; ring
    have h1 : k = 1 ↔ avgOf (fun x => ((x - avg l) ^ 2 - 0 * (x - avg l) - centralMoment 2 l) ^ 2) l = 0 := by
      rw [e, mul_eq_zero, or_iff_left (pow_ne_zero 2 hv), sub_eq_zero]
    rw [h1, quadratic_iff hl]
    refine forall₂_congr fun x _ => ?_
    rw [zero_mul, sub_zero, sub_eq_zero]
    constructor
    · intro hx
      rw [← hx, Real.sqrt_sq_eq_abs]
    · intro hx
      rw [← sq_abs, hx, Real.sq_sqrt hpos.le]
  · set v := centralMoment 2 l with hvdef
    have hs2 : (centralMoment 3 l / (v * Real.sqrt v)) ^ 2 = (centralMoment 3 l / v) ^ 2 / v := by
      rw [div_pow, mul_pow v, Real.sq_sqrt hpos.le]
      field_simp
    have e := quadratic_avg hl (centralMoment 3 l / v) v
    rw [← hk2, ← hvdef] at e
    have h1 : k = (centralMoment 3 l / (v * Real.sqrt v)) ^ 2 + 1 ↔
        avgOf (fun x => ((x - avg l) ^ 2 - centralMoment 3 l / v * (x - avg l) - v) ^ 2) l = 0 := by
      have e' : avgOf (fun x => ((x - avg l) ^ 2 - centralMoment 3 l / v * (x - avg l) - v) ^ 2) l =
          (k - ((centralMoment 3 l / v) ^ 2 / v + 1)) * v ^ 2 := by
        rw [e]
        field_simp
        ring
      rw [e', hs2, mul_eq_zero, or_iff_left (pow_ne_zero 2 hv), sub_eq_zero]
    rw [h1]
    constructor
    · intro hz
      have hx := (quadratic_iff hl _ _).mp hz
      -- one sample and the other root
      obtain ⟨x0, hx0⟩ := List.exists_mem_of_ne_nil l hl
      refine ⟨x0, centralMoment 3 l / v - (x0 - avg l) + avg l, fun x hxl => ?_⟩
      have a := hx x hxl
      have b := hx x0 hx0
      have : (x - x0) * (x - (centralMoment 3 l / v - (x0 - avg l) + avg l)) = 0 := by linear_combination a - b
      rcases mul_eq_zero.mp this with h | h
      · exact Or.inl (sub_eq_zero.mp h)
      · exact Or.inr (sub_eq_zero.mp h)
    · rintro ⟨p, q, hpq⟩
      set P := p - avg l
      set Q := q - avg l
      have hroot : ∀ x ∈ l, (x - avg l) ^ 2 - (P + Q) * (x - avg l) - (-(P * Q)) = 0 := by
        intro x hx
        rcases hpq x hx with h | h <;> rw [h] <;> ring
      have h2 : v = -(P * Q) := by
        have : avgOf (fun x => (x - avg l) ^ 2) l = avgOf (fun x => (P + Q) * (x - avg l) ^ 1 + -(P * Q)) l :=
          avgOf_congr fun x hx => by linear_combination hroot x hx
        rw [avgOf_add, avgOf_mul, avgOf_const hl] at this
        change centralMoment 2 l = (P + Q) * centralMoment 1 l + -(P * Q) at this
        rw [centralMoment_one hl] at this
        rw [hvdef, this]
        ring
      have h3 : centralMoment 3 l = (P + Q) * v := by
        have : avgOf (fun x => (x - avg l) ^ 3) l =
            avgOf (fun x => (P + Q) * (x - avg l) ^ 2 + -(P * Q) * (x - avg l) ^ 1) l :=
          avgOf_congr fun x hx => by linear_combination (x - avg l) * hroot x hx
        rw [avgOf_add, avgOf_mul, avgOf_mul] at this
        change centralMoment 3 l = (P + Q) * centralMoment 2 l + -(P * Q) * centralMoment 1 l at this
        rw [this, centralMoment_one hl]
        ring
      rw [quadratic_iff hl, h3, mul_div_cancel_right₀ _ hv, h2]
      exact hroot

/-- For N samples the kurtosis is at most N-1 and the magnitude of the skewness at most √(N-1). -/
theorem C167_bounds {l : List ℝ} (h : ∃ x ∈ l, ∃ y ∈ l, x ≠ y) :
    ∃ k s, kurtosis l = .ok k ∧ skewness l = .ok s ∧ k ≤ l.length - 1 ∧ |s| ≤ Real.sqrt (l.length - 1) := by
  obtain ⟨k, hk, hk2, -⟩ := Edsp.C31.C32_kurtosis l h
  obtain ⟨k', s, hk', hs, hks⟩ := Edsp.C31.C32_pearson l h
  obtain rfl : k' = k := Except.ok.inj (hk'.symm.trans hk)
  obtain ⟨hl, hpos⟩ := positive h
  obtain ⟨m, d, hm, hd, hfar⟩ := C161_farthest_sample hl
  obtain rfl : avg l = m := Except.ok.inj ((mean_ok hl).symm.trans hm)
  obtain rfl : Real.sqrt (centralMoment 2 l) = d := Except.ok.inj ((C161.dev_ok hl).symm.trans hd)
  have hN : (1 : ℝ) ≤ l.length := by exact_mod_cast List.length_pos_iff.mpr hl
  have hkN : k' ≤ l.length - 1 := by
    have h4 : centralMoment 4 l ≤ (l.length - 1) * centralMoment 2 l * centralMoment 2 l := by
      have : avgOf (fun x => (x - avg l) ^ 4) l ≤
          avgOf (fun x => ((l.length - 1) * centralMoment 2 l) * (x - avg l) ^ 2) l := by
        apply avgOf_mono
        intro x hx
        have h1 := hfar x hx
        have h2 : (x - avg l) ^ 2 ≤ (l.length - 1) * centralMoment 2 l := by
          rw [← sq_abs]
          calc |x - avg l| ^ 2 ≤ (Real.sqrt (l.length - 1) * Real.sqrt (centralMoment 2 l)) ^ 2 :=
                pow_le_pow_left₀ (abs_nonneg _) h1 2
            _ = _ := by rw [mul_pow, Real.sq_sqrt (by linarith), Real.sq_sqrt hpos.le]
        calc (x - avg l) ^ 4 = (x - avg l) ^ 2 * (x - avg l) ^ 2 := by ring
          _ ≤ _ := mul_le_mul_of_nonneg_right h2 (sq_nonneg _)
      rw [avgOf_mul] at this
      exact this
    rw [← hk2] at h4
    have hv2 : 0 < centralMoment 2 l ^ 2 := by positivity
    by_contra hcon
    have := mul_lt_mul_of_pos_right (not_le.mp hcon) hv2
    nlinarith
  refine ⟨k', s, hk, hs, hkN, ?_⟩
  apply Real.abs_le_sqrt
  linarith

/-- Samples that lie symmetrically around some value have this value as mean and the skewness 0. -/
theorem C167_symmetric {l : List ℝ} (h : ∃ x ∈ l, ∃ y ∈ l, x ≠ y) {c : ℝ} (hs : (l.map fun x => 2 * c - x).Perm l) :
    Stat.mean l = .ok c ∧ skewness l = .ok 0 := by
  obtain ⟨hl, -⟩ := positive h
  have e : (l.map fun x => 2 * c - x) = l.map fun x => -1 * x + 2 * c := List.map_congr_left fun x _ => by ring
  obtain ⟨s, h1, -, -, h2⟩ := Edsp.C31.C32_skewness l h
  have h3 := h2 (-1) (2 * c) (by norm_num)
  obtain ⟨p1, -, -, -, -, p6, -⟩ := Edsp.C132.C132_statistics hs
  rw [e] at p1 p6
  rw [h3, h1] at p6
  have hz : -s = s := Except.ok.inj p6
  have hz : s = 0 := by linarith
  rw [mean_ok (by simpa using hl), mean_ok hl, avg_affine hl] at p1
  have p1 := Except.ok.inj p1
  exact ⟨by rw [mean_ok hl]; congr 1; linarith, by rw [h1, hz]⟩

/-- Two of harmonic, geometric and arithmetic mean of positive samples agree only if the samples are all the same. -/
theorem C167_means {l : List ℝ} (hl : l ≠ []) (hp : ∀ x ∈ l, 0 < x) :
    ∃ h g a, harmonicMean l = .ok h ∧ geometricMean l = .ok g ∧ Stat.mean l = .ok a ∧
      (g = a ↔ ∀ x ∈ l, ∀ y ∈ l, x = y) ∧ (h = g ↔ ∀ x ∈ l, ∀ y ∈ l, x = y) ∧ (h = a ↔ ∀ x ∈ l, ∀ y ∈ l, x = y) := by
  obtain ⟨h, g, a, eh, eg, ea, hhg, hga, -, -, hc⟩ := C33.C33_ordered l hl hp
  have heq : (∀ x ∈ l, ∀ y ∈ l, x = y) → h = g ∧ g = a := by
    intro hxy
    obtain ⟨x0, hx0⟩ := List.exists_mem_of_ne_nil l hl
    obtain ⟨h1, h2, h3⟩ := hc x0 fun x hx => hxy x hx x0 hx0
    rw [h1, h2, h3]
    exact ⟨rfl, rfl⟩
  have hg := Except.ok.inj (eg.symm.trans (C33.geometric_ok hl hp))
  have ha := Except.ok.inj (ea.symm.trans (mean_ok hl))
  have hh := Except.ok.inj (eh.symm.trans (C33.harmonic_ok hl hp))
  have k1 : g = a → ∀ x ∈ l, ∀ y ∈ l, x = y := by
    intro h1 x hx y hy
    rw [hg, ha] at h1
    rw [exp_avg_log hl hp h1 x hx, exp_avg_log hl hp h1 y hy]
  have k2 : h = g → ∀ x ∈ l, ∀ y ∈ l, x = y := by
    intro h1 x hx y hy
    rw [hh, hg] at h1
    have hq : ∀ u ∈ l.map fun x => 1 / x, 0 < u := by
      intro u hu
      obtain ⟨w, hw, rfl⟩ := List.mem_map.mp hu
      exact one_div_pos.mpr (hp w hw)
    have e1 : avgOf Real.log (l.map fun x => 1 / x) = -avgOf Real.log l := by
      rw [avgOf_map, avgOf_congr (g := fun x => (-1) * Real.log x) fun x _ => by rw [one_div, Real.log_inv]; ring, avgOf_mul]
      ring
    have key := exp_avg_log (l := l.map fun x => 1 / x) (by simpa using hl) hq (by
      rw [e1, Real.exp_neg, ← h1, one_div, inv_inv]
      rfl)
    have kx := key (1 / x) (List.mem_map.mpr ⟨x, hx, rfl⟩)
    have ky := key (1 / y) (List.mem_map.mpr ⟨y, hy, rfl⟩)
    have := kx.trans ky.symm
    rw [one_div, one_div] at this
    exact inv_injective this
  refine ⟨h, g, a, eh, eg, ea, ⟨k1, fun hx => (heq hx).2⟩, ⟨k2, fun hx => (heq hx).1⟩, fun h1 => k1 ?_, fun hx => ?_⟩
  · exact le_antisymm hga (h1 ▸ hhg)
  · exact (heq hx).1.trans (heq hx).2

/-- Samples of a square wave have kurtosis 1; -1, 0, 1 are symmetric and have neither kurtosis 1 nor two levels. -/
theorem C167_example :
    (∃ k, kurtosis [(3 : ℝ), 5] = .ok k ∧ k = 1) ∧ skewness [(-1 : ℝ), 0, 1] = .ok 0 ∧
    ∃ k s, kurtosis [(-1 : ℝ), 0, 1] = .ok k ∧ skewness [(-1 : ℝ), 0, 1] = .ok s ∧ k ≠ s ^ 2 + 1 ∧ k ≤ 2 := by
  refine ⟨?_, ?_, ?_⟩
  · obtain ⟨k, s, m, d, hk, -, hm, hd, h1, -⟩ := C167_two_levels (l := [3, 5]) ⟨3, by simp, 5, by simp, by norm_num⟩
    refine ⟨k, hk, h1.mpr ?_⟩
    have m4 : m = 4 := by
      rw [Except.ok.inj (hm.symm.trans (mean_ok (by simp)))]
      norm_num [avg]
    have d1 : d = 1 := by
      rw [Except.ok.inj (hd.symm.trans (C161.dev_ok (by simp)))]
      norm_num [centralMoment, avgOf, avg]
    rw [m4, d1]
    norm_num
  · refine (C167_symmetric (c := 0) ⟨-1, by simp, 0, by simp, by norm_num⟩ ?_).2
    have : ([-1, 0, 1] : List ℝ).map (fun x => 2 * 0 - x) = [-1, 0, 1].reverse := by norm_num
    rw [this]
    exact List.reverse_perm _
  · obtain ⟨k, s, m, d, hk, hs, -, -, -, h2⟩ := C167_two_levels (l := [-1, 0, 1]) ⟨-1, by simp, 0, by simp, by norm_num⟩
    obtain ⟨k', s', hk', -, hb, -⟩ := C167_bounds (l := [-1, 0, 1]) ⟨-1, by simp, 0, by simp, by norm_num⟩
    obtain rfl : k' = k := Except.ok.inj (hk'.symm.trans hk)
    refine ⟨k', s, hk, hs, fun h => ?_, by norm_num at hb; exact hb⟩
    obtain ⟨p, q, hpq⟩ := h2.mp h
    have a := hpq (-1) (by simp)
    have b := hpq 0 (by simp)
    have c := hpq 1 (by simp)
    rcases a with a | a <;> rcases b with b | b <;> rcases c with c | c <;> linarith

end Edsp.Props
