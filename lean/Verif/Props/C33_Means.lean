import Verif.Lemmas.Statistics
import Verif.Lemmas.Extremum
import Mathlib.Analysis.Convex.SpecificFunctions.Basic
import Mathlib.Analysis.SpecialFunctions.Pow.Real

/-!
# C33: the classical means; C35: peak to peak and peak to RMS
-/

namespace Edsp.C33
open Edsp.Stat Edsp.Spec Edsp.StatL

theorem accumulateM_ok (f : ℝ → Except Fault ℝ) (g : ℝ → ℝ) (init : ℝ) (l : List ℝ)
    (h : ∀ x ∈ l, f x = .ok (g x)) : accumulateM f init l = .ok (init + (l.map g).sum) := by
  induction l generalizing init with
  | nil => simp [accumulateM]
  | cons x xs ih =>
    rw [accumulateM, h x (by simp)]
    simp only [bind, Except.bind]
    rw [ih _ fun y hy => h y (by simp [hy])]
    simp [add_assoc]

theorem harmonic_ok {l : List ℝ} (hl : l ≠ []) (hp : ∀ x ∈ l, 0 < x) :
    harmonicMean l = .ok (1 / avgOf (fun x => 1 / x) l) := by
  have hs : 0 < avgOf (fun x => 1 / x) l := avgOf_pos hl fun x hx => one_div_pos.2 (hp x hx)
  rw [harmonicMean, accumulateM_ok _ (fun x => 1 / x) 0 l fun x hx => fdiv_ok (hp x hx).ne']
  simp only [bind, Except.bind, zero_add]
  have e : (l.map fun x => 1 / x).sum = (l.length : ℝ) * avgOf (fun x => 1 / x) l := by
    rw [avgOf, avg, List.length_map]
    field_simp [len_ne hl]
  rw [e, fdiv_ok (mul_ne_zero (len_ne hl) hs.ne')]
  congr 1
  have := len_ne hl
  field_simp

theorem geometric_ok {l : List ℝ} (hl : l ≠ []) (hp : ∀ x ∈ l, 0 < x) :
    geometricMean l = .ok (Real.exp (avgOf Real.log l)) := by
  rw [geometricMean, accumulateM_ok _ Real.log 0 l fun x hx => by simp [flog, not_le.2 (hp x hx)]]
  simp only [bind, Except.bind, zero_add, fdiv_ok (len_ne hl), pure, Except.pure]
  rw [avgOf, avg, List.length_map]

/-- The geometric mean is at most the arithmetic mean. -/
theorem gm_le_am {l : List ℝ} (hl : l ≠ []) (hp : ∀ x ∈ l, 0 < x) : Real.exp (avgOf Real.log l) ≤ avg l := by
  have ha : 0 < avg l := by rw [← avgOf_id]; exact avgOf_pos hl hp
  have h : avgOf Real.log l ≤ avgOf (fun x => (1 / avg l) * x + (Real.log (avg l) - 1)) l := by
    apply avgOf_mono
    intro x hx
    have h1 := Real.log_le_sub_one_of_pos (div_pos (hp x hx) ha)
    rw [Real.log_div (hp x hx).ne' ha.ne'] at h1
    have : 1 / avg l * x = x / avg l := by ring
    linarith
  rw [avgOf_add, avgOf_mul, avgOf_const hl, avgOf_id] at h
  have e : 1 / avg l * avg l = 1 := by field_simp
  rw [← Real.le_log_iff_exp_le ha]
  linarith

/-- The same for a positive function of the sample. -/
theorem gm_le_am_of {l : List ℝ} (hl : l ≠ []) (f : ℝ → ℝ) (hp : ∀ x ∈ l, 0 < f x) :
    Real.exp (avgOf (fun x => Real.log (f x)) l) ≤ avgOf f l := by
  have h := gm_le_am (l := l.map f) (by simpa using hl) (by simpa using hp)
  rwa [avgOf_map] at h

/-- Jensen's inequality for powers p ≥ 1. -/
theorem power_jensen {l : List ℝ} (hl : l ≠ []) (f : ℝ → ℝ) (hp : ∀ x ∈ l, 0 < f x) {p : ℝ} (h1 : 1 ≤ p) :
    (avgOf f l) ^ p ≤ avgOf (fun x => f x ^ p) l := by
  have ha : 0 < avgOf f l := avgOf_pos hl hp
  have h : avgOf (fun x => (p / avgOf f l) * f x + (1 - p)) l ≤
      avgOf (fun x => (avgOf f l ^ p)⁻¹ * f x ^ p) l := by
    apply avgOf_mono
    intro x hx
    have hb := one_add_mul_self_le_rpow_one_add (s := f x / avgOf f l - 1)
      (by linarith [div_pos (hp x hx) ha]) h1
    rw [show 1 + (f x / avgOf f l - 1) = f x / avgOf f l by ring,
      Real.div_rpow (hp x hx).le ha.le] at hb
    have e : (avgOf f l ^ p)⁻¹ * f x ^ p = f x ^ p / avgOf f l ^ p := by ring
    have e2 : p / avgOf f l * f x + (1 - p) = 1 + p * (f x / avgOf f l - 1) := by ring
    rw [e, e2]
    exact hb
  rw [avgOf_add, avgOf_mul, avgOf_const hl, avgOf_mul] at h
  have e : p / avgOf f l * avgOf f l + (1 - p) = 1 := by field_simp; ring
  rw [e] at h
  have hpos : 0 < avgOf f l ^ p := Real.rpow_pos_of_pos ha p
  rw [inv_mul_eq_div, le_div_iff₀ hpos, one_mul] at h
  exact h

/-- **C33 (what the means are).**  For a non-empty sequence of positive numbers: the harmonic mean h satisfies
h · Σ 1/x = n, the geometric mean is the positive g with gⁿ = Π x. -/
theorem C33_definitions (l : List ℝ) (hl : l ≠ []) (hp : ∀ x ∈ l, 0 < x) :
    (∃ h, harmonicMean l = .ok h ∧ 0 < h ∧ h * (l.map fun x => 1 / x).sum = l.length) ∧
    (∃ g, geometricMean l = .ok g ∧ 0 < g ∧ g ^ l.length = l.prod) := by
  constructor
  · have hs : 0 < avgOf (fun x => 1 / x) l := avgOf_pos hl fun x hx => one_div_pos.2 (hp x hx)
    refine ⟨_, harmonic_ok hl hp, one_div_pos.2 hs, ?_⟩
    have e : (l.map fun x => 1 / x).sum = (l.length : ℝ) * avgOf (fun x => 1 / x) l := by
      rw [avgOf, avg, List.length_map]
      field_simp [len_ne hl]
    rw [e]
    field_simp
  · refine ⟨_, geometric_ok hl hp, Real.exp_pos _, ?_⟩
    have e : (l.length : ℝ) * avgOf Real.log l = (l.map Real.log).sum := by
      rw [avgOf, avg, List.length_map]
      field_simp [len_ne hl]
    rw [← Real.exp_nat_mul, e]
    clear e hl
    induction l with
    | nil => simp
    | cons x xs ih =>
      rw [List.map_cons, List.sum_cons, Real.exp_add, List.prod_cons, Real.exp_log (hp x (by simp)),
        ih fun y hy => hp y (by simp [hy])]

/-- **C33 (order of the means).**  harmonic ≤ geometric ≤ arithmetic mean; all three lie between any bounds of
the sample and coincide with the common value of a constant sample. -/
theorem C33_ordered (l : List ℝ) (hl : l ≠ []) (hp : ∀ x ∈ l, 0 < x) :
    ∃ h g a, harmonicMean l = .ok h ∧ geometricMean l = .ok g ∧ mean l = .ok a ∧ h ≤ g ∧ g ≤ a ∧
      (∀ lo, (∀ x ∈ l, lo ≤ x) → lo ≤ h) ∧ (∀ hi, (∀ x ∈ l, x ≤ hi) → a ≤ hi) ∧
      (∀ c, (∀ x ∈ l, x = c) → h = c ∧ g = c ∧ a = c) := by
  have hs : 0 < avgOf (fun x => 1 / x) l := avgOf_pos hl fun x hx => one_div_pos.2 (hp x hx)
  have hga := gm_le_am hl hp
  have hhg : 1 / avgOf (fun x => 1 / x) l ≤ Real.exp (avgOf Real.log l) := by
    have h := gm_le_am_of hl (fun x => 1 / x) fun x hx => one_div_pos.2 (hp x hx)
    have e : avgOf (fun x => Real.log (1 / x)) l = -avgOf Real.log l := by
      rw [avgOf_congr (g := fun x => (-1) * Real.log x) fun x _ => by rw [one_div, Real.log_inv]; ring,
        avgOf_mul]
      ring
    rw [e, Real.exp_neg] at h
    rw [one_div]
    exact inv_le_of_inv_le₀ (Real.exp_pos _) h
  have hlo : ∀ lo, (∀ x ∈ l, lo ≤ x) → lo ≤ 1 / avgOf (fun x => 1 / x) l := by
    intro lo hlo
    by_cases h0 : lo ≤ 0
    · exact h0.trans (one_div_pos.2 hs).le
    · have h0 : 0 < lo := not_le.1 h0
      rw [le_div_iff₀ hs]
      have : avgOf (fun x => 1 / x) l ≤ avgOf (fun _ => 1 / lo) l :=
        avgOf_mono fun x hx => one_div_le_one_div_of_le h0 (hlo x hx)
      rw [avgOf_const hl] at this
      have h2 := mul_le_mul_of_nonneg_left this h0.le
      rwa [mul_one_div_cancel h0.ne'] at h2
  have hhi : ∀ hi, (∀ x ∈ l, x ≤ hi) → avg l ≤ hi := by
    intro hi h
    rw [← avgOf_id, ← avgOf_const hl hi]
    exact avgOf_mono h
  refine ⟨_, _, _, harmonic_ok hl hp, geometric_ok hl hp, mean_ok hl, hhg, hga, hlo, hhi, ?_⟩
  intro c hc
  have h1 := hlo c fun x hx => (hc x hx).ge
  have h2 := hhi c fun x hx => (hc x hx).le
  exact ⟨le_antisymm (hhg.trans (hga.trans h2)) h1, le_antisymm (hga.trans h2) (h1.trans hhg),
    le_antisymm h2 (h1.trans (hhg.trans hga))⟩

example : ([1, 2, 4] : List ℝ) ≠ [] ∧ ∀ x ∈ ([1, 2, 4] : List ℝ), 0 < x := by simp

theorem generalized_ok {l : List ℝ} (hl : l ≠ []) (hp : ∀ x ∈ l, 0 < x) {b : Int} (hb : b ≠ 0) :
    generalizedMean l b = .ok ((avgOf (fun x => x ^ (b : ℝ)) l) ^ (1 / (b : ℝ))) := by
  have hb' : (b : ℝ) ≠ 0 := by exact_mod_cast hb
  have hpos : 0 < avgOf (fun x => x ^ (b : ℝ)) l := avgOf_pos hl fun x hx => Real.rpow_pos_of_pos (hp x hx) _
  rw [generalizedMean, accumulateM_ok _ (fun x => x ^ (b : ℝ)) 0 l fun x hx => by
    simp [fpowi, (hp x hx).ne', Real.rpow_intCast]]
  simp only [bind, Except.bind, zero_add, fdiv_ok (len_ne hl), fdiv_ok hb']
  have e : (l.map fun x => x ^ (b : ℝ)).sum / (l.length : ℝ) = avgOf (fun x => x ^ (b : ℝ)) l := by
    rw [avgOf, avg, List.length_map]
  rw [e, fpow, if_neg (fun h => hpos.ne' h.1), if_neg (not_lt.2 hpos.le)]

/-- **C33 (generalised mean).**  For every exponent b ≠ 0 it is the positive g with g^b = mean of x^b; b = 1 gives
the mean, b = -1 the harmonic mean, and g grows with b; the exponent 0 divides by zero. -/
theorem C33_generalized (l : List ℝ) (hl : l ≠ []) (hp : ∀ x ∈ l, 0 < x) :
    (∀ b : Int, b ≠ 0 → ∃ g, generalizedMean l b = .ok g ∧ 0 < g ∧ g ^ b = avgOf (fun x => x ^ b) l) ∧
    generalizedMean l 1 = mean l ∧ generalizedMean l (-1) = harmonicMean l ∧
    (∀ b c : Int, b ≠ 0 → c ≠ 0 → b ≤ c → ∃ g h, generalizedMean l b = .ok g ∧ generalizedMean l c = .ok h ∧ g ≤ h) ∧
    generalizedMean l 0 = .error .divByZero := by
  have pos : ∀ t : ℝ, 0 < avgOf (fun x => x ^ t) l := fun t =>
    avgOf_pos hl fun x hx => Real.rpow_pos_of_pos (hp x hx) _
  refine ⟨?_, ?_, ?_, ?_, ?_⟩
  · intro b hb
    have hb' : (b : ℝ) ≠ 0 := by exact_mod_cast hb
    refine ⟨_, generalized_ok hl hp hb, Real.rpow_pos_of_pos (pos _) _, ?_⟩
    rw [← Real.rpow_intCast, ← Real.rpow_mul (pos _).le, one_div_mul_cancel hb', Real.rpow_one]
    simp only [Real.rpow_intCast]
  · rw [generalized_ok hl hp one_ne_zero, mean_ok hl]
    simp [avgOf]
  · rw [generalized_ok hl hp (by norm_num), harmonic_ok hl hp]
    congr 1
    have : avgOf (fun x => x ^ ((-1 : Int) : ℝ)) l = avgOf (fun x => 1 / x) l :=
      avgOf_congr fun x _ => by rw [Real.rpow_intCast]; simp
    rw [this]
    push_cast
    rw [show (1 : ℝ) / (-1) = ((-1 : Int) : ℝ) by norm_num, Real.rpow_intCast]
    simp
  · intro b c hb hc hbc
    have hb' : (b : ℝ) ≠ 0 := by exact_mod_cast hb
    have hc' : (c : ℝ) ≠ 0 := by exact_mod_cast hc
    have hbc' : (b : ℝ) ≤ c := by exact_mod_cast hbc
    refine ⟨_, _, generalized_ok hl hp hb, generalized_ok hl hp hc, ?_⟩
    set B := (b : ℝ) with hBdef
    set C := (c : ℝ) with hCdef
    -- Jensen for the ratio of two exponents of the same sign
    have jensen : ∀ s t : ℝ, s ≠ 0 → 1 ≤ t / s →
        (avgOf (fun x => x ^ s) l) ^ (t / s) ≤ avgOf (fun x => x ^ t) l := by
      intro s t hs h1
      have h := power_jensen hl (fun x => x ^ s) (fun x hx => Real.rpow_pos_of_pos (hp x hx) _) h1
      have e : avgOf (fun x => (x ^ s) ^ (t / s)) l = avgOf (fun x => x ^ t) l := avgOf_congr fun x hx => by
        rw [← Real.rpow_mul (hp x hx).le, mul_div_cancel₀ t hs]
      exact e ▸ h
    -- comparison with the geometric mean
    have gm : ∀ t : ℝ, Real.exp (avgOf Real.log l * t) ≤ avgOf (fun x => x ^ t) l := by
      intro t
      have h := gm_le_am_of hl (fun x => x ^ t) fun x hx => Real.rpow_pos_of_pos (hp x hx) _
      rwa [avgOf_congr (g := fun x => t * Real.log x) fun x hx => Real.log_rpow (hp x hx) t, avgOf_mul,
        mul_comm] at h
    rcases lt_or_gt_of_ne hb' with hB | hB
    · rcases lt_or_gt_of_ne hc' with hC | hC
      · -- both negative
        have h := jensen C B hc' (by rw [le_div_iff_of_neg hC, one_mul]; exact hbc')
        have h2 := Real.rpow_le_rpow_of_nonpos (Real.rpow_pos_of_pos (pos C) (B / C)) h
          (z := 1 / B) (by rw [one_div]; exact inv_nonpos.2 hB.le)
        rwa [← Real.rpow_mul (pos C).le, show B / C * (1 / B) = 1 / C by field_simp] at h2
      · -- opposite signs: through the geometric mean
        have h1 : (avgOf (fun x => x ^ B) l) ^ (1 / B) ≤ Real.exp (avgOf Real.log l) := by
          have h := Real.rpow_le_rpow_of_nonpos (Real.exp_pos _) (gm B) (z := 1 / B)
            (by rw [one_div]; exact inv_nonpos.2 hB.le)
          rwa [← Real.exp_mul, mul_assoc, mul_one_div_cancel hb', mul_one] at h
        have h2 : Real.exp (avgOf Real.log l) ≤ (avgOf (fun x => x ^ C) l) ^ (1 / C) := by
          have h := Real.rpow_le_rpow (Real.exp_pos _).le (gm C) (z := 1 / C)
            (by rw [one_div]; exact inv_nonneg.2 hC.le)
          rwa [← Real.exp_mul, mul_assoc, mul_one_div_cancel hc', mul_one] at h
        exact h1.trans h2
    · have hC : 0 < C := lt_of_lt_of_le hB hbc'
      have h := jensen B C hb' (by rw [le_div_iff₀ hB, one_mul]; exact hbc')
      have h2 := Real.rpow_le_rpow (Real.rpow_pos_of_pos (pos B) (C / B)).le h
        (z := 1 / C) (by rw [one_div]; exact inv_nonneg.2 hC.le)
      rwa [← Real.rpow_mul (pos B).le, show C / B * (1 / C) = 1 / B by field_simp] at h2
  · rw [generalizedMean, accumulateM_ok _ (fun _ => 1) 0 l fun x hx => by simp [fpowi]]
    simp only [bind, Except.bind, fdiv_ok (len_ne hl)]
    simp [fdiv]

/-- **C33 (outside the domain).**  A zero in the range makes the harmonic mean divide by zero, a non-positive
number puts the geometric mean outside the domain of the logarithm, and empty ranges divide by zero. -/
theorem C33_domain :
    (∀ a b : List ℝ, (∀ x ∈ a, 0 < x) → harmonicMean (a ++ 0 :: b) = .error .divByZero) ∧
    (∀ (a b : List ℝ) (y : ℝ), (∀ x ∈ a, 0 < x) → y ≤ 0 → geometricMean (a ++ y :: b) = .error .domain) ∧
    harmonicMean ([] : List ℝ) = .error .divByZero ∧ geometricMean [] = .error .divByZero := by
  have key : ∀ (f : ℝ → Except Fault ℝ) (g : ℝ → ℝ) (e : Fault) (a b : List ℝ) (y init : ℝ),
      (∀ x ∈ a, f x = .ok (g x)) → f y = .error e → accumulateM f init (a ++ y :: b) = .error e := by
    intro f g e a b y init ha hy
    induction a generalizing init with
    | nil => simp [accumulateM, hy, bind, Except.bind]
    | cons x xs ih =>
      rw [List.cons_append, accumulateM, ha x (by simp)]
      exact ih _ fun z hz => ha z (by simp [hz])
  refine ⟨?_, ?_, ?_, ?_⟩
  · intro a b ha
    rw [harmonicMean, key _ (fun x => 1 / x) .divByZero a b 0 0 (fun x hx => fdiv_ok (ha x hx).ne')
      (by simp [fdiv])]
    rfl
  · intro a b y ha hy
    rw [geometricMean, key _ Real.log .domain a b y 0 (fun x hx => by simp [flog, not_le.2 (ha x hx)])
      (by simp [flog, hy])]
    rfl
  · simp [harmonicMean, accumulateM, fdiv, bind, Except.bind]
  · simp [geometricMean, accumulateM, fdiv, bind, Except.bind]

/-! ### C35 -/

open Edsp.ExtremumL

/-- **C35 (peak2peak of non-negative ranges).**  It is the largest minus the smallest element.  Missing: ranges
with negative elements (`C35_peak2peak_violates`). -/
theorem C35_peak2peak_partial (l : List ℝ) (hl : l ≠ []) (hp : ∀ x ∈ l, 0 ≤ x) :
    ∃ lo ∈ l, ∃ hi ∈ l, (∀ x ∈ l, lo ≤ x ∧ x ≤ hi) ∧ peak2peak l = .ok (hi - lo) := by
  obtain ⟨lo, h1, h2, h3⟩ := min_ok hl
  obtain ⟨hi, g1, g2, g3⟩ := max_ok hl
  refine ⟨lo, h2, hi, g2, fun x hx => ⟨h3 x hx, g3 x hx⟩, ?_⟩
  simp [peak2peak, h1, g1, bind, Except.bind, pure, Except.pure, abs_of_nonneg (hp lo h2), abs_of_nonneg (hp hi g2)]

example : ([1, 3, 2] : List ℝ) ≠ [] ∧ ∀ x ∈ ([1, 3, 2] : List ℝ), 0 ≤ x := by simp

/-- **C35 (peak2peak violated).**  For every range of non-positive numbers the result has the wrong sign, and
for a range with a negative minimum and a positive maximum it is too small by twice the smaller of the two
absolute values. -/
theorem C35_peak2peak_violates (l : List ℝ) (hl : l ≠ []) :
    ∃ lo ∈ l, ∃ hi ∈ l, (∀ x ∈ l, lo ≤ x ∧ x ≤ hi) ∧
      (hi ≤ 0 → peak2peak l = .ok (-(hi - lo))) ∧
      (lo < 0 → 0 < hi → ∃ r, peak2peak l = .ok r ∧ r < hi - lo) := by
  obtain ⟨lo, h1, h2, h3⟩ := min_ok hl
  obtain ⟨hi, g1, g2, g3⟩ := max_ok hl
  have e : peak2peak l = .ok (|hi| - |lo|) := by
    simp [peak2peak, h1, g1, bind, Except.bind, pure, Except.pure]
  refine ⟨lo, h2, hi, g2, fun x hx => ⟨h3 x hx, g3 x hx⟩, fun h => ?_, fun h h' => ⟨_, e, ?_⟩⟩
  · rw [e, abs_of_nonpos h, abs_of_nonpos ((h3 hi g2).trans h)]
    congr 1; ring
  · rw [abs_of_pos h', abs_of_neg h]; linarith

example : peak2peak ([-1, 1] : List ℚ) = .ok 0 := by
  norm_num [peak2peak, Seq.min, Seq.max, Seq.minElement, Seq.maxElement, Seq.maxLoop, Seq.less, bind, Except.bind,
    pure, Except.pure]

/-- **C35 (peak2rms).**  For a non-empty range with largest absolute value M the result r satisfies
r² (1 + Σ x²) = n M²: the sum of squares is one too large. -/
theorem C35_peak2rms_partial (l : List ℝ) (hl : l ≠ []) :
    ∃ r, peak2rms l = .ok r ∧ 0 ≤ r ∧ ∃ y ∈ l, (∀ x ∈ l, |x| ≤ |y|) ∧
      r ^ 2 * (1 + (l.map fun x => x ^ 2).sum) = (l.length : ℝ) * |y| ^ 2 := by
  obtain ⟨lo, h1, h2, h3⟩ := min_ok hl
  obtain ⟨hi, g1, g2, g3⟩ := max_ok hl
  have hn : (0 : ℝ) < (l.length : ℝ) := len_pos hl
  have hs : 0 ≤ (l.map fun x => x ^ 2).sum := sum_map_nonneg fun _ _ => sq_nonneg _
  have hin : Seq.innerSelf 1 l = 1 + (l.map fun x => x ^ 2).sum := by
    have : Seq.innerSelf 1 l = accumulate (fun x => x * x) 1 l := rfl
    rw [this, accumulate_eq]
    simp only [pow_two]
  have hq : 0 < (1 + (l.map fun x => x ^ 2).sum) / (l.length : ℝ) := div_pos (by linarith) hn
  have hsq : Real.sqrt ((1 + (l.map fun x => x ^ 2).sum) / (l.length : ℝ)) ≠ 0 := Real.sqrt_ne_zero'.2 hq
  refine ⟨Max.max |lo| |hi| / Real.sqrt ((1 + (l.map fun x => x ^ 2).sum) / (l.length : ℝ)), ?_, by positivity, ?_⟩
  · simp only [peak2rms, h1, g1, Seq.rms, hin, hn.ne', if_false, bind, Except.bind]
    exact fdiv_ok hsq
  · have bound : ∀ x ∈ l, |x| ≤ Max.max |lo| |hi| := fun x hx => abs_le_max_abs_abs (h3 x hx) (g3 x hx)
    obtain ⟨y, hy, hye⟩ : ∃ y ∈ l, |y| = Max.max |lo| |hi| := by
      rcases max_choice |lo| |hi| with h | h
      · exact ⟨lo, h2, h.symm⟩
      · exact ⟨hi, g2, h.symm⟩
    refine ⟨y, hy, fun x hx => hye ▸ bound x hx, ?_⟩
    rw [hye, div_pow, Real.sq_sqrt hq.le]
    have : (1 + (l.map fun x => x ^ 2).sum) ≠ 0 := by positivity
    field_simp

example : ([1, -3] : List ℝ) ≠ [] := by simp

/-- **C35 (peak2rms violated).**  The ratio of the peak to the root mean square is at least 1, but every constant
range gives less than 1. -/
theorem C35_peak2rms_violates (l : List ℝ) (hl : l ≠ []) (c : ℝ) (hc : ∀ x ∈ l, x = c) :
    ∃ r, peak2rms l = .ok r ∧ r < 1 := by
  obtain ⟨r, h1, h2, y, hy, -, h4⟩ := C35_peak2rms_partial l hl
  refine ⟨r, h1, ?_⟩
  rw [List.map_congr_left (g := fun _ => c ^ 2) fun x hx => by rw [hc x hx], sum_map_const, hc y hy, sq_abs] at h4
  have hn : (0 : ℝ) < (l.length : ℝ) := len_pos hl
  by_contra hr
  have hr : 1 ≤ r := not_lt.1 hr
  have h5 : 0 ≤ (l.length : ℝ) * c ^ 2 := by positivity
  have h6 : 1 ≤ r ^ 2 := one_le_pow₀ hr
  have h7 := mul_le_mul_of_nonneg_right h6 (by linarith : 0 ≤ 1 + (l.length : ℝ) * c ^ 2)
  linarith

example : ∀ x ∈ ([2, 2] : List ℝ), x = 2 := by simp

end Edsp.C33
