import Verif.Lemmas.Float
import Verif.Spec.Gain
import Verif.Lemmas.RoundedMoving
import Verif.Model.RoundedMoments
import Verif.Model.RoundedCounts
import Verif.Model.RoundedBiquad
import Verif.Model.RoundedOscillators
import Verif.Model.RoundedEnvelopes
import Verif.Model.Verdicts

/-!
# Rounding commutes with powers of two
-/

namespace Edsp.GainL

open Edsp.FloatL Edsp.Rounded
open Edsp.Spec hiding mean

theorem rnd_two (p : ℕ) (j : ℤ) (x : ℝ) : rnd p (2 ^ j * x) = 2 ^ j * rnd p x := by
  by_cases hx : x = 0
  · rw [hx, mul_zero, rnd_zero, mul_zero]
  · obtain ⟨k, h1, h2, h3⟩ := rnd_spec (p := p) hx
    have hj := two_zpow_pos j
    have hk := two_zpow_pos k
    have ha : |(2 : ℝ) ^ j * x| = 2 ^ j * |x| := by rw [abs_mul, abs_of_pos hj]
    have e1 : (2 : ℝ) ^ (j + k + p - 1) = 2 ^ j * 2 ^ (k + p - 1) := by
      rw [← zpow_add₀ (by norm_num)]; congr 1; ring
    have e2 : (2 : ℝ) ^ (j + k + p) = 2 ^ j * 2 ^ (k + p) := by
      rw [← zpow_add₀ (by norm_num)]; congr 1; ring
    have e3 : (2 : ℝ) ^ (j + k) = 2 ^ j * 2 ^ k := zpow_add₀ (by norm_num) j k
    rw [rnd_of (p := p) (k := j + k) (by rw [ha, e1]; exact mul_le_mul_of_nonneg_left h1 hj.le)
      (by rw [ha, e2]; exact mul_lt_mul_of_pos_left h2 hj), h3, e3, mul_div_mul_left _ _ hj.ne']
    ring

variable {c d : ℝ}

theorem rnd_gain (p : ℕ) (hc : Gain c) (x : ℝ) : rnd p (c * x) = c * rnd p x := by
  obtain ⟨k, rfl | rfl⟩ := hc
  · exact rnd_two p k x
  · rw [neg_mul, rnd_neg, rnd_two, neg_mul]

theorem ne_zero (hc : Gain c) : c ≠ 0 := by
  obtain ⟨k, rfl | rfl⟩ := hc
  · exact (two_zpow_pos k).ne'
  · exact neg_ne_zero.mpr (two_zpow_pos k).ne'

theorem one : Gain 1 := ⟨0, Or.inl (by simp)⟩

theorem neg_one : Gain (-1) := ⟨0, Or.inr (by simp)⟩

theorem mul (hc : Gain c) (hd : Gain d) : Gain (c * d) := by
  obtain ⟨k, hk⟩ := hc
  obtain ⟨l, hl⟩ := hd
  have e : (2 : ℝ) ^ (k + l) = 2 ^ k * 2 ^ l := zpow_add₀ (by norm_num) k l
  refine ⟨k + l, ?_⟩
  rw [e]
  rcases hk with rfl | rfl <;> rcases hl with rfl | rfl
  · exact Or.inl rfl
  · exact Or.inr (by ring)
  · exact Or.inr (by ring)
  · exact Or.inl (by ring)

theorem inv (hc : Gain c) : Gain c⁻¹ := by
  obtain ⟨k, hk⟩ := hc
  refine ⟨-k, ?_⟩
  rw [zpow_neg]
  rcases hk with rfl | rfl
  · exact Or.inl rfl
  · exact Or.inr (by rw [inv_neg])

theorem abs (hc : Gain c) : Gain |c| := by
  obtain ⟨k, rfl | rfl⟩ := hc
  · exact ⟨k, Or.inl (abs_of_pos (two_zpow_pos k))⟩
  · exact ⟨k, Or.inl (by rw [abs_neg, abs_of_pos (two_zpow_pos k)])⟩

theorem pow (hc : Gain c) : ∀ n : ℕ, Gain (c ^ n)
  | 0 => by rw [pow_zero]; exact one
  | n + 1 => by rw [pow_succ]; exact mul (pow hc n) hc

theorem rnd_div (p : ℕ) (hc : Gain c) (x y : ℝ) : rnd p (c * x / y) = c * rnd p (x / y) := by
  rw [mul_div_assoc, rnd_gain p hc]

theorem rnd_add (p : ℕ) (hc : Gain c) (x y : ℝ) : rnd p (c * x + c * y) = c * rnd p (x + y) := by
  rw [← mul_add, rnd_gain p hc]

theorem rnd_sub (p : ℕ) (hc : Gain c) (x y : ℝ) : rnd p (c * x - c * y) = c * rnd p (x - y) := by
  rw [← mul_sub, rnd_gain p hc]

theorem rnd_mul (p : ℕ) (hc : Gain c) (hd : Gain d) (x y : ℝ) : rnd p (c * x * (d * y)) = c * d * rnd p (x * y) := by
  rw [show c * x * (d * y) = c * d * (x * y) by ring, rnd_gain p (mul hc hd)]

theorem quotient_gain (p : ℕ) (hc : Gain c) (a b : ℝ) : quotient p (c * a) b = (quotient p a b).map (c * ·) := by
  unfold quotient
  by_cases hb : b = 0
  · rw [if_pos hb, if_pos hb]; rfl
  · rw [if_neg hb, if_neg hb, rnd_div p hc]; rfl

theorem quotient_both (p : ℕ) (hc : c ≠ 0) (a b : ℝ) : quotient p (c * a) (c * b) = quotient p a b := by
  unfold quotient
  by_cases hb : b = 0
  · rw [if_pos hb, if_pos (by rw [hb, mul_zero])]
  · rw [if_neg hb, if_neg (mul_ne_zero hc hb), mul_div_mul_left _ _ hc]

theorem quotient_under (p : ℕ) (hc : Gain c) (a b : ℝ) : quotient p a (c * b) = (quotient p a b).map (c⁻¹ * ·) := by
  have h := ne_zero hc
  unfold quotient
  by_cases hb : b = 0
  · rw [if_pos hb, if_pos (by rw [hb, mul_zero])]; rfl
  · rw [if_neg hb, if_neg (mul_ne_zero h hb), show a / (c * b) = c⁻¹ * a / b by field_simp, rnd_div p (inv hc)]; rfl

/-- Two loops in step. -/
theorem foldl_gain {α β : Type} {f : ℝ → α → ℝ} {g : ℝ → β → ℝ} (m : α → β) (h : ∀ s x, g (d * s) (m x) = d * f s x) :
    ∀ (xs : List α) (s : ℝ), (xs.map m).foldl g (d * s) = d * xs.foldl f s
  | [], s => rfl
  | x :: xs, s => by
    rw [List.map_cons, List.foldl_cons, List.foldl_cons, h]
    exact foldl_gain m h xs _

theorem foldl_zero {α β : Type} {f : ℝ → α → ℝ} {g : ℝ → β → ℝ} (d : ℝ) (m : α → β)
    (h : ∀ s x, g (d * s) (m x) = d * f s x) (xs : List α) : (xs.map m).foldl g 0 = d * xs.foldl f 0 := by
  rw [← foldl_gain m h xs 0, mul_zero]

theorem louder_length (c : ℝ) (xs : List ℝ) : (louder c xs).length = xs.length := List.length_map _

theorem accumulate_gain (p : ℕ) (hc : Gain c) (xs : List ℝ) :
    accumulate p 0 (louder c xs) = c * accumulate p 0 xs :=
  foldl_zero c _ (fun s x => rnd_add p hc s x) xs

theorem energy_gain (p : ℕ) (hc : Gain c) (xs : List ℝ) : energy p (louder c xs) = c * c * energy p xs :=
  foldl_zero (c * c) _ (fun s x => by rw [rnd_mul p hc hc, rnd_add p (mul hc hc)]) xs

theorem mean_gain (p : ℕ) (hc : Gain c) (xs : List ℝ) : mean p (louder c xs) = (mean p xs).map (c * ·) := by
  unfold mean
  rw [accumulate_gain p hc, louder_length, quotient_gain p hc]

theorem power_gain (p : ℕ) (hc : Gain c) (xs : List ℝ) : power p (louder c xs) = (power p xs).map (c * c * ·) := by
  unfold power
  rw [energy_gain p hc, louder_length, quotient_gain p (mul hc hc)]

theorem squares_gain (p : ℕ) (hc : Gain c) (m : ℝ) (xs : List ℝ) :
    squares p (c * m) (louder c xs) = c * c * squares p m xs :=
  foldl_zero (c * c) _ (fun s x => by rw [rnd_sub p hc, rnd_mul p hc hc, rnd_add p (mul hc hc)]) xs

theorem variance_gain (p : ℕ) (hc : Gain c) (xs : List ℝ) :
    variance p (louder c xs) = (variance p xs).map (c * c * ·) := by
  unfold variance
  rw [mean_gain p hc]
  cases mean p xs with
  | none => rfl
  | some m =>
    simp only [Option.map_some, Option.bind_some, squares_gain p hc, louder_length, quotient_gain p (mul hc hc)]

theorem rnd_sqrt (p : ℕ) (hc : Gain c) (x : ℝ) : rnd p (Real.sqrt (c * c * x)) = |c| * rnd p (Real.sqrt x) := by
  rw [Real.sqrt_mul (mul_self_nonneg c), Real.sqrt_mul_self_eq_abs, rnd_gain p (abs hc)]

theorem norm_gain (p : ℕ) (hc : Gain c) (xs : List ℝ) : Rounded.norm p (louder c xs) = |c| * Rounded.norm p xs := by
  unfold Rounded.norm
  rw [← rnd_sqrt p hc]
  congr 2
  refine foldl_zero (c * c) _ (fun s x => ?_) xs
  rw [abs_mul, rnd_mul p (abs hc) (abs hc), abs_mul_abs_self, rnd_add p (mul hc hc)]

theorem nthPower_gain (p : ℕ) (hc : Gain c) (x : ℝ) : ∀ k, nthPower p (c * x) k = c ^ (k + 1) * nthPower p x k
  | 0 => by simp [nthPower]
  | k + 1 => by
    rw [nthPower, nthPower, nthPower_gain p hc x k, rnd_mul p (pow hc (k + 1)) hc, ← pow_succ]

theorem moment_gain (p : ℕ) (hc : Gain c) (N : ℕ) (hN : 1 ≤ N) (xs : List ℝ) (m : ℝ) :
    moment p N (louder c xs) (c * m) = (moment p N xs m).map (c ^ N * ·) := by
  unfold moment
  rw [louder_length, ← quotient_gain p (pow hc N)]
  congr 1
  refine foldl_zero (c ^ N) _ (fun s x => ?_) xs
  rw [rnd_sub p hc, nthPower_gain p hc, Nat.sub_add_cancel hN, rnd_add p (pow hc N)]

theorem root_gain (p : ℕ) (hc : Gain c) (x : ℝ) : root p (c * c * x) = (root p x).map (|c| * ·) := by
  unfold root
  have h : 0 < c * c := mul_self_pos.mpr (ne_zero hc)
  by_cases hx : x < 0
  · rw [if_pos hx, if_pos (mul_neg_of_pos_of_neg h hx)]; rfl
  · rw [if_neg hx, if_neg (not_lt.mpr (mul_nonneg h.le (not_lt.mp hx))), rnd_sqrt p hc]; rfl

theorem maxabs_gain (c : ℝ) (xs : List ℝ) : ∀ a : ℝ,
    (louder c xs).foldl (fun a x => if a < |x| then |x| else a) (|c| * a) =
      |c| * xs.foldl (fun a x => if a < |x| then |x| else a) a := by
  by_cases h0 : c = 0
  · subst h0
    intro a
    rw [abs_zero, zero_mul, zero_mul]
    unfold louder
    induction xs with
    | nil => rfl
    | cons x xs ih => simpa using ih
  · refine foldl_gain _ (fun s x => ?_) xs
    have hc := abs_pos.mpr h0
    rw [abs_mul]
    by_cases h : s < |x|
    · rw [if_pos h, if_pos (mul_lt_mul_of_pos_left h hc)]
    · rw [if_neg h, if_neg (not_lt.mpr (mul_le_mul_of_nonneg_left (not_lt.mp h) hc.le))]

theorem maxabs_zero (c : ℝ) (xs : List ℝ) :
    (louder c xs).foldl (fun a x => if a < |x| then |x| else a) 0 =
      |c| * xs.foldl (fun a x => if a < |x| then |x| else a) 0 := by
  rw [← maxabs_gain, mul_zero]

/-! ### Features -/

theorem inverses_gain (p : ℕ) (hc : Gain c) : ∀ (xs : List ℝ) (s : Option ℝ),
    inverses p (s.map (c⁻¹ * ·)) (louder c xs) = (inverses p s xs).map (c⁻¹ * ·)
  | [], s => rfl
  | x :: xs, s => by
    have h : ((s.map (c⁻¹ * ·)).bind fun a => (quotient p 1 (c * x)).map fun y => rnd p (a + y)) =
        (s.bind fun a => (quotient p 1 x).map fun y => rnd p (a + y)).map (c⁻¹ * ·) := by
      rw [quotient_under p hc]
      cases s with
      | none => rfl
      | some a =>
        cases quotient p 1 x with
        | none => rfl
        | some y =>
          simp only [Option.map_some, Option.bind_some]
          rw [rnd_add p (inv hc)]
    show inverses p _ (louder c xs) = _
    rw [h]
    exact inverses_gain p hc xs _

theorem harmonic_gain (p : ℕ) (hc : Gain c) (xs : List ℝ) :
    harmonicMean p (louder c xs) = (harmonicMean p xs).map (c * ·) := by
  have h := inverses_gain p hc xs (some 0)
  rw [Option.map_some, mul_zero] at h
  unfold harmonicMean
  rw [h, louder_length]
  cases inverses p (some 0) xs with
  | none => simp
  | some a =>
    simp only [Option.map_some]
    rw [quotient_under p (inv hc), inv_inv]

theorem polarity_abs (h : c ≠ 0) : c = polarity c * |c| := by
  unfold polarity
  by_cases hc : 0 < c
  · rw [if_pos hc, abs_of_pos hc, one_mul]
  · rw [if_neg hc, abs_of_neg (lt_of_le_of_ne (not_lt.mp hc) h)]; ring

theorem gain_polarity (c : ℝ) : Gain (polarity c) := by
  unfold polarity
  split
  · exact one
  · exact neg_one

theorem quotient_polarity (p : ℕ) (hc : Gain c) (a b : ℝ) :
    quotient p (c * a) (|c| * b) = (quotient p a b).map (polarity c * ·) := by
  have h := ne_zero hc
  conv_lhs => rw [polarity_abs h, show polarity c * |c| * a = |c| * (polarity c * a) by ring]
  rw [abs_mul, abs_abs, show |polarity c| = 1 by unfold polarity; split <;> simp, one_mul,
    quotient_both p (abs_ne_zero.mpr h), quotient_gain p (gain_polarity c)]

theorem skewness_gain (p : ℕ) (hc : Gain c) (xs : List ℝ) :
    skewness p (louder c xs) = (skewness p xs).map (polarity c * ·) := by
  unfold skewness
  rw [mean_gain p hc]
  cases mean p xs with
  | none => rfl
  | some m =>
    simp only [Option.map_some, Option.bind_some]
    rw [moment_gain p hc 3 (by norm_num), moment_gain p hc 2 (by norm_num)]
    cases moment p 3 xs m with
    | none => rfl
    | some a =>
      cases moment p 2 xs m with
      | none => rfl
      | some b =>
        simp only [Option.map_some, Option.bind_some]
        rw [pow_two, root_gain p hc]
        cases root p b with
        | none => rfl
        | some r =>
          simp only [Option.map_some, Option.bind_some]
          rw [rnd_mul p (mul hc hc) (abs hc), show c ^ 3 * a = c * (c * c * a) by ring,
            show c * c * |c| * rnd p (b * r) = |c| * (c * c * rnd p (b * r)) by ring, quotient_polarity p hc,
            quotient_both p (ne_zero (mul hc hc))]

theorem kurtosis_gain (p : ℕ) (hc : Gain c) (xs : List ℝ) : kurtosis p (louder c xs) = kurtosis p xs := by
  unfold kurtosis
  rw [mean_gain p hc]
  cases mean p xs with
  | none => rfl
  | some m =>
    simp only [Option.map_some, Option.bind_some]
    rw [moment_gain p hc 4 (by norm_num), moment_gain p hc 2 (by norm_num)]
    cases moment p 4 xs m with
    | none => rfl
    | some a =>
      cases moment p 2 xs m with
      | none => rfl
      | some b =>
        simp only [Option.map_some, Option.bind_some]
        rw [rnd_mul p (pow hc 2) (pow hc 2), show c ^ 2 * c ^ 2 = c ^ 4 by ring, quotient_both p (ne_zero (pow hc 4))]

theorem crest_gain (p : ℕ) (hc : Gain c) (xs : List ℝ) : crest p (louder c xs) = crest p xs := by
  have e : (louder c xs).map (fun x => |x|) = louder |c| (xs.map fun x => |x|) := by
    unfold louder
    rw [List.map_map, List.map_map]
    exact List.map_congr_left fun x _ => abs_mul c x
  unfold crest Rounded.maxabs
  rw [maxabs_zero]
  show quotient p _ (accumulate p 0 ((louder c xs).map fun x => |x|)) = _
  rw [e, accumulate_gain p (abs hc), quotient_both p (abs_ne_zero.mpr (ne_zero hc))]

theorem centroidLoop_gain (p : ℕ) (hc : Gain c) : ∀ (xs : List ℝ) (i a b : ℝ),
    centroidLoop p i (c * a, c * b) (louder c xs) =
      (c * (centroidLoop p i (a, b) xs).1, c * (centroidLoop p i (a, b) xs).2)
  | [], i, a, b => rfl
  | x :: xs, i, a, b => by
    show centroidLoop p _ (rnd p (c * a + rnd p (i * (c * x))), rnd p (c * b + c * x)) (louder c xs) = _
    rw [show i * (c * x) = c * (i * x) by ring, rnd_gain p hc, rnd_add p hc, rnd_add p hc]
    exact centroidLoop_gain p hc xs _ _ _

theorem centroid_gain (p : ℕ) (hc : Gain c) (xs : List ℝ) : centroid p (louder c xs) = centroid p xs := by
  have h := centroidLoop_gain p hc xs 0 0 0
  rw [mul_zero] at h
  unfold centroid
  rw [h]
  exact quotient_both p (ne_zero hc) _ _

theorem weightedLoop_gain (p : ℕ) (hc : Gain c) (hd : Gain d) : ∀ (xs fs : List ℝ) (a b : ℝ),
    weightedLoop p (c * d * a, c * b) (louder c xs) (louder d fs) =
      (c * d * (weightedLoop p (a, b) xs fs).1, c * (weightedLoop p (a, b) xs fs).2)
  | [], fs, a, b => by cases fs <;> rfl
  | x :: xs, [], a, b => rfl
  | x :: xs, f :: fs, a, b => by
    show weightedLoop p (rnd p (c * d * a + rnd p (d * f * (c * x))), rnd p (c * b + c * x)) (louder c xs) (louder d fs) = _
    rw [rnd_mul p hd hc, mul_comm d c, rnd_add p (mul hc hd), rnd_add p hc]
    exact weightedLoop_gain p hc hd xs fs _ _

theorem weightedCentroid_gain (p : ℕ) (hc : Gain c) (hd : Gain d) (xs fs : List ℝ) :
    weightedCentroid p (louder c xs) (louder d fs) = (weightedCentroid p xs fs).map (d * ·) := by
  have h := weightedLoop_gain p hc hd xs fs 0 0
  rw [mul_zero, mul_zero] at h
  unfold weightedCentroid
  rw [h]
  simp only []
  rw [mul_assoc, quotient_both p (ne_zero hc), quotient_gain p hd]

theorem spreadLoop_gain (p : ℕ) (hc : Gain c) (m : ℝ) : ∀ (xs : List ℝ) (i a b : ℝ),
    spreadLoop p m i (c * a, c * b) (louder c xs) =
      (c * (spreadLoop p m i (a, b) xs).1, c * (spreadLoop p m i (a, b) xs).2)
  | [], i, a, b => rfl
  | x :: xs, i, a, b => by
    show spreadLoop p m _ (rnd p (c * a + rnd p (rnd p (rnd p (i - m) * rnd p (i - m)) * (c * x))),
      rnd p (c * b + c * x)) (louder c xs) = _
    rw [mul_left_comm, rnd_gain p hc, rnd_add p hc, rnd_add p hc]
    exact spreadLoop_gain p hc m xs _ _ _

theorem spread_gain (p : ℕ) (hc : Gain c) (xs : List ℝ) : spread p (louder c xs) = spread p xs := by
  unfold spread
  rw [centroid_gain p hc]
  congr 1
  funext m
  have h := spreadLoop_gain p hc m xs 0 0 0
  rw [mul_zero] at h
  rw [h]
  simp only []
  rw [quotient_both p (ne_zero hc)]

theorem weightedSpreadLoop_gain (p : ℕ) (hc : Gain c) (hd : Gain d) (m : ℝ) : ∀ (xs fs : List ℝ) (a b : ℝ),
    weightedSpreadLoop p (d * m) (c * (d * d * a), c * b) (louder c xs) (louder d fs) =
      (c * (d * d * (weightedSpreadLoop p m (a, b) xs fs).1), c * (weightedSpreadLoop p m (a, b) xs fs).2)
  | [], fs, a, b => by cases fs <;> rfl
  | x :: xs, [], a, b => rfl
  | x :: xs, f :: fs, a, b => by
    show weightedSpreadLoop p (d * m) (rnd p (c * (d * d * a) + rnd p (rnd p (rnd p (d * f - d * m) *
      rnd p (d * f - d * m)) * (c * x))), rnd p (c * b + c * x)) (louder c xs) (louder d fs) = _
    rw [rnd_sub p hd, rnd_mul p hd hd, rnd_mul p (mul hd hd) hc, mul_comm (d * d) c, ← mul_assoc, rnd_add p
      (mul hc (mul hd hd)), rnd_add p hc, mul_assoc]
    exact weightedSpreadLoop_gain p hc hd m xs fs _ _

theorem weightedSpread_gain (p : ℕ) (hc : Gain c) (hd : Gain d) (xs fs : List ℝ) :
    weightedSpread p (louder c xs) (louder d fs) = (weightedSpread p xs fs).map (|d| * ·) := by
  unfold weightedSpread
  rw [weightedCentroid_gain p hc hd]
  cases weightedCentroid p xs fs with
  | none => rfl
  | some m =>
    have h := weightedSpreadLoop_gain p hc hd m xs fs 0 0
    simp only [mul_zero] at h
    simp only [Option.map_some, Option.bind_some]
    rw [h]
    simp only []
    rw [quotient_both p (ne_zero hc), quotient_gain p (mul hd hd)]
    cases quotient p (weightedSpreadLoop p m (0, 0) xs fs).1 (weightedSpreadLoop p m (0, 0) xs fs).2 with
    | none => rfl
    | some v => exact root_gain p hd v

theorem spectralEntropyLoop_gain (p : ℕ) (hc : Gain c) (L : ℝ → ℝ) (sum : ℝ) : ∀ (xs : List ℝ) (s : ℝ),
    spectralEntropyLoop p L (c * sum) s (louder c xs) = spectralEntropyLoop p L sum s xs
  | [], s => rfl
  | x :: xs, s => by
    show (quotient p (c * x) (c * sum)).bind (fun n => (logarithm L n).bind fun y =>
      spectralEntropyLoop p L (c * sum) (rnd p (s + rnd p (y * n))) (louder c xs)) = _
    rw [quotient_both p (ne_zero hc)]
    simp only [spectralEntropyLoop_gain p hc L sum xs]
    rfl

theorem spectralEntropy_gain (p : ℕ) (hc : Gain c) (L : ℝ → ℝ) (xs : List ℝ) :
    spectralEntropy p L (louder c xs) = spectralEntropy p L xs := by
  unfold spectralEntropy
  rw [accumulate_gain p hc, spectralEntropyLoop_gain p hc, louder_length]

theorem rolloffSteps_gain (p : ℕ) (hc : Gain c) (limit : ℝ) : ∀ (xs : List ℝ) (acc : ℝ),
    rolloffSteps p (c * c * limit) (c * c * acc) (louder c xs) = rolloffSteps p limit acc xs
  | [], acc => rfl
  | x :: xs, acc => by
    have h : 0 < c * c := mul_self_pos.mpr (ne_zero hc)
    show (if c * c * acc ≤ c * c * limit then rolloffSteps p (c * c * limit)
      (rnd p (c * c * acc + rnd p (c * x * (c * x)))) (louder c xs) + 1 else 0) = _
    rw [rnd_mul p hc hc, rnd_add p (mul hc hc), rolloffSteps_gain p hc limit xs]
    simp only [mul_le_mul_iff_right₀ h]
    rfl

theorem rolloff_gain (p q : ℕ) (hc : Gain c) (xs : List ℝ) (percentage : ℝ) :
    rolloff p q (louder c xs) percentage = rolloff p q xs percentage := by
  have h := rolloffSteps_gain p hc (rnd q (percentage * energy p xs)) xs 0
  rw [mul_zero] at h
  unfold rolloff
  rw [energy_gain p hc, mul_left_comm, rnd_gain q (mul hc hc), louder_length]
  simp only []
  rw [h]

theorem sign_gain (h : 0 < c) (x : ℝ) : Rounded.sign (c * x) = Rounded.sign x := by
  unfold Rounded.sign
  simp only [mul_neg_iff, h, h.le, not_lt.mpr h.le, true_and, false_and, or_false]

theorem crossings_gain (p : ℕ) (h : 0 < c) : ∀ (xs : List ℝ) (acc prev : ℝ),
    crossings p acc (c * prev) (louder c xs) = crossings p acc prev xs
  | [], acc, prev => rfl
  | x :: xs, acc, prev => by
    show crossings p (rnd p (acc + if Rounded.sign (c * x) ≠ Rounded.sign (c * prev) then 1 else 0)) (c * x)
      (louder c xs) = _
    rw [sign_gain h, sign_gain h, crossings_gain p h xs]
    rfl

theorem azcr_gain (p : ℕ) (h : 0 < c) (xs : List ℝ) : azcr p (louder c xs) = azcr p xs := by
  cases xs with
  | nil => rfl
  | cons x xs =>
    show quotient p (crossings p 0 (c * x) (louder c xs)) (rnd p ((louder c xs).length : ℝ)) = _
    rw [crossings_gain p h, louder_length]
    rfl

theorem effectiveDuration_gain (p q : ℕ) (hc : Gain c) (xs : List ℝ) (rate threshold : ℝ) :
    effectiveDuration p q (louder c xs) rate threshold = effectiveDuration p q xs rate threshold := by
  have h := abs_pos.mpr (ne_zero hc)
  unfold effectiveDuration largest
  rw [maxabs_zero, mul_left_comm, rnd_gain q (abs hc)]
  simp only []
  congr 3
  unfold louder
  rw [List.countP_map]
  congr 1
  funext x
  simp only [Function.comp, abs_mul, mul_lt_mul_iff_right₀ h]

theorem normalize_gain (p : ℕ) (hc : Gain c) (xs : List ℝ) :
    Rounded.normalize p (louder c xs) = (Rounded.normalize p xs).map fun y => y.map (polarity c * ·) := by
  unfold Rounded.normalize
  rw [maxabs_zero]
  unfold louder
  rw [List.map_map, List.map_map]
  exact List.map_congr_left fun x _ => quotient_polarity p hc x _

theorem getD_louder (c : ℝ) (xs : List ℝ) (i : ℕ) : (louder c xs).getD i 0 = c * xs.getD i 0 := by
  unfold louder
  rw [List.getD, List.getD, List.getElem?_map]
  cases xs[i]? <;> simp

theorem amdf_gain (p : ℕ) (hc : Gain c) (xs : List ℝ) (i : ℕ) :
    amdf p (louder c xs) i = (amdf p xs i).map (|c| * ·) := by
  unfold amdf
  rw [louder_length, ← quotient_gain p (abs hc)]
  congr 1
  have h := foldl_zero (g := fun s j => rnd p (s + |rnd p ((louder c xs).getD j 0 - (louder c xs).getD (j + i) 0)|))
    (f := fun s j => rnd p (s + |rnd p (xs.getD j 0 - xs.getD (j + i) 0)|)) |c| id
    (fun s j => by simp only [id, getD_louder]; rw [rnd_sub p hc, abs_mul, rnd_add p (abs hc)])
    (List.range (xs.length - i))
  rwa [List.map_id] at h

theorem asdf_gain (p : ℕ) (hc : Gain c) (xs : List ℝ) (i : ℕ) :
    asdf p (louder c xs) i = (asdf p xs i).map (c * c * ·) := by
  unfold asdf
  rw [louder_length, ← quotient_gain p (mul hc hc)]
  congr 1
  have h := foldl_zero (g := fun s j =>
      rnd p (s + rnd p (rnd p ((louder c xs).getD j 0 - (louder c xs).getD (j + i) 0) *
        rnd p ((louder c xs).getD j 0 - (louder c xs).getD (j + i) 0))))
    (f := fun s j => rnd p (s + rnd p (rnd p (xs.getD j 0 - xs.getD (j + i) 0) *
        rnd p (xs.getD j 0 - xs.getD (j + i) 0)))) (c * c) id
    (fun s j => by simp only [id, getD_louder]; rw [rnd_sub p hc, rnd_mul p hc hc, rnd_add p (mul hc hc)])
    (List.range (xs.length - i))
  rwa [List.map_id] at h

/-! ### Streams -/

theorem accStep_gain (p n : ℕ) (hc : Gain c) (h : List ℝ) (a x : ℝ) :
    accStep p n (louder c h) (c * a) (c * x) = c * accStep p n h a x := by
  unfold accStep louder
  rw [Moving.window_map (fun x => c * x) (mul_zero c)]
  have e : ((window n h).map fun x => c * x).headD 0 = c * (window n h).headD 0 := by
    cases window n h <;> simp
  rw [e, rnd_sub p hc, rnd_add p hc]

theorem sums_gain (p n : ℕ) (hc : Gain c) : ∀ (xs h : List ℝ) (a : ℝ),
    sums p n (louder c h) (c * a) (louder c xs) = louder c (sums p n h a xs)
  | [], h, a => rfl
  | x :: xs, h, a => by
    show accStep p n (louder c h) (c * a) (c * x) ::
      sums p n (louder c h ++ [c * x]) (accStep p n (louder c h) (c * a) (c * x)) (louder c xs) = _
    have e : louder c h ++ [c * x] = louder c (h ++ [x]) := by simp [louder]
    rw [accStep_gain p n hc, e, sums_gain p n hc xs]
    rfl

theorem sqrt_gain (p : ℕ) (hc : Gain c) (x : ℝ) : Rounded.sqrt p (c * c * x) = (Rounded.sqrt p x).map (|c| * ·) :=
  root_gain p hc x

/-- The state of a filter with the delays multiplied. -/
def scaled (c : ℝ) (f : Biquad ℝ) : Biquad ℝ := { f with w0 := c * f.w0, w1 := c * f.w1 }

theorem tick_gain (p : ℕ) (hc : Gain c) (f : Biquad ℝ) (v : ℝ) :
    biquadTick (rnd p) (scaled c f) (c * v) =
      (scaled c (biquadTick (rnd p) f v).1, c * (biquadTick (rnd p) f v).2) := by
  have e : ∀ b x : ℝ, rnd p (b * (c * x)) = c * rnd p (b * x) := fun b x => by rw [mul_left_comm, rnd_gain p hc]
  simp only [biquadTick, scaled, e, rnd_add p hc, rnd_sub p hc]

theorem state_gain (p : ℕ) (hc : Gain c) (f : Biquad ℝ) (x : ℕ → ℝ) : ∀ n,
    biquadState (rnd p) (scaled c f) (fun i => c * x i) n = scaled c (biquadState (rnd p) f x n)
  | 0 => rfl
  | n + 1 => by
    rw [biquadState, biquadState, state_gain p hc f x n, tick_gain p hc]

theorem response_gain (p : ℕ) (hc : Gain c) (f : Biquad ℝ) (x : ℕ → ℝ) (n : ℕ) :
    biquadResponse (rnd p) (scaled c f) (fun i => c * x i) n = c * biquadResponse (rnd p) f x n := by
  unfold biquadResponse
  rw [state_gain p hc, tick_gain p hc]

theorem fresh_scaled {f : Biquad ℝ} (h0 : f.w0 = 0) (h1 : f.w1 = 0) : scaled c f = f := by
  unfold scaled
  rw [h0, h1, mul_zero]
  cases f
  simp_all

theorem adsr_gain (p : ℕ) (hc : Gain c) : ∀ (xs : List ℝ) (s : Env.Adsr.State),
    RoundedAdsr.apply p s (louder c xs) = (louder c (RoundedAdsr.apply p s xs).1, (RoundedAdsr.apply p s xs).2)
  | [], s => rfl
  | x :: xs, s => by
    have h := adsr_gain p hc xs (RoundedAdsr.tick p s)
    have e : ∀ b x : ℝ, rnd p (b * (c * x)) = c * rnd p (b * x) := fun b x => by rw [mul_left_comm, rnd_gain p hc]
    simp only [louder, List.map_cons, RoundedAdsr.apply, RoundedAdsr.call, e] at h ⊢
    rw [h]

theorem call_gain (p q : ℕ) (hc : Gain c) (sine : ℝ → ℝ) (k : Osc.Kind) (s : Osc.State) :
    Rounded.call p q sine k { s with amplitude := c * s.amplitude } =
      (Rounded.call p q sine k s).map fun r => (c * r.1, { r.2 with amplitude := c * r.2.amplitude }) := by
  have e1 : ∀ b x : ℝ, rnd p (b * (c * x)) = c * rnd p (b * x) := fun b x => by rw [mul_left_comm, rnd_gain p hc]
  have e2 : ∀ b x : ℝ, rnd p (rnd q (c * x * b)) = c * rnd p (rnd q (x * b)) := fun b x => by
    rw [mul_assoc, rnd_gain q hc, rnd_gain p hc]
  cases k with
  | sin =>
    simp only [Rounded.call, sinCall, advance, bind, Except.bind, pure, Except.pure, e1]
    cases Osc.finite s.samplingPeriod <;> rfl
  | square =>
    simp only [Rounded.call, squareCall, advance, bind, Except.bind, pure, Except.pure, e1]
    cases Osc.finite s.inverseFrequency with
    | error e => rfl
    | ok v =>
      cases Osc.finite s.samplingPeriod <;> rfl
  | saw =>
    simp only [Rounded.call, sawCall, advance, bind, Except.bind, pure, Except.pure, e2]
    cases Osc.finite s.samplingPeriod with
    | error e => rfl
    | ok v =>
      simp only []
      split
      · rfl
      · split
        · rfl
        · simp [Except.map]

theorem gen_gain (p q : ℕ) (hc : Gain c) (sine : ℝ → ℝ) (k : Osc.Kind) : ∀ (n : ℕ) (s : Osc.State),
    Rounded.gen p q sine k n { s with amplitude := c * s.amplitude } =
      (Rounded.gen p q sine k n s).map fun r => (louder c r.1, { r.2 with amplitude := c * r.2.amplitude })
  | 0, s => rfl
  | n + 1, s => by
    simp only [Rounded.gen, call_gain p q hc, bind, Except.bind, pure, Except.pure]
    cases Rounded.call p q sine k s with
    | error e => rfl
    | ok r =>
      simp only [Except.map]
      rw [gen_gain p q hc sine k n r.2]
      cases Rounded.gen p q sine k n r.2 <;> rfl

theorem points_gain (p : ℕ) (hc : Gain c) (x1 inc : ℝ) : ∀ i, points p (c * x1) (c * inc) i = c * points p x1 inc i
  | 0 => rfl
  | i + 1 => by rw [points, points, points_gain p hc x1 inc i, rnd_add p hc]

theorem linspace_gain (p : ℕ) (hc : Gain c) (x1 x2 : ℝ) (N : ℕ) :
    linspace p (c * x1) (c * x2) N = (linspace p x1 x2 N).map (louder c) := by
  unfold linspace increment
  rw [rnd_sub p hc, quotient_gain p hc]
  cases quotient p (rnd p (x2 - x1)) (rnd p (rnd p (N : ℝ) - 1)) with
  | none => rfl
  | some inc =>
    simp only [Option.map_some, louder, List.map_map]
    congr 1
    exact List.map_congr_left fun i _ => points_gain p hc x1 inc i

theorem silence_gain (p : ℕ) (hc : Gain c) (xs : List ℝ) (t : ℝ) :
    Verdict.silence p (louder c xs) (c * c * t) = Verdict.silence p xs t := by
  have h : 0 < c * c := mul_self_pos.mpr (ne_zero hc)
  unfold Verdict.silence
  rw [power_gain p hc]
  cases Rounded.power p xs with
  | none => rfl
  | some w => simp only [Option.map_some, mul_lt_mul_iff_right₀ h]

end Edsp.GainL
