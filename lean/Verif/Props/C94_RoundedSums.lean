import Verif.Model.RoundedSums
import Verif.Lemmas.Float
import Verif.Spec.Statistics

/-!
# C94: mean, energy, power and variance in floating point arithmetic
-/

namespace Edsp.Rounded

open Edsp.Spec Edsp.FloatL

theorem rnd_nat {p n : ℕ} (hp : 1 ≤ p) (h : n ≤ 2 ^ p) : rnd p (n : ℝ) = n := by
  have : (n : ℤ) ≤ 2 ^ p := by exact_mod_cast h
  exact_mod_cast rnd_int hp (m := (n : ℤ)) (by simpa using this)

theorem quotient_pos (p : ℕ) {a b : ℝ} (hb : b ≠ 0) : quotient p a b = some (rnd p (a / b)) := by
  unfold quotient
  rw [if_neg hb]

/-! ### Error bounds -/

theorem accumulate_err (p : ℕ) (xs : List ℝ) : ∀ (a s C : ℝ), |s| ≤ C →
    |accumulate p a xs - (s + xs.sum)| + (C + (xs.map abs).sum)
      ≤ (1 + (2 : ℝ) ^ (-(p : ℤ))) ^ xs.length * (|a - s| + C + (xs.map abs).sum) := by
  have hu := two_zpow_pos (-(p : ℤ))
  induction xs with
  | nil => intro a s C _; simp [accumulate]
  | cons x xs ih =>
    intro a s C hs
    have h := ih (rnd p (a + x)) (s + x) (C + |x|) (le_trans (abs_add_le s x) (by linarith))
    have e1 : accumulate p a (x :: xs) = accumulate p (rnd p (a + x)) xs := rfl
    have hr := rnd_err p (a + x)
    have h1 : |rnd p (a + x) - (s + x)| ≤ |rnd p (a + x) - (a + x)| + |a - s| := by
      have := abs_add_le (rnd p (a + x) - (a + x)) (a - s)
      rwa [show rnd p (a + x) - (a + x) + (a - s) = rnd p (a + x) - (s + x) by ring] at this
    have h2 : |a + x| ≤ |a - s| + C + |x| := by
      have t1 := abs_add_le (a - s) s
      have t2 := abs_add_le a x
      rw [sub_add_cancel] at t1
      linarith
    have h3 := mul_le_mul_of_nonneg_left h2 hu.le
    have hS : 0 ≤ (xs.map abs).sum := List.sum_nonneg (by
      intro y hy
      obtain ⟨z, _, rfl⟩ := List.mem_map.mp hy
      exact abs_nonneg z)
    have h4 : |rnd p (a + x) - (s + x)| + (C + |x|) + (xs.map abs).sum
        ≤ (1 + (2 : ℝ) ^ (-(p : ℤ))) * (|a - s| + C + (|x| + (xs.map abs).sum)) := by
      have := mul_nonneg hu.le hS
      linarith
    have h5 := mul_le_mul_of_nonneg_left h4 (by positivity : (0 : ℝ) ≤ (1 + (2 : ℝ) ^ (-(p : ℤ))) ^ xs.length)
    rw [e1, List.sum_cons, List.map_cons, List.sum_cons, List.length_cons, pow_succ]
    rw [show s + (x + xs.sum) = s + x + xs.sum by ring]
    calc _ = |accumulate p (rnd p (a + x)) xs - (s + x + xs.sum)| + (C + |x| + (xs.map abs).sum) := by ring
      _ ≤ _ := h
      _ ≤ _ := h5
      _ = _ := by ring

/-- **C94**, every sequence of `n ≤ 2^p` numbers: the mean differs from the exact mean by at most
`((1 + 2^-p)^(n + 1) - 1)` times the mean of the absolute values.
Missing: a bound that does not grow with `n`, which does not exist (`C94_long_violates`). -/
theorem C94_mean_partial {p : ℕ} (hp : 1 ≤ p) {xs : List ℝ} (h0 : xs ≠ []) (hn : xs.length ≤ 2 ^ p) :
    ∃ m, mean p xs = some m ∧ |m - xs.sum / xs.length|
      ≤ ((1 + (2 : ℝ) ^ (-(p : ℤ))) ^ (xs.length + 1) - 1) * ((xs.map abs).sum / xs.length) := by
  have hu := two_zpow_pos (-(p : ℤ))
  have hl : (0 : ℝ) < xs.length := by exact_mod_cast List.length_pos_of_ne_nil h0
  refine ⟨rnd p (accumulate p 0 xs / xs.length), ?_, ?_⟩
  · unfold mean
    rw [rnd_nat hp hn, quotient_pos p hl.ne']
  · have h := accumulate_err p xs 0 0 0 (by simp)
    simp only [sub_self, abs_zero, zero_add] at h
    set a := accumulate p 0 xs
    have hr := rnd_err p (a / xs.length)
    have hS : |xs.sum| ≤ (xs.map abs).sum := by
      clear h hr a hl hn h0
      induction xs with
      | nil => simp
      | cons x xs ih =>
        rw [List.sum_cons, List.map_cons, List.sum_cons]
        have := abs_add_le x xs.sum
        linarith
    have h1 : |rnd p (a / xs.length) - xs.sum / xs.length|
        ≤ |rnd p (a / xs.length) - a / xs.length| + |a - xs.sum| / xs.length := by
      have := abs_add_le (rnd p (a / xs.length) - a / xs.length) (a / xs.length - xs.sum / xs.length)
      rw [sub_add_sub_cancel, ← sub_div a, abs_div (a - xs.sum), abs_of_pos hl] at this
      exact this
    have h2 : |a / (xs.length : ℝ)| ≤ (|a - xs.sum| + (xs.map abs).sum) / xs.length := by
      rw [abs_div, abs_of_pos hl]
      gcongr
      have := abs_add_le (a - xs.sum) xs.sum
      rw [sub_add_cancel] at this
      linarith
    have h3 := mul_le_mul_of_nonneg_left h2 hu.le
    have h4 : (|a - xs.sum| + (xs.map abs).sum) / xs.length
        ≤ (1 + (2 : ℝ) ^ (-(p : ℤ))) ^ xs.length * (xs.map abs).sum / xs.length := by gcongr
    have h5 := mul_le_mul_of_nonneg_left h4 (by positivity : (0 : ℝ) ≤ 1 + (2 : ℝ) ^ (-(p : ℤ)))
    have e1 : (|a - xs.sum| + (xs.map abs).sum) / xs.length
        = |a - xs.sum| / xs.length + (xs.map abs).sum / xs.length := by rw [add_div]
    have e2 : (1 + (2 : ℝ) ^ (-(p : ℤ))) * ((1 + (2 : ℝ) ^ (-(p : ℤ))) ^ xs.length * (xs.map abs).sum / xs.length)
        = (1 + (2 : ℝ) ^ (-(p : ℤ))) ^ (xs.length + 1) * ((xs.map abs).sum / xs.length) := by
      rw [pow_succ]
      ring
    rw [e2] at h5
    rw [e1] at h3 h5
    linarith

theorem energy_eq (p : ℕ) (xs : List ℝ) : energy p xs = accumulate p 0 (xs.map fun x => rnd p (x * x)) := by
  unfold energy accumulate
  rw [List.foldl_map]

theorem accumulate_nonneg {p : ℕ} (hp : 1 ≤ p) (xs : List ℝ) : ∀ a : ℝ, 0 ≤ a → (∀ x ∈ xs, 0 ≤ x) →
    0 ≤ accumulate p a xs := by
  induction xs with
  | nil => intro a ha _; exact ha
  | cons x xs ih =>
    intro a ha hx
    refine ih _ ?_ fun y hy => hx y (by simp [hy])
    have := rnd_mono hp (add_nonneg ha (hx x (by simp)))
    rwa [rnd_zero] at this

theorem sq_rnd_nonneg {p : ℕ} (hp : 1 ≤ p) (x : ℝ) : 0 ≤ rnd p (x * x) := by
  have := rnd_mono hp (mul_self_nonneg x)
  rwa [rnd_zero] at this

/-- **C94**: the energy is never negative, and its relative error is at most `(1 + 2^-p)^(n + 1) - 1`. -/
theorem C94_energy {p : ℕ} (hp : 1 ≤ p) (xs : List ℝ) :
    0 ≤ energy p xs ∧ |energy p xs - (xs.map fun x => x ^ 2).sum|
      ≤ ((1 + (2 : ℝ) ^ (-(p : ℤ))) ^ (xs.length + 1) - 1) * (xs.map fun x => x ^ 2).sum := by
  have hu := two_zpow_pos (-(p : ℤ))
  rw [energy_eq]
  constructor
  · refine accumulate_nonneg hp _ 0 le_rfl ?_
    intro x hx
    obtain ⟨y, _, rfl⟩ := List.mem_map.mp hx
    exact sq_rnd_nonneg hp y
  · have h := accumulate_err p (xs.map fun x => rnd p (x * x)) 0 0 0 (by simp)
    simp only [sub_self, abs_zero, zero_add, List.length_map] at h
    have habs : ((xs.map fun x => rnd p (x * x)).map abs) = xs.map fun x => rnd p (x * x) := by
      rw [List.map_map]
      apply List.map_congr_left
      intro x _
      exact abs_of_nonneg (sq_rnd_nonneg hp x)
    rw [habs] at h
    set R := (xs.map fun x => rnd p (x * x)).sum with hR
    set E := (xs.map fun x => x ^ 2).sum with hE
    have hRE : |R - E| ≤ (2 : ℝ) ^ (-(p : ℤ)) * E := by
      rw [hR, hE]
      clear h habs hR hE R E
      induction xs with
      | nil => simp
      | cons x xs ih =>
        have h1 := rnd_err p (x * x)
        rw [abs_mul_self] at h1
        rw [List.map_cons, List.map_cons, List.sum_cons, List.sum_cons]
        have h2 := abs_add_le (rnd p (x * x) - x * x)
          ((xs.map fun x => rnd p (x * x)).sum - (xs.map fun x => x ^ 2).sum)
        have e : x ^ 2 = x * x := by ring
        rw [e]
        rw [show rnd p (x * x) - x * x + ((xs.map fun x => rnd p (x * x)).sum - (xs.map fun x => x ^ 2).sum)
          = rnd p (x * x) + (xs.map fun x => rnd p (x * x)).sum - (x * x + (xs.map fun x => x ^ 2).sum) by ring] at h2
        linarith
    have hR2 := abs_le.mp hRE
    have h3 : |accumulate p 0 (xs.map fun x => rnd p (x * x)) - E|
        ≤ |accumulate p 0 (xs.map fun x => rnd p (x * x)) - R| + |R - E| := abs_sub_le _ _ _
    have hpow : (1 : ℝ) ≤ (1 + (2 : ℝ) ^ (-(p : ℤ))) ^ xs.length := one_le_pow₀ (by linarith)
    have h4 : ((1 + (2 : ℝ) ^ (-(p : ℤ))) ^ xs.length - 1) * R
        ≤ ((1 + (2 : ℝ) ^ (-(p : ℤ))) ^ xs.length - 1) * ((1 + (2 : ℝ) ^ (-(p : ℤ))) * E) :=
      mul_le_mul_of_nonneg_left (by linarith) (by linarith)
    have e : ((1 + (2 : ℝ) ^ (-(p : ℤ))) ^ xs.length - 1) * ((1 + (2 : ℝ) ^ (-(p : ℤ))) * E)
        + (2 : ℝ) ^ (-(p : ℤ)) * E = ((1 + (2 : ℝ) ^ (-(p : ℤ))) ^ (xs.length + 1) - 1) * E := by
      rw [pow_succ]
      ring
    linarith

/-- **C94**: the variance, where it is finite, is never negative. -/
theorem C94_variance_nonneg {p : ℕ} (hp : 1 ≤ p) {xs : List ℝ} {v : ℝ} (h : variance p xs = some v) : 0 ≤ v := by
  unfold variance at h
  obtain ⟨m, _, hv⟩ := Option.bind_eq_some_iff.mp h
  unfold quotient at hv
  split at hv
  · cases hv
  · injection hv with hv
    rw [← hv]
    have hs : 0 ≤ squares p m xs := by
      have : squares p m xs = accumulate p 0 (xs.map fun x => rnd p (rnd p (x - m) * rnd p (x - m))) := by
        unfold squares accumulate
        rw [List.foldl_map]
      rw [this]
      refine accumulate_nonneg hp _ 0 le_rfl ?_
      intro x hx
      obtain ⟨y, _, rfl⟩ := List.mem_map.mp hx
      exact sq_rnd_nonneg hp _
    have hl : 0 ≤ rnd p (xs.length : ℝ) := by
      have := rnd_mono hp (Nat.cast_nonneg (α := ℝ) xs.length)
      rwa [rnd_zero] at this
    have := rnd_mono hp (div_nonneg hs hl)
    rwa [rnd_zero] at this

/-- Division by the number of elements: one rounding more. -/
theorem divide_err (p : ℕ) {a E K n : ℝ} (hn : 0 < n) (hE : 0 ≤ E) (ha : |a - E| ≤ (K - 1) * E) :
    |rnd p (a / n) - E / n| ≤ ((1 + (2 : ℝ) ^ (-(p : ℤ))) * K - 1) * (E / n) := by
  have hu := two_zpow_pos (-(p : ℤ))
  have hr := rnd_err p (a / n)
  have h1 : |a / n - E / n| ≤ (K - 1) * (E / n) := by
    rw [← sub_div, abs_div, abs_of_pos hn, ← mul_div_assoc]
    gcongr
  have h2 : |a / n| ≤ K * (E / n) := by
    have := abs_add_le (a / n - E / n) (E / n)
    rw [sub_add_cancel, abs_of_nonneg (div_nonneg hE hn.le)] at this
    linarith
  have h3 := mul_le_mul_of_nonneg_left h2 hu.le
  have h4 : |rnd p (a / n) - E / n| ≤ |rnd p (a / n) - a / n| + |a / n - E / n| := abs_sub_le _ _ _
  linarith

/-- **C94**, every sequence of `n ≤ 2^p` numbers: the power is never negative, and its relative error is at most
`(1 + 2^-p)^(n + 2) - 1`.
Missing: a bound that does not grow with `n`, which does not exist (`C94_long_violates`). -/
theorem C94_power_partial {p : ℕ} (hp : 1 ≤ p) {xs : List ℝ} (h0 : xs ≠ []) (hn : xs.length ≤ 2 ^ p) :
    ∃ w, power p xs = some w ∧ 0 ≤ w ∧ |w - (xs.map fun x => x ^ 2).sum / xs.length|
      ≤ ((1 + (2 : ℝ) ^ (-(p : ℤ))) ^ (xs.length + 2) - 1) * ((xs.map fun x => x ^ 2).sum / xs.length) := by
  have hl : (0 : ℝ) < xs.length := by exact_mod_cast List.length_pos_of_ne_nil h0
  obtain ⟨h1, h2⟩ := C94_energy hp xs
  refine ⟨rnd p (energy p xs / xs.length), ?_, ?_, ?_⟩
  · unfold power
    rw [rnd_nat hp hn, quotient_pos p hl.ne']
  · have := rnd_mono hp (div_nonneg h1 hl.le)
    rwa [rnd_zero] at this
  · have hE : 0 ≤ (xs.map fun x => x ^ 2).sum := List.sum_nonneg (by
      intro y hy
      obtain ⟨z, _, rfl⟩ := List.mem_map.mp hy
      positivity)
    have := divide_err p hl hE h2
    rwa [show xs.length + 2 = xs.length + 1 + 1 from rfl, pow_succ' _ (xs.length + 1)]

theorem sum_err {K : ℝ} {f g : ℝ → ℝ} (h : ∀ x, |f x - g x| ≤ K * g x) (xs : List ℝ) :
    |(xs.map f).sum - (xs.map g).sum| ≤ K * (xs.map g).sum := by
  induction xs with
  | nil => simp
  | cons x xs ih =>
    simp only [List.map_cons, List.sum_cons]
    have h1 := h x
    have h2 := abs_add_le (f x - g x) ((xs.map f).sum - (xs.map g).sum)
    rw [show f x - g x + ((xs.map f).sum - (xs.map g).sum) = f x + (xs.map f).sum - (g x + (xs.map g).sum) by ring] at h2
    linarith

/-- One squared difference, three roundings. -/
theorem square_err (p : ℕ) (d : ℝ) :
    |rnd p (rnd p d * rnd p d) - d ^ 2| ≤ ((1 + (2 : ℝ) ^ (-(p : ℤ))) ^ 3 - 1) * d ^ 2 := by
  have hu := two_zpow_pos (-(p : ℤ))
  have hr := rnd_err p d
  have hs := rnd_err p (rnd p d * rnd p d)
  set u := (2 : ℝ) ^ (-(p : ℤ))
  set c := rnd p d
  have h1 : |c| ≤ (1 + u) * |d| := by
    have := abs_add_le (c - d) d
    rw [sub_add_cancel] at this
    linarith
  have h2 : |c * c| ≤ (1 + u) ^ 2 * d ^ 2 := by
    rw [abs_mul, ← sq_abs d]
    have := mul_le_mul h1 h1 (abs_nonneg c) (by positivity)
    calc _ ≤ _ := this
      _ = _ := by ring
  have h3 : |c * c - d ^ 2| ≤ ((1 + u) ^ 2 - 1) * d ^ 2 := by
    have e : c * c - d ^ 2 = (c - d) * (c + d) := by ring
    have h4 : |c + d| ≤ (2 + u) * |d| := by
      have := abs_add_le c d
      linarith
    have := mul_le_mul hr h4 (abs_nonneg _) (by positivity)
    rw [e, abs_mul, ← sq_abs d]
    calc _ ≤ _ := this
      _ = _ := by ring
  have h5 := mul_le_mul_of_nonneg_left h2 hu.le
  have h6 : |rnd p (c * c) - d ^ 2| ≤ |rnd p (c * c) - c * c| + |c * c - d ^ 2| := abs_sub_le _ _ _
  have e : u * ((1 + u) ^ 2 * d ^ 2) + ((1 + u) ^ 2 - 1) * d ^ 2 = ((1 + u) ^ 3 - 1) * d ^ 2 := by ring
  linarith

/-- Sums of terms that are not negative, each with a relative error of at most `K - 1`. -/
theorem accumulate_rel (p : ℕ) {K : ℝ} {f g : ℝ → ℝ} (hf : ∀ x, 0 ≤ f x)
    (h : ∀ x, |f x - g x| ≤ (K - 1) * g x) (xs : List ℝ) :
    |accumulate p 0 (xs.map f) - (xs.map g).sum|
      ≤ ((1 + (2 : ℝ) ^ (-(p : ℤ))) ^ xs.length * K - 1) * (xs.map g).sum := by
  have hu := two_zpow_pos (-(p : ℤ))
  have h1 := accumulate_err p (xs.map f) 0 0 0 (by simp)
  simp only [sub_self, abs_zero, zero_add, List.length_map] at h1
  have habs : (xs.map f).map abs = xs.map f := by
    rw [List.map_map]
    apply List.map_congr_left
    intro x _
    exact abs_of_nonneg (hf x)
  rw [habs] at h1
  have h2 := sum_err h xs
  set R := (xs.map f).sum
  set E := (xs.map g).sum
  have h3 : |accumulate p 0 (xs.map f) - E| ≤ |accumulate p 0 (xs.map f) - R| + |R - E| := abs_sub_le _ _ _
  have hpow : (1 : ℝ) ≤ (1 + (2 : ℝ) ^ (-(p : ℤ))) ^ xs.length := one_le_pow₀ (by linarith)
  have h4 : R ≤ K * E := by
    have := (abs_le.mp h2).2
    linarith
  have h5 := mul_le_mul_of_nonneg_left h4 (sub_nonneg.mpr hpow)
  linarith

theorem sum_sq_shift (c m : ℝ) (xs : List ℝ) :
    (xs.map fun x => (x - m) ^ 2).sum
      = (xs.map fun x => (x - c) ^ 2).sum + 2 * (c - m) * (xs.sum - xs.length * c) + xs.length * (c - m) ^ 2 := by
  induction xs with
  | nil => simp
  | cons x xs ih =>
    simp only [List.map_cons, List.sum_cons, List.length_cons, ih]
    push_cast
    ring

/-- **C94**, every sequence of `n ≤ 2^p` numbers: with `m` the computed mean, the variance is the exact variance plus the
square of the error of `m` (bounded by `C94_mean_partial`), with a relative error of at most `(1 + 2^-p)^(n + 4) - 1`.
Missing: a bound relative to the exact variance, which does not exist (`C94_constant_violates`). -/
theorem C94_variance_partial {p : ℕ} (hp : 1 ≤ p) {xs : List ℝ} (h0 : xs ≠ []) (hn : xs.length ≤ 2 ^ p) :
    ∃ m v, mean p xs = some m ∧ variance p xs = some v ∧
      |v - (centralMoment 2 xs + (m - avg xs) ^ 2)|
        ≤ ((1 + (2 : ℝ) ^ (-(p : ℤ))) ^ (xs.length + 4) - 1) * (centralMoment 2 xs + (m - avg xs) ^ 2) := by
  have hl : (0 : ℝ) < xs.length := by exact_mod_cast List.length_pos_of_ne_nil h0
  obtain ⟨m, hm, -⟩ := C94_mean_partial hp h0 hn
  have e1 : (centralMoment 2 xs + (m - avg xs) ^ 2) = (xs.map fun x => (x - m) ^ 2).sum / xs.length := by
    rw [sum_sq_shift (avg xs) m]
    have : xs.sum - xs.length * avg xs = 0 := by
      unfold avg
      field_simp
      ring
    rw [this]
    have e : centralMoment 2 xs = (xs.map fun x => (x - avg xs) ^ 2).sum / xs.length := by
      simp only [centralMoment, avgOf, avg, List.length_map]
    rw [e]
    generalize (xs.map fun x => (x - avg xs) ^ 2).sum = A
    field_simp
    ring
  have e2 : squares p m xs = accumulate p 0 (xs.map fun x => rnd p (rnd p (x - m) * rnd p (x - m))) := by
    unfold squares accumulate
    rw [List.foldl_map]
  refine ⟨m, rnd p (squares p m xs / xs.length), hm, ?_, ?_⟩
  · unfold variance
    rw [hm, Option.bind_some, rnd_nat hp hn, quotient_pos p hl.ne']
  · have h1 := accumulate_rel p (K := (1 + (2 : ℝ) ^ (-(p : ℤ))) ^ 3)
      (f := fun x => rnd p (rnd p (x - m) * rnd p (x - m))) (g := fun x => (x - m) ^ 2)
      (fun x => sq_rnd_nonneg hp _) (fun x => square_err p (x - m)) xs
    rw [← e2, ← pow_add] at h1
    have hE : 0 ≤ (xs.map fun x => (x - m) ^ 2).sum := List.sum_nonneg (by
      intro y hy
      obtain ⟨z, _, rfl⟩ := List.mem_map.mp hy
      positivity)
    have := divide_err p hl hE h1
    rw [e1]
    rwa [show xs.length + 4 = xs.length + 3 + 1 from rfl, pow_succ' _ (xs.length + 3)]

/-- Five samples in `float`. -/
example : ∃ m v, mean 24 [1, 2, 3, 4, 5] = some m ∧ variance 24 [1, 2, 3, 4, 5] = some v ∧
    |v - (centralMoment 2 [1, 2, 3, 4, 5] + (m - avg [1, 2, 3, 4, 5]) ^ 2)|
      ≤ ((1 + (2 : ℝ) ^ (-((24 : ℕ) : ℤ))) ^ 9 - 1) * (centralMoment 2 [1, 2, 3, 4, 5] + (m - avg [1, 2, 3, 4, 5]) ^ 2) :=
  C94_variance_partial (by norm_num) (by simp) (by norm_num)

/-! ### Exact sums -/

theorem accumulate_exact {p : ℕ} (hp : 1 ≤ p) {k : ℤ} {M : ℕ} (xs : List ℝ) : ∀ (a : ℝ) (c : ℕ),
    Grid k (c * M) a → (∀ x ∈ xs, Grid k M x) → (c + xs.length) * M ≤ 2 ^ p →
    accumulate p a xs = a + xs.sum := by
  induction xs with
  | nil => intro a c _ _ _; simp [accumulate]
  | cons x xs ih =>
    intro a c ha hx hM
    have hg : Grid k ((c + 1) * M) (a + x) := by
      obtain ⟨y, hy, rfl⟩ := ha
      obtain ⟨z, hz, e⟩ := hx x (by simp)
      refine ⟨y + z, ?_, by rw [e]; push_cast; ring⟩
      have := abs_add_le y z
      push_cast at hy ⊢
      linarith
    have hr : rnd p (a + x) = a + x := by
      obtain ⟨y, hy, e⟩ := hg
      rw [e]
      refine rnd_float (isFloat_int hp k (le_trans hy ?_))
      rw [List.length_cons] at hM
      have : (c + 1) * M ≤ 2 ^ p := le_trans (Nat.mul_le_mul_right M (by omega)) hM
      exact_mod_cast this
    show accumulate p (rnd p (a + x)) xs = _
    rw [hr, ih (a + x) (c + 1) hg (fun y hy => hx y (by simp [hy]))
      (by rw [List.length_cons] at hM; rwa [show c + 1 + xs.length = c + (xs.length + 1) by ring]), List.sum_cons]
    ring

/-- **C94** for samples of `M` levels with `n * M ≤ 2^p`: the mean is the rounded mean. -/
theorem C94_exact_mean_partial {p : ℕ} (hp : 1 ≤ p) {k : ℤ} {M : ℕ} (hM : 1 ≤ M) {xs : List ℝ} (h0 : xs ≠ [])
    (hx : ∀ x ∈ xs, Grid k M x) (hn : xs.length * M ≤ 2 ^ p) :
    mean p xs = some (rnd p (xs.sum / xs.length)) := by
  have hl : (0 : ℝ) < xs.length := by exact_mod_cast List.length_pos_of_ne_nil h0
  have hle : xs.length ≤ 2 ^ p := le_trans (Nat.le_mul_of_pos_right _ hM) hn
  unfold mean
  rw [rnd_nat hp hle, quotient_pos p hl.ne', accumulate_exact hp xs 0 0 ⟨0, by simp, by simp⟩ hx (by simpa using hn),
    zero_add]

/-- **C94** for samples of `M` levels with `n * M^2 ≤ 2^p`: the energy is exact. -/
theorem C94_exact_energy_partial {p : ℕ} (hp : 1 ≤ p) {k : ℤ} {M : ℕ} {xs : List ℝ}
    (hx : ∀ x ∈ xs, Grid k M x) (hn : xs.length * (M * M) ≤ 2 ^ p) :
    energy p xs = (xs.map fun x => x ^ 2).sum := by
  by_cases h0 : xs = []
  · rw [h0]; simp [energy]
  have hl : 0 < xs.length := List.length_pos_of_ne_nil h0
  have hMM : M * M ≤ 2 ^ p := le_trans (Nat.le_mul_of_pos_left _ hl) hn
  have hsq : ∀ x ∈ xs, Grid (2 * k) (M * M) (x ^ 2) := by
    intro x hx'
    obtain ⟨z, hz, rfl⟩ := hx x hx'
    refine ⟨z * z, ?_, ?_⟩
    · rw [abs_mul]
      push_cast
      exact mul_le_mul hz hz (abs_nonneg _) (by positivity)
    · rw [two_mul, zpow_add₀ (by norm_num : (2 : ℝ) ≠ 0)]
      push_cast
      ring
  have em : xs.map (fun x => rnd p (x * x)) = xs.map fun x => x ^ 2 := by
    apply List.map_congr_left
    intro x hx'
    obtain ⟨z, hz, e⟩ := hsq x hx'
    rw [← pow_two, e]
    exact rnd_float (isFloat_int hp _ (le_trans hz (by exact_mod_cast hMM)))
  rw [energy_eq, em, accumulate_exact (k := 2 * k) (M := M * M) hp _ 0 0 ⟨0, by simp, by simp⟩ ?_
    (by simpa using hn), zero_add]
  intro x hx'
  obtain ⟨y, hy, rfl⟩ := List.mem_map.mp hx'
  exact hsq y hy

/-! ### Violations -/

theorem ones_exact {p : ℕ} (hp : 1 ≤ p) : accumulate p 0 (List.replicate (2 ^ p) 1) = 2 ^ p := by
  rw [accumulate_exact (k := 0) (M := 1) hp _ 0 0 ⟨0, by simp, by simp⟩ ?_ (by simp)]
  · simp
  · intro x hx
    rw [(List.mem_replicate.mp hx).2]
    exact ⟨1, by simp, by simp⟩

theorem ones_stuck {p : ℕ} (hp : 2 ≤ p) (j : ℕ) : accumulate p (2 ^ p) (List.replicate j 1) = 2 ^ p := by
  induction j with
  | zero => rfl
  | succ j ih =>
    rw [List.replicate_succ]
    show accumulate p (rnd p (2 ^ p + 1)) _ = _
    rw [rnd_succ hp, ih]

/-- **C94 is violated**: sums do not grow beyond 2^p when ones are added.  The mean of 2^(p+1) ones is 1/2, that of
2^(p+j) ones is 2^-j (in `float` from 2^24 elements on, six minutes of sound), and their energy is 2^p. -/
theorem C94_long_violates {p : ℕ} (hp : 2 ≤ p) (j : ℕ) :
    mean p (List.replicate (2 ^ (p + j)) 1) = some (2 ^ (-(j : ℤ))) ∧
    energy p (List.replicate (2 ^ (p + j)) 1) = 2 ^ p := by
  have hacc : accumulate p 0 (List.replicate (2 ^ (p + j)) 1) = 2 ^ p := by
    obtain ⟨c, hc⟩ : ∃ c, 2 ^ (p + j) = 2 ^ p + c :=
      ⟨2 ^ (p + j) - 2 ^ p, by
        have : 2 ^ p ≤ 2 ^ (p + j) := Nat.pow_le_pow_right (by norm_num) (by omega)
        omega⟩
    rw [hc, ← List.replicate_append_replicate]
    unfold accumulate
    rw [List.foldl_append]
    show accumulate p (accumulate p 0 (List.replicate (2 ^ p) 1)) (List.replicate c 1) = 2 ^ p
    rw [ones_exact (by omega), ones_stuck hp]
  have r1 : rnd p 1 = 1 := by
    have := rnd_int (p := p) (by omega) (m := 1) (by rw [abs_one]; exact one_le_pow₀ (by norm_num))
    simpa using this
  constructor
  · unfold mean
    have hlen : rnd p ((List.replicate (2 ^ (p + j)) (1 : ℝ)).length : ℝ) = 2 ^ (p + j) := by
      rw [List.length_replicate]
      push_cast
      refine rnd_float ⟨1, ((p + j : ℕ) : ℤ), ?_, ?_⟩
      · rw [abs_one]
        exact one_lt_pow₀ (by norm_num) (by omega)
      · rw [zpow_natCast]; simp
    have e : (2 : ℝ) ^ p / 2 ^ (p + j) = 2 ^ (-(j : ℤ)) := by
      rw [pow_add, zpow_neg, zpow_natCast]
      field_simp
    rw [hacc, hlen, quotient_pos p (by positivity), e]
    congr 1
    refine rnd_float ⟨1, -(j : ℤ), ?_, by simp⟩
    rw [abs_one]
    exact one_lt_pow₀ (by norm_num) (by omega)
  · rw [energy_eq, List.map_replicate, one_mul, r1, hacc]

theorem three_mean {p : ℕ} (hp : 3 ≤ p) :
    mean p [2 ^ p - 2, 2 ^ p - 2, 2 ^ p - 2] = some (2 ^ p - 3) := by
  obtain ⟨q, rfl⟩ : ∃ q, p = q + 3 := ⟨p - 3, by omega⟩
  have h8 : (8 : ℝ) ≤ 2 ^ (q + 3) := by
    have : (1 : ℝ) ≤ 2 ^ q := one_le_pow₀ (by norm_num)
    rw [pow_add]
    linarith
  have h8z : (8 : ℤ) ≤ 2 ^ (q + 3) := by
    have : (1 : ℤ) ≤ 2 ^ q := one_le_pow₀ (by norm_num)
    rw [pow_add]
    linarith
  have hx1 : rnd (q + 3) (2 ^ (q + 3) - 2) = 2 ^ (q + 3) - 2 := by
    have := rnd_int (p := q + 3) (by omega) (m := 2 ^ (q + 3) - 2) (by rw [abs_of_nonneg (by linarith)]; linarith)
    push_cast at this
    exact this
  have hx2 : rnd (q + 3) (2 * (2 ^ (q + 3) - 2)) = 2 * (2 ^ (q + 3) - 2) := by
    refine rnd_float ⟨2 ^ (q + 3) - 2, 1, by rw [abs_of_nonneg (by linarith)]; linarith, ?_⟩
    push_cast
    rw [zpow_one]
    ring
  have hx3 : rnd (q + 3) (3 * (2 ^ (q + 3) - 2)) = 3 * 2 ^ (q + 3) - 8 := by
    have hpos : (0 : ℝ) < 3 * (2 ^ (q + 3) - 2) := by linarith
    have z1 : (2 : ℝ) ^ ((2 : ℤ) + ((q + 3 : ℕ) : ℤ) - 1) = 2 * 2 ^ (q + 3) := by
      rw [show (2 : ℤ) + ((q + 3 : ℕ) : ℤ) - 1 = ((q + 3 : ℕ) : ℤ) + 1 by ring, zpow_add_one₀ (by norm_num), zpow_natCast]
      ring
    have z2 : (2 : ℝ) ^ ((2 : ℤ) + ((q + 3 : ℕ) : ℤ)) = 4 * 2 ^ (q + 3) := by
      rw [zpow_add₀ (by norm_num : (2 : ℝ) ≠ 0), zpow_natCast]
      norm_num
    rw [rnd_of (k := 2) (by rw [z1, abs_of_pos hpos]; linarith) (by rw [z2, abs_of_pos hpos]; linarith)]
    have hn : Even (3 * 2 ^ (q + 1) - 2 : ℤ) := by
      rw [pow_succ]
      exact ⟨3 * 2 ^ q - 1, by ring⟩
    rw [ne_tie_up hn (by push_cast; rw [pow_add, pow_add]; norm_num; ring)]
    push_cast
    rw [pow_add, pow_add]
    norm_num
    ring
  have hx4 : rnd (q + 3) ((3 * 2 ^ (q + 3) - 8) / 3) = 2 ^ (q + 3) - 3 := by
    have hpos : (0 : ℝ) < (3 * 2 ^ (q + 3) - 8) / 3 := by linarith
    have z1 : (2 : ℝ) ^ ((0 : ℤ) + ((q + 3 : ℕ) : ℤ) - 1) = 2 ^ (q + 3) / 2 := by
      rw [show (0 : ℤ) + ((q + 3 : ℕ) : ℤ) - 1 = ((q + 3 : ℕ) : ℤ) - 1 by ring, zpow_sub_one₀ (by norm_num), zpow_natCast]
      ring
    have z2 : (2 : ℝ) ^ ((0 : ℤ) + ((q + 3 : ℕ) : ℤ)) = 2 ^ (q + 3) := by rw [zero_add, zpow_natCast]
    rw [rnd_of (k := 0) (by rw [z1, abs_of_pos hpos]; linarith) (by rw [z2, abs_of_pos hpos]; linarith)]
    rw [ne_of_lt (n := 2 ^ (q + 3) - 3) (by push_cast; rw [zpow_zero]; linarith)
      (by push_cast; rw [zpow_zero]; linarith)]
    push_cast
    rw [zpow_zero, mul_one]
  have h3 : rnd (q + 3) ((3 : ℕ) : ℝ) = 3 := by
    have := rnd_nat (p := q + 3) (n := 3) (by omega) (by
      have : 1 ≤ 2 ^ q := Nat.one_le_two_pow
      rw [pow_add]
      omega)
    exact_mod_cast this
  unfold mean accumulate
  simp only [List.foldl_cons, List.foldl_nil, zero_add]
  rw [hx1, show (2 : ℝ) ^ (q + 3) - 2 + (2 ^ (q + 3) - 2) = 2 * (2 ^ (q + 3) - 2) by ring, hx2,
    show 2 * ((2 : ℝ) ^ (q + 3) - 2) + (2 ^ (q + 3) - 2) = 3 * (2 ^ (q + 3) - 2) by ring, hx3]
  show quotient (q + 3) _ (rnd (q + 3) ((3 : ℕ) : ℝ)) = _
  rw [h3, quotient_pos _ (by norm_num), hx4]

/-- **C94 is violated**: the mean of three equal numbers can be smaller than all of them, and their variance is not 0. -/
theorem C94_constant_violates {p : ℕ} (hp : 3 ≤ p) :
    ∃ x m, IsFloat p x ∧ mean p [x, x, x] = some m ∧ m < x ∧ variance p [x, x, x] = some 1 := by
  refine ⟨2 ^ p - 2, 2 ^ p - 3, ?_, three_mean hp, by linarith, ?_⟩
  · refine ⟨2 ^ p - 2, 0, ?_, by push_cast; simp⟩
    have : (8 : ℤ) ≤ 2 ^ p := by
      calc (8 : ℤ) = 2 ^ 3 := by norm_num
        _ ≤ 2 ^ p := pow_le_pow_right₀ (by norm_num) hp
    rw [abs_of_nonneg (by linarith)]
    linarith
  · have r1 : rnd p 1 = 1 := by
      have := rnd_int (p := p) (by omega) (m := 1) (by rw [abs_one]; exact one_le_pow₀ (by norm_num))
      simpa using this
    have hle : (8 : ℕ) ≤ 2 ^ p := by
      calc (8 : ℕ) = 2 ^ 3 := by norm_num
        _ ≤ 2 ^ p := Nat.pow_le_pow_right (by norm_num) hp
    have r2 : rnd p 2 = 2 := by exact_mod_cast rnd_nat (p := p) (n := 2) (by omega) (by omega)
    have r3 : rnd p 3 = 3 := by exact_mod_cast rnd_nat (p := p) (n := 3) (by omega) (by omega)
    have r3' : rnd p ((3 : ℕ) : ℝ) = 3 := by exact_mod_cast r3
    unfold variance squares
    rw [three_mean hp]
    simp only [Option.bind_some, List.foldl_cons, List.foldl_nil, zero_add]
    rw [show (2 : ℝ) ^ p - 2 - (2 ^ p - 3) = 1 by ring, r1, mul_one, r1, r1, one_add_one_eq_two, r2,
      two_add_one_eq_three, r3]
    show quotient p 3 (rnd p ((3 : ℕ) : ℝ)) = _
    rw [r3', quotient_pos p (by norm_num), div_self (by norm_num), r1]

/-- In `float`: the mean of three times 16777214 is 16777213. -/
example : mean 24 [2 ^ 24 - 2, 2 ^ 24 - 2, 2 ^ 24 - 2] = some (2 ^ 24 - 3) := three_mean (by norm_num)

/-- Samples of 16 bits: the mean of up to 512 of them in `float` is the rounded mean. -/
example : mean 24 [1 / 2, -1, 3 / 32768] = some (rnd 24 (([1 / 2, -1, 3 / 32768] : List ℝ).sum / 3)) := by
  refine C94_exact_mean_partial (k := -15) (M := 32768) (by norm_num) (by norm_num) (by simp) ?_ (by norm_num)
  intro x hx
  simp only [List.mem_cons, List.not_mem_nil, or_false] at hx
  rcases hx with rfl | rfl | rfl
  · exact ⟨16384, by norm_num, by norm_num⟩
  · exact ⟨-32768, by norm_num, by norm_num⟩
  · exact ⟨3, by norm_num, by norm_num⟩

end Edsp.Rounded
