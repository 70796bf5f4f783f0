import Verif.Lemmas.RoundedRamp
import Mathlib.Algebra.Order.Floor.Ring
import Mathlib.Tactic.FieldSimp

/-!
# Operations that are exact in floating point arithmetic
-/

namespace Edsp.FloatX

open Edsp.Spec Edsp.FloatL Edsp.RampL

/-- A multiple of the last place of a number that is not larger than the number. -/
theorem isFloat_mult {p : ℕ} {m j k : ℤ} (hm : |m| < 2 ^ p) (h : |(j : ℝ) * 2 ^ k| ≤ |(m : ℝ) * 2 ^ k|) :
    IsFloat p (j * 2 ^ k) := by
  have hk := two_zpow_pos k
  rw [abs_mul, abs_mul, abs_of_pos hk] at h
  have h1 : |(j : ℝ)| ≤ |(m : ℝ)| := le_of_mul_le_mul_right h hk
  have h2 : |j| ≤ |m| := by exact_mod_cast h1
  exact ⟨j, k, lt_of_le_of_lt h2 hm, rfl⟩

/-- The difference of two numbers is exact if it is not larger than each of them. -/
theorem isFloat_sub {p : ℕ} {x y : ℝ} (hx : IsFloat p x) (hy : IsFloat p y) (h1 : |x - y| ≤ |x|)
    (h2 : |x - y| ≤ |y|) : IsFloat p (x - y) := by
  obtain ⟨m, k, hm, rfl⟩ := hx
  obtain ⟨n, l, hn, rfl⟩ := hy
  rcases le_total k l with hkl | hkl
  · obtain ⟨d, hd⟩ := Int.eq_ofNat_of_zero_le (by omega : 0 ≤ l - k)
    have e : (n : ℝ) * 2 ^ l = ((n * 2 ^ d : ℤ) : ℝ) * 2 ^ k := by
      push_cast
      rw [mul_assoc, ← zpow_natCast (2 : ℝ) d, ← zpow_add₀ (by norm_num : (2 : ℝ) ≠ 0)]
      congr 2; omega
    have e2 : (m : ℝ) * 2 ^ k - n * 2 ^ l = ((m - n * 2 ^ d : ℤ) : ℝ) * 2 ^ k := by
      rw [e]; push_cast; ring
    rw [e2] at h1 ⊢
    exact isFloat_mult hm h1
  · obtain ⟨d, hd⟩ := Int.eq_ofNat_of_zero_le (by omega : 0 ≤ k - l)
    have e : (m : ℝ) * 2 ^ k = ((m * 2 ^ d : ℤ) : ℝ) * 2 ^ l := by
      push_cast
      rw [mul_assoc, ← zpow_natCast (2 : ℝ) d, ← zpow_add₀ (by norm_num : (2 : ℝ) ≠ 0)]
      congr 2; omega
    have e2 : (m : ℝ) * 2 ^ k - n * 2 ^ l = ((m * 2 ^ d - n : ℤ) : ℝ) * 2 ^ l := by
      rw [e]; push_cast; ring
    rw [e2] at h2 ⊢
    exact isFloat_mult hn h2

/-- Numbers within a factor of two of each other are subtracted exactly. -/
theorem sterbenz {p : ℕ} {x y : ℝ} (hx : IsFloat p x) (hy : IsFloat p y) (h1 : y / 2 ≤ x) (h2 : x ≤ 2 * y) :
    IsFloat p (x - y) := by
  have hy0 : 0 ≤ y := by linarith
  have hx0 : 0 ≤ x := by linarith
  refine isFloat_sub hx hy ?_ ?_
  · rw [abs_of_nonneg hx0, abs_le]; constructor <;> linarith
  · rw [abs_of_nonneg hy0, abs_le]; constructor <;> linarith

/-- An integer less than 1 away from a number with `p` bits has `p` bits. -/
theorem isFloat_near {p : ℕ} (hp : 1 ≤ p) {x : ℝ} (hx : IsFloat p x) {n : ℤ} (h : |(n : ℝ) - x| < 1) :
    IsFloat p n := by
  obtain ⟨m, k, hm, rfl⟩ := hx
  rcases le_or_gt 0 k with hk | hk
  · obtain ⟨d, rfl⟩ := Int.eq_ofNat_of_zero_le hk
    have e : (m : ℝ) * 2 ^ (Int.ofNat d : ℤ) = ((m * 2 ^ d : ℤ) : ℝ) := by
      push_cast; rfl
    have h1 : |n - m * 2 ^ d| < 1 := by
      rw [show ((d : ℤ)) = Int.ofNat d from rfl, e] at h
      exact_mod_cast h
    have h2 : n = m * 2 ^ d := by
      have := Int.abs_lt_one_iff.mp h1
      omega
    refine ⟨m, d, hm, ?_⟩
    rw [h2]; push_cast; rfl
  · have hkk : (2 : ℝ) ^ k ≤ 1 / 2 := by
      have : (2 : ℝ) ^ k ≤ 2 ^ (-1 : ℤ) := zpow_le_zpow_right₀ (by norm_num) (by omega)
      rw [zpow_neg_one] at this
      linarith
    have hk0 := two_zpow_pos k
    have hmr : |(m : ℝ)| ≤ 2 ^ p := by exact_mod_cast hm.le
    have h1 : |(m : ℝ) * 2 ^ k| ≤ 2 ^ p * (1 / 2) := by
      rw [abs_mul, abs_of_pos hk0]
      exact mul_le_mul hmr hkk hk0.le (by positivity)
    have h2 : (2 : ℝ) ≤ 2 ^ p := by
      calc (2 : ℝ) = 2 ^ 1 := by norm_num
        _ ≤ 2 ^ p := pow_le_pow_right₀ (by norm_num) hp
    have h3 : |(n : ℝ)| < 2 ^ p * (1 / 2) + 1 := by
      have := abs_sub_abs_le_abs_sub (n : ℝ) (m * 2 ^ k)
      linarith
    have h4 : |(n : ℝ)| ≤ 2 ^ p := by linarith
    have := isFloat_int hp (m := n) 0 (by exact_mod_cast h4)
    simpa using this

/-- The part behind the point of a number that is not negative, or at most -1. -/
theorem isFloat_fract {p : ℕ} {x : ℝ} (hx : IsFloat p x) (h : 0 ≤ x ∨ x ≤ -1) : IsFloat p (x - ⌊x⌋) := by
  have hf1 := Int.floor_le x
  have hf2 := Int.lt_floor_add_one x
  have hle : |x - ⌊x⌋| ≤ |x| := by
    rw [abs_of_nonneg (by linarith)]
    rcases h with h | h
    · rw [abs_of_nonneg h]
      have : (0 : ℝ) ≤ ⌊x⌋ := by exact_mod_cast Int.floor_nonneg.mpr h
      linarith
    · rw [abs_of_neg (by linarith)]; linarith
  obtain ⟨m, k, hm, hxe⟩ := hx
  rcases le_or_gt 0 k with hk | hk
  · obtain ⟨d, rfl⟩ := Int.eq_ofNat_of_zero_le hk
    have e : x = ((m * 2 ^ d : ℤ) : ℝ) := by rw [hxe]; push_cast; rfl
    rw [e, Int.floor_intCast, sub_self]
    exact ⟨0, 0, by simp, by simp⟩
  · obtain ⟨d, hd⟩ := Int.eq_ofNat_of_zero_le (by omega : 0 ≤ -k)
    have e : (⌊x⌋ : ℝ) = ((⌊x⌋ * 2 ^ d : ℤ) : ℝ) * 2 ^ k := by
      push_cast
      rw [mul_assoc, ← zpow_natCast (2 : ℝ) d, ← zpow_add₀ (by norm_num : (2 : ℝ) ≠ 0),
        show (d : ℤ) + k = 0 by omega, zpow_zero, mul_one]
    have e2 : x - ⌊x⌋ = ((m - ⌊x⌋ * 2 ^ d : ℤ) : ℝ) * 2 ^ k := by
      rw [Int.cast_sub, sub_mul, ← e, ← hxe]
    rw [e2] at hle ⊢
    rw [hxe] at hle
    exact isFloat_mult hm (by rw [← hxe] at hle ⊢; exact hle)

theorem two_neg_half (p : ℕ) : (2 : ℝ) ^ (-(p : ℤ) - 1) = 2 ^ (-(p : ℤ)) / 2 := by
  rw [zpow_sub_one₀ (by norm_num)]; ring

theorem two_neg_le {p : ℕ} (hp : 1 ≤ p) : (2 : ℝ) ^ (-(p : ℤ)) ≤ 1 / 2 := by
  have : (2 : ℝ) ^ (-(p : ℤ)) ≤ 2 ^ (-1 : ℤ) := zpow_le_zpow_right₀ (by norm_num) (by omega)
  rw [zpow_neg_one] at this
  linarith

/-- The numbers between 1/2 and 1. -/
theorem rnd_below_one {p : ℕ} {y : ℝ} (h1 : 1 / 2 ≤ y) (h2 : y < 1) :
    rnd p y = nearestEven (y * 2 ^ p) * 2 ^ (-(p : ℤ)) := by
  have hy : |y| = y := abs_of_nonneg (by linarith)
  rw [rnd_of (p := p) (k := -(p : ℤ)) (by rw [hy]; simpa using h1) (by rw [hy]; simpa using h2)]
  congr 3
  rw [zpow_neg, zpow_natCast, div_inv_eq_mul]

theorem pow_cancel (p : ℕ) : (2 : ℝ) ^ p * 2 ^ (-(p : ℤ)) = 1 := by
  rw [zpow_neg, zpow_natCast]
  exact mul_inv_cancel₀ (by positivity)

/-- Numbers close to 1 are rounded to 1. -/
theorem rnd_to_one {p : ℕ} (hp : 1 ≤ p) {y : ℝ} (h1 : 1 - 2 ^ (-(p : ℤ) - 1) ≤ y) (h2 : y ≤ 1) : rnd p y = 1 := by
  have hone : rnd p 1 = 1 := by simpa using rnd_float (isFloat_two_zpow hp 0)
  refine le_antisymm (hone ▸ rnd_mono hp h2) ?_
  refine le_trans ?_ (rnd_mono hp h1)
  have hu := two_neg_le hp
  have hu0 := two_zpow_pos (-(p : ℤ))
  rw [two_neg_half]
  rw [rnd_below_one (by linarith) (by linarith), ne_tie_down (n := 2 ^ p)]
  · push_cast; rw [pow_cancel]
  · exact (even_two).pow_of_ne_zero (by omega)
  · have := pow_cancel p
    push_cast
    nlinarith

/-- The others are not. -/
theorem rnd_lt_one {p : ℕ} (hp : 1 ≤ p) {y : ℝ} (h : y < 1 - 2 ^ (-(p : ℤ) - 1)) : rnd p y < 1 := by
  have hu := two_neg_le hp
  have hu0 := two_zpow_pos (-(p : ℤ))
  have hc := pow_cancel p
  rw [two_neg_half] at h
  have hP : (1 : ℝ) ≤ 2 ^ p := one_le_pow₀ (by norm_num)
  -- the neighbour below 1
  have hb : rnd p (1 - 2 ^ (-(p : ℤ))) = 1 - 2 ^ (-(p : ℤ)) := by
    have e : (1 : ℝ) - 2 ^ (-(p : ℤ)) = ((2 ^ p - 1 : ℤ) : ℝ) * 2 ^ (-(p : ℤ)) := by
      push_cast; linarith
    rw [e]
    refine rnd_float ⟨2 ^ p - 1, -(p : ℤ), ?_, rfl⟩
    have : (1 : ℤ) ≤ 2 ^ p := one_le_pow₀ (by norm_num)
    rw [abs_of_nonneg (by omega)]; omega
  rcases le_or_gt y (1 - 2 ^ (-(p : ℤ))) with hle | hgt
  · have := rnd_mono hp hle
    rw [hb] at this
    linarith
  · rw [rnd_below_one (by linarith) (by linarith), ne_of_lt (n := 2 ^ p - 1)]
    · push_cast; nlinarith
    · push_cast
      have := mul_lt_mul_of_pos_right hgt (show (0 : ℝ) < 2 ^ p by linarith)
      nlinarith
    · push_cast
      have := mul_lt_mul_of_pos_right h (show (0 : ℝ) < 2 ^ p by linarith)
      nlinarith

theorem rnd_abs {p : ℕ} (hp : 1 ≤ p) (x : ℝ) : |rnd p x| = rnd p |x| := by
  rcases le_total 0 x with h | h
  · rw [abs_of_nonneg h, abs_of_nonneg]
    have := rnd_mono hp h
    rwa [rnd_zero] at this
  · rw [abs_of_nonpos h, rnd_neg, abs_of_nonpos]
    have := rnd_mono hp h
    rwa [rnd_zero] at this

/-- More bits. -/
theorem isFloat_more {p q : ℕ} (h : p ≤ q) {x : ℝ} (hx : IsFloat p x) : IsFloat q x := by
  obtain ⟨m, k, hm, rfl⟩ := hx
  exact ⟨m, k, lt_of_lt_of_le hm (pow_le_pow_right₀ (by norm_num) h), rfl⟩

/-- Multiplication by a power of two. -/
theorem isFloat_scale {p : ℕ} {x : ℝ} (hx : IsFloat p x) (e : ℤ) : IsFloat p (2 ^ e * x) := by
  obtain ⟨m, k, hm, rfl⟩ := hx
  refine ⟨m, k + e, hm, ?_⟩
  rw [zpow_add₀ (by norm_num : (2 : ℝ) ≠ 0)]; ring

theorem isFloat_abs {p : ℕ} {x : ℝ} (hx : IsFloat p x) : IsFloat p |x| := by
  obtain ⟨m, k, hm, rfl⟩ := hx
  refine ⟨|m|, k, by rwa [abs_abs], ?_⟩
  rw [abs_mul, abs_of_pos (two_zpow_pos k)]
  push_cast; rfl

theorem rnd_eq_zero {p : ℕ} (hp : 1 ≤ p) {x : ℝ} : rnd p x = 0 ↔ x = 0 := by
  constructor
  · intro h
    rcases lt_trichotomy x 0 with hx | hx | hx
    · have := rnd_pos hp (x := -x) (by linarith)
      rw [rnd_neg] at this; linarith
    · exact hx
    · have := rnd_pos hp hx; linarith
  · rintro rfl; exact rnd_zero p

theorem rnd_pos_iff {p : ℕ} (hp : 1 ≤ p) {x : ℝ} : 0 < rnd p x ↔ 0 < x := by
  constructor
  · intro h
    by_contra hc
    have := rnd_mono hp (not_lt.mp hc)
    rw [rnd_zero] at this; linarith
  · exact rnd_pos hp

end Edsp.FloatX
