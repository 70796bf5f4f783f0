import Verif.Model.RoundedSums
import Verif.Lemmas.Float
import Mathlib.Data.List.GetD
import Mathlib.Data.List.TakeWhile

/-!
# C95: linspace in floating point arithmetic

`linspace(d, x1, x2, N)` should store `N` values, the first `x1`, the last `x2`, at equal distances.
-/

namespace Edsp.Rounded

open Edsp.Spec Edsp.FloatL

/-! ### Numbers -/

theorem rnd_scaled {p : ℕ} (hp : 1 ≤ p) {x : ℝ} (K : ℕ) (h1 : 2 ^ (p - 1) ≤ x * 2 ^ K) (h2 : x * 2 ^ K < 2 ^ p) :
    rnd p x = nearestEven (x * 2 ^ K) / 2 ^ K := by
  have hK : (0 : ℝ) < 2 ^ K := by positivity
  have e : (2 : ℝ) ^ (-(K : ℤ)) = 1 / 2 ^ K := by rw [zpow_neg, zpow_natCast, one_div]
  have hx : 0 < x := by
    by_contra hc
    have : x * 2 ^ K ≤ 0 := mul_nonpos_of_nonpos_of_nonneg (by linarith) hK.le
    have : (0 : ℝ) < 2 ^ (p - 1) := by positivity
    linarith
  rw [rnd_of (k := -(K : ℤ))]
  · rw [e, div_div_eq_mul_div, div_one, mul_one_div]
  · rw [abs_of_pos hx, show -(K : ℤ) + p - 1 = -(K : ℤ) + ((p - 1 : ℕ) : ℤ) by omega,
      zpow_add₀ (by norm_num : (2 : ℝ) ≠ 0), zpow_natCast, e, one_div_mul_eq_div, div_le_iff₀ hK]
    exact h1
  · rw [abs_of_pos hx, zpow_add₀ (by norm_num : (2 : ℝ) ≠ 0), zpow_natCast, e, one_div_mul_eq_div, lt_div_iff₀ hK]
    exact h2

theorem rnd_eval {p : ℕ} {x : ℝ} (K : ℕ) (n : ℤ) (h1 : 1 ≤ p ∧ 2 ^ (p - 1) ≤ x * 2 ^ K) (h2 : x * 2 ^ K < 2 ^ p)
    (h3 : (n : ℝ) - 1 / 2 < x * 2 ^ K) (h4 : x * 2 ^ K < n + 1 / 2) : rnd p x = n / 2 ^ K := by
  rw [rnd_scaled h1.1 K h1.2 h2, ne_of_lt h3 h4]

theorem rnd_tie_up {p : ℕ} {x : ℝ} (K : ℕ) (n : ℤ) (h1 : 1 ≤ p ∧ 2 ^ (p - 1) ≤ x * 2 ^ K) (h2 : x * 2 ^ K < 2 ^ p)
    (h3 : Even n) (h4 : x * 2 ^ K = n + 1 / 2) : rnd p x = n / 2 ^ K := by
  rw [rnd_scaled h1.1 K h1.2 h2, ne_tie_up h3 h4]

theorem rnd_tie_down {p : ℕ} {x : ℝ} (K : ℕ) (n : ℤ) (h1 : 1 ≤ p ∧ 2 ^ (p - 1) ≤ x * 2 ^ K) (h2 : x * 2 ^ K < 2 ^ p)
    (h3 : Even n) (h4 : x * 2 ^ K = n - 1 / 2) : rnd p x = n / 2 ^ K := by
  rw [rnd_scaled h1.1 K h1.2 h2, ne_tie_down h3 h4]

/-! ### The values -/

theorem takeWhile_all {p N : ℕ} (h : ∀ i < N, rnd p (i : ℝ) < rnd p (N : ℝ)) :
    ((List.range N).takeWhile fun i => decide (rnd p ((i : ℕ) : ℝ) < rnd p (N : ℝ))) = List.range N := by
  rw [List.takeWhile_eq_self_iff]
  intro i hi
  simpa using h i (by simpa using hi)

theorem rnd_natCast {p n : ℕ} (hp : 1 ≤ p) (h : n ≤ 2 ^ p) : rnd p (n : ℝ) = n := by
  have : (n : ℤ) ≤ 2 ^ p := by exact_mod_cast h
  exact_mod_cast rnd_int hp (m := (n : ℤ)) (by simpa using this)

/-- For `2 ≤ N ≤ 2^p` values are stored at all `N` positions. -/
theorem linspace_eq {p : ℕ} (hp : 1 ≤ p) {N : ℕ} (h2 : 2 ≤ N) (hN : N ≤ 2 ^ p) (x1 x2 : ℝ) :
    linspace p x1 x2 N
      = some ((List.range N).map (points p x1 (rnd p (rnd p (x2 - x1) / ((N - 1 : ℕ) : ℝ))))) := by
  have e1 : rnd p (rnd p (N : ℝ) - 1) = ((N - 1 : ℕ) : ℝ) := by
    rw [rnd_natCast hp hN, ← rnd_natCast hp (n := N - 1) (by omega), Nat.cast_sub (by omega), Nat.cast_one]
  have e2 : ((N - 1 : ℕ) : ℝ) ≠ 0 := by
    have : (0 : ℝ) < ((N - 1 : ℕ) : ℝ) := by exact_mod_cast (by omega : 0 < N - 1)
    exact this.ne'
  unfold linspace increment quotient
  rw [e1, if_neg e2, Option.map_some, takeWhile_all]
  intro i hi
  rw [rnd_natCast hp hN, rnd_natCast hp (by omega)]
  exact_mod_cast hi

/-- **C95**, every range and every `2 ≤ N ≤ 2^p`: `N` values are stored, the first is `x1`, and value number `i` differs
from `x1 + i (x2 - x1) / (N - 1)` by at most `((1 + 2^-p)^(i + 2) - 1) (|x1| + i |x2 - x1| / (N - 1))`.
Missing: that the last value is `x2` (`C95_short_violates`, `C95_beyond_violates`), and larger `N`
(`C95_count_violates`). -/
theorem C95_error_partial {p : ℕ} (hp : 1 ≤ p) {N : ℕ} (h2 : 2 ≤ N) (hN : N ≤ 2 ^ p) (x1 x2 : ℝ) :
    ∃ ys, linspace p x1 x2 N = some ys ∧ ys.length = N ∧ ys.getD 0 0 = x1 ∧
      ∀ i < N, |ys.getD i 0 - (x1 + i * ((x2 - x1) / (N - 1)))|
        ≤ ((1 + (2 : ℝ) ^ (-(p : ℤ))) ^ (i + 2) - 1) * (|x1| + i * |(x2 - x1) / (N - 1)|) := by
  refine ⟨_, linspace_eq hp h2 hN x1 x2, by simp, ?_, ?_⟩
  · rw [List.getD_eq_getElem _ _ (by simp; omega)]
    simp [points]
  have hu := two_zpow_pos (-(p : ℤ))
  set u := (2 : ℝ) ^ (-(p : ℤ)) with hudef
  have hn1 : ((N - 1 : ℕ) : ℝ) = (N : ℝ) - 1 := by rw [Nat.cast_sub (by omega), Nat.cast_one]
  have hn0 : (0 : ℝ) < (N : ℝ) - 1 := by
    rw [← hn1]
    exact_mod_cast (by omega : 0 < N - 1)
  rw [hn1]
  set D := (x2 - x1) / ((N : ℝ) - 1) with hD
  set inc := rnd p (rnd p (x2 - x1) / ((N : ℝ) - 1)) with hinc
  -- the increment
  have hi0 : |inc - D| + |D| ≤ (1 + u) ^ 2 * |D| := by
    have a1 := rnd_err p (x2 - x1)
    have a2 := rnd_err p (rnd p (x2 - x1) / ((N : ℝ) - 1))
    have a3 : |rnd p (x2 - x1) / ((N : ℝ) - 1) - D| ≤ u * |D| := by
      rw [hD, ← sub_div, abs_div, abs_div, abs_of_pos hn0, ← mul_div_assoc]
      gcongr
    have a4 : |rnd p (x2 - x1) / ((N : ℝ) - 1)| ≤ (1 + u) * |D| := by
      have := abs_add_le (rnd p (x2 - x1) / ((N : ℝ) - 1) - D) D
      rw [sub_add_cancel] at this
      linarith
    have a5 := mul_le_mul_of_nonneg_left a4 hu.le
    have a6 : |inc - D| ≤ |inc - rnd p (x2 - x1) / ((N : ℝ) - 1)| + |rnd p (x2 - x1) / ((N : ℝ) - 1) - D| :=
      abs_sub_le _ _ _
    have e : (1 + u) ^ 2 * |D| = u * ((1 + u) * |D|) + u * |D| + |D| := by ring
    rw [e]
    linarith
  have main : ∀ i : ℕ, |points p x1 inc i - (x1 + i * D)| + (|x1| + i * |D|)
      ≤ (1 + u) ^ (i + 2) * (|x1| + i * |D|) := by
    intro i
    induction i with
    | zero =>
      have : (1 : ℝ) ≤ (1 + u) ^ 2 := one_le_pow₀ (by linarith)
      have := mul_le_mul_of_nonneg_right this (abs_nonneg x1)
      simp only [points, Nat.cast_zero, zero_mul, add_zero, sub_self, abs_zero, zero_add]
      linarith
    | succ i ih =>
      have r := rnd_err p (points p x1 inc i + inc)
      set t := points p x1 inc i
      have hi : (0 : ℝ) ≤ i := Nat.cast_nonneg i
      have b1 : |t + inc| ≤ |t - (x1 + i * D)| + |inc - D| + (|x1| + (i + 1) * |D|) := by
        have t1 := abs_add_three (t - (x1 + i * D)) (inc - D) (x1 + (i + 1) * D)
        have t2 := abs_add_le x1 ((i + 1) * D)
        rw [abs_mul, abs_of_nonneg (by linarith : (0 : ℝ) ≤ (i : ℝ) + 1)] at t2
        rw [show t - (x1 + i * D) + (inc - D) + (x1 + (i + 1) * D) = t + inc by ring] at t1
        linarith
      have b2 : |rnd p (t + inc) - (x1 + ((i + 1 : ℕ) : ℝ) * D)|
          ≤ |rnd p (t + inc) - (t + inc)| + |t - (x1 + i * D)| + |inc - D| := by
        have t1 := abs_add_three (rnd p (t + inc) - (t + inc)) (t - (x1 + i * D)) (inc - D)
        rw [show rnd p (t + inc) - (t + inc) + (t - (x1 + i * D)) + (inc - D)
          = rnd p (t + inc) - (x1 + ((i + 1 : ℕ) : ℝ) * D) by push_cast; ring] at t1
        exact t1
      have b3 := mul_le_mul_of_nonneg_left b1 hu.le
      have b4 : |rnd p (t + inc) - (x1 + ((i + 1 : ℕ) : ℝ) * D)| + (|x1| + ((i + 1 : ℕ) : ℝ) * |D|)
          ≤ (1 + u) * ((1 + u) ^ (i + 2) * (|x1| + i * |D|) + (1 + u) ^ 2 * |D|) := by
        have c1 : |t - (x1 + i * D)| + |inc - D| + (|x1| + (i + 1) * |D|)
            ≤ (1 + u) ^ (i + 2) * (|x1| + i * |D|) + (1 + u) ^ 2 * |D| := by linarith
        have c2 := mul_le_mul_of_nonneg_left c1 (by linarith : (0 : ℝ) ≤ 1 + u)
        push_cast
        push_cast at b2
        linarith
      have b5 : (1 + u) ^ 2 * |D| ≤ (1 + u) ^ (i + 2) * |D| :=
        mul_le_mul_of_nonneg_right (pow_le_pow_right₀ (by linarith) (by omega)) (abs_nonneg _)
      have b6 := mul_le_mul_of_nonneg_left b5 (by linarith : (0 : ℝ) ≤ 1 + u)
      have b7 : (1 + u) ^ (i + 1 + 2) * (|x1| + ((i + 1 : ℕ) : ℝ) * |D|)
          = (1 + u) * ((1 + u) ^ (i + 2) * (|x1| + i * |D|) + (1 + u) ^ (i + 2) * |D|) := by
        rw [show i + 1 + 2 = (i + 2) + 1 by ring, pow_succ]
        push_cast
        ring
      show |rnd p (t + inc) - _| + _ ≤ _
      rw [b7]
      linarith
  intro i hi
  rw [List.getD_eq_getElem _ _ (by simpa using hi), List.getElem_map, List.getElem_range]
  have := main i
  linarith

/-- **C95** for ranges on a grid: `x1` is `a` units 2^k, the distance of neighbours `b` units, and
`|a| + (N - 1) |b| ≤ 2^p` (such as whole numbers): all values are exact, the last is `x2`. -/
theorem C95_exact_partial {p : ℕ} (hp : 1 ≤ p) {N : ℕ} (h2 : 2 ≤ N) (hN : N ≤ 2 ^ p) {a b k : ℤ}
    (h : |a| + (N - 1 : ℕ) * |b| ≤ 2 ^ p) :
    linspace p (a * 2 ^ k) (a * 2 ^ k + (N - 1 : ℕ) * (b * 2 ^ k)) N
      = some ((List.range N).map fun i : ℕ => (a : ℝ) * 2 ^ k + (i : ℝ) * (b * 2 ^ k)) := by
  have hN0 : ((N - 1 : ℕ) : ℝ) ≠ 0 := by
    have : (0 : ℝ) < ((N - 1 : ℕ) : ℝ) := by exact_mod_cast (by omega : 0 < N - 1)
    exact this.ne'
  have e1 : rnd p ((a * 2 ^ k + (N - 1 : ℕ) * (b * 2 ^ k)) - a * 2 ^ k) = (N - 1 : ℕ) * ((b : ℝ) * 2 ^ k) := by
    rw [add_sub_cancel_left]
    have : ((N - 1 : ℕ) : ℝ) * ((b : ℝ) * 2 ^ k) = (((N - 1 : ℕ) * b : ℤ) : ℝ) * 2 ^ k := by push_cast; ring
    rw [this]
    refine rnd_float (isFloat_int hp k ?_)
    rw [abs_mul, Nat.abs_cast]
    have := abs_nonneg a
    linarith
  have hb : |b| ≤ 2 ^ p := by
    have h1 : (1 : ℤ) ≤ ((N - 1 : ℕ) : ℤ) := by exact_mod_cast (by omega : 1 ≤ N - 1)
    have h3 := mul_le_mul_of_nonneg_right h1 (abs_nonneg b)
    have := abs_nonneg a
    linarith
  have e2 : rnd p (((N - 1 : ℕ) : ℝ) * ((b : ℝ) * 2 ^ k) / ((N - 1 : ℕ) : ℝ)) = b * 2 ^ k := by
    rw [mul_div_cancel_left₀ _ hN0]
    exact rnd_float (isFloat_int hp k hb)
  rw [linspace_eq hp h2 hN, e1, e2]
  congr 1
  apply List.map_congr_left
  intro i hi
  have hi : i < N := by simpa using hi
  have : ∀ j, j < N → points p (a * 2 ^ k) (b * 2 ^ k) j = (a : ℝ) * 2 ^ k + (j : ℝ) * (b * 2 ^ k) := by
    intro j
    induction j with
    | zero => intro _; simp [points]
    | succ j ih =>
      intro hj
      rw [points, ih (by omega)]
      have e : (a : ℝ) * 2 ^ k + (j : ℝ) * (b * 2 ^ k) + b * 2 ^ k = ((a + (j + 1) * b : ℤ) : ℝ) * 2 ^ k := by
        push_cast
        ring
      rw [e]
      have hle : |a + ((j : ℤ) + 1) * b| ≤ 2 ^ p := by
        have t1 := abs_add_le a (((j : ℤ) + 1) * b)
        rw [abs_mul, abs_of_nonneg (by positivity : (0 : ℤ) ≤ (j : ℤ) + 1)] at t1
        have t2 : (j : ℤ) + 1 ≤ ((N - 1 : ℕ) : ℤ) := by omega
        have t3 := mul_le_mul_of_nonneg_right t2 (abs_nonneg b)
        linarith
      rw [rnd_float (isFloat_int hp k hle)]
      push_cast
      ring
  exact this i hi

/-- **C95**: never more than `N` values are stored. -/
theorem C95_within (p : ℕ) (x1 x2 : ℝ) (N : ℕ) {ys : List ℝ} (h : linspace p x1 x2 N = some ys) : ys.length ≤ N := by
  unfold linspace at h
  obtain ⟨inc, _, rfl⟩ := Option.map_eq_some_iff.mp h
  rw [List.length_map]
  have := List.Sublist.length_le
    (List.takeWhile_sublist (l := List.range N) fun i => decide (rnd p ((i : ℕ) : ℝ) < rnd p (N : ℝ)))
  rwa [List.length_range] at this

/-- **C95 is violated**: for `N = 2^p + 1` (16777217 in `float`) only `N - 1` values are stored, as the number of values
is rounded; the last position keeps what it held. -/
theorem C95_count_violates {p : ℕ} (hp : 2 ≤ p) (x1 x2 : ℝ) {ys : List ℝ}
    (h : linspace p x1 x2 (2 ^ p + 1) = some ys) : ys.length = 2 ^ p := by
  unfold linspace at h
  obtain ⟨inc, _, rfl⟩ := Option.map_eq_some_iff.mp h
  have e : rnd p ((2 ^ p + 1 : ℕ) : ℝ) = 2 ^ p := by
    push_cast
    exact rnd_succ hp
  rw [List.length_map, e, List.range_succ, List.takeWhile_append_of_pos]
  · have hlast : rnd p ((2 ^ p : ℕ) : ℝ) = 2 ^ p := by
      rw [rnd_natCast (by omega) le_rfl]
      push_cast
      rfl
    rw [List.takeWhile_cons_of_neg (by rw [hlast]; simp), List.append_nil, List.length_range]
  · intro i hi
    have hi : i < 2 ^ p := by simpa using hi
    rw [rnd_natCast (by omega) hi.le]
    have : (i : ℝ) < 2 ^ p := by exact_mod_cast hi
    simpa using this

/-- Such a call does store its values: the increment is finite. -/
theorem C95_count_finite {p : ℕ} (hp : 2 ≤ p) (x1 x2 : ℝ) : ∃ ys, linspace p x1 x2 (2 ^ p + 1) = some ys := by
  unfold linspace increment quotient
  have e : rnd p ((2 ^ p + 1 : ℕ) : ℝ) = 2 ^ p := by
    push_cast
    exact rnd_succ hp
  have h1 : (1 : ℝ) < 2 ^ p := one_lt_pow₀ (by norm_num) (by omega)
  have : rnd p ((2 : ℝ) ^ p - 1) ≠ 0 := (rnd_pos (by omega) (by linarith)).ne'
  rw [e, if_neg this]
  exact ⟨_, rfl⟩

/-! ### End points -/

theorem double_7_inc : rnd 53 (1 / 6) = 6004799503160661 / 36028797018963968 := by
  rw [rnd_eval 55 6004799503160661 (by norm_num) (by norm_num) (by norm_num) (by norm_num)]; norm_num

theorem double_7_0 : points 53 0 (6004799503160661 / 36028797018963968) 0 = 0 := rfl

theorem double_7_1 : points 53 0 (6004799503160661 / 36028797018963968) 1 = 6004799503160661 / 36028797018963968 := by
  rw [points, double_7_0, rnd_eval 55 6004799503160661 (by norm_num) (by norm_num) (by norm_num) (by norm_num)]; norm_num

theorem double_7_2 : points 53 0 (6004799503160661 / 36028797018963968) 2 = 6004799503160661 / 18014398509481984 := by
  rw [points, double_7_1, rnd_eval 54 6004799503160661 (by norm_num) (by norm_num) (by norm_num) (by norm_num)]; norm_num

theorem double_7_3 : points 53 0 (6004799503160661 / 36028797018963968) 3 = 1 / 2 := by
  rw [points, double_7_2, rnd_tie_down 54 9007199254740992 (by norm_num) (by norm_num) (by decide) (by norm_num)]; norm_num

theorem double_7_4 : points 53 0 (6004799503160661 / 36028797018963968) 4 = 6004799503160661 / 9007199254740992 := by
  rw [points, double_7_3, rnd_eval 53 6004799503160661 (by norm_num) (by norm_num) (by norm_num) (by norm_num)]; norm_num

theorem double_7_5 : points 53 0 (6004799503160661 / 36028797018963968) 5 = 3752999689475413 / 4503599627370496 := by
  rw [points, double_7_4, rnd_eval 53 7505999378950826 (by norm_num) (by norm_num) (by norm_num) (by norm_num)]; norm_num

theorem double_7_6 : points 53 0 (6004799503160661 / 36028797018963968) 6 = 9007199254740991 / 9007199254740992 := by
  rw [points, double_7_5, rnd_eval 53 9007199254740991 (by norm_num) (by norm_num) (by norm_num) (by norm_num)]; norm_num

theorem float_11_inc : rnd 24 (1 / 10) = 13421773 / 134217728 := by
  rw [rnd_eval 27 13421773 (by norm_num) (by norm_num) (by norm_num) (by norm_num)]; norm_num

theorem float_11_0 : points 24 0 (13421773 / 134217728) 0 = 0 := rfl

theorem float_11_1 : points 24 0 (13421773 / 134217728) 1 = 13421773 / 134217728 := by
  rw [points, float_11_0, rnd_eval 27 13421773 (by norm_num) (by norm_num) (by norm_num) (by norm_num)]; norm_num

theorem float_11_2 : points 24 0 (13421773 / 134217728) 2 = 13421773 / 67108864 := by
  rw [points, float_11_1, rnd_eval 26 13421773 (by norm_num) (by norm_num) (by norm_num) (by norm_num)]; norm_num

theorem float_11_3 : points 24 0 (13421773 / 134217728) 3 = 5033165 / 16777216 := by
  rw [points, float_11_2, rnd_eval 25 10066330 (by norm_num) (by norm_num) (by norm_num) (by norm_num)]; norm_num

theorem float_11_4 : points 24 0 (13421773 / 134217728) 4 = 13421773 / 33554432 := by
  rw [points, float_11_3, rnd_eval 25 13421773 (by norm_num) (by norm_num) (by norm_num) (by norm_num)]; norm_num

theorem float_11_5 : points 24 0 (13421773 / 134217728) 5 = 1 / 2 := by
  rw [points, float_11_4, rnd_eval 24 8388608 (by norm_num) (by norm_num) (by norm_num) (by norm_num)]; norm_num

theorem float_11_6 : points 24 0 (13421773 / 134217728) 6 = 5033165 / 8388608 := by
  rw [points, float_11_5, rnd_eval 24 10066330 (by norm_num) (by norm_num) (by norm_num) (by norm_num)]; norm_num

theorem float_11_7 : points 24 0 (13421773 / 134217728) 7 = 2936013 / 4194304 := by
  rw [points, float_11_6, rnd_eval 24 11744052 (by norm_num) (by norm_num) (by norm_num) (by norm_num)]; norm_num

theorem float_11_8 : points 24 0 (13421773 / 134217728) 8 = 6710887 / 8388608 := by
  rw [points, float_11_7, rnd_eval 24 13421774 (by norm_num) (by norm_num) (by norm_num) (by norm_num)]; norm_num

theorem float_11_9 : points 24 0 (13421773 / 134217728) 9 = 1887437 / 2097152 := by
  rw [points, float_11_8, rnd_eval 24 15099496 (by norm_num) (by norm_num) (by norm_num) (by norm_num)]; norm_num

theorem float_11_10 : points 24 0 (13421773 / 134217728) 10 = 8388609 / 8388608 := by
  rw [points, float_11_9, rnd_eval 23 8388609 (by norm_num) (by norm_num) (by norm_num) (by norm_num)]; norm_num

/-- **C95 is violated**: in `double`, the last value of `linspace(d, 0., 1., 7)` is less than 1. -/
theorem C95_short_violates : ∃ ys, linspace 53 0 1 7 = some ys ∧ ys.getD 6 0 = 1 - 2 ^ (-53 : ℤ) := by
  refine ⟨_, linspace_eq (by norm_num) (by norm_num) (by norm_num) 0 1, ?_⟩
  have e : rnd 53 (rnd 53 (1 - 0) / ((7 - 1 : ℕ) : ℝ)) = 6004799503160661 / 36028797018963968 := by
    rw [sub_zero, show (1 : ℝ) = ((1 : ℕ) : ℝ) by norm_num, rnd_natCast (by norm_num) (by norm_num)]
    rw [show (((1 : ℕ) : ℝ)) / ((7 - 1 : ℕ) : ℝ) = 1 / 6 by norm_num]
    exact double_7_inc
  rw [e, List.getD_eq_getElem _ _ (by simp), List.getElem_map, List.getElem_range, double_7_6]
  norm_num

/-- **C95 is violated**: in `float`, the last value of `linspace(d, 0.f, 1.f, 11)` is greater than 1. -/
theorem C95_beyond_violates : ∃ ys, linspace 24 0 1 11 = some ys ∧ ys.getD 10 0 = 1 + 2 ^ (-23 : ℤ) := by
  refine ⟨_, linspace_eq (by norm_num) (by norm_num) (by norm_num) 0 1, ?_⟩
  have e : rnd 24 (rnd 24 (1 - 0) / ((11 - 1 : ℕ) : ℝ)) = 13421773 / 134217728 := by
    rw [sub_zero, show (1 : ℝ) = ((1 : ℕ) : ℝ) by norm_num, rnd_natCast (by norm_num) (by norm_num)]
    rw [show (((1 : ℕ) : ℝ)) / ((11 - 1 : ℕ) : ℝ) = 1 / 10 by norm_num]
    exact float_11_inc
  rw [e, List.getD_eq_getElem _ _ (by simp), List.getElem_map, List.getElem_range, float_11_10]
  norm_num

/-- Whole numbers in `float`: 0, 3, …, 300. -/
example : linspace 24 ((0 : ℤ) * 2 ^ (0 : ℤ)) ((0 : ℤ) * 2 ^ (0 : ℤ) + (101 - 1 : ℕ) * ((3 : ℤ) * 2 ^ (0 : ℤ))) 101
    = some ((List.range 101).map fun i : ℕ => ((0 : ℤ) : ℝ) * 2 ^ (0 : ℤ) + (i : ℝ) * ((3 : ℤ) * 2 ^ (0 : ℤ))) :=
  C95_exact_partial (by norm_num) (by norm_num) (by norm_num) (by norm_num)

end Edsp.Rounded
