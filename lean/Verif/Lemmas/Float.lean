import Verif.Spec.Float
import Mathlib.Tactic.Linarith
import Mathlib.Tactic.NormNum
import Mathlib.Tactic.Ring
import Mathlib.Tactic.FieldSimp
import Mathlib.Tactic.Positivity

/-!
# Rounding to nearest even
-/

namespace Edsp.FloatL

open Edsp.Spec

/-! ### The nearest integer -/

theorem ne_of_lt {x : ℝ} {n : ℤ} (h1 : (n : ℝ) - 1 / 2 < x) (h2 : x < n + 1 / 2) : nearestEven x = n := by
  by_cases hn : (n : ℝ) ≤ x
  · have hf : ⌊x⌋ = n := Int.floor_eq_iff.mpr ⟨hn, by linarith⟩
    unfold nearestEven
    rw [hf, if_pos (by linarith)]
  · have hf : ⌊x⌋ = n - 1 := Int.floor_eq_iff.mpr ⟨by push_cast; linarith, by push_cast; linarith⟩
    unfold nearestEven
    rw [hf, if_neg (by push_cast; linarith), if_pos (by push_cast; linarith)]
    ring

theorem ne_int (n : ℤ) : nearestEven n = n := ne_of_lt (by linarith) (by linarith)

theorem ne_tie_up {x : ℝ} {n : ℤ} (hn : Even n) (h : x = n + 1 / 2) : nearestEven x = n := by
  have hf : ⌊x⌋ = n := Int.floor_eq_iff.mpr ⟨by linarith, by linarith⟩
  unfold nearestEven
  rw [hf, if_neg (by linarith), if_neg (by linarith), if_pos hn]

theorem ne_tie_down {x : ℝ} {n : ℤ} (hn : Even n) (h : x = n - 1 / 2) : nearestEven x = n := by
  have hf : ⌊x⌋ = n - 1 := Int.floor_eq_iff.mpr ⟨by push_cast; linarith, by push_cast; linarith⟩
  have ho : ¬ Even (n - 1) := by
    rw [Int.even_sub_one]
    simpa using hn
  unfold nearestEven
  rw [hf, if_neg (by push_cast; linarith), if_neg (by push_cast; linarith), if_neg ho]
  ring

theorem ne_abs (x : ℝ) : |(nearestEven x : ℝ) - x| ≤ 1 / 2 := by
  have h1 := Int.floor_le x
  have h2 := Int.lt_floor_add_one x
  unfold nearestEven
  split_ifs <;> push_cast <;> rw [abs_le] <;> constructor <;> linarith

theorem ne_mono {x y : ℝ} (h : x ≤ y) : nearestEven x ≤ nearestEven y := by
  by_contra hc
  have hc : nearestEven y + 1 ≤ nearestEven x := by omega
  have hr : (nearestEven y : ℝ) + 1 ≤ nearestEven x := by exact_mod_cast hc
  have h1 := abs_le.mp (ne_abs x)
  have h2 := abs_le.mp (ne_abs y)
  have hxy : x = y := by linarith
  rw [hxy] at hc
  omega

theorem ne_neg (x : ℝ) : nearestEven (-x) = -nearestEven x := by
  have h := abs_le.mp (ne_abs x)
  rcases lt_trichotomy ((nearestEven x : ℝ) - x) (1 / 2) with h1 | h1 | h1
  · rcases lt_trichotomy (-(1 / 2)) ((nearestEven x : ℝ) - x) with h2 | h2 | h2
    · exact ne_of_lt (by push_cast; linarith) (by push_cast; linarith)
    · have he : Even (nearestEven x) := by
        by_contra ho
        have hf : ⌊x⌋ = nearestEven x := Int.floor_eq_iff.mpr ⟨by linarith, by linarith⟩
        have : nearestEven x = nearestEven x + 1 := by
          conv_lhs => unfold nearestEven
          rw [hf, if_neg (by linarith), if_neg (by linarith), if_neg ho]
        omega
      exact ne_tie_down he.neg (by push_cast; linarith)
    · linarith
  · have he : Even (nearestEven x) := by
      by_contra ho
      have hf : ⌊x⌋ = nearestEven x - 1 := Int.floor_eq_iff.mpr ⟨by push_cast; linarith, by push_cast; linarith⟩
      have he : Even (nearestEven x - 1) := by
        rw [Int.even_sub_one]
        exact ho
      have : nearestEven x = nearestEven x - 1 := by
        conv_lhs => unfold nearestEven
        rw [hf, if_neg (by push_cast; linarith), if_neg (by push_cast; linarith), if_pos he]
      omega
    exact ne_tie_up he.neg (by push_cast; linarith)
  · linarith

/-! ### Rounding -/

theorem two_zpow_pos (k : ℤ) : (0 : ℝ) < 2 ^ k := zpow_pos (by norm_num) k

theorem log_spec {x : ℝ} (hx : x ≠ 0) :
    (2 : ℝ) ^ Int.log 2 |x| ≤ |x| ∧ |x| < 2 ^ (Int.log 2 |x| + 1) := by
  have h := abs_pos.mpr hx
  have h1 := Int.zpow_log_le_self (b := 2) (r := |x|) (by norm_num) h
  have h2 := Int.lt_zpow_succ_log_self (b := 2) (by norm_num) |x|
  exact ⟨by exact_mod_cast h1, by exact_mod_cast h2⟩

theorem log_unique {x : ℝ} {e : ℤ} (h1 : (2 : ℝ) ^ e ≤ |x|) (h2 : |x| < 2 ^ (e + 1)) : Int.log 2 |x| = e := by
  have h := lt_of_lt_of_le (two_zpow_pos e) h1
  have a1 := (Int.zpow_le_iff_le_log (b := 2) (x := e) (by norm_num) h).mp (by exact_mod_cast h1)
  have a2 := (Int.lt_zpow_iff_log_lt (b := 2) (x := e + 1) (by norm_num) h).mp (by exact_mod_cast h2)
  omega

theorem rnd_zero (p : ℕ) : rnd p 0 = 0 := by
  unfold rnd
  rw [if_pos rfl]

/-- Rounding, with the unit in the last place given. -/
theorem rnd_of {p : ℕ} {x : ℝ} {k : ℤ} (h1 : (2 : ℝ) ^ (k + p - 1) ≤ |x|) (h2 : |x| < 2 ^ (k + p)) :
    rnd p x = nearestEven (x / 2 ^ k) * 2 ^ k := by
  have hx : x ≠ 0 := by
    intro h
    rw [h, abs_zero] at h1
    have := two_zpow_pos (k + p - 1)
    linarith
  have hl := log_unique h1 (by rwa [show k + (p : ℤ) - 1 + 1 = k + p by ring])
  have hu : ulp p x = 2 ^ k := by
    unfold ulp
    rw [hl]
    congr 1
    ring
  unfold rnd
  rw [if_neg hx, hu]

theorem rnd_spec {p : ℕ} {x : ℝ} (hx : x ≠ 0) : ∃ k : ℤ, (2 : ℝ) ^ (k + p - 1) ≤ |x| ∧ |x| < 2 ^ (k + p) ∧
    rnd p x = nearestEven (x / 2 ^ k) * 2 ^ k := by
  obtain ⟨h1, h2⟩ := log_spec hx
  have e1 : Int.log 2 |x| - (p : ℤ) + 1 + p - 1 = Int.log 2 |x| := by ring
  have e2 : Int.log 2 |x| - (p : ℤ) + 1 + p = Int.log 2 |x| + 1 := by ring
  refine ⟨Int.log 2 |x| - p + 1, by rwa [e1], by rwa [e2], rnd_of (by rwa [e1]) (by rwa [e2])⟩

theorem rnd_neg (p : ℕ) (x : ℝ) : rnd p (-x) = -rnd p x := by
  by_cases hx : x = 0
  · rw [hx, neg_zero, rnd_zero, neg_zero]
  · obtain ⟨k, h1, h2, h3⟩ := rnd_spec (p := p) hx
    rw [rnd_of (p := p) (k := k) (by rwa [abs_neg]) (by rwa [abs_neg]), h3, neg_div, ne_neg]
    push_cast
    ring

/-- The relative error of a rounding is at most 2^-p. -/
theorem rnd_err (p : ℕ) (x : ℝ) : |rnd p x - x| ≤ (2 : ℝ) ^ (-(p : ℤ)) * |x| := by
  by_cases hx : x = 0
  · rw [hx, rnd_zero]; simp
  · obtain ⟨k, h1, h2, h3⟩ := rnd_spec (p := p) hx
    have hk := two_zpow_pos k
    have hn := ne_abs (x / 2 ^ k)
    have e : rnd p x - x = (nearestEven (x / 2 ^ k) - x / 2 ^ k) * 2 ^ k := by
      rw [h3]; field_simp
    rw [e, abs_mul, abs_of_pos hk]
    calc |(nearestEven (x / 2 ^ k) : ℝ) - x / 2 ^ k| * 2 ^ k ≤ 1 / 2 * 2 ^ k :=
          mul_le_mul_of_nonneg_right hn hk.le
      _ = 2 ^ (-(p : ℤ)) * 2 ^ (k + p - 1) := by
          rw [← zpow_add₀ (by norm_num : (2 : ℝ) ≠ 0), show -(p : ℤ) + (k + p - 1) = k - 1 by ring,
            zpow_sub_one₀ (by norm_num)]
          ring
      _ ≤ 2 ^ (-(p : ℤ)) * |x| := mul_le_mul_of_nonneg_left h1 (two_zpow_pos _).le

/-- Numbers with `p` bits are not changed. -/
theorem rnd_float {p : ℕ} {x : ℝ} (h : IsFloat p x) : rnd p x = x := by
  by_cases hx : x = 0
  · rw [hx, rnd_zero]
  obtain ⟨m, k, hm, rfl⟩ := h
  obtain ⟨j, h1, h2, h3⟩ := rnd_spec (p := p) hx
  have hk := two_zpow_pos k
  have hmr : |(m : ℝ)| < 2 ^ p := by exact_mod_cast hm
  have hlt : (2 : ℝ) ^ (j + p - 1) < 2 ^ (k + p) := by
    refine lt_of_le_of_lt h1 ?_
    rw [abs_mul, abs_of_pos hk, zpow_add₀ (by norm_num : (2 : ℝ) ≠ 0), mul_comm, zpow_natCast]
    exact mul_lt_mul_of_pos_left hmr hk
  have hj : j ≤ k := by
    have := (zpow_lt_zpow_iff_right₀ (by norm_num : (1 : ℝ) < 2)).mp hlt
    omega
  obtain ⟨d, hd⟩ := Int.eq_ofNat_of_zero_le (by omega : 0 ≤ k - j)
  have e : (m : ℝ) * 2 ^ k / 2 ^ j = ((m * 2 ^ d : ℤ) : ℝ) := by
    rw [mul_div_assoc, ← zpow_sub₀ (by norm_num : (2 : ℝ) ≠ 0), hd]
    push_cast
    rfl
  rw [h3, e, ne_int, ← e]
  field_simp

theorem zpow_nat (p : ℕ) (hp : 1 ≤ p) : (2 : ℝ) ^ ((p : ℤ) - 1) = ((2 ^ (p - 1) : ℤ) : ℝ) := by
  rw [show (p : ℤ) - 1 = ((p - 1 : ℕ) : ℤ) by omega, zpow_natCast]
  push_cast
  rfl

/-- The rounded significand. -/
theorem significand {p : ℕ} (hp : 1 ≤ p) {x : ℝ} {k : ℤ} (h1 : (2 : ℝ) ^ (k + p - 1) ≤ x)
    (h2 : x < 2 ^ (k + p)) : 2 ^ (p - 1) ≤ nearestEven (x / 2 ^ k) ∧ nearestEven (x / 2 ^ k) ≤ 2 ^ p := by
  have hk := two_zpow_pos k
  constructor
  · have : (((2 ^ (p - 1) : ℤ)) : ℝ) ≤ x / 2 ^ k := by
      rw [le_div_iff₀ hk, ← zpow_nat p hp, ← zpow_add₀ (by norm_num : (2 : ℝ) ≠ 0)]
      rwa [show (p : ℤ) - 1 + k = k + p - 1 by ring]
    have := ne_mono this
    rwa [ne_int] at this
  · have : x / 2 ^ k ≤ (((2 ^ p : ℤ)) : ℝ) := by
      rw [div_le_iff₀ hk]
      push_cast
      rw [← zpow_natCast, ← zpow_add₀ (by norm_num : (2 : ℝ) ≠ 0), add_comm]
      exact h2.le
    have := ne_mono this
    rwa [ne_int] at this

theorem rnd_mono_pos {p : ℕ} (hp : 1 ≤ p) {x y : ℝ} (hx : 0 < x) (h : x ≤ y) : rnd p x ≤ rnd p y := by
  have hy := lt_of_lt_of_le hx h
  obtain ⟨k, h1, h2, h3⟩ := rnd_spec (p := p) hx.ne'
  obtain ⟨j, g1, g2, g3⟩ := rnd_spec (p := p) hy.ne'
  rw [abs_of_pos hx] at h1 h2
  rw [abs_of_pos hy] at g1 g2
  have hk := two_zpow_pos k
  have hj := two_zpow_pos j
  have hkj : k ≤ j := by
    have := (zpow_lt_zpow_iff_right₀ (by norm_num : (1 : ℝ) < 2)).mp (lt_of_le_of_lt (h1.trans h) g2)
    omega
  rw [h3, g3]
  rcases hkj.lt_or_eq with hlt | rfl
  · have s1 := (significand hp h1 h2).2
    have s2 := (significand hp g1 g2).1
    have s1' : (nearestEven (x / 2 ^ k) : ℝ) ≤ 2 ^ p := by exact_mod_cast s1
    have s2' : (2 : ℝ) ^ (p - 1) ≤ nearestEven (y / 2 ^ j) := by exact_mod_cast s2
    calc (nearestEven (x / 2 ^ k) : ℝ) * 2 ^ k ≤ 2 ^ p * 2 ^ k := mul_le_mul_of_nonneg_right s1' hk.le
      _ = 2 ^ (p - 1) * 2 ^ (k + 1) := by
          rw [zpow_add_one₀ (by norm_num : (2 : ℝ) ≠ 0)]
          obtain ⟨q, rfl⟩ : ∃ q, p = q + 1 := ⟨p - 1, by omega⟩
          rw [Nat.add_sub_cancel, pow_succ]
          ring
      _ ≤ 2 ^ (p - 1) * 2 ^ j :=
          mul_le_mul_of_nonneg_left (zpow_le_zpow_right₀ (by norm_num) (by omega)) (by positivity)
      _ ≤ nearestEven (y / 2 ^ j) * 2 ^ j := mul_le_mul_of_nonneg_right s2' hj.le
  · have : nearestEven (x / 2 ^ k) ≤ nearestEven (y / 2 ^ k) := ne_mono (by gcongr)
    have : (nearestEven (x / 2 ^ k) : ℝ) ≤ nearestEven (y / 2 ^ k) := by exact_mod_cast this
    exact mul_le_mul_of_nonneg_right this hk.le

theorem rnd_pos {p : ℕ} (hp : 1 ≤ p) {x : ℝ} (hx : 0 < x) : 0 < rnd p x := by
  obtain ⟨k, h1, h2, h3⟩ := rnd_spec (p := p) hx.ne'
  rw [abs_of_pos hx] at h1 h2
  have s := (significand hp h1 h2).1
  have : 0 < nearestEven (x / 2 ^ k) := lt_of_lt_of_le (by positivity) s
  have : (0 : ℝ) < nearestEven (x / 2 ^ k) := by exact_mod_cast this
  rw [h3]
  have := two_zpow_pos k
  positivity

/-- Rounding keeps the order. -/
theorem rnd_mono {p : ℕ} (hp : 1 ≤ p) {x y : ℝ} (h : x ≤ y) : rnd p x ≤ rnd p y := by
  rcases lt_trichotomy x 0 with hx | hx | hx
  · rcases lt_trichotomy y 0 with hy | hy | hy
    · have := rnd_mono_pos hp (x := -y) (y := -x) (by linarith) (by linarith)
      rw [rnd_neg, rnd_neg] at this
      linarith
    · have := rnd_pos hp (x := -x) (by linarith)
      rw [rnd_neg] at this
      rw [hy, rnd_zero]
      linarith
    · have a := rnd_pos hp (x := -x) (by linarith)
      have b := rnd_pos hp hy
      rw [rnd_neg] at a
      linarith
  · rcases h.lt_or_eq with hy | rfl
    · rw [hx, rnd_zero]
      exact (rnd_pos hp (by linarith)).le
    · exact le_rfl
  · exact rnd_mono_pos hp hx h

/-- The result of a rounding has `p` bits. -/
theorem isFloat_rnd {p : ℕ} (hp : 1 ≤ p) (x : ℝ) : IsFloat p (rnd p x) := by
  have hpos : ∀ y : ℝ, 0 < y → IsFloat p (rnd p y) := by
    intro y hy
    obtain ⟨k, h1, h2, h3⟩ := rnd_spec (p := p) hy.ne'
    rw [abs_of_pos hy] at h1 h2
    obtain ⟨s1, s2⟩ := significand hp h1 h2
    have s0 : 0 ≤ nearestEven (y / 2 ^ k) := le_trans (by positivity) s1
    rcases s2.lt_or_eq with hlt | heq
    · exact ⟨nearestEven (y / 2 ^ k), k, by rwa [abs_of_nonneg s0], h3⟩
    · refine ⟨1, k + p, ?_, ?_⟩
      · rw [abs_one]
        exact one_lt_pow₀ (by norm_num) (by omega)
      · rw [h3, heq, zpow_add₀ (by norm_num : (2 : ℝ) ≠ 0), zpow_natCast]
        push_cast
        ring
  rcases lt_trichotomy x 0 with hx | hx | hx
  · obtain ⟨m, k, h1, h2⟩ := hpos (-x) (by linarith)
    refine ⟨-m, k, by rwa [abs_neg], ?_⟩
    rw [rnd_neg] at h2
    push_cast
    linarith
  · exact ⟨0, 0, by simp, by rw [hx, rnd_zero]; simp⟩
  · exact hpos x hx

theorem rnd_rnd {p : ℕ} (hp : 1 ≤ p) (x : ℝ) : rnd p (rnd p x) = rnd p x := rnd_float (isFloat_rnd hp x)

/-- Small integers, scaled, have `p` bits. -/
theorem isFloat_int {p : ℕ} (hp : 1 ≤ p) {m : ℤ} (k : ℤ) (h : |m| ≤ 2 ^ p) : IsFloat p (m * 2 ^ k) := by
  rcases h.lt_or_eq with hlt | heq
  · exact ⟨m, k, hlt, rfl⟩
  · have h1 : (1 : ℤ) < 2 ^ p := one_lt_pow₀ (by norm_num) (by omega)
    rcases abs_choice m with hc | hc
    · refine ⟨1, k + p, by rwa [abs_one], ?_⟩
      rw [← hc, heq, zpow_add₀ (by norm_num : (2 : ℝ) ≠ 0), zpow_natCast]
      push_cast
      ring
    · refine ⟨-1, k + p, by rwa [abs_neg, abs_one], ?_⟩
      have : m = -2 ^ p := by omega
      rw [this, zpow_add₀ (by norm_num : (2 : ℝ) ≠ 0), zpow_natCast]
      push_cast
      ring

theorem rnd_int {p : ℕ} (hp : 1 ≤ p) {m : ℤ} (h : |m| ≤ 2 ^ p) : rnd p m = m := by
  have := rnd_float (isFloat_int hp 0 h)
  simpa using this

/-- A small addend is lost: `t` lies in the binade of 2^e, `d` is less than half a unit in the last place. -/
theorem rnd_absorb {p : ℕ} {t d : ℝ} {e : ℤ} (ht : IsFloat p t) (h1 : (2 : ℝ) ^ e ≤ t)
    (h2 : t < 2 ^ (e + 1)) (hd0 : 0 ≤ d) (hd : d < 2 ^ (e - p)) : rnd p (t + d) = t := by
  obtain ⟨m, k, hm, rfl⟩ := ht
  have he := two_zpow_pos e
  have ht0 : (0 : ℝ) < m * 2 ^ k := lt_of_lt_of_le he h1
  have hk := two_zpow_pos k
  have hm0 : (0 : ℝ) < m := by
    by_contra hc
    have : (m : ℝ) * 2 ^ k ≤ 0 := mul_nonpos_of_nonpos_of_nonneg (by linarith) hk.le
    linarith
  have hmr : (m : ℝ) < 2 ^ p := by
    have := lt_of_le_of_lt (le_abs_self m) hm
    exact_mod_cast this
  -- the exponent of the unit in the last place
  set u : ℤ := e - p + 1 with hu
  have hup := two_zpow_pos u
  have hku : u ≤ k := by
    have : (2 : ℝ) ^ e < 2 ^ (k + p) := by
      refine lt_of_le_of_lt h1 ?_
      rw [zpow_add₀ (by norm_num : (2 : ℝ) ≠ 0), mul_comm, zpow_natCast]
      exact mul_lt_mul_of_pos_left hmr hk
    have := (zpow_lt_zpow_iff_right₀ (by norm_num : (1 : ℝ) < 2)).mp this
    omega
  obtain ⟨c, hc⟩ := Int.eq_ofNat_of_zero_le (by omega : 0 ≤ k - u)
  set n : ℤ := m * 2 ^ c with hn
  have ht' : (m : ℝ) * 2 ^ k = n * 2 ^ u := by
    rw [hn]
    push_cast
    rw [mul_assoc, ← zpow_natCast (2 : ℝ) c, ← zpow_add₀ (by norm_num : (2 : ℝ) ≠ 0)]
    congr 2
    omega
  have hhalf : (2 : ℝ) ^ (e - p) = 1 / 2 * 2 ^ u := by
    rw [hu, zpow_add_one₀ (by norm_num : (2 : ℝ) ≠ 0)]
    ring
  have hd' : d / 2 ^ u < 1 / 2 := by
    rw [div_lt_iff₀ hup, ← hhalf]
    exact hd
  have hd0' : 0 ≤ d / 2 ^ u := div_nonneg hd0 hup.le
  -- `t + d` stays in the binade
  have hint : n + 1 ≤ 2 ^ p := by
    have : (n : ℝ) * 2 ^ u < 2 ^ p * 2 ^ u := by
      rw [← ht', ← zpow_natCast (2 : ℝ) p, ← zpow_add₀ (by norm_num : (2 : ℝ) ≠ 0),
        show (p : ℤ) + u = e + 1 by omega]
      exact h2
    have := lt_of_mul_lt_mul_right this hup.le
    have : n < 2 ^ p := by exact_mod_cast this
    omega
  have htop : (m : ℝ) * 2 ^ k + d < 2 ^ (u + p) := by
    have h3 : ((n : ℝ) + 1) * 2 ^ u ≤ 2 ^ p * 2 ^ u := by
      refine mul_le_mul_of_nonneg_right ?_ hup.le
      exact_mod_cast hint
    rw [zpow_add₀ (by norm_num : (2 : ℝ) ≠ 0), zpow_natCast, ht', mul_comm ((2 : ℝ) ^ u)]
    have : d < 2 ^ u := by rw [hhalf] at hd; linarith
    linarith
  have hpos : 0 < (m : ℝ) * 2 ^ k + d := by linarith
  rw [rnd_of (p := p) (k := u) (by rw [abs_of_pos hpos, show u + (p : ℤ) - 1 = e by omega]; linarith)
    (by rwa [abs_of_pos hpos]), ht', add_div, mul_div_cancel_right₀ _ hup.ne',
    ne_of_lt (n := n) (by linarith) (by linarith)]

/-- The first integer without `p` bits: 2^p + 1 is rounded to 2^p. -/
theorem rnd_succ {p : ℕ} (hp : 2 ≤ p) : rnd p (2 ^ p + 1) = 2 ^ p := by
  have h1 : (1 : ℝ) < 2 ^ p := one_lt_pow₀ (by norm_num) (by omega)
  have hpos : (0 : ℝ) < 2 ^ p + 1 := by linarith
  have e1 : (2 : ℝ) ^ ((1 : ℤ) + p - 1) = 2 ^ p := by
    rw [show (1 : ℤ) + p - 1 = (p : ℤ) by ring, zpow_natCast]
  have e2 : (2 : ℝ) ^ ((1 : ℤ) + p) = 2 * 2 ^ p := by
    rw [zpow_add₀ (by norm_num : (2 : ℝ) ≠ 0), zpow_natCast, zpow_one]
  rw [rnd_of (p := p) (k := 1) (by rw [e1, abs_of_pos hpos]; linarith) (by rw [e2, abs_of_pos hpos]; linarith)]
  obtain ⟨q, rfl⟩ : ∃ q, p = q + 2 := ⟨p - 2, by omega⟩
  have hn : Even (2 ^ (q + 1) : ℤ) := by
    rw [pow_succ]
    exact Even.mul_left (by decide) _
  rw [ne_tie_up hn (by push_cast; rw [zpow_one, pow_succ 2 (q + 1)]; ring)]
  push_cast
  rw [zpow_one, ← pow_succ]

end Edsp.FloatL
