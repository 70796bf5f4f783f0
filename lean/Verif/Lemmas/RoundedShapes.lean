import Verif.Lemmas.RoundedWindows
import Verif.Props.C38_Windows

/-!
# Windows in floating point: the loops and the values stored
-/

namespace Edsp.RndWinL
open Edsp Edsp.Spec Edsp.RndWin Edsp.FloatL

/-! ### Rounding near 1 and by powers of two -/

theorem rnd_double (p : ℕ) (x : ℝ) : rnd p (2 * x) = 2 * rnd p x := by
  by_cases hx : x = 0
  · rw [hx, mul_zero, rnd_zero, mul_zero]
  · obtain ⟨k, h1, h2, h3⟩ := rnd_spec (p := p) hx
    have e1 : (2 : ℝ) ^ (k + 1 + p - 1) = 2 * 2 ^ (k + p - 1) := by
      rw [show k + 1 + (p : ℤ) - 1 = (k + p - 1) + 1 by ring, zpow_add_one₀ (by norm_num), mul_comm]
    have e2 : (2 : ℝ) ^ (k + 1 + p) = 2 * 2 ^ (k + p) := by
      rw [show k + 1 + (p : ℤ) = (k + p) + 1 by ring, zpow_add_one₀ (by norm_num), mul_comm]
    have e3 : |2 * x| = 2 * |x| := by rw [abs_mul]; norm_num
    rw [rnd_of (p := p) (x := 2 * x) (k := k + 1) (by rw [e1, e3]; linarith) (by rw [e2, e3]; linarith), h3,
      zpow_add_one₀ (by norm_num : (2 : ℝ) ≠ 0)]
    have e4 : 2 * x / (2 ^ k * 2) = x / (2 : ℝ) ^ k := by
      rw [mul_comm (2 : ℝ) x, mul_div_mul_right _ _ (by norm_num)]
    rw [e4]
    ring

theorem rnd_one {p : ℕ} (hp : 1 ≤ p) : rnd p 1 = 1 := by
  have := rnd_int hp (m := 1) (by rw [abs_one]; exact one_le_pow₀ (by norm_num))
  simpa using this

theorem rnd_tie {p : ℕ} (hp : 2 ≤ p) : rnd p (1 + u p) = 1 := by
  have hu := u_pos p
  have hu1 : u p < 1 := by
    have : u p ≤ (2 : ℝ) ^ (-2 : ℤ) := zpow_le_zpow_right₀ (by norm_num) (by omega)
    refine lt_of_le_of_lt this ?_
    norm_num
  have hpos : |1 + u p| = 1 + u p := abs_of_pos (by linarith)
  rw [rnd_of (p := p) (x := 1 + u p) (k := 1 - p) (by
    rw [hpos, show (1 : ℤ) - p + p - 1 = 0 by ring, zpow_zero]; linarith) (by
    rw [hpos, show (1 : ℤ) - p + p = 1 by ring, zpow_one]; linarith)]
  have e0 : (2 : ℝ) ^ (1 - (p : ℤ)) = 2 * u p := by
    rw [show 1 - (p : ℤ) = -(p : ℤ) + 1 by ring, zpow_add_one₀ (by norm_num), mul_comm]
  have e1 : (1 + u p) / 2 ^ (1 - (p : ℤ)) = ((2 ^ (p - 1) : ℤ) : ℝ) + 1 / 2 := by
    rw [e0, ← zpow_nat p (by omega)]
    have e2 : (2 : ℝ) ^ ((p : ℤ) - 1) * (2 * u p) = 1 := by
      unfold u
      rw [show (2 : ℝ) * 2 ^ (-(p : ℤ)) = 2 ^ (1 - (p : ℤ)) from e0.symm, ← zpow_add₀ (by norm_num)]
      simp
    rw [div_eq_iff (by positivity), add_mul, e2]
    ring
  rw [ne_tie_up (n := 2 ^ (p - 1)) (Even.pow_of_ne_zero (by decide) (by omega)) e1, ← zpow_nat p (by omega),
    ← zpow_add₀ (by norm_num)]
  simp

theorem rnd_le_one {p : ℕ} (hp : 2 ≤ p) {x : ℝ} (h : x ≤ 1 + u p) : rnd p x ≤ 1 :=
  (rnd_mono (by omega) h).trans (rnd_tie hp).le

theorem rnd_nonneg {p : ℕ} (hp : 1 ≤ p) {x : ℝ} (h : 0 ≤ x) : 0 ≤ rnd p x := by
  rw [← rnd_zero p]
  exact rnd_mono hp h

theorem rnd_below {p : ℕ} (hp : 1 ≤ p) {x : ℝ} (h : 1 - u p ≤ x) : 1 - u p ≤ rnd p x := by
  have hf : IsFloat p (1 - u p) := by
    refine ⟨2 ^ p - 1, -(p : ℤ), ?_, ?_⟩
    · have : (1 : ℤ) ≤ 2 ^ p := one_le_pow₀ (by norm_num)
      rw [abs_of_nonneg (by omega)]; omega
    · push_cast
      rw [sub_mul, one_mul, ← zpow_natCast, ← zpow_add₀ (by norm_num)]
      simp
  rw [← rnd_float hf]
  exact rnd_mono hp h

theorem abs_rnd_le {p : ℕ} (hp : 1 ≤ p) {x y : ℝ} (hy : rnd p y = y) (h : |x| ≤ y) : |rnd p x| ≤ y := by
  have h := abs_le.mp h
  refine abs_le.mpr ⟨?_, ?_⟩
  · have := rnd_mono hp h.1
    rwa [rnd_neg, hy] at this
  · have := rnd_mono hp h.2
    rwa [hy] at this

theorem complement_range {p : ℕ} (hp : 2 ≤ p) {x : ℝ} (h0 : 0 ≤ x) (h1 : x ≤ 1) :
    0 ≤ rnd p (1 - x) ∧ rnd p (1 - x) ≤ 1 :=
  ⟨rnd_nonneg (by omega) (by linarith), rnd_le_one hp (by have := u_pos p; linarith)⟩

/-! ### Bartlett -/

/-- `2 * i * factor` of bartlett. -/
noncomputable def slope (p N i : ℕ) : ℝ := rnd p (rnd p ((2 * i : ℕ) : ℝ) * rnd p (1 / rnd p ((N : ℝ) - 1)))

theorem slope_err {p : ℕ} (hp : 24 ≤ p) {N i : ℕ} (hN : 2 ≤ N) (hi : i < N) :
    |slope p N i - 2 * (i : ℝ) / ((N : ℝ) - 1)| ≤ 21 * u p := by
  have hu := u_pos p
  obtain ⟨hM, hi'⟩ := size_facts hN hi
  have h := ratio_err hp (a := 1) (A := 1) zero_le_one (by linarith : 0 < (N : ℝ) - 1)
    (Nat.cast_nonneg (2 * i) : (0 : ℝ) ≤ (2 * i : ℕ)) (by linarith) (by linarith)
  have e : 1 / ((N : ℝ) - 1) * ((2 * i : ℕ) : ℝ) = 2 * (i : ℝ) / ((N : ℝ) - 1) := by push_cast; ring
  rw [e, mul_comm (rnd p (1 / _))] at h
  have hle : 2 * (i : ℝ) / ((N : ℝ) - 1) ≤ 2 := by rw [div_le_iff₀ (by linarith)]; linarith
  refine h.trans ?_
  have : u p * (2 * (i : ℝ) / ((N : ℝ) - 1)) ≤ u p * 2 := mul_le_mul_of_nonneg_left hle hu.le
  rw [mul_assoc]
  linarith

theorem inv_prod {p : ℕ} {m : ℝ} (hm : 0 < m) : 1 - u p ≤ m * rnd p (1 / m) ∧ m * rnd p (1 / m) ≤ 1 + u p := by
  obtain ⟨h1, h2⟩ := rel p (by positivity : 0 ≤ 1 / m)
  have e : ∀ x : ℝ, m * (x * (1 / m)) = x := by intro x; field_simp
  have a1 := mul_le_mul_of_nonneg_left h1 hm.le
  have a2 := mul_le_mul_of_nonneg_left h2 hm.le
  rw [e] at a1 a2
  exact ⟨a1, a2⟩

theorem rnd_size_pos {p : ℕ} (hp : 1 ≤ p) {N : ℕ} (hN : 2 ≤ N) : 0 < rnd p ((N : ℝ) - 1) := by
  have h1 : (2 : ℝ) ≤ N := by exact_mod_cast hN
  exact rnd_pos hp (by linarith)

theorem slope_low {p : ℕ} (hp : 2 ≤ p) {N i : ℕ} (hN : 2 ≤ N) (h : 2 * i + 1 ≤ N) :
    0 ≤ slope p N i ∧ slope p N i ≤ 1 := by
  have hm := rnd_size_pos (p := p) (by omega) hN
  have hf : 0 ≤ rnd p (1 / rnd p ((N : ℝ) - 1)) := rnd_nonneg (by omega) (by positivity)
  have h2 : rnd p ((2 * i : ℕ) : ℝ) ≤ rnd p ((N : ℝ) - 1) := by
    apply rnd_mono (by omega)
    have : ((2 * i + 1 : ℕ) : ℝ) ≤ N := by exact_mod_cast h
    push_cast at this ⊢
    linarith
  constructor
  · exact rnd_nonneg (by omega) (mul_nonneg (rnd_nonneg (by omega) (Nat.cast_nonneg _)) hf)
  · exact rnd_le_one hp ((mul_le_mul_of_nonneg_right h2 hf).trans (inv_prod hm).2)

theorem slope_high {p : ℕ} (hp : 2 ≤ p) {N i : ℕ} (hN : 2 ≤ N) (hi : i < N) (h : N ≤ 2 * i + 1) :
    1 - u p ≤ slope p N i ∧ slope p N i ≤ 2 := by
  have hm := rnd_size_pos (p := p) (by omega) hN
  have hf : 0 ≤ rnd p (1 / rnd p ((N : ℝ) - 1)) := rnd_nonneg (by omega) (by positivity)
  have h2 : rnd p ((N : ℝ) - 1) ≤ rnd p ((2 * i : ℕ) : ℝ) := by
    apply rnd_mono (by omega)
    have : (N : ℝ) ≤ ((2 * i + 1 : ℕ) : ℝ) := by exact_mod_cast h
    push_cast at this ⊢
    linarith
  have h3 : rnd p ((2 * i : ℕ) : ℝ) ≤ 2 * rnd p ((N : ℝ) - 1) := by
    rw [← rnd_double]
    apply rnd_mono (by omega)
    obtain ⟨_, h⟩ := size_facts hN hi
    push_cast
    linarith
  constructor
  · exact rnd_below (by omega) ((inv_prod hm).1.trans (mul_le_mul_of_nonneg_right h2 hf))
  · have h4 : rnd p ((2 * i : ℕ) : ℝ) * rnd p (1 / rnd p ((N : ℝ) - 1)) ≤ 2 * (1 + u p) := by
      refine (mul_le_mul_of_nonneg_right h3 hf).trans ?_
      rw [mul_assoc]
      linarith [(inv_prod (p := p) hm).2]
    have h5 := rnd_mono (p := p) (by omega) h4
    rw [rnd_double, rnd_tie hp] at h5
    unfold slope
    linarith

/-! ### Welch -/

/-- The value stored by welch. -/
noncomputable def welchAt (p N i : ℕ) : ℝ :=
  let L := rnd p ((N / 2 : ℕ) : ℝ)
  let q := rnd p (rnd p (rnd p (i : ℝ) - L) / L)
  rnd p (1 - rnd p (q * q))

theorem half_pos {p : ℕ} (hp : 1 ≤ p) {N : ℕ} (hN : 2 ≤ N) : 0 < rnd p ((N / 2 : ℕ) : ℝ) :=
  rnd_pos hp (by exact_mod_cast (by omega : 0 < N / 2))

theorem welch_range {p : ℕ} (hp : 2 ≤ p) {N i : ℕ} (hN : 2 ≤ N) (hi : i < N) :
    0 ≤ welchAt p N i ∧ welchAt p N i ≤ 1 := by
  have hL := half_pos (p := p) (by omega) hN
  have h1 : rnd p (i : ℝ) ≤ 2 * rnd p ((N / 2 : ℕ) : ℝ) := by
    rw [← rnd_double]
    apply rnd_mono (by omega)
    exact_mod_cast (by omega : i ≤ 2 * (N / 2))
  have h0 : 0 ≤ rnd p (i : ℝ) := rnd_nonneg (by omega) (Nat.cast_nonneg i)
  have hLL := rnd_rnd (p := p) (by omega) ((N / 2 : ℕ) : ℝ)
  unfold welchAt
  set L := rnd p ((N / 2 : ℕ) : ℝ)
  have h2 : |rnd p (rnd p (i : ℝ) - L)| ≤ L := abs_rnd_le (by omega) hLL (abs_le.mpr ⟨by linarith, by linarith⟩)
  have h3 : |rnd p (rnd p (rnd p (i : ℝ) - L) / L)| ≤ 1 := by
    apply abs_rnd_le (by omega) (rnd_one (by omega))
    rw [abs_div, abs_of_pos hL, div_le_one hL]
    exact h2
  set q := rnd p (rnd p (rnd p (i : ℝ) - L) / L)
  have h4 : 0 ≤ q * q := mul_self_nonneg q
  have h5 : q * q ≤ 1 := by
    rw [← abs_mul_abs_self]
    nlinarith [abs_nonneg q]
  exact complement_range hp (rnd_nonneg (by omega) h4) ((rnd_mono (by omega) h5).trans (rnd_one (by omega)).le)

theorem quotient_err {p : ℕ} (hp : 24 ≤ p) {d D L n : ℝ} (hn : 0 < n) (h1 : |d - D| ≤ 5 * u p * n)
    (h2 : |L - n| ≤ u p * n) (hD : |D| ≤ n) : |rnd p (d / L) - D / n| ≤ 9 * u p := by
  have hu := u_pos p
  have hs := u_small hp
  have hL : n / 2 ≤ L := by
    have := (abs_le.mp h2).1
    nlinarith
  have hL0 : 0 < L := by linarith
  have e : d / L - D / n = (d - D) / L - D / n * ((L - n) / L) := by field_simp; ring
  have hQ : |D / n| ≤ 1 := by rw [abs_div, abs_of_pos hn, div_le_one hn]; exact hD
  have hLn : n ≤ 1.001 * L := by
    have := (abs_le.mp h2).1
    nlinarith
  have a1 : |(d - D) / L| ≤ 5.01 * u p := by
    rw [abs_div, abs_of_pos hL0, div_le_iff₀ hL0]
    have : u p * n ≤ u p * (1.001 * L) := mul_le_mul_of_nonneg_left hLn hu.le
    nlinarith
  have a2 : |D / n * ((L - n) / L)| ≤ 1.01 * u p := by
    rw [abs_mul]
    have a3 : |(L - n) / L| ≤ 1.01 * u p := by
      rw [abs_div, abs_of_pos hL0, div_le_iff₀ hL0]
      have : u p * n ≤ u p * (1.001 * L) := mul_le_mul_of_nonneg_left hLn hu.le
      nlinarith
    calc |D / n| * |(L - n) / L| ≤ 1 * (1.01 * u p) := mul_le_mul hQ a3 (abs_nonneg _) zero_le_one
      _ = _ := one_mul _
  have a4 : |d / L - D / n| ≤ 6.02 * u p := by
    rw [e]
    have := abs_sub ((d - D) / L) (D / n * ((L - n) / L))
    linarith
  have a5 : |d / L| ≤ 2 := by
    have : |d / L| ≤ |d / L - D / n| + |D / n| := by simpa using abs_add_le (d / L - D / n) (D / n)
    linarith
  have a6 := rnd_err p (d / L)
  change _ ≤ u p * _ at a6
  have a7 : u p * |d / L| ≤ u p * 2 := mul_le_mul_of_nonneg_left a5 hu.le
  have a8 := abs_sub_le (rnd p (d / L)) (d / L) (D / n)
  linarith

theorem complement_err {p : ℕ} {x X e : ℝ} (h : |x - X| ≤ e) (hx : |1 - x| ≤ 2) :
    |rnd p (1 - x) - (1 - X)| ≤ e + 2 * u p := by
  have hu := u_pos p
  have h1 := rnd_err p (1 - x)
  change _ ≤ u p * _ at h1
  have h2 : |(1 - x) - (1 - X)| ≤ e := by
    rw [show (1 - x) - (1 - X) = -(x - X) by ring, abs_neg]; exact h
  have h3 : u p * |1 - x| ≤ u p * 2 := mul_le_mul_of_nonneg_left hx hu.le
  have h4 := abs_sub_le (rnd p (1 - x)) (1 - x) (1 - X)
  linarith

theorem square_err {p : ℕ} (hp : 24 ≤ p) {q Q e : ℝ} (h : |q - Q| ≤ e) (hq : |q| ≤ 1) (hQ : |Q| ≤ 1) :
    |rnd p (1 - rnd p (q * q)) - (1 - Q ^ 2)| ≤ 2 * e + 3 * u p := by
  have hu := u_pos p
  have h5 : q * q ≤ 1 := by
    rw [← abs_mul_abs_self]
    nlinarith [abs_nonneg q]
  have h4 : 0 ≤ q * q := mul_self_nonneg q
  have h1 := rnd_err p (q * q)
  change _ ≤ u p * _ at h1
  rw [abs_of_nonneg h4] at h1
  have h2 : |q * q - Q ^ 2| ≤ 2 * e := by
    rw [show q * q - Q ^ 2 = (q - Q) * (q + Q) by ring, abs_mul]
    have h6 : |q + Q| ≤ 2 := by linarith [abs_add_le q Q]
    calc |q - Q| * |q + Q| ≤ e * 2 := mul_le_mul h h6 (abs_nonneg _) ((abs_nonneg _).trans h)
      _ = 2 * e := mul_comm _ _
  have h3 : u p * (q * q) ≤ u p * 1 := mul_le_mul_of_nonneg_left h5 hu.le
  have h7 := abs_sub_le (rnd p (q * q)) (q * q) (Q ^ 2)
  have h8 : 0 ≤ rnd p (q * q) := rnd_nonneg (by omega) h4
  have h9 : rnd p (q * q) ≤ 1 := (rnd_mono (by omega) h5).trans (rnd_one (by omega)).le
  have := complement_err (p := p) (x := rnd p (q * q)) (X := Q ^ 2) (e := u p + 2 * e) (by linarith)
    (abs_le.mpr ⟨by linarith, by linarith⟩)
  linarith

theorem welch_err {p : ℕ} (hp : 24 ≤ p) {N i : ℕ} (hN : 2 ≤ N) (ho : N % 2 = 1) (hi : i < N) :
    |welchAt p N i - Window.welch.value N i| ≤ 21 * u p := by
  have hu := u_pos p
  have hs := u_small hp
  obtain ⟨n, rfl⟩ : ∃ n, N = 2 * n + 1 := ⟨N / 2, by omega⟩
  have hn : (1 : ℝ) ≤ n := by exact_mod_cast (by omega : 1 ≤ n)
  have hin : (i : ℝ) ≤ 2 * n := by exact_mod_cast (by omega : i ≤ 2 * n)
  have hi0 : (0 : ℝ) ≤ i := Nat.cast_nonneg i
  have hL := half_pos (p := p) (by omega) hN
  have hLL := rnd_rnd (p := p) (by omega) (((2 * n + 1) / 2 : ℕ) : ℝ)
  have h1 : rnd p (i : ℝ) ≤ 2 * rnd p (((2 * n + 1) / 2 : ℕ) : ℝ) := by
    rw [← rnd_double]
    apply rnd_mono (by omega)
    exact_mod_cast (by omega : i ≤ 2 * ((2 * n + 1) / 2))
  have h0 : 0 ≤ rnd p (i : ℝ) := rnd_nonneg (by omega) hi0
  have ev : Window.welch.value (2 * n + 1) i = 1 - (((i : ℝ) - n) / n) ^ 2 := by
    simp only [Window.value]
    push_cast
    congr 2
    field_simp
    ring
  rw [ev]
  unfold welchAt
  rw [show (2 * n + 1) / 2 = n by omega] at *
  have e1 := rnd_err p (n : ℝ)
  have e2 := rnd_err p (i : ℝ)
  change _ ≤ u p * _ at e1 e2
  rw [abs_of_nonneg (by linarith : (0 : ℝ) ≤ n)] at e1
  rw [abs_of_nonneg hi0] at e2
  set L := rnd p (n : ℝ)
  have h2 : |rnd p (i : ℝ) - L| ≤ L := abs_le.mpr ⟨by linarith, by linarith⟩
  have h2' : |rnd p (rnd p (i : ℝ) - L)| ≤ L := abs_rnd_le (by omega) hLL h2
  have e3 := rnd_err p (rnd p (i : ℝ) - L)
  change _ ≤ u p * _ at e3
  have hLn : L ≤ 1.001 * n := by
    have := (abs_le.mp e1).2
    nlinarith
  have e4 : |rnd p (rnd p (i : ℝ) - L) - ((i : ℝ) - n)| ≤ 5 * u p * n := by
    have a1 : |(rnd p (i : ℝ) - L) - ((i : ℝ) - n)| ≤ u p * i + u p * n := by
      rw [show (rnd p (i : ℝ) - L) - ((i : ℝ) - n) = (rnd p (i : ℝ) - i) - (L - n) by ring]
      exact (abs_sub _ _).trans (add_le_add e2 e1)
    have a2 : u p * |rnd p (i : ℝ) - L| ≤ u p * (1.001 * n) := mul_le_mul_of_nonneg_left (h2.trans hLn) hu.le
    have a3 : u p * i ≤ u p * (2 * n) := mul_le_mul_of_nonneg_left hin hu.le
    have a4 := abs_sub_le (rnd p (rnd p (i : ℝ) - L)) (rnd p (i : ℝ) - L) ((i : ℝ) - n)
    have a5 : 0 ≤ u p * n := by positivity
    linarith
  have hD : |(i : ℝ) - n| ≤ n := abs_le.mpr ⟨by linarith, by linarith⟩
  have e5 := quotient_err hp (by linarith : (0 : ℝ) < n) e4 e1 hD
  have e6 : |rnd p (rnd p (rnd p (i : ℝ) - L) / L)| ≤ 1 := by
    apply abs_rnd_le (by omega) (rnd_one (by omega))
    rw [abs_div, abs_of_pos hL, div_le_one hL]
    exact h2'
  have e7 : |((i : ℝ) - n) / n| ≤ 1 := by
    rw [abs_div, abs_of_pos (by linarith : (0 : ℝ) < n), div_le_one (by linarith)]
    exact hD
  have := square_err hp e5 e6 e7
  simp only
  linarith

/-! ### Triangular -/

/-- The values of `initial`. -/
noncomputable def steps (p : ℕ) (x : ℝ) : ℕ → ℝ
  | 0 => x
  | i + 1 => steps p (rnd p (x + 2)) i

theorem steps_exact {p : ℕ} (hp : 1 ≤ p) : ∀ (i : ℕ) (z : ℤ), (∀ j : ℕ, j ≤ i → |z + 2 * j| ≤ 2 ^ p) →
    steps p (z : ℝ) i = ((z + 2 * i : ℤ) : ℝ)
  | 0, z, _ => by simp [steps]
  | i + 1, z, h => by
    have h1 : rnd p ((z : ℝ) + 2) = ((z + 2 : ℤ) : ℝ) := by
      have := rnd_int hp (m := z + 2) (by have := h 1 (by omega); simpa using this)
      push_cast at this ⊢
      exact this
    rw [steps, h1, steps_exact hp i (z + 2) ?_]
    · push_cast; ring
    · intro j hj
      have := h (j + 1) (by omega)
      push_cast at this
      rwa [show z + 2 + 2 * (j : ℤ) = z + 2 * (j + 1) by ring]

theorem steps_stuck {p : ℕ} {x : ℝ} (h : rnd p (x + 2) = x) : ∀ i, steps p x i = x
  | 0 => rfl
  | i + 1 => by rw [steps, h, steps_stuck h i]

/-- A subtraction of 2 from a large number is lost. -/
theorem rnd_lost {p : ℕ} (hp : 2 ≤ p) {t : ℝ} (ht : IsFloat p t) (h : (2 : ℝ) ^ (p + 2) ≤ t) : rnd p (t - 2) = t := by
  have hpos : 0 < t := lt_of_lt_of_le (by positivity) h
  have hr := rnd_float ht
  obtain ⟨k, h1, h2, h3⟩ := rnd_spec (p := p) hpos.ne'
  rw [abs_of_pos hpos] at h1 h2
  have hk : 3 ≤ k := by
    by_contra hc
    have : (2 : ℝ) ^ (k + p) ≤ 2 ^ (((p + 2 : ℕ) : ℤ)) := zpow_le_zpow_right₀ (by norm_num) (by push_cast; omega)
    rw [zpow_natCast] at this
    linarith
  set M := nearestEven (t / 2 ^ k)
  have ht2 : t = (M : ℝ) * 2 ^ k := by rw [← h3, hr]
  have hs := (significand (p := p) (by omega) h1 h2).1
  have hk8 : (8 : ℝ) ≤ 2 ^ k := by
    have : (2 : ℝ) ^ (3 : ℤ) ≤ 2 ^ k := zpow_le_zpow_right₀ (by norm_num) hk
    have e : (2 : ℝ) ^ (3 : ℤ) = 8 := by norm_num
    linarith
  have hk0 := two_zpow_pos k
  rcases hs.lt_or_eq with hlt | heq
  · have hM : (2 : ℝ) ^ (k + p - 1) + 2 ^ k ≤ t := by
      rw [ht2, show k + (p : ℤ) - 1 = ((p : ℤ) - 1) + k by ring, zpow_add₀ (by norm_num), zpow_nat p (by omega)]
      have : ((2 ^ (p - 1) : ℤ) : ℝ) + 1 ≤ (M : ℝ) := by exact_mod_cast hlt
      nlinarith
    have hp2 : 0 < t - 2 := by
      have := two_zpow_pos (k + p - 1)
      linarith
    rw [rnd_of (p := p) (x := t - 2) (k := k) (by rw [abs_of_pos hp2]; linarith) (by rw [abs_of_pos hp2]; linarith),
      FloatL.ne_of_lt (n := M), ← ht2]
    · rw [lt_div_iff₀ hk0]; linarith
    · rw [div_lt_iff₀ hk0]; linarith
  · have e1 : t = (2 : ℝ) ^ (k + p - 1) := by
      rw [ht2, show M = 2 ^ (p - 1) from heq.symm, ← zpow_nat p (by omega), ← zpow_add₀ (by norm_num)]
      congr 1; ring
    have e2 : (2 : ℝ) ^ k = 2 * 2 ^ (k - 1) := by
      rw [show k = (k - 1) + 1 by ring, zpow_add_one₀ (by norm_num)]
      rw [show k - 1 + 1 - 1 = k - 1 by ring, mul_comm]
    have e3 : (2 : ℝ) ^ (k + p - 1) = 2 * 2 ^ (k - 1 + p - 1) := by
      rw [show k + (p : ℤ) - 1 = (k - 1 + p - 1) + 1 by ring, zpow_add_one₀ (by norm_num)]
      rw [mul_comm]
    have e5 : (2 : ℝ) ^ (k - 1 + p) = 2 ^ (k + p - 1) := by congr 1; ring
    have hp2 : 0 < t - 2 := by
      have : (4 : ℝ) ≤ t := by
        have : (2 : ℝ) ^ 2 ≤ 2 ^ (p + 2) := pow_le_pow_right₀ (by norm_num) (by omega)
        norm_num at this
        linarith
      linarith
    have h4 : (2 : ℝ) ≤ 2 ^ (k - 1 + p - 1) := by
      have : (2 : ℝ) ^ (1 : ℤ) ≤ 2 ^ (k - 1 + p - 1) := zpow_le_zpow_right₀ (by norm_num) (by omega)
      simpa using this
    rw [rnd_of (p := p) (x := t - 2) (k := k - 1) (by rw [abs_of_pos hp2, e1, e3]; linarith)
      (by rw [abs_of_pos hp2, e5, e1]; linarith)]
    have hk1 := two_zpow_pos (k - 1)
    have e4 : (2 : ℝ) ^ (k + p - 1) = ((2 ^ p : ℤ) : ℝ) * 2 ^ (k - 1) := by
      push_cast
      rw [← zpow_natCast, ← zpow_add₀ (by norm_num)]
      congr 1; ring
    have hev : Even (2 ^ p : ℤ) := Even.pow_of_ne_zero (by decide) (by omega)
    have hn : nearestEven ((t - 2) / 2 ^ (k - 1)) = 2 ^ p := by
      have hk4 : (4 : ℝ) ≤ 2 ^ (k - 1) := by linarith
      rcases hk4.lt_or_eq with hl | he
      · apply FloatL.ne_of_lt
        · rw [lt_div_iff₀ hk1, e1, e4]; linarith
        · rw [div_lt_iff₀ hk1, e1, e4]; linarith
      · apply ne_tie_down hev
        rw [div_eq_iff hk1.ne', e1, e4, ← he]; ring
    rw [hn, e1, e4]

theorem stuck {p : ℕ} (hp : 2 ≤ p) {x : ℝ} (hx : IsFloat p x) (h : x ≤ -(2 : ℝ) ^ (p + 2)) : rnd p (x + 2) = x := by
  obtain ⟨m, k, hm, e⟩ := hx
  have := rnd_lost hp (t := -x) ⟨-m, k, by rwa [abs_neg], by rw [e]; push_cast; ring⟩ (by linarith)
  rw [show x + 2 = -(-x - 2) by ring, rnd_neg, this, neg_neg]

end Edsp.RndWinL
