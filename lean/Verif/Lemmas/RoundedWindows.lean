import Verif.Model.RoundedWindows
import Verif.Lemmas.Float
import Verif.Lemmas.Memory
import Verif.Spec.Libm
import Verif.Spec.Windows
import Mathlib.Analysis.Real.Pi.Bounds
import Mathlib.Analysis.SpecialFunctions.Trigonometric.Bounds
import Mathlib.Tactic.Linarith
import Mathlib.Tactic.FieldSimp
import Mathlib.Tactic.NormNum

/-!
# Rounding errors of the windows
-/

namespace Edsp.RndWinL
open Edsp Edsp.Spec Edsp.RndWin Edsp.FloatL

/-- The relative error of one operation. -/
noncomputable abbrev u (p : ℕ) : ℝ := (2 : ℝ) ^ (-(p : ℤ))

theorem u_pos (p : ℕ) : 0 < u p := two_zpow_pos _

theorem u_small {p : ℕ} (hp : 24 ≤ p) : u p ≤ 1 / 16777216 := by
  have h : u p ≤ (2 : ℝ) ^ (-24 : ℤ) := zpow_le_zpow_right₀ (by norm_num) (by omega)
  refine h.trans (le_of_eq ?_)
  norm_num

theorem u_large {p : ℕ} (hp : p ≤ 53) : 1 / 9007199254740992 ≤ u p := by
  have h : (2 : ℝ) ^ (-53 : ℤ) ≤ u p := zpow_le_zpow_right₀ (by norm_num) (by omega)
  refine (le_of_eq ?_).trans h
  norm_num

theorem rel (p : ℕ) {x : ℝ} (hx : 0 ≤ x) : (1 - u p) * x ≤ rnd p x ∧ rnd p x ≤ (1 + u p) * x := by
  have h := abs_le.mp (rnd_err p x)
  rw [abs_of_nonneg hx] at h
  constructor <;> unfold u <;> nlinarith [h.1, h.2]

theorem lit_err {p : ℕ} (hp : 24 ≤ p) (hq : p ≤ 53) (x : ℝ) : |lit p x - x| ≤ 3 * u p * |x| := by
  have hu := u_pos p
  have hs := u_small hp
  have h1 := rnd_err p (rnd 53 x)
  have h2 := rnd_err 53 x
  have h3 : (2 : ℝ) ^ (-((53 : ℕ) : ℤ)) ≤ u p := zpow_le_zpow_right₀ (by norm_num) (by omega)
  have hx := abs_nonneg x
  have h4 : |rnd 53 x - x| ≤ u p * |x| := h2.trans (mul_le_mul_of_nonneg_right h3 hx)
  have h5 : |rnd 53 x| ≤ 2 * |x| := by
    have : |rnd 53 x| ≤ |rnd 53 x - x| + |x| := by simpa using abs_add_le (rnd 53 x - x) x
    nlinarith
  have h6 : |lit p x - x| ≤ |rnd p (rnd 53 x) - rnd 53 x| + |rnd 53 x - x| := by
    unfold lit
    exact abs_sub_le _ _ _
  have h7 : u p * |rnd 53 x| ≤ u p * (2 * |x|) := mul_le_mul_of_nonneg_left h5 hu.le
  change |rnd p (rnd 53 x) - rnd 53 x| ≤ u p * |rnd 53 x| at h1
  linarith

theorem twoPi_err {p : ℕ} (hp : 24 ≤ p) (hq : p ≤ 53) :
    (1 - 5 * u p) * (2 * Real.pi) ≤ twoPi p ∧ twoPi p ≤ (1 + 5 * u p) * (2 * Real.pi) := by
  have hu := u_pos p
  have hl := u_large hq
  have h := lit_err hp hq 6.283185307179586476925286766559005768
  rw [abs_of_pos (by norm_num : (0 : ℝ) < 6.283185307179586476925286766559005768)] at h
  have h := abs_le.mp h
  have h1 := Real.pi_gt_d20
  have h2 := Real.pi_lt_d20
  unfold twoPi
  constructor <;> nlinarith [h.1, h.2]

theorem poly_up {v : ℝ} (hu : 0 < v) (hs : v ≤ 1 / 16777216) : (1 + v) ^ 3 * (1 + 7 * v) ≤ 1 + 10.02 * v := by
  have h2 : v ^ 2 ≤ v / 16777216 := by nlinarith
  have h3 : v ^ 3 ≤ v ^ 2 := pow_le_pow_of_le_one hu.le (by linarith) (by norm_num)
  have h4 : v ^ 4 ≤ v ^ 2 := pow_le_pow_of_le_one hu.le (by linarith) (by norm_num)
  have e : (1 + v) ^ 3 * (1 + 7 * v) = 1 + 10 * v + 24 * v ^ 2 + 22 * v ^ 3 + 7 * v ^ 4 := by ring
  rw [e]; linarith

theorem poly_down {v : ℝ} (hu : 0 < v) (hs : v ≤ 1 / 16777216) : 1 - 10.02 * v ≤ (1 - v) ^ 3 * (1 - 7 * v) := by
  have h3 : v ^ 3 ≤ v ^ 2 := pow_le_pow_of_le_one hu.le (by linarith) (by norm_num)
  have h4 : 0 ≤ v ^ 4 := by positivity
  have e : (1 - v) ^ 3 * (1 - 7 * v) = 1 - 10 * v + 24 * v ^ 2 - 22 * v ^ 3 + 7 * v ^ 4 := by ring
  rw [e]
  have h2 : 0 ≤ v ^ 2 := by positivity
  linarith

theorem quot_down {v : ℝ} (hu : 0 < v) : 1 - 7 * v ≤ (1 - 5 * v) / (1 + v) := by
  rw [le_div_iff₀ (by linarith)]; nlinarith

theorem quot_up {v : ℝ} (hu : 0 < v) (hs : v ≤ 1 / 16777216) : (1 + 5 * v) / (1 - v) ≤ 1 + 7 * v := by
  rw [div_le_iff₀ (by linarith)]; nlinarith

/-- The angle computed. -/
noncomputable def tmp (p N i : ℕ) : ℝ := rnd p (rnd p (twoPi p / rnd p ((N : ℝ) - 1)) * rnd p (i : ℝ))

theorem ratio_err {p : ℕ} (hp : 24 ≤ p) {a A M x : ℝ} (ha : 0 ≤ a) (hM : 0 < M) (hx : 0 ≤ x)
    (a1 : (1 - 5 * u p) * a ≤ A) (a2 : A ≤ (1 + 5 * u p) * a) :
    |rnd p (rnd p (A / rnd p M) * rnd p x) - a / M * x| ≤ 10.02 * u p * (a / M * x) := by
  have hu := u_pos p
  have hs := u_small hp
  obtain ⟨b1, b2⟩ := rel p hM.le
  obtain ⟨j1, j2⟩ := rel p hx
  set v := u p
  set b := rnd p M
  set j := rnd p x
  have hb : 0 < b := lt_of_lt_of_le (mul_pos (by linarith) (by linarith)) b1
  have hA : 0 ≤ A := le_trans (mul_nonneg (by linarith) ha) a1
  have hj : 0 ≤ j := le_trans (mul_nonneg (by linarith) hx) j1
  obtain ⟨f1, f2⟩ := rel p (div_nonneg hA hb.le)
  set f := rnd p (A / b)
  have hf : 0 ≤ f := le_trans (mul_nonneg (by linarith) (div_nonneg hA hb.le)) f1
  obtain ⟨t1, t2⟩ := rel p (mul_nonneg hf hj)
  have q1 : (1 - 5 * v) / (1 + v) * (a / M) ≤ A / b := by
    rw [div_mul_div_comm]
    exact div_le_div₀ hA a1 hb b2
  have q2 : A / b ≤ (1 + 5 * v) / (1 - v) * (a / M) := by
    rw [div_mul_div_comm]
    exact div_le_div₀ (mul_nonneg (by linarith) ha) a2 (mul_pos (by linarith) hM) b1
  have r1 := quot_down hu
  have r2 := quot_up hu hs
  have hD : 0 ≤ a / M := div_nonneg ha hM.le
  have s1 : (1 - 7 * v) * (a / M) ≤ A / b := (mul_le_mul_of_nonneg_right r1 hD).trans q1
  have s2 : A / b ≤ (1 + 7 * v) * (a / M) := q2.trans (mul_le_mul_of_nonneg_right r2 hD)
  have g1 : (1 - v) * ((1 - 7 * v) * (a / M)) ≤ f := (mul_le_mul_of_nonneg_left s1 (by linarith)).trans f1
  have g2 : f ≤ (1 + v) * ((1 + 7 * v) * (a / M)) := f2.trans (mul_le_mul_of_nonneg_left s2 (by linarith))
  have k1 : (1 - v) * ((1 - 7 * v) * (a / M)) * ((1 - v) * x) ≤ f * j :=
    mul_le_mul g1 j1 (mul_nonneg (by linarith) hx) hf
  have k2 : f * j ≤ (1 + v) * ((1 + 7 * v) * (a / M)) * ((1 + v) * x) :=
    mul_le_mul g2 j2 hj (mul_nonneg (by linarith) (mul_nonneg (by linarith) hD))
  have l1 := (mul_le_mul_of_nonneg_left k1 (by linarith : 0 ≤ 1 - v)).trans t1
  have l2 := t2.trans (mul_le_mul_of_nonneg_left k2 (by linarith : 0 ≤ 1 + v))
  rw [show (1 - v) * ((1 - v) * ((1 - 7 * v) * (a / M)) * ((1 - v) * x)) =
      ((1 - v) ^ 3 * (1 - 7 * v)) * (a / M * x) by ring] at l1
  rw [show (1 + v) * ((1 + v) * ((1 + 7 * v) * (a / M)) * ((1 + v) * x)) =
      ((1 + v) ^ 3 * (1 + 7 * v)) * (a / M * x) by ring] at l2
  have hT0 : 0 ≤ a / M * x := mul_nonneg hD hx
  have n3 := (mul_le_mul_of_nonneg_right (poly_down hu hs) hT0).trans l1
  have n4 := l2.trans (mul_le_mul_of_nonneg_right (poly_up hu hs) hT0)
  rw [sub_mul, one_mul] at n3
  rw [add_mul, one_mul] at n4
  exact abs_le.mpr ⟨by linarith, by linarith⟩

theorem size_facts {N i : ℕ} (hN : 2 ≤ N) (hi : i < N) : (1 : ℝ) ≤ (N : ℝ) - 1 ∧ (i : ℝ) ≤ (N : ℝ) - 1 := by
  have h1 : (2 : ℝ) ≤ N := by exact_mod_cast hN
  have h2 : ((i + 1 : ℕ) : ℝ) ≤ N := by exact_mod_cast hi
  push_cast at h2
  constructor <;> linarith

theorem tmp_err {p : ℕ} (hp : 24 ≤ p) (hq : p ≤ 53) {N i : ℕ} (hN : 2 ≤ N) (hi : i < N) :
    0 ≤ angle N i ∧ angle N i ≤ 6.2832 ∧ |tmp p N i - angle N i| ≤ 63 * u p := by
  have hu := u_pos p
  obtain ⟨hM, hi'⟩ := size_facts hN hi
  have hpi := Real.pi_lt_d20
  have hpi0 := Real.pi_pos
  obtain ⟨a1, a2⟩ := twoPi_err hp hq
  have h := ratio_err hp (by linarith : 0 ≤ 2 * Real.pi) (by linarith : 0 < (N : ℝ) - 1)
    (Nat.cast_nonneg i : (0 : ℝ) ≤ i) a1 a2
  have e : angle N i = 2 * Real.pi / ((N : ℝ) - 1) * i := by unfold angle; rw [div_mul_eq_mul_div]
  rw [← e] at h
  have hT0 : 0 ≤ angle N i := by rw [e]; positivity
  have hT : angle N i ≤ 2 * Real.pi := by
    rw [e, div_mul_eq_mul_div, div_le_iff₀ (by linarith)]
    exact mul_le_mul_of_nonneg_left hi' (by linarith)
  have hvT : u p * angle N i ≤ u p * 6.2832 := mul_le_mul_of_nonneg_left (by linarith) hu.le
  refine ⟨hT0, by linarith, h.trans ?_⟩
  rw [mul_assoc]
  linarith

theorem mult_err {p : ℕ} (hp : 24 ≤ p) (hq : p ≤ 53) {N i : ℕ} (hN : 2 ≤ N) (hi : i < N) (k : ℝ) (hk : 0 ≤ k) :
    |rnd p (k * tmp p N i) - k * angle N i| ≤ k * (70 * u p) := by
  obtain ⟨h0, h1, h2⟩ := tmp_err hp hq hN hi
  have hu := u_pos p
  have hs := u_small hp
  have h3 := rnd_err p (k * tmp p N i)
  change _ ≤ u p * _ at h3
  have h4 : |tmp p N i| ≤ 6.3 := by
    have : |tmp p N i| ≤ |tmp p N i - angle N i| + |angle N i| := by
      simpa using abs_add_le (tmp p N i - angle N i) (angle N i)
    rw [abs_of_nonneg h0] at this
    linarith
  rw [abs_mul, abs_of_nonneg hk] at h3
  have h5 : |k * tmp p N i - k * angle N i| ≤ k * (63 * u p) := by
    rw [← mul_sub, abs_mul, abs_of_nonneg hk]
    exact mul_le_mul_of_nonneg_left h2 hk
  have h6 : u p * (k * |tmp p N i|) ≤ u p * (k * 6.3) :=
    mul_le_mul_of_nonneg_left (mul_le_mul_of_nonneg_left h4 hk) hu.le
  have h7 := abs_sub_le (rnd p (k * tmp p N i)) (k * tmp p N i) (k * angle N i)
  have h8 : 0 ≤ k * u p := mul_nonneg hk hu.le
  linarith

theorem term_err {p : ℕ} (hp : 24 ≤ p) (hq : p ≤ 53) {c : ℝ → ℝ} (hc : CosLike p c) {a y t e : ℝ} (ha : 0 ≤ a)
    (h : |y - t| ≤ e) : |rnd p (lit p a * c y) - a * Real.cos t| ≤ a * (e + 6 * u p) := by
  have hu := u_pos p
  have hs := u_small hp
  have h1 := lit_err hp hq a
  rw [abs_of_nonneg ha] at h1
  have h2 := rnd_err p (lit p a * c y)
  change _ ≤ u p * _ at h2
  have h3 : |c y - Real.cos t| ≤ u p + e := by
    have h5 := abs_sub_le (c y) (Real.cos y) (Real.cos t)
    have h6 := hc.near y
    have h7 := Real.abs_cos_sub_cos_le y t
    change _ ≤ u p at h6
    linarith
  have hr := hc.range y
  have h4 : |lit p a * c y - a * Real.cos t| ≤ 3 * u p * a + a * (u p + e) := by
    have e1 : lit p a * c y - a * Real.cos t = (lit p a - a) * c y + a * (c y - Real.cos t) := by ring
    rw [e1]
    refine (abs_add_le _ _).trans (add_le_add ?_ ?_)
    · rw [abs_mul]
      calc |lit p a - a| * |c y| ≤ (3 * u p * a) * 1 := mul_le_mul h1 hr (abs_nonneg _) (by positivity)
        _ = _ := mul_one _
    · rw [abs_mul, abs_of_nonneg ha]
      exact mul_le_mul_of_nonneg_left h3 ha
  have h5 : |lit p a * c y| ≤ a * 1.5 := by
    rw [abs_mul]
    have h6 : |lit p a| ≤ a * 1.5 := by
      have : |lit p a| ≤ |lit p a - a| + |a| := by simpa using abs_add_le (lit p a - a) a
      rw [abs_of_nonneg ha] at this
      nlinarith
    calc |lit p a| * |c y| ≤ (a * 1.5) * 1 := mul_le_mul h6 hr (abs_nonneg _) (by positivity)
      _ = _ := mul_one _
  have h6 : u p * |lit p a * c y| ≤ u p * (a * 1.5) := mul_le_mul_of_nonneg_left h5 hu.le
  have h7 := abs_sub_le (rnd p (lit p a * c y)) (lit p a * c y) (a * Real.cos t)
  have h8 : 0 ≤ a * u p := mul_nonneg ha hu.le
  linarith

theorem sum_err {p : ℕ} {s S x X d e : ℝ} (h1 : |s - S| ≤ d) (h2 : |x - X| ≤ e) (hS : |S| ≤ 1) (hX : |X| ≤ 1 / 2)
    (hde : d + e ≤ 1 / 2) : |rnd p (s + x) - (S + X)| ≤ d + e + 2 * u p := by
  have hu := u_pos p
  have h3 := rnd_err p (s + x)
  change _ ≤ u p * _ at h3
  have h4 : |(s + x) - (S + X)| ≤ d + e := by
    rw [show (s + x) - (S + X) = (s - S) + (x - X) by ring]
    exact (abs_add_le _ _).trans (add_le_add h1 h2)
  have h5 : |s + x| ≤ 2 := by
    have a1 : |s + x| ≤ |(s + x) - (S + X)| + |S + X| := by simpa using abs_add_le ((s + x) - (S + X)) (S + X)
    have a2 := abs_add_le S X
    linarith
  have h6 : u p * |s + x| ≤ u p * 2 := mul_le_mul_of_nonneg_left h5 hu.le
  have h7 := abs_sub_le (rnd p (s + x)) (s + x) (S + X)
  linarith

theorem cosTerm {a t : ℝ} (ha : 0 ≤ a) (h : a ≤ 1 / 2) : |a * Real.cos t| ≤ 1 / 2 := by
  rw [abs_mul, abs_of_nonneg ha]
  have := Real.abs_cos_le_one t
  nlinarith [abs_nonneg (Real.cos t)]

theorem plus_err {p : ℕ} (hp : 24 ≤ p) (hq : p ≤ 53) {c : ℝ → ℝ} (hc : CosLike p c) {s S a y t d e : ℝ} (ha : 0 ≤ a)
    (ha' : a ≤ 1 / 2) (h1 : |s - S| ≤ d) (h2 : |y - t| ≤ e) (hS : |S| ≤ 1) (hde : d + a * (e + 6 * u p) ≤ 1 / 2) :
    |plus p c s a y - (S + a * Real.cos t)| ≤ d + a * (e + 6 * u p) + 2 * u p :=
  sum_err h1 (term_err hp hq hc ha h2) hS (cosTerm ha ha') hde

theorem minus_err {p : ℕ} (hp : 24 ≤ p) (hq : p ≤ 53) {c : ℝ → ℝ} (hc : CosLike p c) {s S a y t d e : ℝ} (ha : 0 ≤ a)
    (ha' : a ≤ 1 / 2) (h1 : |s - S| ≤ d) (h2 : |y - t| ≤ e) (hS : |S| ≤ 1) (hde : d + a * (e + 6 * u p) ≤ 1 / 2) :
    |minus p c s a y - (S - a * Real.cos t)| ≤ d + a * (e + 6 * u p) + 2 * u p := by
  have h3 : |-rnd p (lit p a * c y) - -(a * Real.cos t)| ≤ a * (e + 6 * u p) := by
    rw [← abs_neg]
    have := term_err hp hq hc ha h2
    convert this using 2
    ring
  have := sum_err (p := p) h1 h3 hS (by rw [abs_neg]; exact cosTerm ha ha') hde
  unfold minus
  rw [sub_eq_add_neg s, sub_eq_add_neg S]
  exact this

end Edsp.RndWinL
