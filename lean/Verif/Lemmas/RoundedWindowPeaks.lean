import Verif.Lemmas.RoundedWindowValues

/-!
# Windows in floating point: the largest values, for `float` and `double`
-/

namespace Edsp.RndWinL
open Edsp Edsp.Spec Edsp.RndWin Edsp.FloatL

/-- A number below the middle of two neighbours is not rounded up. -/
theorem rnd_le_tie {p : ℕ} (hp : 1 ≤ p) (m : ℤ) (K : ℕ) {x : ℝ} (h1 : 2 ^ (p - 1) ≤ m) (h2 : m < 2 ^ p)
    (h3 : x * 2 ^ K ≤ m + 1 / 2) (h4 : Even m ∨ x * 2 ^ K < m + 1 / 2) : rnd p x ≤ m / 2 ^ K := by
  have hK : (0 : ℝ) < 2 ^ K := by positivity
  have eK : (2 : ℝ) ^ (-(K : ℤ)) = 1 / 2 ^ K := by rw [zpow_neg, zpow_natCast, one_div]
  by_cases hx : x ≤ m / 2 ^ K
  · have hf : IsFloat p (m / 2 ^ K) := by
      refine ⟨m, -(K : ℤ), ?_, by rw [eK]; ring⟩
      have h0 : (0 : ℤ) ≤ m := le_trans (by positivity) h1
      rwa [abs_of_nonneg h0]
    rw [← rnd_float hf]
    exact rnd_mono hp hx
  · have hx := not_le.mp hx
    rw [div_lt_iff₀ hK] at hx
    have hm0 : (0 : ℝ) < m := by
      have : (0 : ℤ) < m := lt_of_lt_of_le (by positivity) h1
      exact_mod_cast this
    have hxp : 0 < x := by
      by_contra hc
      have : x * 2 ^ K ≤ 0 := mul_nonpos_of_nonpos_of_nonneg (not_lt.mp hc) hK.le
      linarith
    have h1r : (2 : ℝ) ^ (p - 1) ≤ m := by exact_mod_cast h1
    have h2r : (m : ℝ) + 1 ≤ 2 ^ p := by exact_mod_cast h2
    have e1 : (2 : ℝ) ^ (-(K : ℤ) + p - 1) = 2 ^ (p - 1) / 2 ^ K := by
      rw [show -(K : ℤ) + (p : ℤ) - 1 = ((p - 1 : ℕ) : ℤ) + -(K : ℤ) by omega, zpow_add₀ (by norm_num), zpow_natCast, eK]
      ring
    have e2 : (2 : ℝ) ^ (-(K : ℤ) + p) = 2 ^ p / 2 ^ K := by
      rw [add_comm, zpow_add₀ (by norm_num), zpow_natCast, eK]
      ring
    rw [rnd_of (p := p) (x := x) (k := -(K : ℤ)) (by rw [abs_of_pos hxp, e1, div_le_iff₀ hK]; linarith)
      (by rw [abs_of_pos hxp, e2, lt_div_iff₀ hK]; linarith), eK]
    have e3 : x / (1 / 2 ^ K) = x * 2 ^ K := by field_simp
    have hn : nearestEven (x / (1 / 2 ^ K)) = m := by
      rw [e3]
      rcases h3.lt_or_eq with hl | he
      · exact FloatL.ne_of_lt (by linarith) hl
      · rcases h4 with hev | hl
        · exact ne_tie_up hev he
        · exact absurd he hl.ne
    rw [hn]
    exact le_of_eq (by ring)

theorem rnd_lit {p : ℕ} (m : ℤ) (K : ℕ) (h : |m| < 2 ^ p) : rnd p ((m : ℝ) / 2 ^ K) = m / 2 ^ K := by
  apply rnd_float
  refine ⟨m, -(K : ℤ), h, ?_⟩
  rw [zpow_neg, zpow_natCast]
  ring

theorem up_step {p : ℕ} (hp : 1 ≤ p) {c : ℝ → ℝ} (hc : CosLike p c) (y : ℝ) {s S a A Z : ℝ} (hs : s ≤ S) (h0 : 0 ≤ a)
    (ha : lit p a ≤ A) (hA : rnd p A = A) (hZ : rnd p (S + A) ≤ Z) : minus p c s a y ≤ Z ∧ plus p c s a y ≤ Z := by
  have hl : 0 ≤ lit p a := rnd_nonneg hp (rnd_nonneg (by norm_num) h0)
  have h1 : |rnd p (lit p a * c y)| ≤ A := by
    apply abs_rnd_le hp hA
    rw [abs_mul, abs_of_nonneg hl]
    have := hc.range y
    nlinarith [abs_nonneg (c y)]
  obtain ⟨h2, h3⟩ := abs_le.mp h1
  exact ⟨(rnd_mono hp (by linarith)).trans hZ, (rnd_mono hp (by linarith)).trans hZ⟩

theorem lit24_0_42 : lit 24 0.42 ≤ ((14092861 : ℤ) : ℝ) / 2 ^ 25 := by
  have h : rnd 53 (0.42 : ℝ) ≤ (7566047373982433 : ℤ) / 2 ^ 54 :=
    rnd_le_tie (by norm_num) 7566047373982433 54 (by norm_num) (by norm_num) (by norm_num) (Or.inr (by norm_num))
  refine (rnd_mono (by norm_num) h).trans ?_
  have := rnd_le_tie (p := 24) (by norm_num) 14092861 25 (x := (7566047373982433 : ℤ) / 2 ^ 54) (by norm_num) (by norm_num) (by norm_num)
    (Or.inr (by norm_num))
  exact this

theorem lit24_0_50 : lit 24 0.50 ≤ ((8388608 : ℤ) : ℝ) / 2 ^ 24 := by
  have h : rnd 53 (0.50 : ℝ) ≤ (4503599627370496 : ℤ) / 2 ^ 53 :=
    rnd_le_tie (by norm_num) 4503599627370496 53 (by norm_num) (by norm_num) (by norm_num) (Or.inr (by norm_num))
  refine (rnd_mono (by norm_num) h).trans ?_
  have := rnd_le_tie (p := 24) (by norm_num) 8388608 24 (x := (4503599627370496 : ℤ) / 2 ^ 53) (by norm_num) (by norm_num) (by norm_num)
    (Or.inr (by norm_num))
  exact this

theorem lit24_0_08 : lit 24 0.08 ≤ ((10737418 : ℤ) : ℝ) / 2 ^ 27 := by
  have h : rnd 53 (0.08 : ℝ) ≤ (5764607523034235 : ℤ) / 2 ^ 56 :=
    rnd_le_tie (by norm_num) 5764607523034235 56 (by norm_num) (by norm_num) (by norm_num) (Or.inr (by norm_num))
  refine (rnd_mono (by norm_num) h).trans ?_
  have := rnd_le_tie (p := 24) (by norm_num) 10737418 27 (x := (5764607523034235 : ℤ) / 2 ^ 56) (by norm_num) (by norm_num) (by norm_num)
    (Or.inr (by norm_num))
  exact this

theorem blackman_le_24 {c : ℝ → ℝ} (hc : CosLike 24 c) (t y : ℝ) :
    plus 24 c (minus 24 c (lit 24 0.42) 0.50 t) 0.08 y ≤ 1 := by
  have h1 := up_step (p := 24) (by norm_num) hc t lit24_0_42 (by norm_num : (0 : ℝ) ≤ 0.50) lit24_0_50
    (rnd_lit 8388608 24 (by norm_num))
    (rnd_le_tie (p := 24) (by norm_num) 15435038 24 (by norm_num) (by norm_num) (by norm_num) (Or.inl (by decide)))
  have h2 := up_step (p := 24) (by norm_num) hc y h1.1 (by norm_num : (0 : ℝ) ≤ 0.08) lit24_0_08
    (rnd_lit 10737418 27 (by norm_num))
    (rnd_le_tie (p := 24) (by norm_num) 16777215 24 (by norm_num) (by norm_num) (by norm_num) (Or.inr (by norm_num)))
  refine h2.2.trans ?_
  norm_num

theorem lit53_0_42 : lit 53 0.42 ≤ ((7566047373982433 : ℤ) : ℝ) / 2 ^ 54 := by
  have h : rnd 53 (0.42 : ℝ) ≤ (7566047373982433 : ℤ) / 2 ^ 54 :=
    rnd_le_tie (by norm_num) 7566047373982433 54 (by norm_num) (by norm_num) (by norm_num) (Or.inr (by norm_num))
  refine (rnd_mono (by norm_num) h).trans ?_
  have := rnd_le_tie (p := 53) (by norm_num) 7566047373982433 54 (x := (7566047373982433 : ℤ) / 2 ^ 54) (by norm_num) (by norm_num) (by norm_num)
    (Or.inr (by norm_num))
  exact this

theorem lit53_0_50 : lit 53 0.50 ≤ ((4503599627370496 : ℤ) : ℝ) / 2 ^ 53 := by
  have h : rnd 53 (0.50 : ℝ) ≤ (4503599627370496 : ℤ) / 2 ^ 53 :=
    rnd_le_tie (by norm_num) 4503599627370496 53 (by norm_num) (by norm_num) (by norm_num) (Or.inr (by norm_num))
  refine (rnd_mono (by norm_num) h).trans ?_
  have := rnd_le_tie (p := 53) (by norm_num) 4503599627370496 53 (x := (4503599627370496 : ℤ) / 2 ^ 53) (by norm_num) (by norm_num) (by norm_num)
    (Or.inr (by norm_num))
  exact this

theorem lit53_0_08 : lit 53 0.08 ≤ ((5764607523034235 : ℤ) : ℝ) / 2 ^ 56 := by
  have h : rnd 53 (0.08 : ℝ) ≤ (5764607523034235 : ℤ) / 2 ^ 56 :=
    rnd_le_tie (by norm_num) 5764607523034235 56 (by norm_num) (by norm_num) (by norm_num) (Or.inr (by norm_num))
  refine (rnd_mono (by norm_num) h).trans ?_
  have := rnd_le_tie (p := 53) (by norm_num) 5764607523034235 56 (x := (5764607523034235 : ℤ) / 2 ^ 56) (by norm_num) (by norm_num) (by norm_num)
    (Or.inr (by norm_num))
  exact this

theorem blackman_le_53 {c : ℝ → ℝ} (hc : CosLike 53 c) (t y : ℝ) :
    plus 53 c (minus 53 c (lit 53 0.42) 0.50 t) 0.08 y ≤ 1 := by
  have h1 := up_step (p := 53) (by norm_num) hc t lit53_0_42 (by norm_num : (0 : ℝ) ≤ 0.50) lit53_0_50
    (rnd_lit 4503599627370496 53 (by norm_num))
    (rnd_le_tie (p := 53) (by norm_num) 8286623314361712 53 (by norm_num) (by norm_num) (by norm_num) (Or.inl (by decide)))
  have h2 := up_step (p := 53) (by norm_num) hc y h1.1 (by norm_num : (0 : ℝ) ≤ 0.08) lit53_0_08
    (rnd_lit 5764607523034235 56 (by norm_num))
    (rnd_le_tie (p := 53) (by norm_num) 9007199254740991 53 (by norm_num) (by norm_num) (by norm_num) (Or.inr (by norm_num)))
  refine h2.2.trans ?_
  norm_num

theorem lit24_0_35875 : lit 24 0.35875 ≤ ((12037652 : ℤ) : ℝ) / 2 ^ 25 := by
  have h : rnd 53 (0.35875 : ℝ) ≤ (6462665465276662 : ℤ) / 2 ^ 54 :=
    rnd_le_tie (by norm_num) 6462665465276662 54 (by norm_num) (by norm_num) (by norm_num) (Or.inr (by norm_num))
  refine (rnd_mono (by norm_num) h).trans ?_
  have := rnd_le_tie (p := 24) (by norm_num) 12037652 25 (x := (6462665465276662 : ℤ) / 2 ^ 54) (by norm_num) (by norm_num) (by norm_num)
    (Or.inr (by norm_num))
  exact this

theorem lit24_0_48829 : lit 24 0.48829 ≤ ((16384294 : ℤ) : ℝ) / 2 ^ 25 := by
  have h : rnd 53 (0.48829 : ℝ) ≤ (8796250648194958 : ℤ) / 2 ^ 54 :=
    rnd_le_tie (by norm_num) 8796250648194958 54 (by norm_num) (by norm_num) (by norm_num) (Or.inr (by norm_num))
  refine (rnd_mono (by norm_num) h).trans ?_
  have := rnd_le_tie (p := 24) (by norm_num) 16384294 25 (x := (8796250648194958 : ℤ) / 2 ^ 54) (by norm_num) (by norm_num) (by norm_num)
    (Or.inr (by norm_num))
  exact this

theorem lit24_0_14128 : lit 24 0.14128 ≤ ((9481140 : ℤ) : ℝ) / 2 ^ 26 := by
  have h : rnd 53 (0.14128 : ℝ) ≤ (5090148442839229 : ℤ) / 2 ^ 55 :=
    rnd_le_tie (by norm_num) 5090148442839229 55 (by norm_num) (by norm_num) (by norm_num) (Or.inr (by norm_num))
  refine (rnd_mono (by norm_num) h).trans ?_
  have := rnd_le_tie (p := 24) (by norm_num) 9481140 26 (x := (5090148442839229 : ℤ) / 2 ^ 55) (by norm_num) (by norm_num) (by norm_num)
    (Or.inr (by norm_num))
  exact this

theorem lit24_0_01168 : lit 24 0.01168 ≤ ((12541305 : ℤ) : ℝ) / 2 ^ 30 := by
  have h : rnd 53 (0.01168 : ℝ) ≤ (6733061586903986 : ℤ) / 2 ^ 59 :=
    rnd_le_tie (by norm_num) 6733061586903986 59 (by norm_num) (by norm_num) (by norm_num) (Or.inr (by norm_num))
  refine (rnd_mono (by norm_num) h).trans ?_
  have := rnd_le_tie (p := 24) (by norm_num) 12541305 30 (x := (6733061586903986 : ℤ) / 2 ^ 59) (by norm_num) (by norm_num) (by norm_num)
    (Or.inr (by norm_num))
  exact this

theorem blackmanHarris_le_24 {c : ℝ → ℝ} (hc : CosLike 24 c) (t y z : ℝ) :
    minus 24 c (plus 24 c (minus 24 c (lit 24 0.35875) 0.48829 t) 0.14128 y) 0.01168 z ≤ 1 := by
  have h1 := up_step (p := 24) (by norm_num) hc t lit24_0_35875 (by norm_num : (0 : ℝ) ≤ 0.48829) lit24_0_48829
    (rnd_lit 16384294 25 (by norm_num))
    (rnd_le_tie (p := 24) (by norm_num) 14210973 24 (by norm_num) (by norm_num) (by norm_num) (Or.inr (by norm_num)))
  have h2 := up_step (p := 24) (by norm_num) hc y h1.1 (by norm_num : (0 : ℝ) ≤ 0.14128) lit24_0_14128
    (rnd_lit 9481140 26 (by norm_num))
    (rnd_le_tie (p := 24) (by norm_num) 16581258 24 (by norm_num) (by norm_num) (by norm_num) (Or.inr (by norm_num)))
  have h3 := up_step (p := 24) (by norm_num) hc z h2.2 (by norm_num : (0 : ℝ) ≤ 0.01168) lit24_0_01168
    (rnd_lit 12541305 30 (by norm_num))
    (rnd_le_tie (p := 24) (by norm_num) 8388608 23 (by norm_num) (by norm_num) (by norm_num) (Or.inr (by norm_num)))
  refine h3.1.trans ?_
  norm_num

theorem lit53_0_35875 : lit 53 0.35875 ≤ ((6462665465276662 : ℤ) : ℝ) / 2 ^ 54 := by
  have h : rnd 53 (0.35875 : ℝ) ≤ (6462665465276662 : ℤ) / 2 ^ 54 :=
    rnd_le_tie (by norm_num) 6462665465276662 54 (by norm_num) (by norm_num) (by norm_num) (Or.inr (by norm_num))
  refine (rnd_mono (by norm_num) h).trans ?_
  have := rnd_le_tie (p := 53) (by norm_num) 6462665465276662 54 (x := (6462665465276662 : ℤ) / 2 ^ 54) (by norm_num) (by norm_num) (by norm_num)
    (Or.inr (by norm_num))
  exact this

theorem lit53_0_48829 : lit 53 0.48829 ≤ ((8796250648194958 : ℤ) : ℝ) / 2 ^ 54 := by
  have h : rnd 53 (0.48829 : ℝ) ≤ (8796250648194958 : ℤ) / 2 ^ 54 :=
    rnd_le_tie (by norm_num) 8796250648194958 54 (by norm_num) (by norm_num) (by norm_num) (Or.inr (by norm_num))
  refine (rnd_mono (by norm_num) h).trans ?_
  have := rnd_le_tie (p := 53) (by norm_num) 8796250648194958 54 (x := (8796250648194958 : ℤ) / 2 ^ 54) (by norm_num) (by norm_num) (by norm_num)
    (Or.inr (by norm_num))
  exact this

theorem lit53_0_14128 : lit 53 0.14128 ≤ ((5090148442839229 : ℤ) : ℝ) / 2 ^ 55 := by
  have h : rnd 53 (0.14128 : ℝ) ≤ (5090148442839229 : ℤ) / 2 ^ 55 :=
    rnd_le_tie (by norm_num) 5090148442839229 55 (by norm_num) (by norm_num) (by norm_num) (Or.inr (by norm_num))
  refine (rnd_mono (by norm_num) h).trans ?_
  have := rnd_le_tie (p := 53) (by norm_num) 5090148442839229 55 (x := (5090148442839229 : ℤ) / 2 ^ 55) (by norm_num) (by norm_num) (by norm_num)
    (Or.inr (by norm_num))
  exact this

theorem lit53_0_01168 : lit 53 0.01168 ≤ ((6733061586903986 : ℤ) : ℝ) / 2 ^ 59 := by
  have h : rnd 53 (0.01168 : ℝ) ≤ (6733061586903986 : ℤ) / 2 ^ 59 :=
    rnd_le_tie (by norm_num) 6733061586903986 59 (by norm_num) (by norm_num) (by norm_num) (Or.inr (by norm_num))
  refine (rnd_mono (by norm_num) h).trans ?_
  have := rnd_le_tie (p := 53) (by norm_num) 6733061586903986 59 (x := (6733061586903986 : ℤ) / 2 ^ 59) (by norm_num) (by norm_num) (by norm_num)
    (Or.inr (by norm_num))
  exact this

theorem blackmanHarris_le_53 {c : ℝ → ℝ} (hc : CosLike 53 c) (t y z : ℝ) :
    minus 53 c (plus 53 c (minus 53 c (lit 53 0.35875) 0.48829 t) 0.14128 y) 0.01168 z ≤ 1 := by
  have h1 := up_step (p := 53) (by norm_num) hc t lit53_0_35875 (by norm_num : (0 : ℝ) ≤ 0.48829) lit53_0_48829
    (rnd_lit 8796250648194958 54 (by norm_num))
    (rnd_le_tie (p := 53) (by norm_num) 7629458056735810 53 (by norm_num) (by norm_num) (by norm_num) (Or.inr (by norm_num)))
  have h2 := up_step (p := 53) (by norm_num) hc y h1.1 (by norm_num : (0 : ℝ) ≤ 0.14128) lit53_0_14128
    (rnd_lit 5090148442839229 55 (by norm_num))
    (rnd_le_tie (p := 53) (by norm_num) 8901995167445617 53 (by norm_num) (by norm_num) (by norm_num) (Or.inr (by norm_num)))
  have h3 := up_step (p := 53) (by norm_num) hc z h2.2 (by norm_num : (0 : ℝ) ≤ 0.01168) lit53_0_01168
    (rnd_lit 6733061586903986 59 (by norm_num))
    (rnd_le_tie (p := 53) (by norm_num) 4503599627370496 52 (by norm_num) (by norm_num) (by norm_num) (Or.inr (by norm_num)))
  refine h3.1.trans ?_
  norm_num

theorem lit24_0_3635819 : lit 24 0.3635819 ≤ ((12199784 : ℤ) : ℝ) / 2 ^ 25 := by
  have h : rnd 53 (0.3635819 : ℝ) ≤ (6549709237434628 : ℤ) / 2 ^ 54 :=
    rnd_le_tie (by norm_num) 6549709237434628 54 (by norm_num) (by norm_num) (by norm_num) (Or.inr (by norm_num))
  refine (rnd_mono (by norm_num) h).trans ?_
  have := rnd_le_tie (p := 24) (by norm_num) 12199784 25 (x := (6549709237434628 : ℤ) / 2 ^ 54) (by norm_num) (by norm_num) (by norm_num)
    (Or.inr (by norm_num))
  exact this

theorem lit24_0_4891775 : lit 24 0.4891775 ≤ ((16414073 : ℤ) : ℝ) / 2 ^ 25 := by
  have h : rnd 53 (0.4891775 : ℝ) ≤ (8812238426872123 : ℤ) / 2 ^ 54 :=
    rnd_le_tie (by norm_num) 8812238426872123 54 (by norm_num) (by norm_num) (by norm_num) (Or.inr (by norm_num))
  refine (rnd_mono (by norm_num) h).trans ?_
  have := rnd_le_tie (p := 24) (by norm_num) 16414073 25 (x := (8812238426872123 : ℤ) / 2 ^ 54) (by norm_num) (by norm_num) (by norm_num)
    (Or.inr (by norm_num))
  exact this

theorem lit24_0_1365995 : lit 24 0.1365995 ≤ ((9167037 : ℤ) : ℝ) / 2 ^ 26 := by
  have h : rnd 53 (0.1365995 : ℝ) ≤ (4921515658391969 : ℤ) / 2 ^ 55 :=
    rnd_le_tie (by norm_num) 4921515658391969 55 (by norm_num) (by norm_num) (by norm_num) (Or.inr (by norm_num))
  refine (rnd_mono (by norm_num) h).trans ?_
  have := rnd_le_tie (p := 24) (by norm_num) 9167037 26 (x := (4921515658391969 : ℤ) / 2 ^ 55) (by norm_num) (by norm_num) (by norm_num)
    (Or.inr (by norm_num))
  exact this

theorem lit24_0_0106411 : lit 24 0.0106411 ≤ ((11425794 : ℤ) : ℝ) / 2 ^ 30 := by
  have h : rnd 53 (0.0106411 : ℝ) ≤ (6134176511335960 : ℤ) / 2 ^ 59 :=
    rnd_le_tie (by norm_num) 6134176511335960 59 (by norm_num) (by norm_num) (by norm_num) (Or.inr (by norm_num))
  refine (rnd_mono (by norm_num) h).trans ?_
  have := rnd_le_tie (p := 24) (by norm_num) 11425794 30 (x := (6134176511335960 : ℤ) / 2 ^ 59) (by norm_num) (by norm_num) (by norm_num)
    (Or.inr (by norm_num))
  exact this

theorem blackmanNuttall_le_24 {c : ℝ → ℝ} (hc : CosLike 24 c) (t y z : ℝ) :
    minus 24 c (plus 24 c (minus 24 c (lit 24 0.3635819) 0.4891775 t) 0.1365995 y) 0.0106411 z ≤ 1 := by
  have h1 := up_step (p := 24) (by norm_num) hc t lit24_0_3635819 (by norm_num : (0 : ℝ) ≤ 0.4891775) lit24_0_4891775
    (rnd_lit 16414073 25 (by norm_num))
    (rnd_le_tie (p := 24) (by norm_num) 14306928 24 (by norm_num) (by norm_num) (by norm_num) (Or.inl (by decide)))
  have h2 := up_step (p := 24) (by norm_num) hc y h1.1 (by norm_num : (0 : ℝ) ≤ 0.1365995) lit24_0_1365995
    (rnd_lit 9167037 26 (by norm_num))
    (rnd_le_tie (p := 24) (by norm_num) 16598687 24 (by norm_num) (by norm_num) (by norm_num) (Or.inr (by norm_num)))
  have h3 := up_step (p := 24) (by norm_num) hc z h2.2 (by norm_num : (0 : ℝ) ≤ 0.0106411) lit24_0_0106411
    (rnd_lit 11425794 30 (by norm_num))
    (rnd_le_tie (p := 24) (by norm_num) 16777215 24 (by norm_num) (by norm_num) (by norm_num) (Or.inr (by norm_num)))
  refine h3.1.trans ?_
  norm_num

theorem lit53_0_3635819 : lit 53 0.3635819 ≤ ((6549709237434628 : ℤ) : ℝ) / 2 ^ 54 := by
  have h : rnd 53 (0.3635819 : ℝ) ≤ (6549709237434628 : ℤ) / 2 ^ 54 :=
    rnd_le_tie (by norm_num) 6549709237434628 54 (by norm_num) (by norm_num) (by norm_num) (Or.inr (by norm_num))
  refine (rnd_mono (by norm_num) h).trans ?_
  have := rnd_le_tie (p := 53) (by norm_num) 6549709237434628 54 (x := (6549709237434628 : ℤ) / 2 ^ 54) (by norm_num) (by norm_num) (by norm_num)
    (Or.inr (by norm_num))
  exact this

theorem lit53_0_4891775 : lit 53 0.4891775 ≤ ((8812238426872123 : ℤ) : ℝ) / 2 ^ 54 := by
  have h : rnd 53 (0.4891775 : ℝ) ≤ (8812238426872123 : ℤ) / 2 ^ 54 :=
    rnd_le_tie (by norm_num) 8812238426872123 54 (by norm_num) (by norm_num) (by norm_num) (Or.inr (by norm_num))
  refine (rnd_mono (by norm_num) h).trans ?_
  have := rnd_le_tie (p := 53) (by norm_num) 8812238426872123 54 (x := (8812238426872123 : ℤ) / 2 ^ 54) (by norm_num) (by norm_num) (by norm_num)
    (Or.inr (by norm_num))
  exact this

theorem lit53_0_1365995 : lit 53 0.1365995 ≤ ((4921515658391969 : ℤ) : ℝ) / 2 ^ 55 := by
  have h : rnd 53 (0.1365995 : ℝ) ≤ (4921515658391969 : ℤ) / 2 ^ 55 :=
    rnd_le_tie (by norm_num) 4921515658391969 55 (by norm_num) (by norm_num) (by norm_num) (Or.inr (by norm_num))
  refine (rnd_mono (by norm_num) h).trans ?_
  have := rnd_le_tie (p := 53) (by norm_num) 4921515658391969 55 (x := (4921515658391969 : ℤ) / 2 ^ 55) (by norm_num) (by norm_num) (by norm_num)
    (Or.inr (by norm_num))
  exact this

theorem lit53_0_0106411 : lit 53 0.0106411 ≤ ((6134176511335960 : ℤ) : ℝ) / 2 ^ 59 := by
  have h : rnd 53 (0.0106411 : ℝ) ≤ (6134176511335960 : ℤ) / 2 ^ 59 :=
    rnd_le_tie (by norm_num) 6134176511335960 59 (by norm_num) (by norm_num) (by norm_num) (Or.inr (by norm_num))
  refine (rnd_mono (by norm_num) h).trans ?_
  have := rnd_le_tie (p := 53) (by norm_num) 6134176511335960 59 (x := (6134176511335960 : ℤ) / 2 ^ 59) (by norm_num) (by norm_num) (by norm_num)
    (Or.inr (by norm_num))
  exact this

theorem blackmanNuttall_le_53 {c : ℝ → ℝ} (hc : CosLike 53 c) (t y z : ℝ) :
    minus 53 c (plus 53 c (minus 53 c (lit 53 0.3635819) 0.4891775 t) 0.1365995 y) 0.0106411 z ≤ 1 := by
  have h1 := up_step (p := 53) (by norm_num) hc t lit53_0_3635819 (by norm_num : (0 : ℝ) ≤ 0.4891775) lit53_0_4891775
    (rnd_lit 8812238426872123 54 (by norm_num))
    (rnd_le_tie (p := 53) (by norm_num) 7680973832153376 53 (by norm_num) (by norm_num) (by norm_num) (Or.inr (by norm_num)))
  have h2 := up_step (p := 53) (by norm_num) hc y h1.1 (by norm_num : (0 : ℝ) ≤ 0.1365995) lit53_0_1365995
    (rnd_lit 4921515658391969 55 (by norm_num))
    (rnd_le_tie (p := 53) (by norm_num) 8911352746751368 53 (by norm_num) (by norm_num) (by norm_num) (Or.inr (by norm_num)))
  have h3 := up_step (p := 53) (by norm_num) hc z h2.2 (by norm_num : (0 : ℝ) ≤ 0.0106411) lit53_0_0106411
    (rnd_lit 6134176511335960 59 (by norm_num))
    (rnd_le_tie (p := 53) (by norm_num) 4503599627370496 52 (by norm_num) (by norm_num) (by norm_num) (Or.inr (by norm_num)))
  refine h3.1.trans ?_
  norm_num

theorem lit24_0_54 : lit 24 0.54 ≤ ((9059697 : ℤ) : ℝ) / 2 ^ 24 := by
  have h : rnd 53 (0.54 : ℝ) ≤ (4863887597560136 : ℤ) / 2 ^ 53 :=
    rnd_le_tie (by norm_num) 4863887597560136 53 (by norm_num) (by norm_num) (by norm_num) (Or.inr (by norm_num))
  refine (rnd_mono (by norm_num) h).trans ?_
  have := rnd_le_tie (p := 24) (by norm_num) 9059697 24 (x := (4863887597560136 : ℤ) / 2 ^ 53) (by norm_num) (by norm_num) (by norm_num)
    (Or.inr (by norm_num))
  exact this

theorem lit24_0_46 : lit 24 0.46 ≤ ((15435039 : ℤ) : ℝ) / 2 ^ 25 := by
  have h : rnd 53 (0.46 : ℝ) ≤ (8286623314361713 : ℤ) / 2 ^ 54 :=
    rnd_le_tie (by norm_num) 8286623314361713 54 (by norm_num) (by norm_num) (by norm_num) (Or.inr (by norm_num))
  refine (rnd_mono (by norm_num) h).trans ?_
  have := rnd_le_tie (p := 24) (by norm_num) 15435039 25 (x := (8286623314361713 : ℤ) / 2 ^ 54) (by norm_num) (by norm_num) (by norm_num)
    (Or.inr (by norm_num))
  exact this

theorem hamming_le_24 {c : ℝ → ℝ} (hc : CosLike 24 c) (t : ℝ) :
    minus 24 c (lit 24 0.54) 0.46 t ≤ 1 := by
  have h1 := up_step (p := 24) (by norm_num) hc t lit24_0_54 (by norm_num : (0 : ℝ) ≤ 0.46) lit24_0_46
    (rnd_lit 15435039 25 (by norm_num))
    (rnd_le_tie (p := 24) (by norm_num) 8388608 23 (by norm_num) (by norm_num) (by norm_num) (Or.inr (by norm_num)))
  refine h1.1.trans ?_
  norm_num

theorem lit53_0_54 : lit 53 0.54 ≤ ((4863887597560136 : ℤ) : ℝ) / 2 ^ 53 := by
  have h : rnd 53 (0.54 : ℝ) ≤ (4863887597560136 : ℤ) / 2 ^ 53 :=
    rnd_le_tie (by norm_num) 4863887597560136 53 (by norm_num) (by norm_num) (by norm_num) (Or.inr (by norm_num))
  refine (rnd_mono (by norm_num) h).trans ?_
  have := rnd_le_tie (p := 53) (by norm_num) 4863887597560136 53 (x := (4863887597560136 : ℤ) / 2 ^ 53) (by norm_num) (by norm_num) (by norm_num)
    (Or.inr (by norm_num))
  exact this

theorem lit53_0_46 : lit 53 0.46 ≤ ((8286623314361713 : ℤ) : ℝ) / 2 ^ 54 := by
  have h : rnd 53 (0.46 : ℝ) ≤ (8286623314361713 : ℤ) / 2 ^ 54 :=
    rnd_le_tie (by norm_num) 8286623314361713 54 (by norm_num) (by norm_num) (by norm_num) (Or.inr (by norm_num))
  refine (rnd_mono (by norm_num) h).trans ?_
  have := rnd_le_tie (p := 53) (by norm_num) 8286623314361713 54 (x := (8286623314361713 : ℤ) / 2 ^ 54) (by norm_num) (by norm_num) (by norm_num)
    (Or.inr (by norm_num))
  exact this

theorem hamming_le_53 {c : ℝ → ℝ} (hc : CosLike 53 c) (t : ℝ) :
    minus 53 c (lit 53 0.54) 0.46 t ≤ 1 := by
  have h1 := up_step (p := 53) (by norm_num) hc t lit53_0_54 (by norm_num : (0 : ℝ) ≤ 0.46) lit53_0_46
    (rnd_lit 8286623314361713 54 (by norm_num))
    (rnd_le_tie (p := 53) (by norm_num) 4503599627370496 52 (by norm_num) (by norm_num) (by norm_num) (Or.inr (by norm_num)))
  refine h1.1.trans ?_
  norm_num

/-- A number close to one with `p` bits. -/
theorem rnd_near {p : ℕ} (hp : 1 ≤ p) (m : ℤ) (K : ℕ) {x : ℝ} (h1 : (2 : ℝ) ^ (p - 1) ≤ x * 2 ^ K)
    (h2 : x * 2 ^ K < 2 ^ p) (h3 : m - 1 / 2 < x * 2 ^ K) (h4 : x * 2 ^ K < m + 1 / 2) : rnd p x = m / 2 ^ K := by
  have hK : (0 : ℝ) < 2 ^ K := by positivity
  have eK : (2 : ℝ) ^ (-(K : ℤ)) = 1 / 2 ^ K := by rw [zpow_neg, zpow_natCast, one_div]
  have hxp : 0 < x := by
    by_contra hc
    have a1 : x * 2 ^ K ≤ 0 := mul_nonpos_of_nonpos_of_nonneg (not_lt.mp hc) hK.le
    have a2 : (0 : ℝ) < 2 ^ (p - 1) := by positivity
    linarith
  have e1 : (2 : ℝ) ^ (-(K : ℤ) + p - 1) = 2 ^ (p - 1) / 2 ^ K := by
    rw [show -(K : ℤ) + (p : ℤ) - 1 = ((p - 1 : ℕ) : ℤ) + -(K : ℤ) by omega, zpow_add₀ (by norm_num), zpow_natCast, eK]
    ring
  have e2 : (2 : ℝ) ^ (-(K : ℤ) + p) = 2 ^ p / 2 ^ K := by
    rw [add_comm, zpow_add₀ (by norm_num), zpow_natCast, eK]
    ring
  rw [rnd_of (p := p) (x := x) (k := -(K : ℤ)) (by rw [abs_of_pos hxp, e1, div_le_iff₀ hK]; linarith)
    (by rw [abs_of_pos hxp, e2, lt_div_iff₀ hK]; linarith), eK]
  have e3 : x / (1 / 2 ^ K) = x * 2 ^ K := by field_simp
  rw [e3, FloatL.ne_of_lt h3 h4]
  ring

theorem lit24eq_0_42 : lit 24 0.42 = ((14092861 : ℤ) : ℝ) / 2 ^ 25 := by
  have h : rnd 53 (0.42 : ℝ) = ((7566047373982433 : ℤ) : ℝ) / 2 ^ 54 :=
    rnd_near (by norm_num) 7566047373982433 54 (by norm_num) (by norm_num) (by norm_num) (by norm_num)
  unfold lit
  rw [h]
  exact rnd_near (p := 24) (by norm_num) 14092861 25 (by norm_num) (by norm_num) (by norm_num) (by norm_num)

theorem lit24eq_0_08 : lit 24 0.08 = ((10737418 : ℤ) : ℝ) / 2 ^ 27 := by
  have h : rnd 53 (0.08 : ℝ) = ((5764607523034235 : ℤ) : ℝ) / 2 ^ 56 :=
    rnd_near (by norm_num) 5764607523034235 56 (by norm_num) (by norm_num) (by norm_num) (by norm_num)
  unfold lit
  rw [h]
  exact rnd_near (p := 24) (by norm_num) 10737418 27 (by norm_num) (by norm_num) (by norm_num) (by norm_num)

theorem blackman_first_24 :
    rnd 24 (rnd 24 (lit 24 0.42 - rnd 24 (lit 24 0.50)) + rnd 24 (lit 24 0.08)) < 0 := by
  rw [show (0.50 : ℝ) = 0.5 by norm_num, lit_half (by norm_num), lit24eq_0_42, lit24eq_0_08]
  have h0 : rnd 24 (1 / 2 : ℝ) = 1 / 2 := by
    have := rnd_lit (p := 24) 1 1 (by norm_num)
    norm_num at this ⊢
    exact this
  have h1 : rnd 24 (((14092861 : ℤ) : ℝ) / 2 ^ 25 - 1 / 2) = ((-2684355 : ℤ) : ℝ) / 2 ^ 25 := by
    rw [← rnd_lit (p := 24) (-2684355) 25 (by norm_num)]
    congr 1
    norm_num
  have h2 := rnd_lit (p := 24) 10737418 27 (by norm_num)
  have h3 : rnd 24 (((-2684355 : ℤ) : ℝ) / 2 ^ 25 + ((10737418 : ℤ) : ℝ) / 2 ^ 27) = ((-1 : ℤ) : ℝ) / 2 ^ 26 := by
    rw [← rnd_lit (p := 24) (-1) 26 (by norm_num)]
    congr 1
    norm_num
  rw [h0, h1, h2, h3]
  norm_num

theorem lit53eq_0_42 : lit 53 0.42 = ((7566047373982433 : ℤ) : ℝ) / 2 ^ 54 := by
  have h : rnd 53 (0.42 : ℝ) = ((7566047373982433 : ℤ) : ℝ) / 2 ^ 54 :=
    rnd_near (by norm_num) 7566047373982433 54 (by norm_num) (by norm_num) (by norm_num) (by norm_num)
  unfold lit
  rw [h]
  exact rnd_near (p := 53) (by norm_num) 7566047373982433 54 (by norm_num) (by norm_num) (by norm_num) (by norm_num)

theorem lit53eq_0_08 : lit 53 0.08 = ((5764607523034235 : ℤ) : ℝ) / 2 ^ 56 := by
  have h : rnd 53 (0.08 : ℝ) = ((5764607523034235 : ℤ) : ℝ) / 2 ^ 56 :=
    rnd_near (by norm_num) 5764607523034235 56 (by norm_num) (by norm_num) (by norm_num) (by norm_num)
  unfold lit
  rw [h]
  exact rnd_near (p := 53) (by norm_num) 5764607523034235 56 (by norm_num) (by norm_num) (by norm_num) (by norm_num)

theorem blackman_first_53 :
    rnd 53 (rnd 53 (lit 53 0.42 - rnd 53 (lit 53 0.50)) + rnd 53 (lit 53 0.08)) < 0 := by
  rw [show (0.50 : ℝ) = 0.5 by norm_num, lit_half (by norm_num), lit53eq_0_42, lit53eq_0_08]
  have h0 : rnd 53 (1 / 2 : ℝ) = 1 / 2 := by
    have := rnd_lit (p := 53) 1 1 (by norm_num)
    norm_num at this ⊢
    exact this
  have h1 : rnd 53 (((7566047373982433 : ℤ) : ℝ) / 2 ^ 54 - 1 / 2) = ((-1441151880758559 : ℤ) : ℝ) / 2 ^ 54 := by
    rw [← rnd_lit (p := 53) (-1441151880758559) 54 (by norm_num)]
    congr 1
    norm_num
  have h2 := rnd_lit (p := 53) 5764607523034235 56 (by norm_num)
  have h3 : rnd 53 (((-1441151880758559 : ℤ) : ℝ) / 2 ^ 54 + ((5764607523034235 : ℤ) : ℝ) / 2 ^ 56) = ((-1 : ℤ) : ℝ) / 2 ^ 56 := by
    rw [← rnd_lit (p := 53) (-1) 56 (by norm_num)]
    congr 1
    norm_num
  rw [h0, h1, h2, h3]
  norm_num

end Edsp.RndWinL
