import Verif.Lemmas.Band
import Verif.Lemmas.AnalogDesign

/-! Helper lemmas: the band-pass and band-stop point maps invert the two quadratic frequency maps. -/

namespace Edsp.BandL

open Edsp Edsp.Spec Edsp.LayoutL Edsp.BilinearL

theorem addmul_eq (l : ℂ) (k : ℝ) (r : ℂ) : addmul l k r = l + k * r := by
  apply Complex.ext <;> simp [addmul]

theorem csqrt_sq (z : ℂ) : csqrt z ^ 2 = z := by
  unfold csqrt
  by_cases h : z = 0
  · subst h; rw [Complex.zero_cpow (by norm_num)]; simp
  · rw [← Complex.cpow_nat_mul]; norm_num

/-- `z² - 2 a z + 1`. -/
noncomputable def qX (a : ℝ) (z : ℂ) : ℂ := z ^ 2 - 2 * a * z + 1
/-- `z² - 1`. -/
noncomputable def qY (z : ℂ) : ℂ := z ^ 2 - 1

theorem no_common {a : ℝ} (ha : |a| < 1) {z : ℂ} (hX : qX a z = 0) (hY : qY z = 0) : False := by
  unfold qX at hX
  unfold qY at hY
  have h1 : (a : ℂ) * z = 1 := by linear_combination (hY - hX) / 2
  have h2 : (a : ℂ) ^ 2 = 1 := by
    have h3 : (a : ℂ) ^ 2 * z ^ 2 = 1 := by rw [← mul_pow, h1, one_pow]
    have h4 : z ^ 2 = 1 := by linear_combination hY
    rw [h4, mul_one] at h3
    exact h3
  have h5 : a ^ 2 = 1 := by exact_mod_cast h2
  have h6 := abs_lt.mp ha
  nlinarith

theorem re_cross (a : ℝ) (r : ℂ) :
    (qX a r * (starRingEnd ℂ) (qY r)).re =
      (Complex.normSq r - 1) * (Complex.normSq r + 1 - 2 * a * r.re) := by
  simp only [qX, qY, Complex.normSq_apply, pow_two]
  simp
  ring

theorem factor_pos {a : ℝ} (ha : |a| < 1) (r : ℂ) : 0 < Complex.normSq r + 1 - 2 * a * r.re := by
  rw [Complex.normSq_apply]
  have h := abs_lt.mp ha
  nlinarith [sq_nonneg (r.re - a), mul_self_nonneg r.im]

theorem norm_lt_of {r : ℂ} (h : Complex.normSq r < 1) : ‖r‖ < 1 := by
  rw [Complex.normSq_eq_norm_sq] at h
  have := norm_nonneg r
  nlinarith

theorem inside_bp {a b : ℝ} (ha : |a| < 1) (hb : 0 < b) {s r : ℂ} (hs : s.re < 0)
    (h : b * qX a r = s * qY r) : ‖r‖ < 1 := by
  apply norm_lt_of
  by_contra hN
  have hN : 1 ≤ Complex.normSq r := not_lt.mp hN
  have h1 : (b : ℂ) * (qX a r * (starRingEnd ℂ) (qY r)) = s * (Complex.normSq (qY r) : ℝ) := by
    rw [← Complex.mul_conj]; linear_combination (starRingEnd ℂ) (qY r) * h
  have h2 := congrArg Complex.re h1
  rw [Complex.re_ofReal_mul, re_cross, Complex.re_mul_ofReal] at h2
  have h3 := factor_pos ha r
  have h4 : 0 ≤ b * ((Complex.normSq r - 1) * (Complex.normSq r + 1 - 2 * a * r.re)) :=
    mul_nonneg hb.le (mul_nonneg (by linarith) h3.le)
  have h5 : Complex.normSq (qY r) = 0 := by
    have := Complex.normSq_nonneg (qY r)
    rcases this.eq_or_lt with h | h
    · exact h.symm
    · nlinarith
  have hY : qY r = 0 := Complex.normSq_eq_zero.mp h5
  have hX : qX a r = 0 := by
    rw [hY, mul_zero] at h
    rcases mul_eq_zero.mp h with h | h
    · exact absurd h (by exact_mod_cast hb.ne')
    · exact h
  exact no_common ha hX hY

theorem inside_bs {a b : ℝ} (ha : |a| < 1) (hb : 0 < b) {s r : ℂ} (hs : s.re < 0)
    (h : b * qY r = s * qX a r) : ‖r‖ < 1 := by
  apply norm_lt_of
  by_contra hN
  have hN : 1 ≤ Complex.normSq r := not_lt.mp hN
  have h1 : (b : ℂ) * (starRingEnd ℂ) (qX a r * (starRingEnd ℂ) (qY r)) =
      s * (Complex.normSq (qX a r) : ℝ) := by
    rw [← Complex.mul_conj, map_mul, Complex.conj_conj]
    linear_combination (starRingEnd ℂ) (qX a r) * h
  have h2 := congrArg Complex.re h1
  rw [Complex.re_ofReal_mul, Complex.conj_re, re_cross, Complex.re_mul_ofReal] at h2
  have h3 := factor_pos ha r
  have h4 : 0 ≤ b * ((Complex.normSq r - 1) * (Complex.normSq r + 1 - 2 * a * r.re)) :=
    mul_nonneg hb.le (mul_nonneg (by linarith) h3.le)
  have h5 : Complex.normSq (qX a r) = 0 := by
    have := Complex.normSq_nonneg (qX a r)
    rcases this.eq_or_lt with h | h
    · exact h.symm
    · nlinarith
  have hX : qX a r = 0 := Complex.normSq_eq_zero.mp h5
  have hY : qY r = 0 := by
    rw [hX, mul_zero] at h
    rcases mul_eq_zero.mp h with h | h
    · exact absurd h (by exact_mod_cast hb.ne')
    · exact h
  exact no_common ha hX hY

/-- Two numbers `(x ± w) / y` with `x`, `y` and `w²` real are conjugate or both real. -/
theorem match_of {w : ℂ} {x y W : ℝ} (hw : w ^ 2 = W) :
    Match (((x : ℂ) - w) / y) ((x + w) / y) ∧ Match (((x : ℂ) + w) / y) ((x - w) / y) := by
  have h := congrArg Complex.im hw
  rw [pow_two, Complex.mul_im, Complex.ofReal_im] at h
  have h0 : w.re = 0 ∨ w.im = 0 := by
    have : w.re * w.im = 0 := by linarith
    exact mul_eq_zero.mp this
  rcases h0 with h0 | h0
  · have hc : (starRingEnd ℂ) w = -w := by apply Complex.ext <;> simp [h0]
    constructor
    · have := match_conj (((x : ℂ) - w) / y)
      simpa [hc] using this
    · have := match_conj (((x : ℂ) + w) / y)
      simpa [hc, sub_eq_add_neg] using this
  · have hr : w = (w.re : ℂ) := by apply Complex.ext <;> simp [h0]
    have i1 : (((x : ℂ) - w) / y).im = 0 := by rw [hr, ← Complex.ofReal_sub, ← Complex.ofReal_div, Complex.ofReal_im]
    have i2 : (((x : ℂ) + w) / y).im = 0 := by rw [hr, ← Complex.ofReal_add, ← Complex.ofReal_div, Complex.ofReal_im]
    exact ⟨⟨fun h => absurd i1 h, fun _ => i2⟩, ⟨fun h => absurd i2 h, fun _ => i1⟩⟩

theorem one_sub_ne' {s : ℂ} (hs : s.re ≤ 0) : 1 - s ≠ 0 := by
  intro h
  have := congrArg Complex.re h
  simp at this
  linarith

theorem bp_root {B : BandParams} (ha : |B.a| < 1) (hb : 0 < B.b) :
    RootMap B.b (fun z => B.b * qX B.a z) qY (bpMap B) where
  fin := by
    intro s hs
    have h1 := one_sub_ne' hs
    have h2 := b_sub_ne hb hs
    obtain ⟨W, hW⟩ : ∃ W, W = csqrt (4 * (B.b * B.b * (B.a * B.a - 1) + 1) * ((1 + s) / (1 - s)) *
      ((1 + s) / (1 - s)) + 8 * (B.b * B.b * (B.a * B.a - 1) - 1) * ((1 + s) / (1 - s)) +
      4 * (B.b * B.b * (B.a * B.a - 1) + 1)) * (1 - s) := ⟨_, rfl⟩
    have hW2 : W ^ 2 = 16 * (B.b ^ 2 * (B.a ^ 2 - 1) + s ^ 2) := by
      rw [hW, mul_pow, csqrt_sq]
      field_simp
      ring
    have hr : bpMap B (some s) = .ok ((4 * B.a * B.b - W) / (4 * (B.b - s)),
        (4 * B.a * B.b + W) / (4 * (B.b - s))) := by
      unfold bpMap
      simp only
      rw [if_neg h1]
      have hd : addmul 0 (2 * (B.b - 1)) ((1 + s) / (1 - s)) + ((2 * (1 + B.b) : ℝ) : ℂ) =
          4 * (B.b - s) / (1 - s) := by
        rw [addmul_eq]; push_cast; field_simp; ring
      rw [hd, if_neg (div_ne_zero (mul_ne_zero (by norm_num) h2) h1)]
      simp only [addmul_eq]
      have hv : csqrt ((0 + ((4 * (B.b * B.b * (B.a * B.a - 1) + 1) : ℝ) : ℂ) * ((1 + s) / (1 - s)) +
          ((8 * (B.b * B.b * (B.a * B.a - 1) - 1) : ℝ) : ℂ)) * ((1 + s) / (1 - s)) +
          ((4 * (B.b * B.b * (B.a * B.a - 1) + 1) : ℝ) : ℂ)) = W / (1 - s) := by
        rw [hW, mul_div_cancel_right₀ _ h1]
        congr 1
        push_cast
        ring
      rw [hv]
      congr 1
      refine Prod.ext ?_ ?_
      · simp only; push_cast; field_simp; ring
      · simp only; push_cast; field_simp; ring
    refine ⟨_, hr, ?_, ?_, ?_⟩
    · intro z
      simp only [qX, qY]
      field_simp
      linear_combination (-1 : ℂ) * hW2
    · intro hs'
      have key : ∀ z, (z - (4 * B.a * B.b - W) / (4 * (B.b - s))) *
          (z - (4 * B.a * B.b + W) / (4 * (B.b - s))) * (B.b - s) = B.b * qX B.a z - s * qY z := by
        intro z
        simp only [qX, qY]
        field_simp
        linear_combination (-1 : ℂ) * hW2
      constructor
      · apply inside_bp ha hb hs'
        have := key ((4 * B.a * B.b - W) / (4 * (B.b - s)))
        rw [sub_self, zero_mul, zero_mul] at this
        linear_combination -this
      · apply inside_bp ha hb hs'
        have := key ((4 * B.a * B.b + W) / (4 * (B.b - s)))
        rw [sub_self, mul_zero, zero_mul] at this
        linear_combination -this
    · intro him
      have hsr : s = (s.re : ℂ) := by apply Complex.ext <;> simp [him]
      have := (match_of (w := W) (x := 4 * B.a * B.b) (y := 4 * (B.b - s.re))
        (W := 16 * (B.b ^ 2 * (B.a ^ 2 - 1) + s.re ^ 2)) (by rw [hW2]; push_cast; rw [← hsr])).1
      push_cast at this
      rw [← hsr] at this
      exact this
  inf := by
    refine ⟨(-1, 1), rfl, ?_, ?_, ?_⟩
    · intro z; simp only [qY]; ring
    · intro h; simp at h
    · intro _; simp
  bpos := hb
  nconj := by intro z; simp [qX, map_ofNat]
  dconj := by intro z; simp [qY]
  d0 := by simp [qY]
  n0 := by simp [qX, qY]

theorem bs_root {B : BandParams} (ha : |B.a| < 1) (hb : 0 < B.b) :
    RootMap B.b (fun z => B.b * qY z) (qX B.a) (bsMap B) where
  fin := by
    intro s hs
    have h1 := one_sub_ne' hs
    have h2 := b_sub_ne hb hs
    obtain ⟨W, hW⟩ : ∃ W, W = csqrt (4 * (B.b * B.b + B.a * B.a - 1) * ((1 + s) / (1 - s)) *
      ((1 + s) / (1 - s)) + 8 * (B.b * B.b - B.a * B.a + 1) * ((1 + s) / (1 - s)) +
      4 * (B.a * B.a + B.b * B.b - 1)) * (1 - s) := ⟨_, rfl⟩
    have hW2 : W ^ 2 = 16 * (B.b ^ 2 + (B.a ^ 2 - 1) * s ^ 2) := by
      rw [hW, mul_pow, csqrt_sq]
      field_simp
      ring
    have hr : bsMap B (some s) = .ok ((-4 * B.a * s + W) / (4 * (B.b - s)),
        (-4 * B.a * s - W) / (4 * (B.b - s))) := by
      unfold bsMap bsArg
      simp only
      rw [if_neg h1]
      simp only [bind, Except.bind]
      have hd : addmul ((B.b + 1 : ℝ) : ℂ) (B.b - 1) ((1 + s) / (1 - s)) =
          2 * (B.b - s) / (1 - s) := by
        rw [addmul_eq]; push_cast; field_simp; ring
      rw [hd, if_neg (div_ne_zero (mul_ne_zero (by norm_num) h2) h1)]
      simp only [addmul_eq]
      have hv : csqrt ((0 + ((4 * (B.b * B.b + B.a * B.a - 1) : ℝ) : ℂ) * ((1 + s) / (1 - s)) +
          ((8 * (B.b * B.b - B.a * B.a + 1) : ℝ) : ℂ)) * ((1 + s) / (1 - s)) +
          ((4 * (B.a * B.a + B.b * B.b - 1) : ℝ) : ℂ)) = W / (1 - s) := by
        rw [hW, mul_div_cancel_right₀ _ h1]
        congr 1
        push_cast
        ring
      rw [hv]
      congr 1
      refine Prod.ext ?_ ?_
      · simp only; push_cast; field_simp; ring
      · simp only; push_cast; field_simp; ring
    have key : ∀ z, (z - (-4 * B.a * s + W) / (4 * (B.b - s))) *
        (z - (-4 * B.a * s - W) / (4 * (B.b - s))) * (B.b - s) = B.b * qY z - s * qX B.a z := by
      intro z
      simp only [qX, qY]
      field_simp
      linear_combination (-1 : ℂ) * hW2
    refine ⟨_, hr, key, ?_, ?_⟩
    · intro hs'
      constructor
      · apply inside_bs ha hb hs'
        have := key ((-4 * B.a * s + W) / (4 * (B.b - s)))
        rw [sub_self, zero_mul, zero_mul] at this
        linear_combination -this
      · apply inside_bs ha hb hs'
        have := key ((-4 * B.a * s - W) / (4 * (B.b - s)))
        rw [sub_self, mul_zero, zero_mul] at this
        linear_combination -this
    · intro him
      have hsr : s = (s.re : ℂ) := by apply Complex.ext <;> simp [him]
      have := (match_of (w := W) (x := -4 * B.a * s.re) (y := 4 * (B.b - s.re))
        (W := 16 * (B.b ^ 2 + (B.a ^ 2 - 1) * s.re ^ 2)) (by rw [hW2]; push_cast; rw [← hsr])).2
      push_cast at this
      rw [← hsr] at this
      exact this
  inf := by
    obtain ⟨W, hW⟩ : ∃ W, W = csqrt ((0 + ((4 * (B.b * B.b + B.a * B.a - 1) : ℝ) : ℂ) * (-1) +
          ((8 * (B.b * B.b - B.a * B.a + 1) : ℝ) : ℂ)) * (-1) +
          ((4 * (B.a * B.a + B.b * B.b - 1) : ℝ) : ℂ)) := ⟨_, rfl⟩
    have hW2 : W ^ 2 = ((16 * (B.a ^ 2 - 1) : ℝ) : ℂ) := by
      rw [hW, csqrt_sq]; push_cast; ring
    have hr : bsMap B none = .ok ((((4 * B.a : ℝ) : ℂ) + W) / (4 : ℝ), (((4 * B.a : ℝ) : ℂ) - W) / (4 : ℝ)) := by
      unfold bsMap bsArg
      simp only [bind, Except.bind]
      have hd : addmul ((B.b + 1 : ℝ) : ℂ) (B.b - 1) (-1) = 2 := by
        rw [addmul_eq]; push_cast; ring
      rw [hd, if_neg (by norm_num)]
      simp only [addmul_eq, ← hW]
      congr 1
      refine Prod.ext ?_ ?_
      · simp only; push_cast; ring
      · simp only; push_cast; ring
    refine ⟨_, hr, ?_, ?_⟩
    · intro z
      simp only [qX]
      push_cast at hW2 ⊢
      linear_combination (-1 / 16 : ℂ) * hW2
    · exact (match_of hW2).2
  bpos := hb
  nconj := by intro z; simp [qY]
  dconj := by intro z; simp [qX, map_ofNat]
  d0 := by simp [qX]
  n0 := by simp [qX, qY]

/-- The points of the unit circle. -/
theorem circle_XY (a w : ℝ) :
    qX a (Complex.exp (w * Complex.I)) = 2 * Complex.exp (w * Complex.I) * (Real.cos w - a : ℝ) ∧
      qY (Complex.exp (w * Complex.I)) =
        2 * Complex.I * Complex.exp (w * Complex.I) * (Real.sin w : ℝ) := by
  have hz : Complex.exp (w * Complex.I) = Real.cos w + Real.sin w * Complex.I := by
    rw [Complex.exp_mul_I, ← Complex.ofReal_cos, ← Complex.ofReal_sin]
  have hcs : (Real.cos w : ℂ) ^ 2 + (Real.sin w : ℂ) ^ 2 = 1 := by
    exact_mod_cast Real.cos_sq_add_sin_sq w
  rw [hz]
  unfold qX qY
  constructor
  · rw [Complex.ofReal_sub]
    linear_combination (-1 : ℂ) * hcs + (Real.sin w : ℂ) ^ 2 * Complex.I_sq
  · linear_combination hcs - (Real.sin w : ℂ) ^ 2 * Complex.I_sq

theorem bp_circle {a b w : ℝ} (hw : Real.sin w ≠ 0) :
    qY (Complex.exp (w * Complex.I)) ≠ 0 ∧
      b * qX a (Complex.exp (w * Complex.I)) / qY (Complex.exp (w * Complex.I)) =
        Complex.I * (b * (a - Real.cos w) / Real.sin w : ℝ) := by
  obtain ⟨h1, h2⟩ := circle_XY a w
  have he : Complex.exp (w * Complex.I) ≠ 0 := Complex.exp_ne_zero _
  have hs : (Real.sin w : ℂ) ≠ 0 := by exact_mod_cast hw
  rw [h1, h2]
  refine ⟨mul_ne_zero (mul_ne_zero (mul_ne_zero two_ne_zero Complex.I_ne_zero) he) hs, ?_⟩
  push_cast
  field_simp
  rw [Complex.I_sq]; ring

theorem bs_circle {a b w : ℝ} (hw : Real.cos w - a ≠ 0) :
    qX a (Complex.exp (w * Complex.I)) ≠ 0 ∧
      b * qY (Complex.exp (w * Complex.I)) / qX a (Complex.exp (w * Complex.I)) =
        Complex.I * (b * Real.sin w / (Real.cos w - a) : ℝ) := by
  obtain ⟨h1, h2⟩ := circle_XY a w
  have he : Complex.exp (w * Complex.I) ≠ 0 := Complex.exp_ne_zero _
  have hs : ((Real.cos w - a : ℝ) : ℂ) ≠ 0 := by exact_mod_cast hw
  rw [h1, h2]
  refine ⟨mul_ne_zero (mul_ne_zero two_ne_zero he) hs, ?_⟩
  have hs' : ((Real.cos w : ℂ) - a) ≠ 0 := by simpa using hs
  push_cast
  field_simp

end Edsp.BandL
