import Verif.Lemmas.RoundedBiquad
import Verif.Lemmas.Float
import Verif.Props.C09_Stability

/-!
# C100: biquads and cascades in floating point arithmetic

The output of a stable filter in `float` or `double` should stay near the exact output, however long the signal.
-/

namespace Edsp.Rounded

open Edsp Edsp.Spec Edsp.FloatL

/-- Without rounding the model is that of `Verif.Model.Biquad`. -/
theorem response_id (f : Biquad ℝ) (x : ℕ → ℝ) (n : ℕ) : biquadResponse id f x n = f.response x n := by
  have h : ∀ n, biquadState id f x n = f.stateAt x n := by
    intro n
    induction n with
    | zero => rfl
    | succ n ih =>
      show (biquadTick id (biquadState id f x n) (x n)).1 = ((f.stateAt x n).tick (x n)).1
      rw [ih]
      rfl
  show (biquadTick id (biquadState id f x n) (x n)).2 = ((f.stateAt x n).tick (x n)).2
  rw [h]
  rfl

/-- The exact output of filters in series. -/
noncomputable def series (fs : List (Biquad ℝ)) (x : ℕ → ℝ) : ℕ → ℝ := fs.foldl (fun x f => f.response x) x

/-! ### Explicit bound -/

/-- **C100**, one section at rest with coefficients of at most `S ≥ 1` and poles of modulus at most `r = 1 - 1/k`: if
`600 S² k² ≤ 2^p`, the output for an input within `X` differs from the exact output by at most `4200 S⁴ k⁴ 2^-p X`,
for ever.
Missing: filters with poles nearer to the unit circle, for which it is false (`C100_constant_violates`). -/
theorem C100_section_partial {p : ℕ} {f : Biquad ℝ} {S k X : ℝ} (hS : CoeffLe f S) (hk : 1 ≤ k)
    (hpole : ∀ z : ℂ, z ^ 2 + f.a1 * z + f.a2 = 0 → ‖z‖ ≤ 1 - 1 / k) (hp : 600 * S ^ 2 * k ^ 2 ≤ 2 ^ p)
    (h0 : f.w0 = 0) (h1 : f.w1 = 0) {x : ℕ → ℝ} (hx : ∀ n, |x n| ≤ X) (n : ℕ) :
    |biquadResponse (rnd p) f x n - f.response x n| ≤ 4200 * S ^ 4 * k ^ 4 * 2 ^ (-(p : ℤ)) * X := by
  obtain ⟨a, b, hs, hm⟩ := Stability.split_quadratic f.a1 f.a2
  obtain ⟨ra, rb⟩ := Stability.is_root hs hm
  have hk0 : 0 < k := by linarith
  refine section_err (rnd_err p) (two_zpow_pos _).le hS hs hm (hpole a ra) (hpole b rb) ?_ ?_ hk ?_ h0 h1 hx n
  · have : 0 ≤ 1 / k := by positivity
    linarith
  · rw [sub_sub_cancel, one_div, inv_mul_cancel₀ hk0.ne']
  · rw [zpow_neg, zpow_natCast, ← div_eq_mul_inv]
    exact (div_le_one (by positivity)).mpr hp

/-! ### Every stable filter, with enough bits -/

theorem coeffLe_exists (f : Biquad ℝ) : ∃ S, CoeffLe f S := by
  refine ⟨1 + |f.b0| + |f.b1| + |f.b2| + |f.a1| + |f.a2|, ?_⟩
  have h0 := abs_nonneg f.b0
  have h1 := abs_nonneg f.b1
  have h2 := abs_nonneg f.b2
  have h3 := abs_nonneg f.a1
  have h4 := abs_nonneg f.a2
  constructor <;> linarith

/-- A radius that contains the poles of a stable filter. -/
theorem radius_exists {f : Biquad ℝ} (h : f.stability = true) :
    ∃ p q : ℂ, ∃ r k : ℝ, p + q = -f.a1 ∧ p * q = f.a2 ∧ ‖p‖ ≤ r ∧ ‖q‖ ≤ r ∧ r ≤ 1 ∧ (1 - r) * k = 1 ∧ 1 ≤ k := by
  rw [Edsp.Props.C09_stability_iff_poles] at h
  obtain ⟨p, q, hs, hm⟩ := Stability.split_quadratic f.a1 f.a2
  obtain ⟨rp, rq⟩ := Stability.is_root hs hm
  have hr : max ‖p‖ ‖q‖ < 1 := max_lt (h p rp) (h q rq)
  have hr0 : 0 ≤ max ‖p‖ ‖q‖ := (norm_nonneg p).trans (le_max_left _ _)
  refine ⟨p, q, max ‖p‖ ‖q‖, 1 / (1 - max ‖p‖ ‖q‖), hs, hm, le_max_left _ _, le_max_right _ _, hr.le, ?_, ?_⟩
  · rw [mul_one_div, div_self (by linarith)]
  · rw [le_div_iff₀ (by linarith)]
    linarith

theorem small_exists (c : ℝ) : ∃ p0 : ℕ, ∀ p : ℕ, p0 ≤ p → c * (2 : ℝ) ^ (-(p : ℤ)) ≤ 1 := by
  obtain ⟨p0, h0⟩ := pow_unbounded_of_one_lt c (by norm_num : (1 : ℝ) < 2)
  refine ⟨p0, fun p hp => ?_⟩
  rw [zpow_neg, zpow_natCast, ← div_eq_mul_inv]
  refine (div_le_one (by positivity)).mpr (h0.le.trans ?_)
  exact pow_le_pow_right₀ (by norm_num) hp

/-- The exact section at rest: bounded by a multiple of the input. -/
theorem response_gain {f : Biquad ℝ} (h : f.stability = true) (h0 : f.w0 = 0) (h1 : f.w1 = 0) :
    ∃ G : ℝ, 0 ≤ G ∧ ∀ (X : ℝ) (x : ℕ → ℝ), (∀ n, |x n| ≤ X) → ∀ n, |f.response x n| ≤ G * X := by
  obtain ⟨S, hS⟩ := coeffLe_exists f
  obtain ⟨p, q, r, k, hs, hm, hp, hq, hr, hk, hk1⟩ := radius_exists h
  have hS1 := hS.one
  refine ⟨17 * S ^ 3 * k ^ 2, by positivity, fun X x hx n => ?_⟩
  have hb := exact_bound hS hs hm hp hq hr hk hk1 h0 h1 hx n
  rw [Stability.response_eq]
  have e1 := abs_add_le (f.b0 * x n) (f.stateAt x n).w0
  rw [abs_mul] at e1
  have e2 := mul_le_mul_of_nonneg_right hS.b0 (abs_nonneg (x n))
  have e3 := mul_le_mul_of_nonneg_right hS1 (abs_nonneg (f.stateAt x n).w0)
  have e4 := mul_nonneg (by linarith : 0 ≤ S) (abs_nonneg (f.stateAt x n).w1)
  have e5 := mul_le_mul_of_nonneg_left hb (by linarith : 0 ≤ S)
  have : S * (17 * S ^ 2 * k ^ 2 * X) = 17 * S ^ 3 * k ^ 2 * X := by ring
  linarith

/-- The exact section at rest is linear. -/
theorem response_sub {f : Biquad ℝ} (h0 : f.w0 = 0) (h1 : f.w1 = 0) (x y : ℕ → ℝ) (n : ℕ) :
    f.response x n - f.response y n = f.response (fun n => x n - y n) n := by
  have h : ∀ n, (f.stateAt x n).w0 - (f.stateAt y n).w0 = (f.stateAt (fun n => x n - y n) n).w0 ∧
      (f.stateAt x n).w1 - (f.stateAt y n).w1 = (f.stateAt (fun n => x n - y n) n).w1 := by
    intro n
    induction n with
    | zero => simp [Biquad.stateAt, h0, h1]
    | succ n ih =>
      obtain ⟨a0, a1, a2, a3, a4, _⟩ := Biquad.stateAt_coeffs f x n
      obtain ⟨b0, b1, b2, b3, b4, _⟩ := Biquad.stateAt_coeffs f y n
      obtain ⟨c0, c1, c2, c3, c4, _⟩ := Biquad.stateAt_coeffs f (fun n => x n - y n) n
      simp only [Biquad.stateAt, Biquad.tick, a0, a1, a2, a3, a4, b0, b1, b2, b3, b4, c0, c1, c2, c3, c4]
      rw [← ih.1, ← ih.2]
      constructor <;> ring
  rw [Stability.response_eq, Stability.response_eq, Stability.response_eq, ← (h n).1]
  ring

/-- **C100**, one section at rest that `stability()` accepts: there are constants such that with at least `p0` bits the
output differs from the exact output by at most `C 2^-p` times the largest input, for ever. -/
theorem C100_stable_partial {f : Biquad ℝ} (h : f.stability = true) (h0 : f.w0 = 0) (h1 : f.w1 = 0) :
    ∃ C : ℝ, ∃ p0 : ℕ, 0 ≤ C ∧ ∀ p ≥ p0, ∀ (X : ℝ) (x : ℕ → ℝ), (∀ n, |x n| ≤ X) → ∀ n,
      |biquadResponse (rnd p) f x n - f.response x n| ≤ C * 2 ^ (-(p : ℤ)) * X := by
  obtain ⟨S, hS⟩ := coeffLe_exists f
  obtain ⟨a, b, r, k, hs, hm, ha, hb, hr, hk, hk1⟩ := radius_exists h
  obtain ⟨p0, hp0⟩ := small_exists (600 * S ^ 2 * k ^ 2)
  have hS1 := hS.one
  refine ⟨4200 * S ^ 4 * k ^ 4, p0, by positivity, fun p hp X x hx n => ?_⟩
  exact section_err (rnd_err p) (two_zpow_pos _).le hS hs hm ha hb hr hk hk1 (hp0 p hp) h0 h1 hx n

theorem series_lipschitz {fs : List (Biquad ℝ)} (h : ∀ f ∈ fs, f.stability = true ∧ f.w0 = 0 ∧ f.w1 = 0) :
    ∃ G : ℝ, 0 ≤ G ∧ ∀ (D : ℝ) (x y : ℕ → ℝ), (∀ n, |x n - y n| ≤ D) → ∀ n,
      |series fs x n - series fs y n| ≤ G * D := by
  induction fs with
  | nil => exact ⟨1, zero_le_one, fun D x y hxy n => by simpa [series] using hxy n⟩
  | cons f fs ih =>
    obtain ⟨hf, hf0, hf1⟩ := h f (by simp)
    obtain ⟨G, hG, hL⟩ := response_gain hf hf0 hf1
    obtain ⟨G', hG', hL'⟩ := ih fun g hg => h g (by simp [hg])
    refine ⟨G' * G, mul_nonneg hG' hG, fun D x y hxy n => ?_⟩
    rw [mul_assoc]
    refine hL' (G * D) (f.response x) (f.response y) (fun n => ?_) n
    rw [response_sub hf0 hf1]
    exact hL D _ hxy n

/-- **C100**, cascades of sections at rest that `stability()` accepts: the same.
Missing: a number of bits that is enough for all filters (`C100_constant_violates`). -/
theorem C100_cascade_partial {fs : List (Biquad ℝ)} (h : ∀ f ∈ fs, f.stability = true ∧ f.w0 = 0 ∧ f.w1 = 0) :
    ∃ C : ℝ, ∃ p0 : ℕ, 0 ≤ C ∧ ∀ p ≥ p0, ∀ (X : ℝ) (x : ℕ → ℝ), (∀ n, |x n| ≤ X) → ∀ n,
      |cascadeResponse (rnd p) fs x n - series fs x n| ≤ C * 2 ^ (-(p : ℤ)) * X := by
  induction fs with
  | nil => exact ⟨0, 0, le_rfl, fun p _ X x _ n => by simp [cascadeResponse, series]⟩
  | cons f fs ih =>
    obtain ⟨hf, hf0, hf1⟩ := h f (by simp)
    have hfs : ∀ g ∈ fs, g.stability = true ∧ g.w0 = 0 ∧ g.w1 = 0 := fun g hg => h g (by simp [hg])
    obtain ⟨C, p0, hC, h1⟩ := C100_stable_partial hf hf0 hf1
    obtain ⟨C', p1, hC', h2⟩ := ih hfs
    obtain ⟨G, hG, h3⟩ := response_gain hf hf0 hf1
    obtain ⟨L, hL, h4⟩ := series_lipschitz hfs
    refine ⟨C' * (G + C) + L * C, max p0 p1, by positivity, fun p hp X x hx n => ?_⟩
    have hX : 0 ≤ X := (abs_nonneg _).trans (hx 0)
    have hu := two_zpow_pos (-(p : ℤ))
    have hu1 : (2 : ℝ) ^ (-(p : ℤ)) ≤ 1 := zpow_le_one_of_nonpos₀ (by norm_num) (by omega)
    have e1 := h1 p (le_trans (le_max_left _ _) hp) X x hx
    have e2 : ∀ n, |biquadResponse (rnd p) f x n| ≤ (G + C) * X := by
      intro n
      have a := abs_add_le (biquadResponse (rnd p) f x n - f.response x n) (f.response x n)
      rw [sub_add_cancel] at a
      have b := e1 n
      have c := h3 X x hx n
      have d : C * 2 ^ (-(p : ℤ)) * X ≤ C * X := by
        have := mul_le_mul_of_nonneg_left hu1 (mul_nonneg hC hX)
        linarith
      linarith
    have e3 := h2 p (le_trans (le_max_right _ _) hp) ((G + C) * X) _ e2 n
    have e4 := h4 (C * 2 ^ (-(p : ℤ)) * X) _ _ e1 n
    have e5 := abs_sub_le (cascadeResponse (rnd p) fs (biquadResponse (rnd p) f x) n)
      (series fs (biquadResponse (rnd p) f x) n) (series fs (f.response x) n)
    show |cascadeResponse (rnd p) fs (biquadResponse (rnd p) f x) n - series fs (f.response x) n| ≤ _
    linarith

/-! ### `stability()` -/

/-- **C100**, `stability()` of coefficients with `p` bits: what it accepts is stable. -/
theorem C100_stability_sound {p : ℕ} (hp : 1 ≤ p) {f : Biquad ℝ} (ha : IsFloat p |f.a1|)
    (h : biquadStability (rnd p) f = true) : ∀ z : ℂ, z ^ 2 + f.a1 * z + f.a2 = 0 → ‖z‖ < 1 := by
  rw [← Edsp.Props.C09_stability_iff_poles]
  simp only [biquadStability, Biquad.stability, Bool.and_eq_true, decide_eq_true_eq] at h ⊢
  refine ⟨h.1, ?_⟩
  by_contra hc
  have := rnd_mono hp (not_lt.mp hc)
  rw [rnd_float ha] at this
  linarith [h.2]

theorem isFloat_grid {p : ℕ} (hp : 1 ≤ p) {x : ℝ} (m k : ℤ) (h : |m| ≤ 2 ^ p) (e : x = m * 2 ^ k) : IsFloat p x := by
  rw [e]
  exact isFloat_int hp k h

theorem unit_inv (p : ℕ) : (2 : ℝ) ^ p * 2 ^ (-(p : ℤ)) = 1 := by
  rw [zpow_neg, zpow_natCast]
  exact mul_inv_cancel₀ (by positivity)

theorem unit_small {p : ℕ} (hp : 4 ≤ p) : (2 : ℝ) ^ (-(p : ℤ)) ≤ 1 / 16 := by
  have : (2 : ℝ) ^ (-(p : ℤ)) ≤ 2 ^ (-4 : ℤ) := zpow_le_zpow_right₀ (by norm_num) (by omega)
  norm_num at this ⊢
  linarith

theorem pow_large {p : ℕ} (hp : 4 ≤ p) : (16 : ℤ) ≤ 2 ^ p := by
  calc (16 : ℤ) = 2 ^ 4 := by norm_num
    _ ≤ 2 ^ p := pow_le_pow_right₀ (by norm_num) hp

/-- Rounding in [1/2, 1). -/
theorem rnd_half {p : ℕ} {x : ℝ} (h1 : 1 / 2 ≤ x) (h2 : x < 1) :
    rnd p x = nearestEven (x / 2 ^ (-(p : ℤ))) * 2 ^ (-(p : ℤ)) := by
  refine rnd_of ?_ ?_
  · rw [neg_add_cancel, zero_sub, zpow_neg_one, abs_of_nonneg (by linarith)]
    linarith
  · rwa [neg_add_cancel, zpow_zero, abs_of_nonneg (by linarith)]

/-- Rounding in [1, 2). -/
theorem rnd_one_two {p : ℕ} {x : ℝ} (h1 : 1 ≤ x) (h2 : x < 2) :
    rnd p x = nearestEven (x / (2 * 2 ^ (-(p : ℤ)))) * (2 * 2 ^ (-(p : ℤ))) := by
  have e : (2 : ℝ) * 2 ^ (-(p : ℤ)) = 2 ^ (1 - (p : ℤ)) := by
    rw [sub_eq_add_neg, zpow_add₀ (by norm_num : (2 : ℝ) ≠ 0), zpow_one]
  rw [e]
  refine rnd_of ?_ ?_
  · rw [sub_add_cancel, sub_self, zpow_zero, abs_of_nonneg (by linarith)]
    exact h1
  · rwa [sub_add_cancel, zpow_one, abs_of_nonneg (by linarith)]

theorem unit_div {u P c : ℝ} (hu : 0 < u) (hP : P * u = 1) (a b : ℝ) (hc : c ≠ 0) :
    (a - b * u) / (c * u) = (a * P - b) / c := by
  field_simp
  linear_combination (-a) * hP

/-- **C100**: `stability()` is not complete: there are stable filters whose coefficients have `p` bits that it rejects. -/
theorem C100_stability_violates {p : ℕ} (hp : 4 ≤ p) : ∃ f : Biquad ℝ, IsFloat p f.a1 ∧ IsFloat p f.a2 ∧
    (∀ z : ℂ, z ^ 2 + f.a1 * z + f.a2 = 0 → ‖z‖ < 1) ∧ biquadStability (rnd p) f = false := by
  have hu := two_zpow_pos (-(p : ℤ))
  have hi := unit_inv p
  have hs := unit_small hp
  have hl := pow_large hp
  refine ⟨{ b2 := 0, b1 := 0, b0 := 1, a2 := 1 - 3 * 2 ^ (-(p : ℤ)), a1 := -(2 - 4 * 2 ^ (-(p : ℤ))), a0 := 1,
            w0 := 0, w1 := 0 }, ?_, ?_, ?_, ?_⟩
  · refine isFloat_grid (by omega) (-(2 ^ p - 2)) (1 - p) (by rw [abs_neg, abs_of_nonneg (by linarith)]; linarith) ?_
    rw [sub_eq_add_neg 1 (p : ℤ), zpow_add₀ (by norm_num : (2 : ℝ) ≠ 0), zpow_one]
    push_cast
    linear_combination 2 * hi
  · refine isFloat_grid (by omega) (2 ^ p - 3) (-p) (by rw [abs_of_nonneg (by linarith)]; linarith) ?_
    push_cast
    linear_combination -hi
  · rw [← Edsp.Props.C09_stability_iff_poles]
    simp only [Biquad.stability, Bool.and_eq_true, decide_eq_true_eq, abs_neg]
    rw [abs_of_nonneg (by linarith), abs_of_nonneg (by linarith)]
    constructor <;> linarith
  · have hr : rnd p (2 - 3 * 2 ^ (-(p : ℤ))) = 2 - 4 * 2 ^ (-(p : ℤ)) := by
      have he : Even (2 ^ p - 2 : ℤ) := by
        obtain ⟨q, rfl⟩ : ∃ q, p = q + 1 := ⟨p - 1, by omega⟩
        rw [pow_succ]
        exact ⟨2 ^ q - 1, by ring⟩
      rw [rnd_one_two (by linarith) (by linarith), unit_div hu hi _ _ (by norm_num),
        ne_tie_up he (by push_cast; ring)]
      push_cast
      linear_combination 2 * hi
    simp only [biquadStability, Bool.and_eq_false_iff, decide_eq_false_iff_not]
    right
    rw [show (1 : ℝ) + (1 - 3 * 2 ^ (-(p : ℤ))) = 2 - 3 * 2 ^ (-(p : ℤ)) by ring, hr, abs_neg,
      abs_of_nonneg (by linarith)]
    exact lt_irrefl _

/-! ### A stable filter that does not decay -/

/-- One sample of 3/4, then silence. -/
noncomputable def click (n : ℕ) : ℝ := if n = 0 then 3 / 4 else 0

/-- A filter with poles near 1. -/
noncomputable def slow (p : ℕ) : Biquad ℝ :=
  { b2 := 0, b1 := -(1 - 5 * 2 ^ (-(p : ℤ))), b0 := 1, a2 := 1 - 5 * 2 ^ (-(p : ℤ)),
    a1 := -(2 - 6 * 2 ^ (-(p : ℤ))), a0 := 1, w0 := 0, w1 := 0 }

theorem slow_rounded {p : ℕ} (hp : 4 ≤ p) (n : ℕ) :
    biquadState (rnd p) (slow p) click (n + 1) =
      { slow p with w0 := 3 / 4, w1 := -(3 / 4 - 4 * 2 ^ (-(p : ℤ))) } ∧
    biquadResponse (rnd p) (slow p) click n = 3 / 4 := by
  have hu := two_zpow_pos (-(p : ℤ))
  have hi := unit_inv p
  have hs := unit_small hp
  have hl := pow_large hp
  obtain ⟨q, rfl⟩ : ∃ q, p = q + 2 := ⟨p - 2, by omega⟩
  have hi4 : 4 * (2 : ℝ) ^ q * 2 ^ (-((q + 2 : ℕ) : ℤ)) = 1 := by
    rw [← hi, pow_add]
    ring
  have hlq : (4 : ℤ) ≤ 2 ^ q := by
    rw [pow_add] at hl
    linarith
  have f34 : IsFloat (q + 2) (3 / 4) := isFloat_grid (by omega) 3 (-2) (by
    rw [abs_of_nonneg (by norm_num)]; linarith) (by norm_num)
  have r34 := rnd_float f34
  have rw1 : rnd (q + 2) (3 / 4 - 4 * 2 ^ (-((q + 2 : ℕ) : ℤ))) = 3 / 4 - 4 * 2 ^ (-((q + 2 : ℕ) : ℤ)) := by
    refine rnd_float (isFloat_grid (by omega) (3 * 2 ^ q - 4) (-((q + 2 : ℕ) : ℤ)) ?_ ?_)
    · rw [abs_of_nonneg (by linarith), pow_add]
      linarith
    · push_cast
      push_cast at hi4
      linear_combination (-3 / 4) * hi4
  have rw2 : rnd (q + 2) (3 / 2 - 4 * 2 ^ (-((q + 2 : ℕ) : ℤ))) = 3 / 2 - 4 * 2 ^ (-((q + 2 : ℕ) : ℤ)) := by
    refine rnd_float (isFloat_grid (by omega) (3 * 2 ^ q - 2) (1 - ((q + 2 : ℕ) : ℤ)) ?_ ?_)
    · rw [abs_of_nonneg (by linarith), pow_add]
      linarith
    · rw [sub_eq_add_neg 1 ((q + 2 : ℕ) : ℤ), zpow_add₀ (by norm_num : (2 : ℝ) ≠ 0), zpow_one]
      push_cast
      push_cast at hi4
      linear_combination (-3 / 2) * hi4
  have ra2 : rnd (q + 2) ((1 - 5 * 2 ^ (-((q + 2 : ℕ) : ℤ))) * (3 / 4)) = 3 / 4 - 4 * 2 ^ (-((q + 2 : ℕ) : ℤ)) := by
    rw [rnd_half (by linarith) (by linarith),
      show (1 - 5 * (2 : ℝ) ^ (-((q + 2 : ℕ) : ℤ))) * (3 / 4) = 3 / 4 - 15 / 4 * 2 ^ (-((q + 2 : ℕ) : ℤ)) by ring,
      show (3 / 4 - 15 / 4 * (2 : ℝ) ^ (-((q + 2 : ℕ) : ℤ))) / 2 ^ (-((q + 2 : ℕ) : ℤ)) = 3 * 2 ^ q - 15 / 4 by
        rw [div_eq_iff hu.ne']
        linear_combination (-3 / 4) * hi4,
      ne_of_lt (n := 3 * 2 ^ q - 4) (by push_cast; linarith) (by push_cast; linarith)]
    push_cast
    push_cast at hi4
    linear_combination (3 / 4) * hi4
  have ra1 : rnd (q + 2) ((2 - 6 * 2 ^ (-((q + 2 : ℕ) : ℤ))) * (3 / 4)) = 3 / 2 - 4 * 2 ^ (-((q + 2 : ℕ) : ℤ)) := by
    rw [rnd_one_two (by linarith) (by linarith),
      show (2 - 6 * (2 : ℝ) ^ (-((q + 2 : ℕ) : ℤ))) * (3 / 4) / (2 * 2 ^ (-((q + 2 : ℕ) : ℤ))) = 3 * 2 ^ q - 9 / 4 by
        rw [div_eq_iff (by positivity)]
        linear_combination (-3 / 2) * hi4,
      ne_of_lt (n := 3 * 2 ^ q - 2) (by push_cast; linarith) (by push_cast; linarith)]
    push_cast
    push_cast at hi4
    linear_combination (3 / 2) * hi4
  generalize hU : (2 : ℝ) ^ (-((q + 2 : ℕ) : ℤ)) = u at *
  have hst : ∀ n, biquadState (rnd (q + 2)) (slow (q + 2)) click (n + 1) =
      { slow (q + 2) with w0 := 3 / 4, w1 := -(3 / 4 - 4 * u) } := by
    intro n
    induction n with
    | zero =>
      simp only [biquadState, biquadTick, slow, click, hU, if_pos, one_mul, r34, add_zero, neg_mul, rnd_neg, ra1, ra2,
        zero_mul, rnd_zero, zero_sub, rw1]
      rw [show -(3 / 4 - 4 * u) - -(3 / 2 - 4 * u) = 3 / 4 by ring, r34, r34]
    | succ n ih =>
      rw [biquadState, ih]
      simp only [biquadTick, slow, click, hU, if_neg (Nat.succ_ne_zero n), mul_zero, rnd_zero, zero_add, r34, neg_mul,
        rnd_neg, ra1, ra2, zero_sub, neg_neg, rw1, rw2]
      rw [show 3 / 2 - 4 * u + -(3 / 4 - 4 * u) = 3 / 4 by ring, r34]
  refine ⟨hst n, ?_⟩
  cases n with
  | zero => simp only [biquadResponse, biquadState, biquadTick, slow, click, if_pos, one_mul, r34, add_zero]
  | succ n =>
    rw [biquadResponse, hst n]
    simp only [biquadTick, slow, click, if_neg (Nat.succ_ne_zero n), mul_zero, rnd_zero, zero_add, r34]

/-- **C100 is violated**: whatever the precision, there is a filter that `stability()` accepts and that answers a single
sample of 3/4, followed by silence, with 3/4 for ever.  The exact output tends to 0. -/
theorem C100_constant_violates {p : ℕ} (hp : 4 ≤ p) : ∃ f : Biquad ℝ,
    (IsFloat p f.b0 ∧ IsFloat p f.b1 ∧ IsFloat p f.b2 ∧ IsFloat p f.a1 ∧ IsFloat p f.a2) ∧ f.w0 = 0 ∧ f.w1 = 0 ∧
    f.stability = true ∧ biquadStability (rnd p) f = true ∧
    (∀ n, biquadResponse (rnd p) f click n = 3 / 4) ∧ Filter.Tendsto (f.response click) Filter.atTop (nhds 0) := by
  have hu := two_zpow_pos (-(p : ℤ))
  have hi := unit_inv p
  have hs := unit_small hp
  have hl := pow_large hp
  have fa2 : IsFloat p (1 - 5 * (2 : ℝ) ^ (-(p : ℤ))) := by
    refine isFloat_grid (by omega) (2 ^ p - 5) (-p) (by rw [abs_of_nonneg (by linarith)]; linarith) ?_
    push_cast
    linear_combination -hi
  have fb1 : IsFloat p (-(1 - 5 * (2 : ℝ) ^ (-(p : ℤ)))) := by
    refine isFloat_grid (by omega) (-(2 ^ p - 5)) (-p) (by rw [abs_neg, abs_of_nonneg (by linarith)]; linarith) ?_
    push_cast
    linear_combination hi
  have hst : (slow p).stability = true := by
    simp only [Biquad.stability, Bool.and_eq_true, decide_eq_true_eq]
    simp only [slow, abs_neg]
    rw [abs_of_nonneg (by linarith), abs_of_nonneg (by linarith)]
    constructor <;> linarith
  refine ⟨slow p, ⟨?_, fb1, ?_, ?_, fa2⟩, rfl, rfl, hst, ?_, fun n => (slow_rounded hp n).2, ?_⟩
  · exact isFloat_grid (by omega) 1 0 (by rw [abs_one]; linarith) (by simp [slow])
  · exact ⟨0, 0, by positivity, by simp [slow]⟩
  · refine isFloat_grid (by omega) (-(2 ^ p - 3)) (1 - p) (by rw [abs_neg, abs_of_nonneg (by linarith)]; linarith) ?_
    rw [sub_eq_add_neg 1 (p : ℤ), zpow_add₀ (by norm_num : (2 : ℝ) ≠ 0), zpow_one]
    simp only [slow]
    push_cast
    linear_combination 2 * hi
  · have hr : rnd p (2 - 5 * 2 ^ (-(p : ℤ))) = 2 - 4 * 2 ^ (-(p : ℤ)) := by
      have he : Even (2 ^ p - 2 : ℤ) := by
        obtain ⟨q, rfl⟩ : ∃ q, p = q + 1 := ⟨p - 1, by omega⟩
        rw [pow_succ]
        exact ⟨2 ^ q - 1, by ring⟩
      rw [rnd_one_two (by linarith) (by linarith), unit_div hu hi _ _ (by norm_num),
        ne_tie_down he (by push_cast; ring)]
      push_cast
      linear_combination 2 * hi
    simp only [biquadStability, Bool.and_eq_true, decide_eq_true_eq]
    simp only [slow, abs_neg]
    rw [show (1 : ℝ) + (1 - 5 * 2 ^ (-(p : ℤ))) = 2 - 5 * 2 ^ (-(p : ℤ)) by ring, hr, abs_of_nonneg (by linarith),
      abs_of_nonneg (by linarith)]
    constructor <;> linarith
  · -- the exact filter after the click
    set g := (slow p).stateAt click 1 with hg
    have hgs : g.stability = true := hst
    have hshift : ∀ n, (slow p).stateAt click (n + 1) = g.stateAt (fun _ => 0) n := by
      intro n
      induction n with
      | zero => rfl
      | succ n ih =>
        show (((slow p).stateAt click (n + 1)).tick (click (n + 1))).1 = ((g.stateAt (fun _ => 0) n).tick 0).1
        rw [ih]
        simp [click]
    have ht := Edsp.Props.C09_tends_to_zero g hgs
    rw [← Filter.tendsto_add_atTop_iff_nat 1]
    refine ht.congr fun n => ?_
    show ((g.stateAt (fun _ => 0) n).tick 0).2 = (((slow p).stateAt click (n + 1)).tick (click (n + 1))).2
    rw [hshift]
    simp [click]

/-- A section with poles at 1/2 in `float` and in `double`: an error of at most 67200 units. -/
example {p : ℕ} (hp : 12 ≤ p) {x : ℕ → ℝ} (hx : ∀ n, |x n| ≤ 1) (n : ℕ) :
    |biquadResponse (rnd p) { b2 := 0, b1 := 0, b0 := 1, a2 := 1 / 4, a1 := -1, a0 := 1, w0 := 0, w1 := 0 } x n
      - Biquad.response (K := ℝ) { b2 := 0, b1 := 0, b0 := 1, a2 := 1 / 4, a1 := -1, a0 := 1, w0 := 0, w1 := 0 } x n|
      ≤ 67200 * 2 ^ (-(p : ℤ)) := by
  have := C100_section_partial (p := p)
    (f := { b2 := 0, b1 := 0, b0 := 1, a2 := 1 / 4, a1 := -1, a0 := 1, w0 := 0, w1 := 0 }) (S := 1) (k := 2) (X := 1)
    ⟨by norm_num, by norm_num, by norm_num, by norm_num, by norm_num, by norm_num⟩ (by norm_num) ?_ ?_ rfl rfl hx n
  · norm_num at this ⊢
    exact this
  · intro z hz
    have h2 : (z - 1 / 2) ^ 2 = 0 := by
      push_cast at hz
      linear_combination hz
    rw [sub_eq_zero.mp (pow_eq_zero_iff (by norm_num) |>.mp h2)]
    norm_num
  · calc (600 : ℝ) * 1 ^ 2 * 2 ^ 2 ≤ 2 ^ 12 := by norm_num
      _ ≤ 2 ^ p := pow_le_pow_right₀ (by norm_num) hp

end Edsp.Rounded
