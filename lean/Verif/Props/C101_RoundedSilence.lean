import Verif.Lemmas.RoundedSilence
import Verif.Spec.Subnormal
import Verif.Props.C100_RoundedBiquad

/-!
# C101: biquads in floating point arithmetic after the end of the input

With gradual underflow (`rndSub`): the output of a stable filter should fall silent.
-/

namespace Edsp.Rounded

open Edsp Edsp.Spec Edsp.FloatL

/-! ### Rounding with underflow -/

theorem rndSub_zero (p : ℕ) (e : ℤ) : rndSub p e 0 = 0 := by
  unfold rndSub
  rw [abs_zero, if_pos (two_zpow_pos _), zero_div]
  have := ne_int 0
  rw [Int.cast_zero] at this
  rw [this, Int.cast_zero, zero_mul]

theorem rndSub_neg (p : ℕ) (e : ℤ) (x : ℝ) : rndSub p e (-x) = -rndSub p e x := by
  unfold rndSub
  rw [abs_neg]
  split
  · rw [neg_div, ne_neg]
    push_cast
    ring
  · exact rnd_neg p x

theorem rndSub_err (p : ℕ) (e : ℤ) (x : ℝ) : |rndSub p e x - x| ≤ 2 ^ (-(p : ℤ)) * |x| + 2 ^ (e - 1) := by
  have hu := two_zpow_pos (-(p : ℤ))
  have he := two_zpow_pos e
  have hh : (2 : ℝ) ^ (e - 1) = 1 / 2 * 2 ^ e := by
    rw [zpow_sub_one₀ (by norm_num)]
    ring
  unfold rndSub
  split
  · have h := ne_abs (x / 2 ^ e)
    have h2 := mul_le_mul_of_nonneg_right h he.le
    have e1 : |(nearestEven (x / 2 ^ e) : ℝ) - x / 2 ^ e| * 2 ^ e = |(nearestEven (x / 2 ^ e) : ℝ) * 2 ^ e - x| := by
      rw [← abs_of_pos he, ← abs_mul, abs_of_pos he, sub_mul, div_mul_cancel₀ _ he.ne']
    rw [e1, ← hh] at h2
    have := mul_nonneg hu.le (abs_nonneg x)
    linarith
  · have := rnd_err p x
    have := two_zpow_pos (e - 1)
    linarith

/-- What exceeds half the smallest number is not rounded to 0. -/
theorem rndSub_ge {p : ℕ} (hp : 1 ≤ p) {e : ℤ} {x : ℝ} (h : 1 / 2 * 2 ^ e < x) : 2 ^ e ≤ rndSub p e x := by
  have he := two_zpow_pos e
  unfold rndSub
  split
  · have h1 : 1 / 2 < x / 2 ^ e := by rwa [lt_div_iff₀ he]
    have h2 := (abs_le.mp (ne_abs (x / 2 ^ e))).1
    have h3 : (0 : ℝ) < nearestEven (x / 2 ^ e) := by linarith
    have h4 : (1 : ℤ) ≤ nearestEven (x / 2 ^ e) := by exact_mod_cast h3
    have h5 : (1 : ℝ) ≤ nearestEven (x / 2 ^ e) := by exact_mod_cast h4
    exact le_mul_of_one_le_left he.le h5
  · rename_i hc
    have hx : 0 < x := by linarith
    rw [abs_of_pos hx, not_lt] at hc
    have h1 := rnd_mono hp hc
    have hf : IsFloat p ((2 : ℝ) ^ (e + p - 1)) := by
      refine ⟨1, e + p - 1, ?_, by simp⟩
      rw [abs_one]
      exact one_lt_pow₀ (by norm_num) (by omega)
    rw [rnd_float hf] at h1
    refine le_trans ?_ h1
    exact zpow_le_zpow_right₀ (by norm_num) (by omega)

/-! ### What holds -/

theorem poles_exists {f : Biquad ℝ} (h : f.stability = true) : ∃ p q r c, Poles f p q r c := by
  obtain ⟨p, q, r, k, hs, hm, hp, hq, hr, hk, hk1⟩ := radius_exists h
  have hr' : r < 1 := by
    by_contra hc
    have : r = 1 := le_antisymm hr (not_lt.mp hc)
    rw [this, sub_self, zero_mul] at hk
    exact zero_ne_one hk
  exact ⟨p, q, r, (1 - r) / 2, hs, hm, hp, hq, by linarith, by ring⟩

theorem bits_exist {c S : ℝ} (hc : 0 < c) : ∃ p0 : ℕ, ∀ p ≥ p0, 342 * S ^ 2 * (2 : ℝ) ^ (-(p : ℤ)) ≤ c ^ 2 := by
  obtain ⟨p0, h⟩ := small_exists (342 * S ^ 2 / c ^ 2)
  refine ⟨p0, fun p hp => ?_⟩
  have := mul_le_mul_of_nonneg_right (h p hp) (by positivity : 0 ≤ c ^ 2)
  calc 342 * S ^ 2 * (2 : ℝ) ^ (-(p : ℤ)) = 342 * S ^ 2 / c ^ 2 * 2 ^ (-(p : ℤ)) * c ^ 2 := by
        field_simp
    _ ≤ 1 * c ^ 2 := this
    _ = c ^ 2 := one_mul _

theorem unit_le_one (p : ℕ) : (2 : ℝ) ^ (-(p : ℤ)) ≤ 1 := zpow_le_one_of_nonpos₀ (by norm_num) (by omega)

/-- **C101**, every filter that `stability()` accepts, computed with enough bits and left to itself from any state
`(w0, w1)`: the output falls below a fixed multiple of the smallest positive number, exponentially.
Missing: that it becomes 0 (`C101_underflow_violates`); filters with poles too near to the unit circle
(`C100_constant_violates`). -/
theorem C101_decay_partial {f : Biquad ℝ} (h : f.stability = true) : ∃ C σ : ℝ, ∃ p0 : ℕ, 0 ≤ σ ∧ σ < 1 ∧
    ∀ p ≥ p0, ∀ (e : ℤ) (w0 w1 : ℝ) (n : ℕ),
      |biquadResponse (rndSub p e) { f with w0 := w0, w1 := w1 } (fun _ => 0) n|
        ≤ C * (σ ^ n * (|w0| + |w1|) + 2 ^ (e - 1)) := by
  obtain ⟨S, hS⟩ := coeffLe_exists f
  obtain ⟨p, q, r, c, hP⟩ := poles_exists h
  obtain ⟨p0, hp0⟩ := bits_exist (S := S) hP.c0
  have hr0 : 0 ≤ r := (norm_nonneg p).trans hP.hp
  refine ⟨8 * S * (3 / c * (2 + 122 * S ^ 2 / c) + 1), 1 - c / 2, p0, by linarith [hP.rc, hP.c0], by linarith [hP.c0], fun P hp e w0 w1 n => ?_⟩
  have := rounded_output hS hP (rndSub_err P e) (two_zpow_pos _).le (unit_le_one P) (two_zpow_pos _).le (hp0 P hp) w0 w1
    (x := fun _ => 0) (X := 0) (fun _ => by rw [abs_zero]) rfl n
  rw [add_zero] at this
  exact this

/-- **C101** without underflow: the output tends to 0, exponentially. -/
theorem C101_limit_partial {f : Biquad ℝ} (h : f.stability = true) : ∃ p0 : ℕ, ∀ p ≥ p0, ∀ w0 w1 : ℝ,
    Filter.Tendsto (biquadResponse (rnd p) { f with w0 := w0, w1 := w1 } fun _ => 0) Filter.atTop (nhds 0) := by
  obtain ⟨S, hS⟩ := coeffLe_exists f
  obtain ⟨p, q, r, c, hP⟩ := poles_exists h
  obtain ⟨p0, hp0⟩ := bits_exist (S := S) hP.c0
  have hr0 : 0 ≤ r := (norm_nonneg p).trans hP.hp
  have hc := hP.c0
  refine ⟨p0, fun P hp w0 w1 => ?_⟩
  have hR : ∀ z, |rnd P z - z| ≤ 2 ^ (-(P : ℤ)) * |z| + 0 := by
    intro z
    rw [add_zero]
    exact rnd_err P z
  have hb : ∀ n, |biquadResponse (rnd P) { f with w0 := w0, w1 := w1 } (fun _ => 0) n|
      ≤ 8 * S * (3 / c * (2 + 122 * S ^ 2 / c) + 1) * (|w0| + |w1|) * (1 - c / 2) ^ n := by
    intro n
    have := rounded_output hS hP hR (two_zpow_pos _).le (unit_le_one P) le_rfl (hp0 P hp) w0 w1
      (x := fun _ => 0) (X := 0) (fun _ => by rw [abs_zero]) rfl n
    rw [add_zero, add_zero] at this
    refine this.trans (le_of_eq ?_)
    ring
  have ht : Filter.Tendsto (fun n : ℕ => 8 * S * (3 / c * (2 + 122 * S ^ 2 / c) + 1) * (|w0| + |w1|) * (1 - c / 2) ^ n)
      Filter.atTop (nhds 0) := by
    have := tendsto_pow_atTop_nhds_zero_of_lt_one (by linarith [hP.rc] : (0 : ℝ) ≤ 1 - c / 2) (by linarith)
    simpa using this.const_mul (8 * S * (3 / c * (2 + 122 * S ^ 2 / c) + 1) * (|w0| + |w1|))
  exact squeeze_zero_norm (fun n => by simpa using hb n) ht

/-- **C101**, the whole signal, from any state: with enough bits the output differs from the exact output by at most a
fixed multiple of `2^-p (X + |w0| + |w1|)` plus the smallest positive number, for ever. -/
theorem C101_error_partial {f : Biquad ℝ} (h : f.stability = true) : ∃ C : ℝ, ∃ p0 : ℕ,
    ∀ p ≥ p0, ∀ (e : ℤ) (w0 w1 X : ℝ) (x : ℕ → ℝ), (∀ n, |x n| ≤ X) → ∀ n,
      |biquadResponse (rndSub p e) { f with w0 := w0, w1 := w1 } x n
        - Biquad.response { f with w0 := w0, w1 := w1 } x n|
        ≤ C * (2 ^ (-(p : ℤ)) * (X + |w0| + |w1|) + 2 ^ (e - 1)) := by
  obtain ⟨S, hS⟩ := coeffLe_exists f
  obtain ⟨p, q, r, c, hP⟩ := poles_exists h
  obtain ⟨p0, hp0⟩ := bits_exist (S := S) hP.c0
  refine ⟨(171 * S ^ 2 / c ^ 2 + 3 * S) * (2 * (3 / c * (2 + 122 * S ^ 2 / c)) + 1), p0, fun P hp e w0 w1 X x hx n => ?_⟩
  rw [← response_id]
  exact rounded_error hS hP (rndSub_err P e) (two_zpow_pos _).le (unit_le_one P) (two_zpow_pos _).le (hp0 P hp) w0 w1
    hx rfl n

/-! ### Violation -/

/-- The smoothing filter `y = x + a y'`. -/
def onePole (a : ℝ) : Biquad ℝ := { b2 := 0, b1 := 0, b0 := 1, a2 := 0, a1 := -a, a0 := 1, w0 := 0, w1 := 0 }

theorem onePole_stays {p : ℕ} (hp : 1 ≤ p) (e : ℤ) {a : ℝ} (ha : 1 / 2 < a) {x : ℕ → ℝ} (hx0 : 2 ^ e ≤ x 0)
    (hx : ∀ n, x (n + 1) = 0) (n : ℕ) :
    2 ^ e ≤ (biquadState (rndSub p e) (onePole a) x (n + 1)).w0 ∧
      (biquadState (rndSub p e) (onePole a) x (n + 1)).w1 = 0 ∧ 2 ^ e ≤ biquadResponse (rndSub p e) (onePole a) x n := by
  have he := two_zpow_pos e
  have hge : ∀ {y : ℝ}, 2 ^ e ≤ y → 2 ^ e ≤ rndSub p e y := fun h => rndSub_ge hp (by linarith)
  -- one call of `tick`
  have hstep : ∀ (g : Biquad ℝ) (v : ℝ), g.b0 = 1 → g.b1 = 0 → g.b2 = 0 → g.a1 = -a → g.a2 = 0 → g.w1 = 0 →
      2 ^ e ≤ rndSub p e v + g.w0 →
      2 ^ e ≤ (biquadTick (rndSub p e) g v).1.w0 ∧ (biquadTick (rndSub p e) g v).1.w1 = 0 ∧
        2 ^ e ≤ (biquadTick (rndSub p e) g v).2 := by
    intro g v h0 h1 h2 h3 h4 h5 h6
    have ho := hge h6
    have ho' : 1 / 2 * 2 ^ e < a * rndSub p e (rndSub p e v + g.w0) := by
      have h7 := mul_lt_mul_of_pos_right ha he
      have h8 := mul_le_mul_of_nonneg_left ho (by linarith : 0 ≤ a)
      linarith
    simp only [biquadTick, h0, h1, h2, h3, h4, h5, one_mul, zero_mul, rndSub_zero, neg_mul, rndSub_neg, zero_sub, neg_neg,
      add_zero, sub_zero]
    exact ⟨hge (hge (rndSub_ge hp ho')), trivial, ho⟩
  have hmain : ∀ n, 2 ^ e ≤ (biquadState (rndSub p e) (onePole a) x (n + 1)).w0 ∧
      (biquadState (rndSub p e) (onePole a) x (n + 1)).w1 = 0 := by
    intro n
    induction n with
    | zero =>
      have := hstep (onePole a) (x 0) rfl rfl rfl rfl rfl rfl (by
        show 2 ^ e ≤ rndSub p e (x 0) + 0
        rw [add_zero]
        exact hge hx0)
      exact ⟨this.1, this.2.1⟩
    | succ n ih =>
      obtain ⟨c0, c1, c2, c3, c4⟩ := state_coeffs (rndSub p e) (onePole a) x (n + 1)
      have := hstep (biquadState (rndSub p e) (onePole a) x (n + 1)) (x (n + 1)) c0 c1 c2 c3 c4 ih.2 (by
        rw [hx n, rndSub_zero, zero_add]
        exact ih.1)
      exact ⟨this.1, this.2.1⟩
  refine ⟨(hmain n).1, (hmain n).2, ?_⟩
  cases n with
  | zero =>
    exact (hstep (onePole a) (x 0) rfl rfl rfl rfl rfl rfl (by
      show 2 ^ e ≤ rndSub p e (x 0) + 0
      rw [add_zero]
      exact hge hx0)).2.2
  | succ n =>
    obtain ⟨c0, c1, c2, c3, c4⟩ := state_coeffs (rndSub p e) (onePole a) x (n + 1)
    exact (hstep (biquadState (rndSub p e) (onePole a) x (n + 1)) (x (n + 1)) c0 c1 c2 c3 c4 (hmain n).2 (by
      rw [hx n, rndSub_zero, zero_add]
      exact (hmain n).1)).2.2

/-- **C101 is violated**: a stable filter `y = x + a y'` with `1/2 < a < 1`, whatever the precision, never falls silent:
after one positive sample followed by zeros every output is at least the smallest positive number (a subnormal one), and
the state never returns to 0.  The exact output tends to 0. -/
theorem C101_underflow_violates {p : ℕ} (hp : 1 ≤ p) (e : ℤ) {a : ℝ} (h1 : 1 / 2 < a) (h2 : a < 1) {x : ℕ → ℝ}
    (hx0 : 2 ^ e ≤ x 0) (hx : ∀ n, x (n + 1) = 0) :
    (onePole a).stability = true ∧ (∀ n, 2 ^ e ≤ biquadResponse (rndSub p e) (onePole a) x n) ∧
      Filter.Tendsto ((onePole a).response x) Filter.atTop (nhds 0) := by
  have hst : (onePole a).stability = true := by
    simp only [Biquad.stability, Bool.and_eq_true, decide_eq_true_eq]
    simp only [onePole, abs_neg, abs_zero, add_zero]
    rw [abs_of_pos (by linarith)]
    exact ⟨one_pos, h2⟩
  refine ⟨hst, fun n => (onePole_stays hp e h1 hx0 hx n).2.2, ?_⟩
  set g := (onePole a).stateAt x 1 with hg
  have hgs : g.stability = true := hst
  have hshift : ∀ n, (onePole a).stateAt x (n + 1) = g.stateAt (fun _ => 0) n := by
    intro n
    induction n with
    | zero => rfl
    | succ n ih =>
      show (((onePole a).stateAt x (n + 1)).tick (x (n + 1))).1 = ((g.stateAt (fun _ => 0) n).tick 0).1
      rw [ih, hx]
  have ht := Edsp.Props.C09_tends_to_zero g hgs
  rw [← Filter.tendsto_add_atTop_iff_nat 1]
  refine ht.congr fun n => ?_
  show ((g.stateAt (fun _ => 0) n).tick 0).2 = (((onePole a).stateAt x (n + 1)).tick (x (n + 1))).2
  rw [hshift, hx]

/-- A smoothing filter with `a = 9/10` in `float`, one sample of 1. -/
example (n : ℕ) : 2 ^ (-149 : ℤ) ≤ biquadResponse (rndSub 24 (-149)) (onePole (9 / 10)) (fun n => if n = 0 then 1 else 0) n :=
  (C101_underflow_violates (by norm_num) (-149) (by norm_num) (by norm_num)
    (x := fun n => if n = 0 then 1 else 0)
    (by rw [if_pos rfl]; exact zpow_le_one_of_nonpos₀ (by norm_num) (by norm_num)) (fun n => rfl)).2.1 n

end Edsp.Rounded
