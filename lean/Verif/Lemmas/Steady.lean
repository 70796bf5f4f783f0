import Verif.Lemmas.Stability
import Verif.Lemmas.Cascade
import Verif.Props.C09_Stability
import Verif.Spec.CascadeResponse
import Verif.Spec.Steady
import Mathlib.Analysis.SpecialFunctions.Complex.Arg
import Mathlib.Tactic.LinearCombination

/-! # Helper lemmas: the steady state of stable sections and chains -/

namespace Edsp.SteadyL

open Edsp Edsp.Spec Edsp.Stability

/-- Two runs of a stable section whose inputs approach each other exponentially: so do the outputs. -/
theorem approach (f : Biquad ℝ) (h : f.stability = true) (w0 w1 : ℝ) (x x' : ℕ → ℝ) {C r : ℝ}
    (hr0 : 0 ≤ r) (hr : r < 1) (hx : ∀ n, |x n - x' n| ≤ C * r ^ n) :
    ∃ D ρ : ℝ, 0 ≤ ρ ∧ ρ < 1 ∧ ∀ n,
      |f.response x n - ({ f with w0 := w0, w1 := w1 } : Biquad ℝ).response x' n| ≤ D * ρ ^ n := by
  rw [Props.C09_stability_iff_poles] at h
  obtain ⟨p, q, hs, hm⟩ := split_quadratic f.a1 f.a2
  obtain ⟨rp, rq⟩ := is_root hs hm
  have hp := h p rp
  have hq := h q rq
  set f' : Biquad ℝ := { f with w0 := w0, w1 := w1 } with hf'
  have h1 := state_recurrence f hs hm x
  have h2 := state_recurrence f' (p := p) (q := q) hs hm x'
  set u : ℕ → ℂ := fun n => ((f.stateAt x n).w1 + q * (f.stateAt x n).w0) -
    ((f'.stateAt x' n).w1 + q * (f'.stateAt x' n).w0) with hu
  set s : ℕ → ℂ := fun n => ((f.stateAt x n).w0 : ℂ) - (f'.stateAt x' n).w0 with hsd
  set k1 : ℂ := (f.b2 - f.a2 * f.b0) + q * (f.b1 - f.a1 * f.b0) with hk1
  set k2 : ℂ := (f.b1 - f.a1 * f.b0) with hk2
  have hd : ∀ (c : ℂ) n, ‖c * ((x n - x' n : ℝ) : ℂ)‖ ≤ (‖c‖ * C) * r ^ n := by
    intro c n
    rw [norm_mul, Complex.norm_real, Real.norm_eq_abs, mul_assoc]
    exact mul_le_mul_of_nonneg_left (hx n) (norm_nonneg _)
  have ru : ∀ n, u (n + 1) = q * u n + k1 * ((x n - x' n : ℝ) : ℂ) := by
    intro n
    have e1 := (h1 n).1
    have e2 := (h2 n).1
    simp only [hu]
    simp only at e1 e2
    rw [e1, e2]
    push_cast
    simp only [hk1, hf']
    ring
  have rs : ∀ n, s (n + 1) = p * s n + (u n + k2 * ((x n - x' n : ℝ) : ℂ)) := by
    intro n
    have e1 := (h1 n).2
    have e2 := (h2 n).2
    simp only [hsd, hu]
    simp only at e1 e2
    rw [e1, e2]
    push_cast
    simp only [hk2, hf']
    ring
  obtain ⟨D1, ρ1, a1, a2, a3⟩ := geometric_rec hq hr0 hr ru (hd k1)
  have hC : 0 ≤ C := by have := (abs_nonneg _).trans (hx 0); simpa using this
  have hD1 : 0 ≤ D1 := by have := (norm_nonneg _).trans (a3 0); simpa using this
  set R := max ρ1 r with hR
  have hR0 : 0 ≤ R := a1.trans (le_max_left _ _)
  have hR1 : R < 1 := max_lt a2 hr
  obtain ⟨D2, ρ2, b1, b2, b3⟩ := geometric_rec hp hR0 hR1 rs (C := D1 + ‖k2‖ * C) (by
    intro n
    have e1 : ρ1 ^ n ≤ R ^ n := pow_le_pow_left₀ a1 (le_max_left _ _) n
    have e2 : r ^ n ≤ R ^ n := pow_le_pow_left₀ hr0 (le_max_right _ _) n
    calc ‖u n + k2 * ((x n - x' n : ℝ) : ℂ)‖ ≤ ‖u n‖ + ‖k2 * ((x n - x' n : ℝ) : ℂ)‖ := norm_add_le _ _
      _ ≤ D1 * ρ1 ^ n + (‖k2‖ * C) * r ^ n := add_le_add (a3 n) (hd k2 n)
      _ ≤ D1 * R ^ n + (‖k2‖ * C) * R ^ n := add_le_add (mul_le_mul_of_nonneg_left e1 hD1)
          (mul_le_mul_of_nonneg_left e2 (mul_nonneg (norm_nonneg _) hC))
      _ = (D1 + ‖k2‖ * C) * R ^ n := by ring)
  have hD2 : 0 ≤ D2 := by have := (norm_nonneg _).trans (b3 0); simpa using this
  refine ⟨|f.b0| * C + D2, max r ρ2, hr0.trans (le_max_left _ _), max_lt hr b2, ?_⟩
  intro n
  have e1 : r ^ n ≤ (max r ρ2) ^ n := pow_le_pow_left₀ hr0 (le_max_left _ _) n
  have e2 : ρ2 ^ n ≤ (max r ρ2) ^ n := pow_le_pow_left₀ b1 (le_max_right _ _) n
  have hsn : |(f.stateAt x n).w0 - (f'.stateAt x' n).w0| ≤ D2 * ρ2 ^ n := by
    have := b3 n
    simp only [hsd] at this
    rwa [← Complex.ofReal_sub, Complex.norm_real, Real.norm_eq_abs] at this
  rw [response_eq, response_eq]
  have e : f.b0 * x n + (f.stateAt x n).w0 - (f'.b0 * x' n + (f'.stateAt x' n).w0) =
      f.b0 * (x n - x' n) + ((f.stateAt x n).w0 - (f'.stateAt x' n).w0) := by
    simp only [hf']; ring
  rw [e]
  calc |f.b0 * (x n - x' n) + ((f.stateAt x n).w0 - (f'.stateAt x' n).w0)|
      ≤ |f.b0 * (x n - x' n)| + |(f.stateAt x n).w0 - (f'.stateAt x' n).w0| := abs_add_le _ _
    _ ≤ |f.b0| * (C * r ^ n) + D2 * ρ2 ^ n := by
        rw [abs_mul]
        exact add_le_add (mul_le_mul_of_nonneg_left (hx n) (abs_nonneg _)) hsn
    _ ≤ |f.b0| * (C * (max r ρ2) ^ n) + D2 * (max r ρ2) ^ n :=
        add_le_add (mul_le_mul_of_nonneg_left (mul_le_mul_of_nonneg_left e1 hC) (abs_nonneg _))
          (mul_le_mul_of_nonneg_left e2 hD2)
    _ = (|f.b0| * C + D2) * (max r ρ2) ^ n := by ring

/-- Started in the right state, a section answers `Re(c z^n)` with `Re(h c z^n)` exactly. -/
theorem exact_state (f : Biquad ℝ) {z h : ℂ} (hz : z ≠ 0) (ht : TransferAt f z h) (c : ℂ) :
    let f' : Biquad ℝ := { f with w0 := ((h - f.b0) * c).re, w1 := ((f.b2 - f.a2 * h) * z⁻¹ * c).re }
    let x : ℕ → ℝ := fun n => (c * z ^ n).re
    (∀ n, (f'.stateAt x n).w0 = ((h - f.b0) * (c * z ^ n)).re ∧
      (f'.stateAt x n).w1 = ((f.b2 - f.a2 * h) * z⁻¹ * (c * z ^ n)).re) ∧
    ∀ n, f'.response x n = (h * c * z ^ n).re := by
  intro f' x
  have hst : ∀ n, (f'.stateAt x n).w0 = ((h - f.b0) * (c * z ^ n)).re ∧
      (f'.stateAt x n).w1 = ((f.b2 - f.a2 * h) * z⁻¹ * (c * z ^ n)).re := by
    intro n
    induction n with
    | zero => simp [f', Biquad.stateAt]
    | succ n ih =>
      obtain ⟨i0, i1⟩ := ih
      obtain ⟨k1, k2, k3, k4, k5, -⟩ := Biquad.stateAt_coeffs f' x n
      have e0 : (f'.stateAt x (n + 1)).w0 = f.b1 * x n - f.a1 * (f.b0 * x n + (f'.stateAt x n).w0)
          + (f'.stateAt x n).w1 := by
        show ((f'.stateAt x n).tick (x n)).1.w0 = _
        simp only [Biquad.tick]
        rw [k1, k2, k4]
      have e1 : (f'.stateAt x (n + 1)).w1 = f.b2 * x n - f.a2 * (f.b0 * x n + (f'.stateAt x n).w0) := by
        show ((f'.stateAt x n).tick (x n)).1.w1 = _
        simp only [Biquad.tick]
        rw [k1, k3, k5]
      rw [e0, e1, i0, i1]
      obtain ⟨-, hn⟩ := ht
      unfold numAt denAt at hn
      have hzz : z⁻¹ * z = 1 := inv_mul_cancel₀ hz
      have lin : ∀ (a : ℝ) (v : ℂ), a * v.re = ((a : ℂ) * v).re := by
        intro a v; rw [Complex.re_ofReal_mul]
      simp only [x]
      constructor
      · rw [lin f.b0, ← Complex.add_re, lin f.a1, lin f.b1, ← Complex.sub_re, ← Complex.add_re]
        congr 1
        rw [pow_succ]
        linear_combination (c * z ^ n * z) * hn +
          (f.a1 * h * c * z ^ n + f.a2 * h * c * z ^ n * z⁻¹ - f.b1 * c * z ^ n - f.b2 * c * z ^ n * z⁻¹) * hzz
      · rw [lin f.b0, ← Complex.add_re, lin f.a2, lin f.b2, ← Complex.sub_re]
        congr 1
        rw [pow_succ]
        linear_combination (-(f.b2 - f.a2 * h) * c * z ^ n) * hzz
  refine ⟨hst, ?_⟩
  intro n
  rw [response_eq, (hst n).1]
  simp only [x, f']
  rw [← Complex.re_ofReal_mul, ← Complex.add_re]
  congr 1
  ring

/-- One stage: if the input settles to `Re(c z^n)`, the output settles to `Re(h c z^n)`. -/
theorem stage (f : Biquad ℝ) (hf : f.stability = true) {z h : ℂ} (hz : z ≠ 0) (ht : TransferAt f z h)
    (c : ℂ) (x : ℕ → ℝ) {C r : ℝ} (hr0 : 0 ≤ r) (hr : r < 1)
    (hx : ∀ n, |x n - (c * z ^ n).re| ≤ C * r ^ n) :
    ∃ D ρ : ℝ, 0 ≤ ρ ∧ ρ < 1 ∧ ∀ n, |f.response x n - (h * c * z ^ n).re| ≤ D * ρ ^ n := by
  obtain ⟨D, ρ, h0, h1, h2⟩ := approach f hf ((h - f.b0) * c).re ((f.b2 - f.a2 * h) * z⁻¹ * c).re x
    (fun n => (c * z ^ n).re) hr0 hr hx
  refine ⟨D, ρ, h0, h1, fun n => ?_⟩
  have := h2 n
  rwa [(exact_state f hz ht c).2 n] at this

/-- The output of a chain, sample by sample. -/
noncomputable def chain (fs : List (Biquad ℝ)) (x : ℕ → ℝ) : ℕ → ℝ := fs.foldl (fun s f => f.response s) x

theorem chain_settles (fs : List (Biquad ℝ)) (hs : ∀ f ∈ fs, f.stability = true) {z h : ℂ} (hz : z ≠ 0)
    (ht : ChainTransferAt fs z h) (c : ℂ) (x : ℕ → ℝ) {C r : ℝ} (hr0 : 0 ≤ r) (hr : r < 1)
    (hx : ∀ n, |x n - (c * z ^ n).re| ≤ C * r ^ n) :
    ∃ D ρ : ℝ, 0 ≤ ρ ∧ ρ < 1 ∧ ∀ n, |chain fs x n - (h * c * z ^ n).re| ≤ D * ρ ^ n := by
  induction fs generalizing c x C r h with
  | nil =>
    have : h = 1 := ht
    subst this
    exact ⟨C, r, hr0, hr, by simpa [chain] using hx⟩
  | cons f fs ih =>
    obtain ⟨h₁, h₂, t1, t2, rfl⟩ := ht
    obtain ⟨D, ρ, k0, k1, k2⟩ := stage f (hs f (by simp)) hz t1 c x hr0 hr hx
    obtain ⟨D', ρ', l0, l1, l2⟩ := ih (fun g hg => hs g (by simp [hg])) t2 (h₁ * c) (f.response x) k0 k1 k2
    refine ⟨D', ρ', l0, l1, fun n => ?_⟩
    have := l2 n
    rw [show h₁ * h₂ * c * z ^ n = h₂ * (h₁ * c) * z ^ n by ring]
    exact this

theorem through_range (fs : List (Biquad ℝ)) (x : ℕ → ℝ) (n : ℕ) :
    (through fs ((List.range n).map x)).2 = (List.range n).map (chain fs x) := by
  rw [Biquad.through_eq_foldl]
  induction fs generalizing x with
  | nil => rfl
  | cons f fs ih =>
    rw [List.foldl_cons, (Biquad.filter_range f x n).2, ih]
    rfl

/-- The samples a cascade writes are those of its active stages (whatever the counter). -/
theorem filter_out (c : Cascade ℝ) (xs : List ℝ) : (c.filter xs).2 = (through (active c) xs).2 := by
  induction xs generalizing c with
  | nil => rw [Biquad.through_nil]; rfl
  | cons x xs ih =>
    have hact : active (c.tick x).1 = (Biquad.chainTick (active c) x).1 := by
      have hl := Biquad.chainTick_length (active c) x
      rw [Cascade.tick_eq]
      show List.take c.num ((Biquad.chainTick (active c) x).1 ++ c.stages.drop c.num) = _
      have hla : (active c).length = min c.num c.stages.length := by
        unfold active; rw [List.length_take]
      by_cases hc : c.num ≤ c.stages.length
      · rw [List.take_append_of_le_length (by rw [hl, hla]; omega), List.take_of_length_le (by rw [hl, hla]; omega)]
      · rw [List.drop_of_length_le (by omega), List.append_nil, List.take_of_length_le (by rw [hl, hla]; omega)]
    show (c.tick x).2 :: ((c.tick x).1.filter xs).2 = _
    rw [ih, hact, Biquad.through_cons, Cascade.tick_eq]
    rfl

theorem sinusoid_eq (A w p : ℝ) (n : ℕ) :
    sinusoid A w p n = ((A * Complex.exp (p * Complex.I)) * Complex.exp (w * Complex.I) ^ n).re := by
  rw [mul_assoc, ← Complex.exp_nat_mul, ← Complex.exp_add, Complex.re_ofReal_mul]
  have : (p : ℂ) * Complex.I + n * (w * Complex.I) = ((w * n + p : ℝ) : ℂ) * Complex.I := by
    push_cast; ring
  rw [this, Complex.exp_ofReal_mul_I_re]
  rfl

theorem sinusoid_gain (A w p : ℝ) (h : ℂ) (n : ℕ) :
    (h * (A * Complex.exp (p * Complex.I)) * Complex.exp (w * Complex.I) ^ n).re =
      sinusoid (‖h‖ * A) w (p + h.arg) n := by
  rw [sinusoid_eq]
  congr 1
  conv_lhs => rw [← Complex.norm_mul_exp_arg_mul_I h]
  push_cast
  rw [add_mul, Complex.exp_add]
  ring

end Edsp.SteadyL
