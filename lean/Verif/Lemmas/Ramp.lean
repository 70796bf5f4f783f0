import Verif.Spec.Ramp
import Verif.Lemmas.Polarity

/-! # Helper lemmas: how sections and cascades answer ramps -/

namespace Edsp.RampL

open Edsp Edsp.Spec Edsp.Stability Edsp.SteadyL Edsp.LayoutL

/-- The factor and the offset with which a section answers a ramp of slope 1. -/
noncomputable def fac (f : Biquad ℝ) : ℝ := (f.b0 + f.b1 + f.b2) / (1 + f.a1 + f.a2)

noncomputable def off (f : Biquad ℝ) : ℝ := (fac f * (f.a1 + 2 * f.a2) - (f.b1 + 2 * f.b2)) / (1 + f.a1 + f.a2)

theorem den_ne {f : Biquad ℝ} (hf : f.stability = true) : 1 + f.a1 + f.a2 ≠ 0 := by
  have := Response.denAt_ne_zero hf (z := 1) (by simp)
  intro h
  apply this
  unfold denAt
  rw [inv_one]
  have : ((1 + f.a1 + f.a2 : ℝ) : ℂ) = 0 := by rw [h]; simp
  push_cast at this
  linear_combination this

/-- Started in the right state, a section answers a ramp with a ramp. -/
theorem exact_ramp (f : Biquad ℝ) {g d : ℝ} (hg : g * (1 + f.a1 + f.a2) = f.b0 + f.b1 + f.b2)
    (hd : d * (1 + f.a1 + f.a2) = g * (f.a1 + 2 * f.a2) - (f.b1 + 2 * f.b2)) (α β : ℝ) :
    ∃ w0 w1, ∀ n, ({ f with w0 := w0, w1 := w1 } : Biquad ℝ).response (ramp α β) n = ramp (g * α) (g * β + α * d) n := by
  set x := ramp α β with hx
  set y := ramp (g * α) (g * β + α * d) with hy
  refine ⟨y 0 - f.b0 * x 0, f.b2 * (x 0 - α) - f.a2 * (y 0 - g * α), ?_⟩
  set f' : Biquad ℝ := { f with w0 := y 0 - f.b0 * x 0, w1 := f.b2 * (x 0 - α) - f.a2 * (y 0 - g * α) } with hf'
  have hst : ∀ n, (f'.stateAt x n).w0 = y n - f.b0 * x n ∧
      (f'.stateAt x n).w1 = f.b2 * (x n - α) - f.a2 * (y n - g * α) := by
    intro n
    induction n with
    | zero => exact ⟨rfl, rfl⟩
    | succ n ih =>
      obtain ⟨i0, i1⟩ := ih
      obtain ⟨k1, k2, k3, k4, k5, -⟩ := Biquad.stateAt_coeffs f' x n
      have e0 : (f'.stateAt x (n + 1)).w0 = f.b1 * x n - f.a1 * (f.b0 * x n + (f'.stateAt x n).w0)
          + (f'.stateAt x n).w1 := by
        show ((f'.stateAt x n).tick (x n)).1.w0 = _
        simp only [Biquad.tick]
        rw [k1, k2, k4]
      have e1 : (f'.stateAt x (n + 1)).w1 = f.b2 * x n - f.a2 * (f.b0 * x n + (f'.stateAt x n).w0) := by
        show ((f'.stateAt x n).tick (x n)).1.w1 = _
        simp only [Biquad.tick]
        rw [k1, k3, k5]
      rw [e0, e1, i0, i1]
      simp only [hx, hy, ramp]
      push_cast
      constructor
      · linear_combination (-(α * n + β) - α) * hg - α * hd
      · ring
  intro n
  rw [response_eq, (hst n).1]
  show f.b0 * x n + _ = _
  ring

theorem stage_ramp (f : Biquad ℝ) (hf : f.stability = true) (α β : ℝ) (x : ℕ → ℝ) {C r : ℝ} (hr0 : 0 ≤ r) (hr : r < 1)
    (hx : ∀ n, |x n - ramp α β n| ≤ C * r ^ n) :
    ∃ D ρ : ℝ, 0 ≤ ρ ∧ ρ < 1 ∧ ∀ n, |f.response x n - ramp (fac f * α) (fac f * β + α * off f) n| ≤ D * ρ ^ n := by
  have hA := den_ne hf
  obtain ⟨w0, w1, h⟩ := exact_ramp f (g := fac f) (d := off f) (by unfold fac; field_simp) (by
    unfold off; rw [div_mul_cancel₀ _ hA]) α β
  obtain ⟨D, ρ, h0, h1, h2⟩ := approach f hf w0 w1 x (ramp α β) hr0 hr hx
  refine ⟨D, ρ, h0, h1, fun n => ?_⟩
  have := h2 n
  rwa [h n] at this

/-- Factor and offset of a chain. -/
noncomputable def facs : List (Biquad ℝ) → ℝ
  | [] => 1
  | f :: fs => facs fs * fac f

noncomputable def offs : List (Biquad ℝ) → ℝ
  | [] => 0
  | f :: fs => facs fs * off f + fac f * offs fs

theorem chain_ramp (fs : List (Biquad ℝ)) (hs : ∀ f ∈ fs, f.stability = true) (α β : ℝ) (x : ℕ → ℝ) {C r : ℝ}
    (hr0 : 0 ≤ r) (hr : r < 1) (hx : ∀ n, |x n - ramp α β n| ≤ C * r ^ n) :
    ∃ D ρ : ℝ, 0 ≤ ρ ∧ ρ < 1 ∧ ∀ n, |chain fs x n - ramp (facs fs * α) (facs fs * β + α * offs fs) n| ≤ D * ρ ^ n := by
  induction fs generalizing α β x C r with
  | nil => exact ⟨C, r, hr0, hr, by simpa [chain, facs, offs] using hx⟩
  | cons f fs ih =>
    obtain ⟨D, ρ, k0, k1, k2⟩ := stage_ramp f (hs f (by simp)) α β x hr0 hr hx
    obtain ⟨D', ρ', l0, l1, l2⟩ := ih (fun g hg => hs g (by simp [hg])) _ _ (f.response x) k0 k1 k2
    refine ⟨D', ρ', l0, l1, fun n => ?_⟩
    have := l2 n
    have e : ramp (facs (f :: fs) * α) (facs (f :: fs) * β + α * offs (f :: fs)) n =
        ramp (facs fs * (fac f * α)) (facs fs * (fac f * β + α * off f) + fac f * α * offs fs) n := by
      rw [show facs (f :: fs) = facs fs * fac f from rfl,
        show offs (f :: fs) = facs fs * off f + fac f * offs fs from rfl]
      unfold ramp; ring
    rw [e]
    exact this

theorem section_ramp {f : Biquad ℝ} (hf : f.stability = true) (s0 s1 α β : ℝ) :
    Answers (fun xs => (({ f with w0 := s0, w1 := s1 } : Biquad ℝ).filter xs).2) (ramp α β)
      (ramp (fac f * α) (fac f * β + α * off f)) := by
  obtain ⟨D, ρ, h0, h1, h2⟩ := stage_ramp { f with w0 := s0, w1 := s1 } hf α β (ramp α β) (C := 0) (r := 0) le_rfl
    zero_lt_one (by intro n; rw [sub_self, abs_zero, zero_mul])
  refine ⟨D, ρ, h0, h1, fun n => ?_⟩
  dsimp only
  rw [(Biquad.filter_range _ _ n).2]
  exact ⟨by simp, fun k hk => ⟨_, by simp [hk], h2 k⟩⟩

theorem cascade_ramp {c : Cascade ℝ} (hs : ∀ f ∈ active c, f.stability = true) (α β : ℝ) :
    Answers (fun xs => (c.filter xs).2) (ramp α β)
      (ramp (facs (active c) * α) (facs (active c) * β + α * offs (active c))) := by
  obtain ⟨D, ρ, h0, h1, h2⟩ := chain_ramp (active c) hs α β (ramp α β) (C := 0) (r := 0) le_rfl
    zero_lt_one (by intro n; rw [sub_self, abs_zero, zero_mul])
  refine ⟨D, ρ, h0, h1, fun n => ?_⟩
  dsimp only
  rw [filter_out, through_range]
  exact ⟨by simp, fun k hk => ⟨_, by simp [hk], h2 k⟩⟩

/-! ## Bilinear images -/

theorem bilinear_real {f : Biquad ℝ} {K : ℝ} (hK : 0 < K) {n d : ℝ × ℝ × ℝ} (hb : BilinearOf f K n d)
    (h2 : 0 ≤ d.1) (h1 : 0 ≤ d.2.1) (h0 : 0 < d.2.2) {x : ℝ} (hx : 0 < x) (hx1 : x ≤ 1) :
    (f.b0 + f.b1 * x + f.b2 * x ^ 2) * (d.1 * (1 - x) ^ 2 + d.2.1 * K * (1 - x) * (1 + x) + d.2.2 * K ^ 2 * (1 + x) ^ 2) =
    (n.1 * (1 - x) ^ 2 + n.2.1 * K * (1 - x) * (1 + x) + n.2.2 * K ^ 2 * (1 + x) ^ 2) * (1 + f.a1 * x + f.a2 * x ^ 2) := by
  have hxc : (x : ℂ) ≠ 0 := by exact_mod_cast hx.ne'
  have hKc : (K : ℂ) ≠ 0 := by exact_mod_cast hK.ne'
  have hx1c : (1 : ℂ) + x ≠ 0 := by
    have : (1 + x : ℝ) ≠ 0 := by positivity
    exact_mod_cast this
  have hx2 : 0 ≤ 1 - x := by linarith
  have hs : ((x : ℂ)⁻¹ - 1) / (K * ((x : ℂ)⁻¹ + 1)) = (((1 - x) / (K * (1 + x)) : ℝ) : ℂ) := by
    push_cast
    have : (x : ℂ)⁻¹ + 1 ≠ 0 := by
      intro h
      apply hx1c
      have := congrArg (· * (x : ℂ)) h
      simp only [add_mul, inv_mul_cancel₀ hxc, zero_mul, one_mul] at this
      exact this
    rw [div_eq_div_iff (mul_ne_zero hKc this) (mul_ne_zero hKc hx1c)]
    field_simp
  have hq : ∀ q : ℝ × ℝ × ℝ, quadAt q (((1 - x) / (K * (1 + x)) : ℝ) : ℂ) =
      (((q.1 * (1 - x) ^ 2 + q.2.1 * K * (1 - x) * (1 + x) + q.2.2 * K ^ 2 * (1 + x) ^ 2) / (K * (1 + x)) ^ 2 : ℝ) : ℂ) := by
    intro q
    unfold quadAt
    push_cast
    field_simp
  have hpos : 0 < d.1 * (1 - x) ^ 2 + d.2.1 * K * (1 - x) * (1 + x) + d.2.2 * K ^ 2 * (1 + x) ^ 2 := by positivity
  have hb' := hb (x : ℂ)⁻¹ (inv_ne_zero hxc) (by
    intro h
    apply hx1c
    have := congrArg (· * (x : ℂ)) h
    simp only [inv_mul_cancel₀ hxc] at this
    linear_combination this)
  rw [hs, hq, hq] at hb'
  set Dh := d.1 * (1 - x) ^ 2 + d.2.1 * K * (1 - x) * (1 + x) + d.2.2 * K ^ 2 * (1 + x) ^ 2
  set Nh := n.1 * (1 - x) ^ 2 + n.2.1 * K * (1 - x) * (1 + x) + n.2.2 * K ^ 2 * (1 + x) ^ 2
  have hk : 0 < (K * (1 + x)) ^ 2 := by positivity
  obtain ⟨-, ht⟩ := hb' (by
    have : Dh / (K * (1 + x)) ^ 2 ≠ 0 := by positivity
    exact_mod_cast this)
  unfold numAt denAt at ht
  rw [inv_inv, ← Complex.ofReal_div] at ht
  have ht' : f.b0 + f.b1 * x + f.b2 * x ^ 2 =
      Nh / (K * (1 + x)) ^ 2 / (Dh / (K * (1 + x)) ^ 2) * (1 + f.a1 * x + f.a2 * x ^ 2) := by exact_mod_cast ht
  rw [ht', div_div_div_cancel_right₀ hk.ne']
  field_simp

/-- Factor and offset of a bilinear image: the value and the slope of the prototype at 0. -/
theorem bilinear_ramp {f : Biquad ℝ} (hf : f.stability = true) {K : ℝ} (hK : 0 < K) {n d : ℝ × ℝ × ℝ} (hb : BilinearOf f K n d)
    (h2 : 0 ≤ d.1) (h1 : 0 ≤ d.2.1) (h0 : 0 < d.2.2) :
    fac f = n.2.2 / d.2.2 ∧ off f = (n.2.1 * d.2.2 - n.2.2 * d.2.1) / (2 * K * d.2.2 ^ 2) := by
  have hA := den_ne hf
  have key : ∀ x : ℝ, 0 < x → x ≤ 1 → _ := fun x => bilinear_real hK hb h2 h1 h0 (x := x)
  have p0 := key 1 (by norm_num) (by norm_num)
  have p1 := key (4 / 5) (by norm_num) (by norm_num)
  have p2 := key (3 / 5) (by norm_num) (by norm_num)
  have p3 := key (2 / 5) (by norm_num) (by norm_num)
  have p4 := key (1 / 5) (by norm_num) (by norm_num)
  have hD : (f.b1 + 2 * f.b2) * (4 * K ^ 2 * d.2.2) + (f.b0 + f.b1 + f.b2) * (4 * K ^ 2 * d.2.2 - 2 * K * d.2.1) =
      (4 * K ^ 2 * n.2.2 - 2 * K * n.2.1) * (1 + f.a1 + f.a2) + 4 * K ^ 2 * n.2.2 * (f.a1 + 2 * f.a2) := by
    linear_combination 5 * (25 / 12 * p0 - 4 * p1 + 3 * p2 - 4 / 3 * p3 + 1 / 4 * p4)
  have hg : fac f = n.2.2 / d.2.2 := by
    unfold fac
    rw [div_eq_div_iff hA h0.ne']
    have : (4 * K ^ 2) * ((f.b0 + f.b1 + f.b2) * d.2.2) = (4 * K ^ 2) * (n.2.2 * (1 + f.a1 + f.a2)) := by
      linear_combination p0
    exact mul_left_cancel₀ (by positivity) this
  refine ⟨hg, ?_⟩
  have hB : (f.b0 + f.b1 + f.b2) * d.2.2 = n.2.2 * (1 + f.a1 + f.a2) := by
    unfold fac at hg
    rwa [div_eq_div_iff hA h0.ne'] at hg
  unfold off
  rw [hg, div_eq_div_iff hA (by positivity)]
  have hc : (2 * K) * (((n.2.2 / d.2.2 * (f.a1 + 2 * f.a2) - (f.b1 + 2 * f.b2)) * (2 * K * d.2.2 ^ 2))) =
      (2 * K) * ((n.2.1 * d.2.2 - n.2.2 * d.2.1) * (1 + f.a1 + f.a2)) := by
    have e : n.2.2 / d.2.2 * d.2.2 = n.2.2 := div_mul_cancel₀ _ h0.ne'
    linear_combination (-d.2.2) * hD + (4 * K ^ 2 * d.2.2 * (f.a1 + 2 * f.a2)) * e + (4 * K ^ 2 * d.2.2 - 2 * K * d.2.1) * hB
  exact mul_left_cancel₀ (by positivity) hc

/-! ## Sections with a factor other than 0 -/

/-- The delay of a section. -/
noncomputable def lag (f : Biquad ℝ) : ℝ := (f.b1 + 2 * f.b2) / (f.b0 + f.b1 + f.b2) - (f.a1 + 2 * f.a2) / (1 + f.a1 + f.a2)

theorem off_lag {f : Biquad ℝ} (hA : 1 + f.a1 + f.a2 ≠ 0) (hB : f.b0 + f.b1 + f.b2 ≠ 0) : off f = -(fac f * lag f) := by
  unfold off lag fac
  field_simp
  ring

theorem offs_lag {fs : List (Biquad ℝ)} (h : ∀ f ∈ fs, 1 + f.a1 + f.a2 ≠ 0 ∧ f.b0 + f.b1 + f.b2 ≠ 0) :
    offs fs = -(facs fs * (fs.map lag).sum) := by
  induction fs with
  | nil => simp [offs, facs]
  | cons f fs ih =>
    rw [offs, facs, ih (fun g hg => h g (by simp [hg])), off_lag (h f (by simp)).1 (h f (by simp)).2, List.map_cons,
      List.sum_cons]
    ring

theorem lag_scale (f : Biquad ℝ) {κ : ℝ} (hκ : κ ≠ 0) : lag (applyScale f κ) = lag f := by
  rw [applyScale_eq]
  unfold lag
  dsimp only
  rw [show f.b1 * κ + 2 * (f.b2 * κ) = (f.b1 + 2 * f.b2) * κ by ring,
    show f.b0 * κ + f.b1 * κ + f.b2 * κ = (f.b0 + f.b1 + f.b2) * κ by ring, mul_div_mul_right _ _ hκ]

end Edsp.RampL
