import Verif.Model.Freq
import Verif.Spec.Freq
import Verif.Props.C06_Biquad
import Verif.Props.C75_Steady
import Mathlib.Algebra.BigOperators.Ring.Finset
import Mathlib.Algebra.BigOperators.Fin

/-! # C76: `freq` samples the frequency response -/

namespace Edsp.Props

open Edsp Edsp.Spec Edsp.Freq

/-- The frequency of point `k` of `K`: from 0 up to, but not including, Nyquist. -/
noncomputable def pointFreq (K k : ℕ) : ℝ := Real.pi * k / K

theorem twiddle (K k m : ℕ) :
    ((Real.cos (m * Real.pi * k / K) : ℂ) - Complex.I * (Real.sin (m * Real.pi * k / K) : ℂ)) =
      (Complex.exp (pointFreq K k * Complex.I))⁻¹ ^ m := by
  rw [← Complex.exp_neg, ← Complex.exp_nat_mul]
  have : (m : ℂ) * -(pointFreq K k * Complex.I) = ((-(m * Real.pi * k / K) : ℝ) : ℂ) * Complex.I := by
    unfold pointFreq; push_cast; ring
  rw [this, Complex.exp_mul_I]
  push_cast
  rw [Complex.cos_neg, Complex.sin_neg]
  ring

theorem loop_eq (k K : ℕ) (cs : List ℝ) (m : ℕ) (acc : ℂ) :
    loop k K cs m acc = acc + ∑ j ∈ Finset.range cs.length,
      (cs.getD j 0 : ℂ) * (Complex.exp (pointFreq K k * Complex.I))⁻¹ ^ (m + j) := by
  induction cs generalizing m acc with
  | nil => simp [loop]
  | cons c cs ih =>
    rw [loop, ih, List.length_cons, Finset.sum_range_succ', twiddle]
    simp only [List.getD_cons_succ, List.getD_cons_zero, add_zero]
    have : ∀ j, m + 1 + j = m + (j + 1) := by intro j; omega
    simp only [this]
    ring

theorem evalAt_eq {c : List ℝ} (hc : c ≠ []) (k K : ℕ) :
    evalAt c k K = .ok (polyAt c (Complex.exp (pointFreq K k * Complex.I))) := by
  cases c with
  | nil => exact absurd rfl hc
  | cons c0 cs =>
    unfold evalAt polyAt
    dsimp only
    rw [loop_eq, List.length_cons, Finset.sum_range_succ']
    simp only [List.getD_cons_succ, List.getD_cons_zero, pow_zero, mul_one]
    have : ∀ j, 1 + j = j + 1 := by intro j; omega
    simp only [this]
    rw [add_comm]

theorem mapM_ok {f : ℕ → Except Fault ℂ} {g : ℕ → ℂ} (l : List ℕ) (h : ∀ k ∈ l, f k = .ok (g k)) :
    l.mapM f = .ok (l.map g) := by
  induction l with
  | nil => rfl
  | cons a l ih =>
    rw [List.mapM_cons, h a (by simp), ih (fun k hk => h k (by simp [hk]))]
    rfl

theorem mapM_some {f : ℕ → Except Fault ℂ} {out : List ℂ} (l : List ℕ) (h : l.mapM f = .ok out) :
    ∀ k ∈ l, ∃ v, f k = .ok v := by
  induction l generalizing out with
  | nil => intro k hk; cases hk
  | cons a l ih =>
    rw [List.mapM_cons] at h
    cases ha : f a with
    | error e => rw [ha] at h; cases h
    | ok v =>
      rw [ha] at h
      cases hl : l.mapM f with
      | error e => rw [hl] at h; cases h
      | ok vs =>
        intro k hk
        rcases List.mem_cons.mp hk with rfl | hk
        · exact ⟨v, ha⟩
        · exact ih hl k hk

/-- **C76, values.** For every pair of coefficient ranges and every number of points, wherever the
denominator does not vanish at a sampled frequency, exactly `K` values are written and value `k` is the
transfer function `Σ b_m z^{-m} / Σ a_m z^{-m}` at `z = e^{iπk/K}`. -/
theorem C76_values {b a : List ℝ} (hb : b ≠ []) (ha : a ≠ []) {K : ℕ}
    (hd : ∀ k < K, polyAt a (Complex.exp (pointFreq K k * Complex.I)) ≠ 0) :
    freq b a K = .ok ((List.range K).map fun k =>
      polyAt b (Complex.exp (pointFreq K k * Complex.I)) /
        polyAt a (Complex.exp (pointFreq K k * Complex.I))) := by
  unfold freq
  apply mapM_ok
  intro k hk
  unfold point
  rw [evalAt_eq hb, evalAt_eq ha]
  simp only [bind, Except.bind]
  rw [if_neg (hd k (List.mem_range.mp hk))]

/-- **C76, definedness.** `freq` is defined exactly when no point is asked for, or both ranges have a
coefficient and the denominator vanishes at none of the sampled frequencies. -/
theorem C76_defined (b a : List ℝ) (K : ℕ) :
    (∃ out, freq b a K = .ok out) ↔
      K = 0 ∨ b ≠ [] ∧ a ≠ [] ∧ ∀ k < K, polyAt a (Complex.exp (pointFreq K k * Complex.I)) ≠ 0 := by
  constructor
  · rintro ⟨out, h⟩
    by_cases hK : K = 0
    · exact Or.inl hK
    right
    have hall := mapM_some _ h
    have hb : b ≠ [] := by
      rintro rfl
      obtain ⟨v, hv⟩ := hall 0 (List.mem_range.mpr (by omega))
      simp [point, evalAt, bind, Except.bind] at hv
    have ha : a ≠ [] := by
      rintro rfl
      obtain ⟨v, hv⟩ := hall 0 (List.mem_range.mpr (by omega))
      unfold point at hv
      rw [evalAt_eq hb] at hv
      simp [evalAt, bind, Except.bind] at hv
    refine ⟨hb, ha, ?_⟩
    intro k hk h0
    obtain ⟨v, hv⟩ := hall k (List.mem_range.mpr hk)
    unfold point at hv
    rw [evalAt_eq hb, evalAt_eq ha] at hv
    simp [bind, Except.bind, h0] at hv
  · rintro (rfl | ⟨hb, ha, hd⟩)
    · exact ⟨[], rfl⟩
    · exact ⟨_, C76_values hb ha hd⟩

/-- **C76, meaning.** Value `k` is the number by which the filter multiplies a complex exponential of
that frequency: `x[t] = z^t` and `y[t] = value · z^t` satisfy the difference equation of the
coefficients at every time. -/
theorem C76_meaning {b a : List ℝ} {K : ℕ} {out : List ℂ} (h : freq b a K = .ok out) :
    out.length = K ∧ ∀ k < K, ∃ v, out[k]? = some v ∧
      Recursion b a (fun t => Complex.exp (pointFreq K k * Complex.I) ^ t)
        (fun t => v * Complex.exp (pointFreq K k * Complex.I) ^ t) := by
  rcases (C76_defined b a K).mp ⟨out, h⟩ with rfl | ⟨hb, ha, hd⟩
  · have : out = [] := by unfold freq at h; simpa [pure, Except.pure] using h.symm
    subst this
    exact ⟨rfl, fun k hk => absurd hk (by omega)⟩
  · rw [C76_values hb ha hd] at h
    injection h with h
    subst h
    refine ⟨by simp, fun k hk => ⟨_, by simp [hk]; rfl, ?_⟩⟩
    intro t
    set z := Complex.exp (pointFreq K k * Complex.I) with hz
    have hz0 : z ≠ 0 := Complex.exp_ne_zero _
    have hsplit : ∀ m : ℕ, z ^ (t - m) = z⁻¹ ^ m * z ^ t := by
      intro m
      rw [zpow_sub₀ hz0, zpow_natCast, inv_pow]
      field_simp
    have hpoly : ∀ c : List ℝ, ∑ m ∈ Finset.range c.length, (c.getD m 0 : ℂ) * (z⁻¹ ^ m * z ^ t) =
        polyAt c z * z ^ t := by
      intro c
      unfold polyAt
      rw [Finset.sum_mul]
      refine Finset.sum_congr rfl fun m _ => by ring
    simp only [hsplit]
    rw [hpoly b]
    have : ∀ m : ℕ, (a.getD m 0 : ℂ) * (polyAt b z / polyAt a z * (z⁻¹ ^ m * z ^ t)) =
        polyAt b z / polyAt a z * ((a.getD m 0 : ℂ) * (z⁻¹ ^ m * z ^ t)) := by intro m; ring
    simp only [this]
    rw [← Finset.mul_sum, hpoly a]
    have hak := hd k hk
    rw [← hz] at hak
    field_simp

/-- **C76, prediction.** For every section that reports itself stable, `freq` of the coefficients it was
built from is defined for every `K`, and value `k` predicts what `filter` does to a sinusoid of frequency
`πk/K`: amplitude and phase of the output settle to those of the input multiplied by the modulus and moved
by the argument of the value. -/
theorem C76_prediction {a0 a1 a2 b0 b1 b2 : ℝ} {f : Biquad ℝ}
    (hf : Biquad.ofCoeffs a0 a1 a2 b0 b1 b2 = .ok f) (hs : f.stability = true) (K : ℕ) :
    ∃ out, freq [b0, b1, b2] [a0, a1, a2] K = .ok out ∧ out.length = K ∧
      ∀ k < K, ∃ v, out[k]? = some v ∧ ∀ A p : ℝ,
        SettlesTo (fun n => (f.filter ((List.range n).map (sinusoid A (pointFreq K k) p))).2)
          (sinusoid (‖v‖ * A) (pointFreq K k) (p + v.arg)) := by
  have ha0 : a0 ≠ 0 := (C06_constructor a0 a1 a2 b0 b1 b2).mp ⟨f, hf⟩
  obtain ⟨-, e1, e2, e3, e4, e5⟩ := C06_reported hf []
  simp only [Biquad.filterCalls] at e1 e2 e3 e4 e5
  have p3 : ∀ (c0 c1 c2 : ℝ) (z : ℂ), polyAt [c0, c1, c2] z = c0 + c1 * z⁻¹ + c2 * z⁻¹ ^ 2 := by
    intro c0 c1 c2 z
    unfold polyAt
    simp [Finset.sum_range_succ]
  have hden : ∀ z : ℂ, polyAt [a0, a1, a2] z = a0 * denAt f z := by
    intro z
    rw [p3]; unfold denAt
    rw [e1, e2]; push_cast
    have : (a0 : ℂ) ≠ 0 := by exact_mod_cast ha0
    field_simp
  have hnum : ∀ z : ℂ, polyAt [b0, b1, b2] z = a0 * numAt f z := by
    intro z
    rw [p3]; unfold numAt
    rw [e3, e4, e5]; push_cast
    have : (a0 : ℂ) ≠ 0 := by exact_mod_cast ha0
    field_simp
  have hne : ∀ w : ℝ, denAt f (Complex.exp (w * Complex.I)) ≠ 0 := by
    intro w h0
    have := (C09_stability_iff_poles f).mp hs (Complex.exp (w * Complex.I)) (by
      unfold denAt at h0
      have hz : Complex.exp (w * Complex.I) ≠ 0 := Complex.exp_ne_zero _
      field_simp at h0
      linear_combination h0)
    rw [Complex.norm_exp_ofReal_mul_I] at this
    exact lt_irrefl _ this
  have ha0' : (a0 : ℂ) ≠ 0 := by exact_mod_cast ha0
  have hd : ∀ k < K, polyAt [a0, a1, a2] (Complex.exp (pointFreq K k * Complex.I)) ≠ 0 := by
    intro k _
    rw [hden]
    exact mul_ne_zero ha0' (hne _)
  refine ⟨_, C76_values (by simp) (by simp) hd, by simp, ?_⟩
  intro k hk
  refine ⟨_, by simp [hk]; rfl, ?_⟩
  intro A p
  apply C75_section f hs
  refine ⟨hne _, ?_⟩
  rw [hden, hnum]
  have := hne (pointFreq K k)
  field_simp

example : ∃ out, freq [1, 0, 0] [1, 0, 0.81] 512 = .ok out ∧ out.length = 512 := by
  obtain ⟨out, h1, h2, -⟩ := C76_prediction (a0 := 1) (a1 := 0) (a2 := 0.81) (b0 := 1) (b1 := 0) (b2 := 0)
    (f := { Biquad.default with a2 := 0.81 })
    (by unfold Biquad.ofCoeffs; rw [if_neg one_ne_zero]; simp [Biquad.default])
    (by norm_num [Biquad.stability, Biquad.default, abs_of_pos]) 512
  exact ⟨out, h1, h2⟩

/-- The integrator `1 / (1 - z^{-1})` has no value at frequency 0: its response cannot be sampled. -/
example (K : ℕ) (hK : 0 < K) : ¬ ∃ out, freq [1] [1, -1] K = .ok out := by
  rw [C76_defined]
  rintro (rfl | ⟨-, -, h⟩)
  · omega
  · exact h 0 hK (by unfold polyAt pointFreq; simp [Finset.sum_range_succ])

/-- A two-point moving average has the value 1 at frequency 0 and satisfies its recursion at every point. -/
example : ∃ out, freq [1/2, 1/2] [1] 4 = .ok out ∧ out.length = 4 := by
  refine ⟨_, C76_values (by simp) (by simp) ?_, by simp⟩
  intro k _
  unfold polyAt
  simp

end Edsp.Props
