import Verif.Lemmas.Biquad
import Verif.Lemmas.Cascade
import Mathlib.Data.Complex.Basic
import Mathlib.Tactic.NormNum
import Mathlib.Tactic.LinearCombination
import Mathlib.RingTheory.PowerSeries.Basic

/-!
# Properties C06, C07, C08, C10, C11: the biquad section

Exact arithmetic in a field `K`; `ofCoeffs a0 a1 a2 b0 b1 b2` is the constructor.
-/

namespace Edsp.Props

open Edsp Edsp.Spec

variable {K : Type*} [Field K]

/-! ## C06 -/

/-- **C06.** For every coefficient tuple accepted by the constructor (that is `a0 ≠ 0`, see
`C06_constructor`) the output of `filter` is the solution of the difference equation with the
coefficients divided by `a0`, whatever was filtered before the last `reset`. -/
theorem C06_difference_equation [DecidableEq K] {a0 a1 a2 b0 b1 b2 : K} {f : Biquad K}
    (h : Biquad.ofCoeffs a0 a1 a2 b0 b1 b2 = .ok f) (history : List (List K)) (x : List K) :
    SolvesDifferenceEquation (a1 / a0) (a2 / a0) (b0 / a0) (b1 / a0) (b2 / a0) x (f.filter x).2 ∧
    SolvesDifferenceEquation (a1 / a0) (a2 / a0) (b0 / a0) (b1 / a0) (b2 / a0) x
      (((f.filterCalls history).1.reset).filter x).2 := by
  have hs : ((f.filterCalls history).1.reset) = f.reset := by
    refine Biquad.reset_of_same ?_
    exact Biquad.filterCalls_coeffs f history
  unfold Biquad.ofCoeffs at h
  split at h
  · simp at h
  · injection h with h
    rw [hs]
    subst h
    exact ⟨(Biquad.filter_invariant _ rfl rfl x).1, (Biquad.filter_invariant _ rfl rfl x).1⟩

/-- The constructor is defined exactly for `a0 ≠ 0`. -/
theorem C06_constructor [DecidableEq K] (a0 a1 a2 b0 b1 b2 : K) :
    (∃ f, Biquad.ofCoeffs a0 a1 a2 b0 b1 b2 = .ok f) ↔ a0 ≠ 0 := by
  unfold Biquad.ofCoeffs
  split <;> simp [*]

/-- The difference equation has only one solution: it determines the output. -/
theorem C06_unique [DecidableEq K] {a0 a1 a2 b0 b1 b2 : K} {f : Biquad K}
    (h : Biquad.ofCoeffs a0 a1 a2 b0 b1 b2 = .ok f) (x y : List K)
    (hy : SolvesDifferenceEquation (a1 / a0) (a2 / a0) (b0 / a0) (b1 / a0) (b2 / a0) x y) :
    y = (f.filter x).2 :=
  solves_unique hy (C06_difference_equation h [] x).1

/-- The constructed filter reports the normalised coefficients, for ever. -/
theorem C06_reported [DecidableEq K] {a0 a1 a2 b0 b1 b2 : K} {f : Biquad K}
    (h : Biquad.ofCoeffs a0 a1 a2 b0 b1 b2 = .ok f) (history : List (List K)) :
    let g := (f.filterCalls history).1
    g.a0 = 1 ∧ g.a1 = a1 / a0 ∧ g.a2 = a2 / a0 ∧ g.b0 = b0 / a0 ∧ g.b1 = b1 / a0 ∧
      g.b2 = b2 / a0 := by
  obtain ⟨h1, h2, h3, h4, h5, h6⟩ := Biquad.filterCalls_coeffs f history
  unfold Biquad.ofCoeffs at h
  split at h
  · simp at h
  · injection h with h
    subst h
    exact ⟨h6, h4, h5, h1, h2, h3⟩

/-- The transfer function: on every infinite signal, called sample by sample, the `z`-transforms
(power series in `X = z⁻¹`) satisfy `Y · (a0 + a1 X + a2 X²) = (b0 + b1 X + b2 X²) · U`. -/
theorem C06_transfer_function [DecidableEq K] {a0 a1 a2 b0 b1 b2 : K} {f : Biquad K}
    (h : Biquad.ofCoeffs a0 a1 a2 b0 b1 b2 = .ok f) (u : Nat → K) :
    (PowerSeries.C a0 + PowerSeries.C a1 * PowerSeries.X + PowerSeries.C a2 * PowerSeries.X ^ 2)
        * PowerSeries.mk (f.response u)
      = (PowerSeries.C b0 + PowerSeries.C b1 * PowerSeries.X
          + PowerSeries.C b2 * PowerSeries.X ^ 2) * PowerSeries.mk u := by
  unfold Biquad.ofCoeffs at h
  split at h
  · simp at h
  · rename_i ha
    injection h with h
    subst h
    have := Biquad.response_series
      ({ b2 := b2 / a0, b1 := b1 / a0, b0 := b0 / a0, a2 := a2 / a0, a1 := a1 / a0, a0 := 1,
         w0 := 0, w1 := 0 } : Biquad K) ⟨rfl, rfl⟩ u
    have e : ∀ c : K, (PowerSeries.C c : PowerSeries K) =
        PowerSeries.C a0 * PowerSeries.C (c / a0) := by
      intro c; rw [← map_mul, mul_div_cancel₀ _ ha]
    rw [e a1, e a2, e b0, e b1, e b2]
    simp only [map_one] at this
    linear_combination PowerSeries.C a0 * this

/-- `response` is what `filter` writes. -/
theorem C06_response_is_filter (f : Biquad K) (u : Nat → K) (n : Nat) :
    (f.filter ((List.range n).map u)).2 = (List.range n).map (f.response u) :=
  (Biquad.filter_range f u n).2

example : ∃ f : Biquad ℚ, Biquad.ofCoeffs 2 1 4 6 8 10 = .ok f ∧
    (f.filter [1, 0, 0]).2 = [3, 5 / 2, -9 / 4] := by
  refine ⟨_, rfl, ?_⟩
  norm_num [Biquad.filter, Biquad.tick]

/-! ## C07 -/

/-- **C07.** Any way of cutting a signal into consecutive blocks gives, from any state, the same
output sequence and the same final state as one call. -/
theorem C07_chunks (f : Biquad K) (blocks : List (List K)) :
    (f.filterCalls blocks).2.flatten = (f.filter blocks.flatten).2 ∧
    (f.filterCalls blocks).1 = (f.filter blocks.flatten).1 ∧
    (f.filterCalls blocks).2.map List.length = blocks.map List.length := by
  induction blocks generalizing f with
  | nil => simp [Biquad.filterCalls]
  | cons b bs ih =>
    obtain ⟨h1, h2, h3⟩ := ih (f.filter b).1
    simp [Biquad.filterCalls, Biquad.filter_append, h1, h2, h3]

/-- Sample by sample: the outputs of `tick` are those of `filter`. -/
theorem C07_sample_by_sample (f : Biquad K) (x : List K) :
    (f.filterCalls (x.map fun v => [v])).2.flatten = (f.filter x).2 ∧
    ∀ v, f.filter [v] = ((f.tick v).1, [(f.tick v).2]) := by
  refine ⟨?_, fun _ => rfl⟩
  rw [(C07_chunks f _).1]
  congr 2
  induction x with
  | nil => rfl
  | cons a x ih => simp [ih]

/-- After `reset` the filter *is* the newly built one, whatever it processed before. -/
theorem C07_reset [DecidableEq K] {a0 a1 a2 b0 b1 b2 : K} {f : Biquad K}
    (h : Biquad.ofCoeffs a0 a1 a2 b0 b1 b2 = .ok f) (history : List (List K)) :
    (f.filterCalls history).1.reset = f := by
  rw [Biquad.reset_of_same (Biquad.filterCalls_coeffs f history)]
  unfold Biquad.ofCoeffs at h
  split at h
  · simp at h
  · injection h with h; subst h; rfl

/-- The same for cascades: after any history without fault, cutting a signal into two calls
changes nothing, and `reset` restores every stage. -/
theorem C07_cascade {N : Nat} {ops : List (Cascade.Op K)} {c : Cascade K} {o : List (List K)}
    (h : (Cascade.new N).run ops = .ok (c, o)) (x y : List K) :
    (c.filter (x ++ y)).2 = (c.filter x).2 ++ ((c.filter x).1.filter y).2 ∧
    (c.filter (x ++ y)).1 = ((c.filter x).1.filter y).1 ∧
    (c.filter x).1.reset = c.reset := by
  have hok : c.Ok := by
    rcases Cascade.run_sim ops (Cascade.sim_new (K := K) N) with ⟨e, h1, _⟩ | ⟨c', fs', o', h1, _, h3⟩
    · rw [h] at h1; simp at h1
    · rw [h] at h1; simp at h1; rw [h1.1]; exact h3.1
  refine ⟨?_, ?_, ?_⟩
  · rw [Cascade.filter_append]
  · rw [Cascade.filter_append]
  · exact Cascade.filter_reset c hok x

example : ((Biquad.default : Biquad ℚ).filterCalls [[1, 2], [], [3]]).2 = [[1, 2], [], [3]] := by
  norm_num [Biquad.filterCalls, Biquad.filter, Biquad.tick, Biquad.default]

/-! ## C08 -/

/-- **C08**, linearity of a biquad at rest. -/
theorem C08_biquad_linear (f : Biquad K) (α β : K) (x y : List K) (hl : x.length = y.length) :
    (f.reset.filter (lincomb α β x y)).2
      = lincomb α β (f.reset.filter x).2 (f.reset.filter y).2 := by
  have := Biquad.filter_lincomb f α β x y hl 0 0 0 0
  simpa [← Biquad.reset_eq_withState] using this

/-- **C08**, time invariance of a biquad at rest. -/
theorem C08_biquad_time_invariant (f : Biquad K) (k : Nat) (x : List K) :
    (f.reset.filter (List.replicate k 0 ++ x)).2
      = List.replicate k 0 ++ (f.reset.filter x).2 :=
  Biquad.filter_zeros_prefix f k x

/-- **C08** for cascades: after any history without fault, followed by `reset`. -/
theorem C08_cascade {N : Nat} {ops : List (Cascade.Op K)} {c : Cascade K} {o : List (List K)}
    (h : (Cascade.new N).run ops = .ok (c, o)) :
    (∀ (α β : K) (x y : List K), x.length = y.length →
      (c.reset.filter (lincomb α β x y)).2
        = lincomb α β (c.reset.filter x).2 (c.reset.filter y).2) ∧
    (∀ (k : Nat) (x : List K),
      (c.reset.filter (List.replicate k 0 ++ x)).2
        = List.replicate k 0 ++ (c.reset.filter x).2) := by
  have hok : c.Ok := by
    rcases Cascade.run_sim ops (Cascade.sim_new (K := K) N) with ⟨e, h1, _⟩ | ⟨c', fs', o', h1, _, h3⟩
    · rw [h] at h1; simp at h1
    · rw [h] at h1; simp at h1; rw [h1.1]; exact h3.1
  obtain ⟨r1, r2, _⟩ := Cascade.reset_active c hok
  have hr : ∀ f ∈ c.reset.active, f.AtRest := by
    rw [r1]; intro f hf
    obtain ⟨g, _, rfl⟩ := List.mem_map.mp hf
    exact Biquad.atRest_reset g
  constructor
  · intro α β x y hl
    simp only [Cascade.filter_eq _ r2]
    exact Biquad.chain_lincomb _ hr α β x y hl
  · intro k x
    simp only [Cascade.filter_eq _ r2]
    exact Biquad.chain_zeros _ hr k x

/-- From a state that is not at rest the law fails, so the `reset` matters: a filter with memory
answers the zero signal by something else than zero. -/
example : ∃ f : Biquad ℚ, (f.filter (lincomb 0 0 [1] [1])).2
    ≠ lincomb 0 0 (f.filter [1]).2 (f.filter [1]).2 :=
  ⟨{ Biquad.default with w0 := 1 }, by norm_num [Biquad.filter, Biquad.tick, lincomb, Biquad.default]⟩

/-! ## C10 -/

/-- The calls that change a biquad, `set_a0` excepted. -/
inductive SetterOp (K : Type*) where
  | a1 (v : K) | a2 (v : K) | b0 (v : K) | b1 (v : K) | b2 (v : K)
  | reset
  | filter (x : List K)

/-- Effect of one such call. -/
def SetterOp.apply (f : Biquad K) : SetterOp K → Biquad K
  | .a1 v => f.setA1 v
  | .a2 v => f.setA2 v
  | .b0 v => f.setB0 v
  | .b1 v => f.setB1 v
  | .b2 v => f.setB2 v
  | .reset => f.reset
  | .filter x => (f.filter x).1

/-- **C10**, all setters but `set_a0`: on a filter obtained by the constructor and any history of
such calls, the setter changes the coefficient it names and leaves the filter equal — state
included — to one newly constructed from the six coefficients it now reports.
Missing: `set_a0`, for which the law is false (`C10_set_a0_violates`). -/
theorem C10_setters_partial [DecidableEq K] {a0 a1 a2 b0 b1 b2 : K} {f₀ : Biquad K}
    (h : Biquad.ofCoeffs a0 a1 a2 b0 b1 b2 = .ok f₀) (history : List (SetterOp K)) (v : K) :
    let f := history.foldl SetterOp.apply f₀
    Biquad.ofCoeffs f.a0 v f.a2 f.b0 f.b1 f.b2 = .ok (f.setA1 v) ∧
    Biquad.ofCoeffs f.a0 f.a1 v f.b0 f.b1 f.b2 = .ok (f.setA2 v) ∧
    Biquad.ofCoeffs f.a0 f.a1 f.a2 v f.b1 f.b2 = .ok (f.setB0 v) ∧
    Biquad.ofCoeffs f.a0 f.a1 f.a2 f.b0 v f.b2 = .ok (f.setB1 v) ∧
    Biquad.ofCoeffs f.a0 f.a1 f.a2 f.b0 f.b1 v = .ok (f.setB2 v) := by
  have h0 : f₀.a0 = 1 := (C06_reported h []).1
  have hinv : ∀ (ops : List (SetterOp K)) (g : Biquad K), g.a0 = 1 →
      (ops.foldl SetterOp.apply g).a0 = 1 := by
    intro ops
    induction ops with
    | nil => intro g hg; exact hg
    | cons op ops ih =>
      intro g hg
      apply ih
      cases op <;> first | exact hg | exact (Biquad.filter_coeffs g _).2.2.2.2.2.trans hg
  intro f
  have hf : f.a0 = 1 := hinv history f₀ h0
  rw [hf]
  simp only [Biquad.ofCoeffs, one_ne_zero, if_false, div_one, Biquad.setA1, Biquad.setA2,
    Biquad.setB0, Biquad.setB1, Biquad.setB2, Biquad.reset, hf, and_self]

/-- `set_a0` is stored and reported, but no output ever depends on it: the call amounts to a
`reset`. -/
theorem C10_set_a0_ignored (f : Biquad K) (v : K) (x : List K) :
    (f.setA0 v).a0 = v ∧ ((f.setA0 v).filter x).2 = (f.reset.filter x).2 := by
  refine ⟨rfl, ?_⟩
  have key : ∀ (x : List K) (g g' : Biquad K), g.b2 = g'.b2 → g.b1 = g'.b1 → g.b0 = g'.b0 →
      g.a2 = g'.a2 → g.a1 = g'.a1 → g.w0 = g'.w0 → g.w1 = g'.w1 →
      (g.filter x).2 = (g'.filter x).2 := by
    intro x
    induction x with
    | nil => intros; rfl
    | cons a x ih =>
      intro g g' h1 h2 h3 h4 h5 h6 h7
      simp only [Biquad.filter_cons]
      rw [ih (g.tick a).1 (g'.tick a).1 h1 h2 h3 h4 h5 (by simp [Biquad.tick, *])
        (by simp [Biquad.tick, *])]
      simp [Biquad.tick, *]
  exact key x _ _ rfl rfl rfl rfl rfl rfl rfl

/-- **C10 is false for `set_a0`**: the default filter after `set_a0(2)` answers 1 to the sample 1,
the filter constructed from the coefficients it reports answers 1/2. -/
theorem C10_set_a0_violates :
    ∃ f g : Biquad ℚ, Biquad.ofCoeffs 1 0 0 1 0 0 = .ok f ∧
      Biquad.ofCoeffs (f.setA0 2).a0 (f.setA0 2).a1 (f.setA0 2).a2 (f.setA0 2).b0 (f.setA0 2).b1
        (f.setA0 2).b2 = .ok g ∧
      ((f.setA0 2).filter [1]).2 = [1] ∧ (g.filter [1]).2 = [1 / 2] := by
  refine ⟨_, _, rfl, rfl, ?_, ?_⟩ <;>
    norm_num [Biquad.filter, Biquad.tick, Biquad.setA0, Biquad.reset]

/-- A common factor in the six coefficients does not change the filter. -/
theorem C10_scale [DecidableEq K] (a0 a1 a2 b0 b1 b2 c : K) (hc : c ≠ 0) :
    Biquad.ofCoeffs (c * a0) (c * a1) (c * a2) (c * b0) (c * b1) (c * b2)
      = Biquad.ofCoeffs a0 a1 a2 b0 b1 b2 := by
  unfold Biquad.ofCoeffs
  by_cases h : a0 = 0
  · simp [h]
  · simp [h, hc, mul_div_mul_left]

/-! ## C11 -/

/-- Numerator and denominator of the transfer function of a biquad, in `z` (multiplied by `z²`). -/
noncomputable def numer (f : Biquad ℝ) (z : ℂ) : ℂ := f.b0 * z ^ 2 + f.b1 * z + f.b2
noncomputable def denom (f : Biquad ℝ) (z : ℂ) : ℂ := z ^ 2 + f.a1 * z + f.a2

open Classical in
/-- **C11**, two poles and two zeros: whenever the constructor accepts them, numerator and
denominator are exactly the products of the requested root factors. -/
theorem C11_pair (p₁ z₁ p₂ z₂ : ℂ) {f : Biquad ℝ}
    (h : Biquad.ofPoleZeroPair p₁.re p₁.im z₁.re z₁.im p₂.re p₂.im z₂.re z₂.im = .ok f) (z : ℂ) :
    denom f z = (z - p₁) * (z - p₂) ∧ numer f z = (z - z₁) * (z - z₂) ∧
      f.AtRest := by
  have key : ∀ (r s : ℂ) (c : ℝ × ℝ), Biquad.quadOfRoots r.re r.im s.re s.im = .ok c →
      z ^ 2 + c.1 * z + c.2 = (z - r) * (z - s) := by
    intro r s c hc
    unfold Biquad.quadOfRoots at hc
    split at hc
    · split at hc
      · rename_i h1 h2
        injection hc with hc; subst hc
        apply Complex.ext <;> simp [pow_two, h2.1, h2.2] <;> ring
      · simp at hc
    · split at hc
      · rename_i h1 h2
        injection hc with hc; subst hc
        simp only [not_not] at h1
        apply Complex.ext <;> simp [pow_two, h1, h2] <;> ring
      · simp at hc
  unfold Biquad.ofPoleZeroPair at h
  cases hp : Biquad.quadOfRoots p₁.re p₁.im p₂.re p₂.im with
  | error e => simp [hp, bind, Except.bind] at h
  | ok a =>
    cases hz : Biquad.quadOfRoots z₁.re z₁.im z₂.re z₂.im with
    | error e => simp [hp, hz, bind, Except.bind] at h
    | ok b =>
      simp only [hp, hz, bind, Except.bind, pure, Except.pure, Except.ok.injEq] at h
      subst h
      refine ⟨key _ _ _ hp, ?_, rfl, rfl⟩
      have := key _ _ _ hz
      rw [← this]; simp [numer]

open Classical in
/-- The constructor accepts exactly the pairs that are both real or conjugate to each other. -/
theorem C11_pair_accepts (p₁ z₁ p₂ z₂ : ℂ) :
    (∃ f, Biquad.ofPoleZeroPair p₁.re p₁.im z₁.re z₁.im p₂.re p₂.im z₂.re z₂.im = .ok f) ↔
    ((p₁.im = 0 ∧ p₂.im = 0) ∨ (p₁.im ≠ 0 ∧ p₂.re = p₁.re ∧ p₂.im = -p₁.im)) ∧
    ((z₁.im = 0 ∧ z₂.im = 0) ∨ (z₁.im ≠ 0 ∧ z₂.re = z₁.re ∧ z₂.im = -z₁.im)) := by
  have key : ∀ (r s : ℂ), (∃ c, Biquad.quadOfRoots r.re r.im s.re s.im = .ok c) ↔
      ((r.im = 0 ∧ s.im = 0) ∨ (r.im ≠ 0 ∧ s.re = r.re ∧ s.im = -r.im)) := by
    intro r s
    unfold Biquad.quadOfRoots
    by_cases h1 : r.im = 0
    · by_cases h2 : s.im = 0 <;> simp [h1, h2]
    · by_cases h2 : s.re = r.re ∧ s.im = -r.im <;> simp [h1, h2]
  rw [← key, ← key]
  unfold Biquad.ofPoleZeroPair
  cases Biquad.quadOfRoots p₁.re p₁.im p₂.re p₂.im with
  | error e => simp [bind, Except.bind]
  | ok a =>
    cases Biquad.quadOfRoots z₁.re z₁.im z₂.re z₂.im with
    | error e => simp [bind, Except.bind]
    | ok b => simp [bind, Except.bind, pure, Except.pure]

open Classical in
example : ∃ f : Biquad ℝ, Biquad.ofPoleZeroPair (1 / 2) (1 / 3) 1 0 (1 / 2) (-(1 / 3)) (-1) 0
    = .ok f := by
  have := (C11_pair_accepts ⟨1 / 2, 1 / 3⟩ ⟨1, 0⟩ ⟨1 / 2, -(1 / 3)⟩ ⟨-1, 0⟩).mpr
    (by norm_num)
  simpa using this

open Classical in
/-- **C11 is false for the one pole / one zero constructor**: with pole 0 and zero 1/2 the
numerator does not vanish at the requested zero. -/
theorem C11_single_violates :
    ∃ f : Biquad ℝ, Biquad.ofPoleZero 0 0 (1 / 2) 0 = .ok f ∧ numer f (1 / 2) ≠ 0 := by
  refine ⟨_, by simp [Biquad.ofPoleZero]; rfl, ?_⟩
  norm_num [numer]

open Classical in
/-- What the one pole / one zero constructor does: the pole is where requested (the other root of
the denominator is the pole at the origin), the zero is at the *inverse* of the requested one.
Missing for C11: the zero at the requested place. -/
theorem C11_single_partial (p q : ℝ) :
    ∃ f : Biquad ℝ, Biquad.ofPoleZero p 0 q 0 = .ok f ∧
      (∀ z : ℂ, denom f z = z * (z - p)) ∧
      (∀ z : ℂ, z ≠ 0 → (numer f z = 0 ↔ z * q = 1)) := by
  refine ⟨_, by simp [Biquad.ofPoleZero]; rfl, ?_, ?_⟩
  · intro z; simp [denom]; ring
  · intro z hz
    simp only [numer]
    constructor
    · intro h
      have : z * (1 - z * q) = 0 := by
        rw [← h]; push_cast; ring
      rcases mul_eq_zero.mp this with h1 | h1
      · exact absurd h1 hz
      · linear_combination -h1
    · intro h
      push_cast
      linear_combination -z * h

end Edsp.Props
