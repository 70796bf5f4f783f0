import Verif.Props.C187_Harmonics
import Mathlib.Analysis.Normed.Group.Tannery

/-!
# C188: signals that fade, settle or approach each other, through stable filters
-/

namespace Edsp.Props.C188

open Finset Filter Edsp Edsp.Spec Edsp.ConvL Edsp.OvershootL Edsp.Props.C184

theorem lti_fades {T : List ℝ → List ℝ} (h : Lti T) {g : ℝ} (ha : Answers T (constant 1) (constant g)) {x : ℕ → ℝ}
    (hx : Tendsto x atTop (nhds 0)) : Tendsto (output T x) atTop (nhds 0) := by
  obtain ⟨C, ρ, hC, hρ, hρ1, hb⟩ := imp_bound h ha
  obtain ⟨B, hB⟩ := hx.abs.bddAbove_range
  have hB' : ∀ n, |x n| ≤ B := fun n => hB ⟨n, rfl⟩
  have key := tendsto_tsum_of_dominated_convergence (𝓕 := atTop)
    (f := fun n j => if j < n + 1 then imp T j * x (n - j) else 0) (g := fun _ : ℕ => (0 : ℝ))
    (bound := fun j => C * B * ρ ^ j) ((summable_geometric_of_lt_one hρ.le hρ1).mul_left _) (fun j => ?_)
    (Eventually.of_forall fun n j => ?_)
  · rw [tsum_zero] at key
    refine key.congr fun n => ?_
    rw [output, out_eq h x (Nat.lt_succ_self n), tsum_eq_sum (s := range (n + 1))]
    · exact sum_congr rfl fun j hj => if_pos (mem_range.1 hj)
    · intro j hj
      exact if_neg fun hlt => hj (mem_range.2 hlt)
  · have h1 : Tendsto (fun n => imp T j * x (n - j)) atTop (nhds 0) := by
      simpa using (hx.comp (tendsto_sub_atTop_nat j)).const_mul (imp T j)
    refine h1.congr' (eventually_atTop.2 ⟨j, fun n hn => ?_⟩)
    exact (if_pos (by omega)).symm
  · have hB0 : 0 ≤ B := (abs_nonneg _).trans (hB' 0)
    by_cases hj : j < n + 1
    · rw [if_pos hj, Real.norm_eq_abs, abs_mul, mul_right_comm]
      exact mul_le_mul (hb j) (hB' _) (abs_nonneg _) (by positivity)
    · rw [if_neg hj, norm_zero]
      positivity

theorem output_sub {T : List ℝ → List ℝ} (h : Lti T) (x y : ℕ → ℝ) (n : ℕ) :
    output T (fun k => x k - y k) n = output T x n - output T y n := by
  rw [output, output, output, out_eq h _ (Nat.lt_succ_self n), out_eq h x (Nat.lt_succ_self n),
    out_eq h y (Nat.lt_succ_self n), ← sum_sub_distrib]
  exact sum_congr rfl fun j _ => by ring

theorem output_constant {T : List ℝ → List ℝ} (h : Lti T) {g : ℝ} (ha : Answers T (constant 1) (constant g)) (L : ℝ) :
    Tendsto (output T (constant L)) atTop (nhds (g * L)) := by
  refine ((dc_sum h ha).mul_const L).congr fun n => ?_
  rw [output, out_eq h _ (Nat.lt_succ_self n), sum_mul]
  rfl

variable {N : ℕ} {ops : List (Cascade.Op ℝ)} {c : Cascade ℝ} {o : List (List ℝ)} {x y : ℕ → ℝ}

/-- **C188 (approach).**  A cascade after a reset, whatever calls were made on it before, all sections of which are reported
stable: if two signals approach each other, however slowly, so do the outputs. -/
theorem C188_approach (h : (Cascade.new N).run ops = .ok (c, o)) (hs : ∀ f ∈ active c.reset, f.stability = true)
    (hxy : Tendsto (fun n => x n - y n) atTop (nhds 0)) :
    Tendsto (fun n => output (fun xs => (c.reset.filter xs).2) x n - output (fun xs => (c.reset.filter xs).2) y n) atTop
      (nhds 0) := by
  obtain ⟨g, hg⟩ := stable_answers hs
  exact (lti_fades (C181.cascade_lti h) hg hxy).congr fun n => output_sub (C181.cascade_lti h) x y n

/-- **C188 (settling).**  If the signal tends to a level, the output tends to that level times the factor by which the
cascade multiplies constants. -/
theorem C188_settles (h : (Cascade.new N).run ops = .ok (c, o)) {g L : ℝ}
    (hg : Answers (fun xs => (c.reset.filter xs).2) (constant 1) (constant g)) (hx : Tendsto x atTop (nhds L)) :
    Tendsto (output (fun xs => (c.reset.filter xs).2) x) atTop (nhds (g * L)) := by
  have hl := C181.cascade_lti h
  have h0 : Tendsto (fun n => x n - constant L n) atTop (nhds 0) := by
    have := hx.sub_const L
    rwa [sub_self] at this
  have := (lti_fades hl hg h0).add (output_constant hl hg L)
  rw [zero_add] at this
  refine this.congr fun n => ?_
  rw [output_sub hl, sub_add_cancel]

/-- **C188 (nearly periodic signals).**  If the signal approaches one of period `P`, the output approaches the answer to that
one, a signal of period `P`. -/
theorem C188_nearly_periodic (h : (Cascade.new N).run ops = .ok (c, o)) (hs : ∀ f ∈ active c.reset, f.stability = true)
    {P : ℕ} (hP : 0 < P) (hy : ∀ n, y (n + P) = y n) (hxy : Tendsto (fun n => x n - y n) atTop (nhds 0)) :
    ∃ z : ℕ → ℝ, (∀ n, z (n + P) = z n) ∧ Answers (fun xs => (c.reset.filter xs).2) y z ∧
      Tendsto (fun n => output (fun xs => (c.reset.filter xs).2) x n - z n) atTop (nhds 0) := by
  obtain ⟨z, hz, hyz⟩ := C184_periodic h hs hP hy
  refine ⟨z, hz, hyz, ?_⟩
  have := (C188_approach h hs hxy).add (answers_tendsto hyz)
  rw [add_zero] at this
  exact this.congr fun n => by ring

/-- The signal `3 + 1 / (n + 1)`, which never reaches its level, through a low-pass that has filtered a 5 before its
reset; and a square wave with a slowly fading click. -/
example : ∃ (f : Biquad ℝ) (c : Cascade ℝ) (o : List (List ℝ)), Rbj.lowPass 1000 48000 2 = .ok f ∧
    (Cascade.new 1).run [.push f, .filter [5]] = .ok (c, o) ∧
    Tendsto (output (fun xs => (c.reset.filter xs).2) fun n => 3 + 1 / ((n : ℝ) + 1)) atTop (nhds 3) ∧
    ∃ z : ℕ → ℝ, (∀ n, z (n + 4) = z n) ∧
      Answers (fun xs => (c.reset.filter xs).2) (fun n => if n % 4 < 2 then 1 else -1) z ∧
      Tendsto (fun n => output (fun xs => (c.reset.filter xs).2)
        (fun n => (if n % 4 < 2 then 1 else -1) + 1 / ((n : ℝ) + 1)) n - z n) atTop (nhds 0) := by
  obtain ⟨f, hf, st, -⟩ := C16_low_pass 1000 48000 2 (by norm_num) (by norm_num) (by norm_num)
  obtain ⟨c, o, hc, hr⟩ : ∃ c o, (Cascade.new 1).run [.push f, .filter [5]] = .ok (c, o) ∧
      c.reset = ⟨1, [f.reset]⟩ := by
    refine ⟨⟨1, [(f.tick 5).1]⟩, [[], [(f.tick 5).2]], ?_, ?_⟩
    · simp [Cascade.run, Cascade.step, Cascade.new, Cascade.pushBack, Cascade.filter, Cascade.tick, Cascade.tickLoop,
        Except.bind, Bind.bind, pure, Except.pure]
    · simp [Cascade.reset, Biquad.reset, Biquad.tick]
  have hs : ∀ g ∈ active c.reset, g.stability = true := by
    intro g hg
    rw [hr] at hg
    have : g = f.reset := by simpa [active] using hg
    rw [this]
    exact st
  have hg : Answers (fun xs => (c.reset.filter xs).2) (constant 1) (constant 1) := by
    obtain ⟨f', hf', a⟩ := C157_low_passes 1000 48000 2 (by norm_num) (by norm_num) (by norm_num) Rbj.lowPass (by simp)
    obtain rfl : f' = f := by rw [hf] at hf'; injection hf' with h; exact h.symm
    have e : (fun xs => (c.reset.filter xs).2) = fromState f' (0, 0) := by
      funext xs
      rw [hr, SteadyL.filter_out]
      rfl
    have := a (0, 0) 0 1
    simp only [zero_mul, zero_add, one_mul] at this
    rw [e]
    have e1 : ramp 0 1 = constant 1 := by funext n; simp [ramp, constant]
    rwa [e1] at this
  have ht := tendsto_one_div_add_atTop_nhds_zero_nat (𝕜 := ℝ)
  refine ⟨f, c, o, hf, hc, ?_, C188_nearly_periodic hc hs (by norm_num) (by simp) (ht.congr fun n => by ring)⟩
  have := C188_settles hc hg (ht.const_add 3)
  rwa [add_zero, one_mul] at this

end Edsp.Props.C188
