import Verif.Props.C188_Fading
import Mathlib.Analysis.Normed.Ring.InfiniteSum

/-!
# C189: signals without end whose samples have a finite sum
-/

namespace Edsp.Props.C189

open Finset Filter Edsp Edsp.Spec Edsp.ConvL Edsp.OvershootL Edsp.Props.C184

theorem imp_summable {T : List ℝ → List ℝ} (h : Lti T) {g : ℝ} (ha : Answers T (constant 1) (constant g)) :
    Summable (fun n => ‖imp T n‖) ∧ ∑' n, imp T n = g := by
  obtain ⟨C, ρ, hC, hρ, hρ1, hb⟩ := imp_bound h ha
  have hs : Summable fun n => ‖imp T n‖ := Summable.of_nonneg_of_le (fun n => norm_nonneg _) hb
    ((summable_geometric_of_lt_one hρ.le hρ1).mul_left C)
  refine ⟨hs, ?_⟩
  have h1 := (hs.of_norm.hasSum.tendsto_sum_nat).comp (tendsto_add_atTop_nat 1)
  exact tendsto_nhds_unique h1 (dc_sum h ha)

theorem output_eq {T : List ℝ → List ℝ} (h : Lti T) (x : ℕ → ℝ) (n : ℕ) :
    output T x n = ∑ k ∈ range (n + 1), imp T k * x (n - k) := by rw [output, out_eq h x (Nat.lt_succ_self n)]

variable {N : ℕ} {ops : List (Cascade.Op ℝ)} {c : Cascade ℝ} {o : List (List ℝ)} {x : ℕ → ℝ}

/-- **C189 (totals).**  A cascade after a reset, whatever calls were made on it before, that multiplies constants by `g`: if
the absolute values of the samples have a finite sum, so have those of the output, and the output adds up to `g` times what
the signal adds up to. -/
theorem C189_totals (h : (Cascade.new N).run ops = .ok (c, o)) {g : ℝ}
    (hg : Answers (fun xs => (c.reset.filter xs).2) (constant 1) (constant g)) (hx : Summable fun n => |x n|) :
    (Summable fun n => |output (fun xs => (c.reset.filter xs).2) x n|) ∧
      ∑' n, output (fun xs => (c.reset.filter xs).2) x n = g * ∑' n, x n := by
  have hl := C181.cascade_lti h
  obtain ⟨hs, e⟩ := imp_summable hl hg
  have hx' : Summable fun n => ‖x n‖ := hx
  constructor
  · refine (summable_norm_sum_mul_range_of_summable_norm hs hx').congr fun n => ?_
    rw [output_eq hl, Real.norm_eq_abs]
  · rw [← e, tsum_mul_tsum_eq_tsum_sum_range_of_summable_norm hs hx']
    exact tsum_congr fun n => output_eq hl x n

/-- **C189 (bound).**  The factor that bounds the sum of the absolute values is the one for a single sample 1. -/
theorem C189_bound (h : (Cascade.new N).run ops = .ok (c, o)) {g : ℝ}
    (hg : Answers (fun xs => (c.reset.filter xs).2) (constant 1) (constant g)) (hx : Summable fun n => |x n|) :
    ∑' n, |output (fun xs => (c.reset.filter xs).2) x n| ≤
      (∑' n, |output (fun xs => (c.reset.filter xs).2) (fun k => if k = 0 then 1 else 0) n|) * ∑' n, |x n| := by
  have hl := C181.cascade_lti h
  obtain ⟨hs, e⟩ := imp_summable hl hg
  have hi : ∀ n, output (fun xs => (c.reset.filter xs).2) (fun k => if k = 0 then 1 else 0) n =
      imp (fun xs => (c.reset.filter xs).2) n := by
    intro n
    rw [output_eq hl, sum_range_succ, Nat.sub_self, if_pos rfl, mul_one, sum_eq_zero, zero_add]
    intro k hk
    have hk := mem_range.1 hk
    rw [if_neg (by omega), mul_zero]
  simp only [hi]
  have hs' : Summable fun n => ‖|imp (fun xs => (c.reset.filter xs).2) n|‖ := by simpa using hs
  have hx' : Summable fun n => ‖|x n|‖ := by simpa using hx
  rw [tsum_mul_tsum_eq_tsum_sum_range_of_summable_norm hs' hx']
  refine Summable.tsum_le_tsum (fun n => ?_) (C189_totals h hg hx).1 ?_
  · rw [output_eq hl]
    refine (abs_sum_le_sum_abs _ _).trans (le_of_eq (sum_congr rfl fun k _ => abs_mul _ _))
  · exact (summable_norm_sum_mul_range_of_summable_norm hs' hx').of_norm

/-- The signal `1, 1/2, 1/4, …` through a low-pass: the output adds up to 2. -/
example : ∃ (f : Biquad ℝ) (c : Cascade ℝ) (o : List (List ℝ)), Rbj.lowPass 1000 48000 2 = .ok f ∧
    (Cascade.new 1).run [.push f] = .ok (c, o) ∧
    ∑' n, output (fun xs => (c.reset.filter xs).2) (fun n => (1 / 2) ^ n) n = 2 := by
  obtain ⟨f, hf, a⟩ := C157_low_passes 1000 48000 2 (by norm_num) (by norm_num) (by norm_num) Rbj.lowPass (by simp)
  have hc : (Cascade.new 1).run [.push f] = .ok (⟨1, [f]⟩, [[]]) := by
    simp [Cascade.run, Cascade.step, Cascade.new, Cascade.pushBack, Except.bind, Bind.bind, pure, Except.pure]
  have hg : Answers (fun xs => ((⟨1, [f]⟩ : Cascade ℝ).reset.filter xs).2) (constant 1) (constant 1) := by
    have e : (fun xs => ((⟨1, [f]⟩ : Cascade ℝ).reset.filter xs).2) = fromState f (0, 0) := by
      funext xs
      rw [SteadyL.filter_out]
      rfl
    have := a (0, 0) 0 1
    simp only [zero_mul, zero_add, one_mul] at this
    rw [e]
    have e1 : ramp 0 1 = constant 1 := by funext n; simp [ramp, constant]
    rwa [e1] at this
  refine ⟨f, _, _, hf, hc, ?_⟩
  have hx : Summable fun n : ℕ => |((1 / 2 : ℝ)) ^ n| := by
    simpa using summable_geometric_two.abs
  rw [(C189_totals hc hg hx).2, tsum_geometric_two, one_mul]

end Edsp.Props.C189
