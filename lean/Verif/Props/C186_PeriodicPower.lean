import Verif.Props.C185_Lines
import Verif.Props.C68_Spectrum

/-!
# C186: the power of the answer to a periodic signal
-/

namespace Edsp.Props.C186

open Finset Filter Edsp Edsp.Spec Edsp.Props.C184 Edsp.Props.C185

/-- The mean of the squares of the samples of one period. -/
noncomputable def power (x : ℕ → ℝ) (P : ℕ) : ℝ := (∑ r ∈ range P, x r ^ 2) / P

theorem power_bins (x : ℕ → ℝ) {P : ℕ} (hP : 0 < P) :
    power x P = (∑ k ∈ range P, ‖bin (ofReals (period x P)) k‖ ^ 2) / P ^ 2 := by
  have hl : (period x P).length = P := by simp [period]
  have h := Spectral.parseval (x := period x P) (by rw [hl]; exact hP)
  rw [hl] at h
  have e : ∑ j ∈ range P, (period x P).getD j 0 ^ 2 = ∑ j ∈ range P, x j ^ 2 :=
    sum_congr rfl fun j hj => by simp [period, mem_range.1 hj]
  have hP' : (P : ℝ) ≠ 0 := by exact_mod_cast hP.ne'
  rw [h, e, power]
  field_simp

variable {N : ℕ} {ops : List (Cascade.Op ℝ)} {c : Cascade ℝ} {o : List (List ℝ)} {x y : ℕ → ℝ} {P : ℕ}

/-- **C186 (power).**  A cascade after a reset, whatever calls were made on it before, all sections of which are reported
stable: the power of what the output for a signal of period `P` settles to is the sum of the powers of the lines of the
signal, each times the square of the gain at its frequency. -/
theorem C186_power (h : (Cascade.new N).run ops = .ok (c, o)) (hs : ∀ f ∈ active c.reset, f.stability = true)
    (hP : 0 < P) (hx : ∀ n, x (n + P) = x n) (hy : ∀ n, y (n + P) = y n)
    (hxy : Answers (fun xs => (c.reset.filter xs).2) x y) {g : ℕ → ℝ}
    (hg : ∀ k < P, ChainGainAt (active c.reset) (2 * Real.pi * k / P) (g k)) :
    power y P = (∑ k ∈ range P, g k ^ 2 * ‖bin (ofReals (period x P)) k‖ ^ 2) / P ^ 2 := by
  rw [power_bins y hP]
  congr 1
  refine sum_congr rfl fun k hk => ?_
  rw [C185_amplitudes h hs hP hx hy hxy k (hg k (mem_range.1 hk)), mul_pow]

/-- **C186 (bounds).**  If the gains lie between `m` and `M`, the power of the answer is at least `m²` and at most `M²`
times that of the signal. -/
theorem C186_bounds (h : (Cascade.new N).run ops = .ok (c, o)) (hs : ∀ f ∈ active c.reset, f.stability = true)
    (hP : 0 < P) (hx : ∀ n, x (n + P) = x n) (hy : ∀ n, y (n + P) = y n)
    (hxy : Answers (fun xs => (c.reset.filter xs).2) x y) {m M : ℝ} (hm : 0 ≤ m)
    (hg : ∀ w, ∃ g, ChainGainAt (active c.reset) w g ∧ m ≤ g ∧ g ≤ M) :
    m ^ 2 * power x P ≤ power y P ∧ power y P ≤ M ^ 2 * power x P := by
  choose g hgk h1 h2 using fun k : ℕ => hg (2 * Real.pi * k / P)
  rw [C186_power h hs hP hx hy hxy fun k _ => hgk k, power_bins x hP, ← mul_div_assoc, ← mul_div_assoc, mul_sum, mul_sum]
  constructor
  · refine div_le_div_of_nonneg_right (sum_le_sum fun k _ => ?_) (by positivity)
    exact mul_le_mul_of_nonneg_right (pow_le_pow_left₀ hm (h1 k) 2) (by positivity)
  · refine div_le_div_of_nonneg_right (sum_le_sum fun k _ => ?_) (by positivity)
    exact mul_le_mul_of_nonneg_right (pow_le_pow_left₀ (hm.trans (h1 k)) (h2 k) 2) (by positivity)

/-- **C186 (all-pass).**  The RBJ all-pass, pushed into a cascade, answers every periodic signal with one of the same
power. -/
theorem C186_all_pass (fc fs Q : ℝ) (h0 : 0 < fc) (h1 : fc < fs / 2) (hQ : 0 < Q) :
    ∃ (f : Biquad ℝ) (c : Cascade ℝ) (o : List (List ℝ)), Rbj.allPass fc fs Q = .ok f ∧
      (Cascade.new 1).run [.push f] = .ok (c, o) ∧
      ∀ (x : ℕ → ℝ) (P : ℕ), 0 < P → (∀ n, x (n + P) = x n) → ∃ y : ℕ → ℝ, (∀ n, y (n + P) = y n) ∧
        Answers (fun xs => (c.reset.filter xs).2) x y ∧ power y P = power x P := by
  obtain ⟨f, hf, st, hg⟩ := C16_all_pass fc fs Q h0 h1 hQ
  have hc : (Cascade.new 1).run [.push f] = .ok (⟨1, [f]⟩, [[]]) := by
    simp [Cascade.run, Cascade.step, Cascade.new, Cascade.pushBack, Except.bind, Bind.bind, pure, Except.pure]
  have ha : active (⟨1, [f]⟩ : Cascade ℝ).reset = [f.reset] := rfl
  have hs : ∀ g ∈ active (⟨1, [f]⟩ : Cascade ℝ).reset, g.stability = true := by
    intro g hg
    rw [ha, List.mem_singleton] at hg
    rw [hg]
    exact st
  refine ⟨f, _, _, hf, hc, fun x P hP hx => ?_⟩
  obtain ⟨y, hy, hxy⟩ := C184_periodic hc hs hP hx
  have lift : ∀ w, ChainGainAt (active (⟨1, [f]⟩ : Cascade ℝ).reset) w 1 := by
    intro w
    obtain ⟨H, ht, hn⟩ := hg w
    rw [ha]
    exact ⟨H, ⟨H, 1, ht, rfl, (mul_one H).symm⟩, hn⟩
  refine ⟨y, hy, hxy, ?_⟩
  have := C186_bounds hc hs hP hx hy hxy (m := 1) (M := 1) zero_le_one fun w => ⟨1, lift w, le_rfl, le_rfl⟩
  simp only [one_pow, one_mul] at this
  exact le_antisymm this.2 this.1

/-- The signal `1, 1, -1, -1, …` through an all-pass: the answer has the power 1. -/
example : ∃ (f : Biquad ℝ) (c : Cascade ℝ) (o : List (List ℝ)), Rbj.allPass 1000 48000 2 = .ok f ∧
    (Cascade.new 1).run [.push f] = .ok (c, o) ∧ ∃ y : ℕ → ℝ, (∀ n, y (n + 4) = y n) ∧
      Answers (fun xs => (c.reset.filter xs).2) (fun n => if n % 4 < 2 then 1 else -1) y ∧ power y 4 = 1 := by
  obtain ⟨f, c, o, hf, hc, h⟩ := C186_all_pass 1000 48000 2 (by norm_num) (by norm_num) (by norm_num)
  obtain ⟨y, hy, hxy, hp⟩ := h (fun n => if n % 4 < 2 then 1 else -1) 4 (by norm_num) (by simp)
  refine ⟨f, c, o, hf, hc, y, hy, hxy, ?_⟩
  rw [hp]
  norm_num [power, sum_range_succ]

end Edsp.Props.C186
