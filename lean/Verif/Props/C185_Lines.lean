import Verif.Props.C184_Periodic
import Verif.Spec.Spectral

/-!
# C185: the spectral lines of the answer to a periodic signal
-/

namespace Edsp.Props.C185

open Finset Filter Edsp Edsp.Spec Edsp.ConvL Edsp.OvershootL Edsp.Props.C184

theorem period_sum {x : ℕ → ℂ} {P : ℕ} (hx : ∀ n, x (n + P) = x n) (m : ℕ) :
    ∑ r ∈ range P, x (m + r) = ∑ r ∈ range P, x r := by
  induction m with
  | zero => simp
  | succ m ih =>
    rw [← ih]
    have h1 := sum_range_succ (fun r => x (m + r)) P
    have h2 := sum_range_succ' (fun r => x (m + r)) P
    rw [hx m] at h1
    have e : ∑ r ∈ range P, x (m + 1 + r) = ∑ r ∈ range P, x (m + (r + 1)) :=
      sum_congr rfl fun r _ => by rw [show m + 1 + r = m + (r + 1) by omega]
    rw [e]
    simp only [add_zero] at h2
    linear_combination h1 - h2

/-- The transform of the impulse response of a stable cascade is its transfer function. -/
theorem imp_transform {c : Cascade ℝ} (hl : Lti fun xs => (c.filter xs).2) (hs : ∀ f ∈ active c, f.stability = true)
    {z h : ℂ} (hz : ‖z‖ = 1) (ht : ChainTransferAt (active c) z h) :
    Tendsto (fun n => ∑ j ∈ range (n + 1), (imp (fun xs => (c.filter xs).2) j : ℂ) * z⁻¹ ^ j) atTop (nhds h) := by
  have hz0 : z ≠ 0 := by rintro rfl; simp at hz
  set T : List ℝ → List ℝ := fun xs => (c.filter xs).2 with hT
  have key : ∀ a : ℂ, Tendsto (fun n => (a * ((∑ j ∈ range (n + 1), (imp T j : ℂ) * z ^ (n - j)) - h * z ^ n)).re) atTop
      (nhds 0) := by
    intro a
    obtain ⟨D, ρ, h0, h1, h2⟩ := SteadyL.chain_settles (active c) hs hz0 ht a (fun n => (a * z ^ n).re) (C := 0) (r := 0)
      le_rfl zero_lt_one (fun n => by simp)
    have ha : Answers T (fun n => (a * z ^ n).re) (fun n => (h * a * z ^ n).re) := by
      refine ⟨D, ρ, h0, h1, fun n => ?_⟩
      simp only [hT]
      rw [SteadyL.filter_out, SteadyL.through_range]
      exact ⟨by simp, fun k hk => ⟨_, by simp [hk], h2 k⟩⟩
    refine (answers_sum hl ha).congr fun n => ?_
    rw [mul_sub, mul_sum, Complex.sub_re, Complex.re_sum]
    congr 1
    · refine sum_congr rfl fun j _ => ?_
      rw [show a * ((imp T j : ℂ) * z ^ (n - j)) = (imp T j : ℂ) * (a * z ^ (n - j)) by ring, Complex.re_ofReal_mul]
    · rw [show h * a * z ^ n = a * (h * z ^ n) by ring]
  have h1 := key 1
  have h2 := key (-Complex.I)
  have h3 : Tendsto (fun n => (∑ j ∈ range (n + 1), (imp T j : ℂ) * z ^ (n - j)) - h * z ^ n) atTop (nhds 0) := by
    have hre : Tendsto (fun n => (((1 * ((∑ j ∈ range (n + 1), (imp T j : ℂ) * z ^ (n - j)) - h * z ^ n)).re : ℝ) : ℂ) +
        (((-Complex.I * ((∑ j ∈ range (n + 1), (imp T j : ℂ) * z ^ (n - j)) - h * z ^ n)).re : ℝ) : ℂ) * Complex.I) atTop
        (nhds (((0 : ℝ) : ℂ) + ((0 : ℝ) : ℂ) * Complex.I)) :=
      ((Complex.continuous_ofReal.tendsto _).comp h1).add (((Complex.continuous_ofReal.tendsto _).comp h2).mul_const _)
    simp only [Complex.ofReal_zero, zero_mul, add_zero] at hre
    refine hre.congr fun n => ?_
    generalize (∑ j ∈ range (n + 1), (imp T j : ℂ) * z ^ (n - j)) - h * z ^ n = w
    apply Complex.ext <;> simp
  rw [tendsto_iff_norm_sub_tendsto_zero]
  refine (tendsto_zero_iff_norm_tendsto_zero.1 h3).congr fun n => ?_
  have e : (∑ j ∈ range (n + 1), (imp T j : ℂ) * z ^ (n - j)) - h * z ^ n =
      z ^ n * ((∑ j ∈ range (n + 1), (imp T j : ℂ) * z⁻¹ ^ j) - h) := by
    rw [mul_sub, mul_sum, mul_comm h]
    congr 1
    refine sum_congr rfl fun j hj => ?_
    have hj := mem_range.1 hj
    have : z ^ n = z ^ (n - j) * z ^ j := by rw [← pow_add]; congr 1; omega
    rw [this, inv_pow]
    field_simp
  rw [e, norm_mul, norm_pow, hz, one_pow, one_mul]

theorem lines {c : Cascade ℝ} (hl : Lti fun xs => (c.filter xs).2) (hs : ∀ f ∈ active c, f.stability = true) {z h : ℂ}
    (hz : ‖z‖ = 1) (ht : ChainTransferAt (active c) z h) {x y : ℕ → ℝ} {P : ℕ} (hzP : z ^ P = 1)
    (hx : ∀ n, x (n + P) = x n) (hy : ∀ n, y (n + P) = y n) (hxy : Answers (fun xs => (c.filter xs).2) x y) :
    ∑ r ∈ range P, (y r : ℂ) * z⁻¹ ^ r = h * ∑ r ∈ range P, (x r : ℂ) * z⁻¹ ^ r := by
  obtain ⟨g, hg⟩ := stable_answers hs
  have hS := imp_transform hl hs hz ht
  set T : List ℝ → List ℝ := fun xs => (c.filter xs).2 with hT
  obtain ⟨C, ρ, hC, hρ, hρ1, hb⟩ := imp_bound hl hg
  have hi : Tendsto (fun n => (imp T n : ℂ)) atTop (nhds 0) := by
    refine squeeze_zero_norm (fun n => by simpa using hb n) ?_
    simpa using (tendsto_pow_atTop_nhds_zero_of_lt_one hρ.le hρ1).const_mul C
  have hw : ‖z⁻¹‖ = 1 := by rw [norm_inv, hz, inv_one]
  have hwP : z⁻¹ ^ P = 1 := by rw [inv_pow, hzP, inv_one]
  set w := z⁻¹ with hwdef
  have px : ∀ n, (x (n + P) : ℂ) * w ^ (n + P) = x n * w ^ n := fun n => by rw [hx, pow_add, hwP, mul_one]
  have py : ∀ n, (y (n + P) : ℂ) * w ^ (n + P) = y n * w ^ n := fun n => by rw [hy, pow_add, hwP, mul_one]
  have e : ∀ n, ∑ r ∈ range P, (output T x (n + r) : ℂ) * w ^ (n + r) =
      (∑ j ∈ range (n + 1), (imp T j : ℂ) * w ^ j) * (∑ r ∈ range P, (x r : ℂ) * w ^ r) +
      ∑ r ∈ range P, ∑ i ∈ range r, (imp T (n + 1 + i) : ℂ) * (x (r - 1 - i) * w ^ (n + r)) := by
    intro n
    have e1 : ∀ r, (output T x (n + r) : ℂ) * w ^ (n + r) =
        ∑ j ∈ range (n + 1), (imp T j : ℂ) * w ^ j * (x (n - j + r) * w ^ (n - j + r)) +
        ∑ i ∈ range r, (imp T (n + 1 + i) : ℂ) * (x (r - 1 - i) * w ^ (n + r)) := by
      intro r
      rw [output, out_eq hl x (Nat.lt_succ_self (n + r)), show n + r + 1 = (n + 1) + r by omega, sum_range_add,
        Complex.ofReal_add, add_mul, Complex.ofReal_sum, Complex.ofReal_sum, sum_mul, sum_mul]
      congr 1
      · refine sum_congr rfl fun j hj => ?_
        have hj := mem_range.1 hj
        rw [show n + r - j = n - j + r by omega, show n + r = j + (n - j + r) by omega, pow_add w j,
          Complex.ofReal_mul]
        ring
      · refine sum_congr rfl fun i _ => ?_
        rw [show n + r - (n + 1 + i) = r - 1 - i by omega, Complex.ofReal_mul, mul_assoc]
    rw [sum_congr rfl fun r _ => e1 r, sum_add_distrib, sum_comm, sum_mul]
    congr 1
    refine sum_congr rfl fun j _ => ?_
    rw [← mul_sum, period_sum (x := fun n => (x n : ℂ) * w ^ n) px]
  have small : ∀ (u : ℕ → ℂ) (a : ℂ) (r : ℕ), Tendsto u atTop (nhds 0) →
      Tendsto (fun n => u n * (a * w ^ (n + r))) atTop (nhds 0) := by
    intro u a r hu
    rw [tendsto_zero_iff_norm_tendsto_zero] at hu ⊢
    have := hu.mul_const ‖a‖
    rw [zero_mul] at this
    refine this.congr fun n => ?_
    rw [norm_mul, norm_mul, norm_pow, hw, one_pow, mul_one]
  have h0 : Tendsto (fun n => ∑ r ∈ range P, ∑ i ∈ range r, (imp T (n + 1 + i) : ℂ) * (x (r - 1 - i) * w ^ (n + r))) atTop
      (nhds (∑ r ∈ range P, ∑ _i ∈ range r, 0)) :=
    tendsto_finsetSum _ fun r _ => tendsto_finsetSum _ fun i _ => small (fun n => (imp T (n + 1 + i) : ℂ)) _ r
      (hi.comp (by simpa only [add_assoc] using tendsto_add_atTop_nat (1 + i)))
  simp only [sum_const_zero] at h0
  have h1 := (hS.mul_const (∑ r ∈ range P, (x r : ℂ) * w ^ r)).add h0
  rw [add_zero] at h1
  have hd : Tendsto (fun n => ((output T x n - y n : ℝ) : ℂ)) atTop (nhds 0) := by
    have := (Complex.continuous_ofReal.tendsto _).comp (answers_tendsto hxy)
    rwa [Complex.ofReal_zero] at this
  have h2 : Tendsto (fun n => ∑ r ∈ range P, ((output T x (n + r) - y (n + r) : ℝ) : ℂ) * (1 * w ^ (n + r))) atTop
      (nhds (∑ _r ∈ range P, 0)) :=
    tendsto_finsetSum _ fun r _ => small (fun n => ((output T x (n + r) - y (n + r) : ℝ) : ℂ)) 1 r
      (hd.comp (tendsto_add_atTop_nat r))
  rw [sum_const_zero] at h2
  have h3 := h2.add_const (∑ r ∈ range P, (y r : ℂ) * w ^ r)
  rw [zero_add] at h3
  refine tendsto_nhds_unique (h3.congr fun n => ?_) h1
  rw [← period_sum (x := fun n => (y n : ℂ) * w ^ n) py n, ← sum_add_distrib, ← e]
  refine sum_congr rfl fun r _ => ?_
  rw [Complex.ofReal_sub]
  ring

/-- One period of a signal. -/
def period (x : ℕ → ℝ) (P : ℕ) : List ℝ := (List.range P).map x

theorem bin_period (x : ℕ → ℝ) (P k : ℕ) : bin (ofReals (period x P)) k =
    ∑ r ∈ range P, (x r : ℂ) * (Complex.exp ((2 * Real.pi * k / P : ℝ) * Complex.I))⁻¹ ^ r := by
  have hl : (ofReals (period x P)).length = P := by simp [ofReals, period]
  unfold bin
  rw [hl]
  refine sum_congr rfl fun r hr => ?_
  have hr := mem_range.1 hr
  have e : (ofReals (period x P)).getD r 0 = x r := by simp [ofReals, period, hr]
  rw [e, ← Complex.exp_neg, ← Complex.exp_nat_mul]
  congr 1
  rw [show (r : ℂ) * -(((2 * Real.pi * k / P : ℝ) : ℂ) * Complex.I) = ((-(2 * Real.pi * k * r / P) : ℝ) : ℂ) * Complex.I by
    push_cast; ring, Complex.exp_mul_I, ← Complex.ofReal_cos, ← Complex.ofReal_sin, Real.cos_neg, Real.sin_neg]
  push_cast
  ring

theorem root_pow {P : ℕ} (hP : 0 < P) (k : ℕ) : Complex.exp ((2 * Real.pi * k / P : ℝ) * Complex.I) ^ P = 1 := by
  have hP' : (P : ℂ) ≠ 0 := by exact_mod_cast hP.ne'
  rw [← Complex.exp_nat_mul, Complex.exp_eq_one_iff]
  refine ⟨k, ?_⟩
  push_cast
  field_simp

/-- **C185 (lines).**  A cascade after a reset, whatever calls were made on it before, all sections of which are reported
stable: bin `k` of one period of what the output for a signal of period `P` settles to is bin `k` of one period of the
signal times the value of the transfer function at `2π k / P`. -/
theorem C185_lines {N : ℕ} {ops : List (Cascade.Op ℝ)} {c : Cascade ℝ} {o : List (List ℝ)}
    (h : (Cascade.new N).run ops = .ok (c, o)) (hs : ∀ f ∈ active c.reset, f.stability = true) {x y : ℕ → ℝ} {P : ℕ}
    (hP : 0 < P) (hx : ∀ n, x (n + P) = x n) (hy : ∀ n, y (n + P) = y n)
    (hxy : Answers (fun xs => (c.reset.filter xs).2) x y) (k : ℕ) {H : ℂ}
    (ht : ChainTransferAt (active c.reset) (Complex.exp ((2 * Real.pi * k / P : ℝ) * Complex.I)) H) :
    bin (ofReals (period y P)) k = H * bin (ofReals (period x P)) k := by
  rw [bin_period, bin_period]
  exact lines (C181.cascade_lti h) hs (Complex.norm_exp_ofReal_mul_I _) ht (root_pow hP k) hx hy hxy

/-- **C185 (amplitudes).**  The magnitudes of the bins are multiplied by the gain. -/
theorem C185_amplitudes {N : ℕ} {ops : List (Cascade.Op ℝ)} {c : Cascade ℝ} {o : List (List ℝ)}
    (h : (Cascade.new N).run ops = .ok (c, o)) (hs : ∀ f ∈ active c.reset, f.stability = true) {x y : ℕ → ℝ} {P : ℕ}
    (hP : 0 < P) (hx : ∀ n, x (n + P) = x n) (hy : ∀ n, y (n + P) = y n)
    (hxy : Answers (fun xs => (c.reset.filter xs).2) x y) (k : ℕ) {g : ℝ}
    (hg : ChainGainAt (active c.reset) (2 * Real.pi * k / P) g) :
    ‖bin (ofReals (period y P)) k‖ = g * ‖bin (ofReals (period x P)) k‖ := by
  obtain ⟨H, ht, rfl⟩ := hg
  rw [C185_lines h hs hP hx hy hxy k ht, norm_mul]

/-- **C185 (no new lines).**  A line that is missing in the signal is missing in the answer. -/
theorem C185_no_new_lines {N : ℕ} {ops : List (Cascade.Op ℝ)} {c : Cascade ℝ} {o : List (List ℝ)}
    (h : (Cascade.new N).run ops = .ok (c, o)) (hs : ∀ f ∈ active c.reset, f.stability = true) {x y : ℕ → ℝ} {P : ℕ}
    (hP : 0 < P) (hx : ∀ n, x (n + P) = x n) (hy : ∀ n, y (n + P) = y n)
    (hxy : Answers (fun xs => (c.reset.filter xs).2) x y) (k : ℕ) (h0 : bin (ofReals (period x P)) k = 0) :
    bin (ofReals (period y P)) k = 0 := by
  have ht := LayoutL.chain_tf (fs := active c.reset) (z := Complex.exp ((2 * Real.pi * k / P : ℝ) * Complex.I))
    fun f hf => Response.denAt_ne_zero (hs f hf) (Complex.norm_exp_ofReal_mul_I _)
  rw [C185_lines h hs hP hx hy hxy k ht, h0, mul_zero]

/-- A low-pass with the cutoff 1000 Hz at 48000 Hz: the line at the cutoff, the first one of signals of period 48, comes
out `Q = 2` times as high, and the Nyquist line 24 does not come out at all. -/
example : ∃ (f : Biquad ℝ) (c : Cascade ℝ) (o : List (List ℝ)), Rbj.lowPass 1000 48000 2 = .ok f ∧
    (Cascade.new 1).run [.push f, .filter [5]] = .ok (c, o) ∧
    ∀ x : ℕ → ℝ, (∀ n, x (n + 48) = x n) → ∃ y : ℕ → ℝ, (∀ n, y (n + 48) = y n) ∧
      Answers (fun xs => (c.reset.filter xs).2) x y ∧
      ‖bin (ofReals (period y 48)) 1‖ = 2 * ‖bin (ofReals (period x 48)) 1‖ ∧ bin (ofReals (period y 48)) 24 = 0 := by
  obtain ⟨f, hf, st, -, g1, g2⟩ := C16_low_pass 1000 48000 2 (by norm_num) (by norm_num) (by norm_num)
  obtain ⟨c, o, hc, hr⟩ : ∃ c o, (Cascade.new 1).run [.push f, .filter [5]] = .ok (c, o) ∧
      c.reset = ⟨1, [f.reset]⟩ := by
    refine ⟨⟨1, [(f.tick 5).1]⟩, [[], [(f.tick 5).2]], ?_, ?_⟩
    · simp [Cascade.run, Cascade.step, Cascade.new, Cascade.pushBack, Cascade.filter, Cascade.tick, Cascade.tickLoop,
        Except.bind, Bind.bind, pure, Except.pure]
    · simp [Cascade.reset, Biquad.reset, Biquad.tick]
  have ha : active c.reset = [f.reset] := by rw [hr]; rfl
  have hs : ∀ g ∈ active c.reset, g.stability = true := by
    intro g hg
    rw [ha, List.mem_singleton] at hg
    rw [hg]
    exact st
  have lift : ∀ {w g : ℝ}, GainAt f w g → ChainGainAt (active c.reset) w g := by
    rintro w g ⟨H, ht, rfl⟩
    rw [ha]
    exact ⟨H, ⟨H, 1, ht, rfl, (mul_one H).symm⟩, rfl⟩
  refine ⟨f, c, o, hf, hc, fun x hx => ?_⟩
  obtain ⟨y, hy, hxy⟩ := C184_periodic hc hs (by norm_num) hx
  refine ⟨y, hy, hxy, C185_amplitudes hc hs (by norm_num) hx hy hxy 1 ?_, ?_⟩
  · have := lift g2
    rwa [show 2 * Real.pi * 1000 / 48000 = 2 * Real.pi * (1 : ℕ) / (48 : ℕ) by push_cast; ring] at this
  · have := lift g1
    rw [show Real.pi = 2 * Real.pi * (24 : ℕ) / (48 : ℕ) by push_cast; ring] at this
    have := C185_amplitudes hc hs (by norm_num) hx hy hxy 24 this
    rwa [zero_mul, norm_eq_zero] at this

end Edsp.Props.C185
