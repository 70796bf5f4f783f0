import Verif.Lemmas.Energy
import Verif.Lemmas.Response
import Verif.Spec.Energy
import Verif.Model.Layout
import Mathlib.Analysis.RCLike.Lemmas
import Mathlib.Analysis.Asymptotics.SpecificAsymptotics
import Mathlib.Topology.Algebra.Polynomial
import Mathlib.Analysis.SpecialFunctions.Complex.Arg
import Mathlib.Topology.Order.DenselyOrdered

/-!
# Energy of the output of a chain of sections: gains at the frequencies
-/

namespace Edsp.EnergyL

open Finset Edsp.Spec

theorem aeval_numP (f : Biquad ℝ) (u : ℂ) : Polynomial.aeval u⁻¹ (numP f) = numAt f u := by
  simp [numP, numAt]

theorem aeval_denP (f : Biquad ℝ) (u : ℂ) : Polynomial.aeval u⁻¹ (denP f) = denAt f u := by
  simp [denP, denAt]

theorem transfer_poly (fs : List (Biquad ℝ)) {u h : ℂ} (ht : ChainTransferAt fs u h) :
    Polynomial.aeval u⁻¹ (numC fs) = h * Polynomial.aeval u⁻¹ (denC fs) := by
  induction fs generalizing h with
  | nil =>
    have : h = 1 := ht
    simp [numC, denC, this]
  | cons f fs ih =>
    obtain ⟨h₁, h₂, t1, t2, rfl⟩ := ht
    have ed : denC (f :: fs) = denP f * denC fs := by simp [denC]
    have en : numC (f :: fs) = numP f * numC fs := by simp [numC]
    rw [ed, en, map_mul, map_mul, ih t2, aeval_numP, aeval_denP, t1.2]
    ring

theorem transfer_exists {fs : List (Biquad ℝ)} (hs : ∀ f ∈ fs, f.stability = true) {u : ℂ} (hu : ‖u‖ = 1) :
    ∃ h, ChainTransferAt fs u h := by
  induction fs with
  | nil => exact ⟨1, rfl⟩
  | cons f fs ih =>
    obtain ⟨h, hh⟩ := ih fun g hg => hs g (by simp [hg])
    have hd := Response.denAt_ne_zero (hs f (by simp)) hu
    exact ⟨_, numAt f u / denAt f u, h, ⟨hd, by field_simp⟩, hh, rfl⟩

theorem gain_exists {fs : List (Biquad ℝ)} (hs : ∀ f ∈ fs, f.stability = true) (w : ℝ) :
    ∃ g, ChainGainAt fs w g := by
  obtain ⟨h, hh⟩ := transfer_exists hs (u := Complex.exp (w * Complex.I)) (Complex.norm_exp_ofReal_mul_I w)
  exact ⟨‖h‖, h, hh, rfl⟩

/-- An inequality between the moduli of two real polynomials at `exp (-i w)`, `0 < w < π`, holds on the whole
unit circle. -/
theorem circle_of_upper {p q : Polynomial ℝ} {G : ℝ}
    (h : ∀ w : ℝ, 0 < w → w < Real.pi → ‖Polynomial.aeval (Complex.exp (w * Complex.I))⁻¹ p‖ ≤
      G * ‖Polynomial.aeval (Complex.exp (w * Complex.I))⁻¹ q‖) (z : ℂ) (hz : ‖z‖ = 1) :
    ‖Polynomial.aeval z p‖ ≤ G * ‖Polynomial.aeval z q‖ := by
  have hcl : ∀ w ∈ Set.Icc 0 Real.pi, ‖Polynomial.aeval (Complex.exp (-(w * Complex.I))) p‖ ≤
      G * ‖Polynomial.aeval (Complex.exp (-(w * Complex.I))) q‖ := by
    intro w hw
    rw [← closure_Ioo (ne_of_lt Real.pi_pos)] at hw
    have hc : ∀ r : Polynomial ℝ, Continuous fun w : ℝ =>
        ‖Polynomial.aeval (Complex.exp (-(w * Complex.I))) r‖ := by
      intro r
      refine ((Polynomial.continuous_aeval r).comp ?_).norm
      fun_prop
    have hclosed : IsClosed {w : ℝ | ‖Polynomial.aeval (Complex.exp (-(w * Complex.I))) p‖ ≤
        G * ‖Polynomial.aeval (Complex.exp (-(w * Complex.I))) q‖} :=
      isClosed_le (hc p) ((hc q).const_mul G)
    refine closure_minimal ?_ hclosed hw
    intro w hw
    have := h w hw.1 hw.2
    rwa [← Complex.exp_neg] at this
  have he : z = Complex.exp (z.arg * Complex.I) := by
    have := Complex.norm_mul_exp_arg_mul_I z
    rw [hz, Complex.ofReal_one, one_mul] at this
    exact this.symm
  rcases le_total z.arg 0 with ha | ha
  · have := hcl (-z.arg) ⟨by linarith, by linarith [Complex.neg_pi_lt_arg z]⟩
    rwa [Complex.ofReal_neg, neg_mul, neg_neg, ← he] at this
  · have := hcl z.arg ⟨ha, Complex.arg_le_pi z⟩
    have hconj : Complex.exp (-(z.arg * Complex.I)) = (starRingEnd ℂ) z := by
      conv_rhs => rw [he]
      rw [← Complex.exp_conj, map_mul, Complex.conj_ofReal, Complex.conj_I, mul_neg]
    rwa [hconj, Polynomial.aeval_conj, Polynomial.aeval_conj, Complex.norm_conj, Complex.norm_conj] at this

theorem circle_le {fs : List (Biquad ℝ)} {G : ℝ}
    (h : ∀ w : ℝ, 0 < w → w < Real.pi → ∃ g ≤ G, ChainGainAt fs w g) (z : ℂ) (hz : ‖z‖ = 1) :
    ‖Polynomial.aeval z (numC fs)‖ ≤ G * ‖Polynomial.aeval z (denC fs)‖ := by
  refine circle_of_upper (fun w h0 h1 => ?_) z hz
  obtain ⟨g, hg, t, ht, rfl⟩ := h w h0 h1
  rw [transfer_poly fs ht, norm_mul]
  exact mul_le_mul_of_nonneg_right hg (norm_nonneg _)

theorem circle_ge {fs : List (Biquad ℝ)} {m : ℝ} (hm : 0 < m)
    (h : ∀ w : ℝ, 0 < w → w < Real.pi → ∃ g, m ≤ g ∧ ChainGainAt fs w g) (z : ℂ) (hz : ‖z‖ = 1) :
    ‖Polynomial.aeval z (denC fs)‖ ≤ m⁻¹ * ‖Polynomial.aeval z (numC fs)‖ := by
  refine circle_of_upper (fun w h0 h1 => ?_) z hz
  obtain ⟨g, hg, t, ht, rfl⟩ := h w h0 h1
  rw [transfer_poly fs ht, norm_mul, ← mul_assoc]
  have : 1 ≤ m⁻¹ * ‖t‖ := by
    rw [inv_mul_eq_div, le_div_iff₀ hm]; linarith
  exact le_mul_of_one_le_left (norm_nonneg _) this

/-! ## Frames -/

theorem frameEnergy_range (x : ℕ → ℝ) (N : ℕ) :
    frameEnergy ((List.range N).map x) = ∑ n ∈ range N, x n ^ 2 := by
  unfold frameEnergy
  induction N with
  | zero => simp
  | succ N ih => rw [List.range_succ, List.map_append, List.map_append, List.sum_append, ih,
      sum_range_succ]; simp

theorem range_of_list (xs : List ℝ) : xs = (List.range xs.length).map fun n => xs.getD n 0 := by
  apply List.ext_getElem
  · simp
  · intro n h1 h2
    simp [h1]

theorem chain_causal (fs : List (Biquad ℝ)) {x y : ℕ → ℝ} {N : ℕ} (h : ∀ n, n < N → x n = y n) {n : ℕ}
    (hn : n < N) : SteadyL.chain fs x n = SteadyL.chain fs y n := by
  have e : (List.range N).map x = (List.range N).map y :=
    List.map_congr_left fun n hn => h n (List.mem_range.mp hn)
  have h1 := SteadyL.through_range fs x N
  rw [e, SteadyL.through_range] at h1
  have := congrArg (fun l => l[n]?) h1
  simpa [hn] using this.symm

/-- The first `N` samples of the output hold at most `G²` times the energy of the first `N` of the input. -/
theorem chain_energy_le {fs : List (Biquad ℝ)} (hr : ∀ f ∈ fs, f.AtRest)
    (hs : ∀ f ∈ fs, f.stability = true) {G : ℝ}
    (h : ∀ w : ℝ, 0 < w → w < Real.pi → ∃ g ≤ G, ChainGainAt fs w g) (x : ℕ → ℝ) (N : ℕ) :
    ∑ n ∈ range N, SteadyL.chain fs x n ^ 2 ≤ G ^ 2 * ∑ n ∈ range N, x n ^ 2 := by
  set x' : ℕ → ℝ := fun n => if n < N then x n else 0 with hx'
  have hz : ∀ n, N ≤ n → x' n = 0 := fun n hn => if_neg (not_lt.mpr hn)
  have he : ∀ n, n < N → x n = x' n := fun n hn => (if_pos hn).symm
  obtain ⟨C, hC⟩ := finite_decay x' hz
  obtain ⟨D, ρ, h0, h1, hv⟩ := chain_decay _ (allPole_stable hs) x' (by norm_num) (by norm_num) hC
  have key := series_le (circle_le h) h0 h1 hv (S := ∑ n ∈ range N, x n ^ 2) (by
    intro M
    rw [allPole_series]
    simp only [PowerSeries.coeff_mk]
    rcases le_total M N with hM | hM
    · refine le_trans (le_of_eq ?_) (sum_le_sum_of_subset_of_nonneg (range_mono hM)
        fun _ _ _ => sq_nonneg _)
      exact sum_congr rfl fun n hn => by rw [he n (lt_of_lt_of_le (mem_range.mp hn) hM)]
    · refine le_of_eq ?_
      rw [← sum_subset (range_mono hM)]
      · exact sum_congr rfl fun n hn => by rw [he n (mem_range.mp hn)]
      · intro n _ hn
        rw [mem_range, not_lt] at hn
        rw [hz n hn]; norm_num) N
  rw [chain_eq fs hr] at key
  simp only [PowerSeries.coeff_mk] at key
  refine le_trans (le_of_eq (sum_congr rfl fun n hn => ?_)) key
  rw [chain_causal fs he (mem_range.mp hn)]

/-- A finite signal through a chain whose gains are at least `m`: no bound below `m²` times its energy
bounds the energy of the output. -/
theorem chain_energy_ge {fs : List (Biquad ℝ)} (hr : ∀ f ∈ fs, f.AtRest)
    (hs : ∀ f ∈ fs, f.stability = true) {m : ℝ} (hm : 0 < m)
    (h : ∀ w : ℝ, 0 < w → w < Real.pi → ∃ g, m ≤ g ∧ ChainGainAt fs w g) {x : ℕ → ℝ} {N : ℕ}
    (hx : ∀ n, N ≤ n → x n = 0) {S : ℝ} (hS : ∀ M, ∑ n ∈ range M, SteadyL.chain fs x n ^ 2 ≤ S) :
    m ^ 2 * ∑ n ∈ range N, x n ^ 2 ≤ S := by
  obtain ⟨C, hC⟩ := finite_decay x hx
  obtain ⟨D, ρ, h0, h1, hv⟩ := chain_decay _ (allPole_stable hs) x (by norm_num) (by norm_num) hC
  have key := series_le (circle_ge hm h) h0 h1 hv (S := S) (by
    intro M
    rw [chain_eq fs hr]
    simpa only [PowerSeries.coeff_mk] using hS M) N
  rw [allPole_series] at key
  simp only [PowerSeries.coeff_mk] at key
  have hm2 : 0 < m ^ 2 := by positivity
  rwa [inv_pow, inv_mul_eq_div, le_div_iff₀ hm2, mul_comm] at key

/-- A chain that never multiplies the energy by more than `G²` has no gain above `G`. -/
theorem gain_le_of_energy {fs : List (Biquad ℝ)} (hs : ∀ f ∈ fs, f.stability = true) {G : ℝ} (hG : 0 ≤ G)
    (h : ∀ (x : ℕ → ℝ) (N : ℕ), ∑ n ∈ range N, SteadyL.chain fs x n ^ 2 ≤ G ^ 2 * ∑ n ∈ range N, x n ^ 2)
    {w g : ℝ} (hg : ChainGainAt fs w g) : g ≤ G := by
  obtain ⟨t, ht, rfl⟩ := hg
  set z := Complex.exp (w * Complex.I) with hz
  have hz1 : ‖z‖ = 1 := Complex.norm_exp_ofReal_mul_I w
  have hz0 : z ≠ 0 := Complex.exp_ne_zero _
  have hzn : ∀ n : ℕ, ‖z ^ n‖ = 1 := fun n => by rw [norm_pow, hz1, one_pow]
  obtain ⟨D1, ρ1, a0, a1, hA⟩ := SteadyL.chain_settles fs hs hz0 ht 1 (fun n => (z ^ n).re)
    (C := 0) (r := 0) le_rfl zero_lt_one (by intro n; simp)
  obtain ⟨D2, ρ2, b0, b1, hB⟩ := SteadyL.chain_settles fs hs hz0 ht (-Complex.I) (fun n => (z ^ n).im)
    (C := 0) (r := 0) le_rfl zero_lt_one (by intro n; simp)
  set y1 := SteadyL.chain fs fun n => (z ^ n).re
  set y2 := SteadyL.chain fs fun n => (z ^ n).im
  have e1 : ∀ n, (t * 1 * z ^ n).re = (t * z ^ n).re := fun n => by rw [mul_one]
  have e2 : ∀ n, (t * -Complex.I * z ^ n).re = (t * z ^ n).im := fun n => by
    have : t * -Complex.I * z ^ n = -(Complex.I * (t * z ^ n)) := by ring
    rw [this, Complex.neg_re, Complex.I_mul_re, neg_neg]
  have lim : ∀ {y : ℕ → ℝ} {s : ℕ → ℝ} {D ρ : ℝ}, 0 ≤ ρ → ρ < 1 → (∀ n, |y n - s n| ≤ D * ρ ^ n) →
      (∀ n, |s n| ≤ ‖t‖) → Filter.Tendsto (fun n => y n ^ 2 - s n ^ 2) Filter.atTop (nhds 0) := by
    intro y s D ρ h0 h1 hy hb
    have hq : Filter.Tendsto (fun n => y n - s n) Filter.atTop (nhds 0) := by
      refine squeeze_zero_norm (fun n => ?_)
        (by simpa using (tendsto_pow_atTop_nhds_zero_of_lt_one h0 h1).const_mul D)
      exact hy n
    have hq2 : Filter.Tendsto (fun n => (y n - s n) * s n) Filter.atTop (nhds 0) := by
      refine squeeze_zero_norm (a := fun n => |y n - s n| * ‖t‖) (fun n => ?_)
        (by simpa using hq.abs.mul_const ‖t‖)
      rw [Real.norm_eq_abs, abs_mul]
      exact mul_le_mul_of_nonneg_left (hb n) (abs_nonneg _)
    have := (hq.pow 2).add (hq2.const_mul 2)
    simp only [ne_eq, OfNat.ofNat_ne_zero, not_false_eq_true, zero_pow, mul_zero, add_zero] at this
    refine this.congr fun n => ?_
    ring
  have hbd : ∀ n, ‖t * z ^ n‖ = ‖t‖ := fun n => by rw [norm_mul, hzn, mul_one]
  have l1 := lim a0 a1 (s := fun n => (t * z ^ n).re) (fun n => by rw [← e1]; exact hA n)
    fun n => (Complex.abs_re_le_norm _).trans (hbd n).le
  have l2 := lim b0 b1 (s := fun n => (t * z ^ n).im) (fun n => by rw [← e2]; exact hB n)
    fun n => (Complex.abs_im_le_norm _).trans (hbd n).le
  have l3 : Filter.Tendsto (fun n => y1 n ^ 2 + y2 n ^ 2) Filter.atTop (nhds (‖t‖ ^ 2)) := by
    have := (l1.add l2).add_const (‖t‖ ^ 2)
    rw [add_zero, zero_add] at this
    refine this.congr fun n => ?_
    have : ‖t‖ ^ 2 = (t * z ^ n).re ^ 2 + (t * z ^ n).im ^ 2 := by
      rw [← hbd n, ← Complex.normSq_eq_norm_sq, Complex.normSq_apply]; ring
    rw [this]; ring
  have l4 := l3.cesaro
  have hle : ∀ n : ℕ, (n : ℝ)⁻¹ * ∑ i ∈ range n, (y1 i ^ 2 + y2 i ^ 2) ≤ G ^ 2 := by
    intro n
    rcases Nat.eq_zero_or_pos n with rfl | hn
    · simp; positivity
    · have hs1 := h (fun n => (z ^ n).re) n
      have hs2 := h (fun n => (z ^ n).im) n
      have hsum : ∑ i ∈ range n, (z ^ i).re ^ 2 + ∑ i ∈ range n, (z ^ i).im ^ 2 = n := by
        rw [← sum_add_distrib]
        have : ∀ i ∈ range n, (z ^ i).re ^ 2 + (z ^ i).im ^ 2 = 1 := by
          intro i _
          have h1 : ‖z ^ i‖ ^ 2 = 1 := by rw [hzn, one_pow]
          rw [← h1, ← Complex.normSq_eq_norm_sq, Complex.normSq_apply]; ring
        rw [sum_congr rfl this]; simp
      have hn' : (0 : ℝ) < n := by exact_mod_cast hn
      rw [inv_mul_eq_div, div_le_iff₀ hn', sum_add_distrib, ← hsum, mul_add]
      exact add_le_add hs1 hs2
  have := le_of_tendsto' l4 hle
  exact le_of_sq_le_sq this hG

/-! ## The designs start at rest -/

theorem makeBiquad_rest {q : PzPair} {f : Biquad ℝ} (h : makeBiquad q = .ok f) : f.AtRest := by
  unfold makeBiquad at h
  split at h
  · split at h
    · unfold Biquad.ofPoleZero at h
      split at h
      · cases h; exact ⟨rfl, rfl⟩
      · cases h
    · unfold Biquad.ofPoleZeroPair at h
      simp only [bind, Except.bind, pure, Except.pure] at h
      split at h
      · cases h
      · split at h
        · cases h
        · cases h; exact ⟨rfl, rfl⟩
  · cases h

theorem makeCascade_rest {N : ℕ} {d : Layout} {c : Cascade ℝ} (h : makeCascade N d = .ok c) :
    ∀ f ∈ active c, f.AtRest := by
  have step : ∀ (is : List ℕ) (c0 c1 : Cascade ℝ), (∀ f ∈ c0.stages, f.AtRest) →
      is.foldlM (cascadeStep d) c0 = .ok c1 → ∀ f ∈ c1.stages, f.AtRest := by
    intro is
    induction is with
    | nil => intro c0 c1 h0 h; cases h; exact h0
    | cons i is ih =>
      intro c0 c1 h0 h
      rw [List.foldlM_cons] at h
      cases hs : cascadeStep d c0 i with
      | error e => rw [hs] at h; cases h
      | ok c' =>
        rw [hs] at h
        refine ih c' c1 ?_ h
        unfold cascadeStep at hs
        simp only [bind, Except.bind] at hs
        split at hs
        · cases hs
        · split at hs
          · cases hs
          · rename_i g hg
            unfold Cascade.pushBack at hs
            split at hs
            · cases hs
              intro f hf
              rcases List.mem_or_eq_of_mem_set hf with h1 | h1
              · exact h0 f h1
              · rw [h1]; exact makeBiquad_rest hg
            · cases hs
  unfold makeCascade at h
  simp only [bind, Except.bind, pure, Except.pure] at h
  split at h
  · cases h
  · rename_i c1 hc1
    have h1 := step _ _ _ (by
      intro f hf
      have := List.eq_of_mem_replicate (show f ∈ List.replicate _ _ from hf)
      rw [this]; exact ⟨rfl, rfl⟩) hc1
    split at h
    · cases h
    · split at h
      · cases h
      · split at h
        · cases h
        · cases h
          intro f hf
          rcases List.mem_or_eq_of_mem_set (List.mem_of_mem_take hf) with h2 | h2
          · exact h1 f h2
          · rw [h2]; exact ⟨rfl, rfl⟩

end Edsp.EnergyL
