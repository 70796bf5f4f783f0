import Verif.Lemmas.Steady
import Verif.Lemmas.Fourier
import Verif.Lemmas.Cascade
import Mathlib.RingTheory.PowerSeries.Trunc
import Mathlib.RingTheory.PowerSeries.NoZeroDivisors
import Mathlib.Algebra.Polynomial.AlgebraMap
import Mathlib.Analysis.SpecificLimits.Basic

/-!
# Energy of the output of a chain of sections

The bound of the coefficients of one polynomial by those of another on the unit circle (Parseval at the
roots of unity), carried over to power series whose coefficients decay.
-/

namespace Edsp.EnergyL

open Finset Edsp.Spec

/-- Parseval for real coefficients. -/
theorem pars {K : ℕ} (h : K ≠ 0) (a : ℕ → ℝ) :
    ∑ k ∈ range K, ‖Fourier.F K (fun j => (a j : ℂ)) k‖ ^ 2 = K * ∑ j ∈ range K, a j ^ 2 := by
  have e := Fourier.B_mul_conj h (fun j => (a j : ℂ)) (fun j => (a j : ℂ)) 0
  unfold Fourier.B at e
  simp only [Nat.cast_zero, mul_zero, zero_mul, zero_div, Complex.exp_zero, mul_one, zero_sub,
    Complex.mul_conj, Complex.conj_ofReal] at e
  have e2 : ∀ i ∈ range K, (∑ b ∈ range K,
      if (K : ℤ) ∣ -(i : ℤ) + b then (a i : ℂ) * (a b : ℂ) else 0) = (a i : ℂ) * a i := by
    intro i hi
    rw [sum_eq_single i]
    · simp
    · intro b hb hne
      rw [if_neg]
      intro hd
      have hi := mem_range.mp hi
      have hb := mem_range.mp hb
      obtain ⟨c, hc⟩ := hd
      have : (c : ℤ) = 0 := by
        by_contra hc0
        rcases lt_or_gt_of_ne hc0 with h1 | h1
        · have : (K : ℤ) * c ≤ K * (-1) := mul_le_mul_of_nonneg_left (by omega) (by omega)
          omega
        · have : (K : ℤ) * 1 ≤ K * c := mul_le_mul_of_nonneg_left (by omega) (by omega)
          omega
      subst this
      omega
    · intro hn; exact absurd hi hn
  rw [sum_congr rfl e2] at e
  have := congrArg Complex.re e
  rw [Complex.re_sum] at this
  simp only [Complex.ofReal_re, Complex.normSq_eq_norm_sq] at this
  rw [this]
  have hs : (∑ i ∈ range K, (a i : ℂ) * a i) = ((∑ i ∈ range K, a i ^ 2 : ℝ) : ℂ) := by
    rw [Complex.ofReal_sum]
    exact sum_congr rfl fun i _ => by rw [pow_two, Complex.ofReal_mul]
  rw [hs, ← Complex.ofReal_natCast, ← Complex.ofReal_mul, Complex.ofReal_re]

theorem F_aeval {K : ℕ} (p : Polynomial ℝ) (hp : p.natDegree < K) (k : ℕ) :
    Fourier.F K (fun j => (p.coeff j : ℂ)) k =
      Polynomial.aeval (Complex.exp (-(2 * Real.pi * Complex.I * k / K))) p := by
  rw [Polynomial.aeval_eq_sum_range' hp]
  refine sum_congr rfl fun j _ => ?_
  rw [← Complex.exp_nat_mul, Complex.real_smul]
  congr 2
  ring

theorem unit_exp (K k : ℕ) : ‖Complex.exp (-(2 * Real.pi * Complex.I * k / K))‖ = 1 := by
  have : -(2 * Real.pi * Complex.I * k / K) = ((-(2 * Real.pi * k / K) : ℝ) : ℂ) * Complex.I := by
    push_cast; ring
  rw [this, Complex.norm_exp_ofReal_mul_I]

/-- A bound on the unit circle bounds the sums of squared coefficients. -/
theorem coeffs_le {K : ℕ} {p q : Polynomial ℝ} (hp : p.natDegree < K) (hq : q.natDegree < K) {G : ℝ}
    (hG : ∀ z : ℂ, ‖z‖ = 1 → ‖Polynomial.aeval z p‖ ≤ G * ‖Polynomial.aeval z q‖) :
    ∑ j ∈ range K, p.coeff j ^ 2 ≤ G ^ 2 * ∑ j ∈ range K, q.coeff j ^ 2 := by
  have hK : K ≠ 0 := by omega
  have h1 := pars hK fun j => p.coeff j
  have h2 := pars hK fun j => q.coeff j
  have hle : ∑ k ∈ range K, ‖Fourier.F K (fun j => (p.coeff j : ℂ)) k‖ ^ 2 ≤
      G ^ 2 * ∑ k ∈ range K, ‖Fourier.F K (fun j => (q.coeff j : ℂ)) k‖ ^ 2 := by
    rw [mul_sum]
    refine sum_le_sum fun k _ => ?_
    rw [F_aeval p hp, F_aeval q hq, ← mul_pow]
    exact pow_le_pow_left₀ (norm_nonneg _) (hG _ (unit_exp K k)) 2
  rw [h1, h2] at hle
  have hKp : (0 : ℝ) < K := by exact_mod_cast Nat.pos_of_ne_zero hK
  refine le_of_mul_le_mul_left ?_ hKp
  linarith

theorem abs_sum_le (q : Polynomial ℝ) (n : ℕ) :
    ∑ i ∈ range n, |q.coeff i| ≤ ∑ i ∈ range (q.natDegree + 1), |q.coeff i| := by
  refine (sum_le_sum_of_subset_of_nonneg (range_mono (le_max_left n (q.natDegree + 1)))
    fun _ _ _ => abs_nonneg _).trans (le_of_eq ?_)
  symm
  refine sum_subset (range_mono (le_max_right n (q.natDegree + 1))) fun i _ hi => ?_
  rw [mem_range, not_lt] at hi
  rw [Polynomial.coeff_eq_zero_of_natDegree_lt (by omega), abs_zero]

theorem mul_trunc_below (q : Polynomial ℝ) (v : ℕ → ℝ) {M n : ℕ} (hn : n < M) :
    (q * PowerSeries.trunc M (PowerSeries.mk v)).coeff n =
      PowerSeries.coeff n ((q : PowerSeries ℝ) * PowerSeries.mk v) := by
  have := PowerSeries.trunc_mul_trunc (n := M) (q : PowerSeries ℝ) (PowerSeries.mk v)
  have h := congrArg (fun r => Polynomial.coeff r n) this
  simp only [PowerSeries.coeff_trunc, if_pos hn] at h
  rw [← h, ← Polynomial.coe_mul, Polynomial.coeff_coe]

theorem mul_trunc_above (q : Polynomial ℝ) (v : ℕ → ℝ) {D ρ : ℝ} (h0 : 0 ≤ ρ) (h1 : ρ < 1)
    (hv : ∀ n, |v n| ≤ D * ρ ^ n) {M n : ℕ} (hn : M ≤ n) :
    |(q * PowerSeries.trunc M (PowerSeries.mk v)).coeff n| ≤
      (∑ i ∈ range (q.natDegree + 1), |q.coeff i|) * (D * ρ ^ (M - q.natDegree)) := by
  have hD : 0 ≤ D := by have := hv 0; rw [pow_zero, mul_one] at this; exact (abs_nonneg _).trans this
  have hE : 0 ≤ D * ρ ^ (M - q.natDegree) := by positivity
  rw [Polynomial.coeff_mul, Nat.sum_antidiagonal_eq_sum_range_succ_mk]
  refine (abs_sum_le_sum_abs _ _).trans ?_
  refine le_trans ?_ (mul_le_mul_of_nonneg_right (abs_sum_le q (n + 1)) hE)
  rw [sum_mul]
  refine sum_le_sum fun i hi => ?_
  rw [abs_mul]
  by_cases hd : q.natDegree < i
  · rw [Polynomial.coeff_eq_zero_of_natDegree_lt hd]; simp
  · refine mul_le_mul_of_nonneg_left ?_ (abs_nonneg _)
    rw [PowerSeries.coeff_trunc]
    split
    · rw [PowerSeries.coeff_mk]
      refine (hv _).trans (mul_le_mul_of_nonneg_left ?_ hD)
      exact pow_le_pow_of_le_one h0 h1.le (by rw [mem_range] at hi; omega)
    · rwa [abs_zero]

/-- The same for power series with decaying common factor. -/
theorem series_le {p q : Polynomial ℝ} {G : ℝ}
    (hG : ∀ z : ℂ, ‖z‖ = 1 → ‖Polynomial.aeval z p‖ ≤ G * ‖Polynomial.aeval z q‖)
    {v : ℕ → ℝ} {D ρ : ℝ} (h0 : 0 ≤ ρ) (h1 : ρ < 1) (hv : ∀ n, |v n| ≤ D * ρ ^ n) {S : ℝ}
    (hS : ∀ M, ∑ n ∈ range M, (PowerSeries.coeff n ((q : PowerSeries ℝ) * PowerSeries.mk v)) ^ 2 ≤ S)
    (N : ℕ) :
    ∑ n ∈ range N, (PowerSeries.coeff n ((p : PowerSeries ℝ) * PowerSeries.mk v)) ^ 2 ≤ G ^ 2 * S := by
  set A := ∑ i ∈ range (q.natDegree + 1), |q.coeff i| with hA
  set d := p.natDegree + q.natDegree + 1 with hd
  have key : ∀ M, N ≤ M →
      ∑ n ∈ range N, (PowerSeries.coeff n ((p : PowerSeries ℝ) * PowerSeries.mk v)) ^ 2 ≤
        G ^ 2 * (S + d * (A * (D * ρ ^ (M - q.natDegree))) ^ 2) := by
    intro M hM
    set V := PowerSeries.trunc M (PowerSeries.mk v) with hV
    have hVd : V.natDegree ≤ M := by
      rw [Polynomial.natDegree_le_iff_coeff_eq_zero]
      intro n hn
      rw [hV, PowerSeries.coeff_trunc, if_neg (by omega)]
    have hpd : (p * V).natDegree < M + d := by
      have := Polynomial.natDegree_mul_le (p := p) (q := V); omega
    have hqd : (q * V).natDegree < M + d := by
      have := Polynomial.natDegree_mul_le (p := q) (q := V); omega
    have hc := coeffs_le hpd hqd (G := G) fun z hz => by
      rw [map_mul, map_mul, norm_mul, norm_mul, ← mul_assoc]
      exact mul_le_mul_of_nonneg_right (hG z hz) (norm_nonneg _)
    have hl : ∑ n ∈ range N, (PowerSeries.coeff n ((p : PowerSeries ℝ) * PowerSeries.mk v)) ^ 2 ≤
        ∑ j ∈ range (M + d), (p * V).coeff j ^ 2 := by
      refine le_trans (le_of_eq ?_) (sum_le_sum_of_subset_of_nonneg
        (range_mono (show N ≤ M + d by omega)) fun _ _ _ => sq_nonneg _)
      refine sum_congr rfl fun n hn => ?_
      rw [mul_trunc_below p v (lt_of_lt_of_le (mem_range.mp hn) hM)]
    refine hl.trans (hc.trans (mul_le_mul_of_nonneg_left ?_ (sq_nonneg G)))
    rw [sum_range_add]
    refine add_le_add ?_ ?_
    · refine le_trans (le_of_eq (sum_congr rfl fun n hn => ?_)) (hS M)
      rw [mul_trunc_below q v (mem_range.mp hn)]
    · refine (sum_le_card_nsmul _ _ ((A * (D * ρ ^ (M - q.natDegree))) ^ 2) fun n _ => ?_).trans
        (le_of_eq ?_)
      · rw [← sq_abs]
        exact pow_le_pow_left₀ (abs_nonneg _) (mul_trunc_above q v h0 h1 hv (by omega)) 2
      · rw [card_range, nsmul_eq_mul]
  have ht : Filter.Tendsto (fun M : ℕ => G ^ 2 * (S + d * (A * (D * ρ ^ (M - q.natDegree))) ^ 2))
      Filter.atTop (nhds (G ^ 2 * (S + d * (A * (D * 0)) ^ 2))) := by
    have hp := (tendsto_pow_atTop_nhds_zero_of_lt_one h0 h1).comp
      (Filter.tendsto_sub_atTop_nat q.natDegree)
    exact (((((hp.const_mul D).const_mul A).pow 2).const_mul (d : ℝ)).const_add S).const_mul (G ^ 2)
  have := ge_of_tendsto ht (Filter.eventually_atTop.mpr ⟨N, key⟩)
  simpa using this

/-! ## Sections -/

noncomputable def numP (f : Biquad ℝ) : Polynomial ℝ :=
  Polynomial.C f.b0 + Polynomial.C f.b1 * Polynomial.X + Polynomial.C f.b2 * Polynomial.X ^ 2

noncomputable def denP (f : Biquad ℝ) : Polynomial ℝ :=
  Polynomial.C 1 + Polynomial.C f.a1 * Polynomial.X + Polynomial.C f.a2 * Polynomial.X ^ 2

noncomputable def numC (fs : List (Biquad ℝ)) : Polynomial ℝ := (fs.map numP).prod
noncomputable def denC (fs : List (Biquad ℝ)) : Polynomial ℝ := (fs.map denP).prod

theorem section_series (f : Biquad ℝ) (h : f.AtRest) (x : ℕ → ℝ) :
    (denP f : PowerSeries ℝ) * PowerSeries.mk (f.response x) =
      (numP f : PowerSeries ℝ) * PowerSeries.mk x := by
  have := Biquad.response_series f h x
  simpa [denP, numP] using this

theorem chain_series (fs : List (Biquad ℝ)) (hr : ∀ f ∈ fs, f.AtRest) (x : ℕ → ℝ) :
    (denC fs : PowerSeries ℝ) * PowerSeries.mk (SteadyL.chain fs x) =
      (numC fs : PowerSeries ℝ) * PowerSeries.mk x := by
  induction fs generalizing x with
  | nil => simp [denC, numC, SteadyL.chain]
  | cons f fs ih =>
    have h1 := section_series f (hr f (by simp)) x
    have h2 := ih (fun g hg => hr g (by simp [hg])) (f.response x)
    have e : SteadyL.chain (f :: fs) x = SteadyL.chain fs (f.response x) := rfl
    have ed : denC (f :: fs) = denP f * denC fs := by simp [denC]
    have en : numC (f :: fs) = numP f * numC fs := by simp [numC]
    rw [e, ed, en, Polynomial.coe_mul, Polynomial.coe_mul, mul_assoc, h2]
    linear_combination (numC fs : PowerSeries ℝ) * h1

/-- The section without its numerator. -/
def allPole (f : Biquad ℝ) : Biquad ℝ := { f with b0 := 1, b1 := 0, b2 := 0, w0 := 0, w1 := 0 }

theorem allPole_series (fs : List (Biquad ℝ)) (x : ℕ → ℝ) :
    (denC fs : PowerSeries ℝ) * PowerSeries.mk (SteadyL.chain (fs.map allPole) x) =
      PowerSeries.mk x := by
  have h := chain_series (fs.map allPole) (by
    intro f hf
    obtain ⟨g, -, rfl⟩ := List.mem_map.mp hf
    exact ⟨rfl, rfl⟩) x
  have ed : denC (fs.map allPole) = denC fs := by
    unfold denC; rw [List.map_map]; rfl
  have en : numC (fs.map allPole) = 1 := by
    unfold numC
    rw [List.map_map]
    refine List.prod_eq_one fun a ha => ?_
    obtain ⟨g, -, rfl⟩ := List.mem_map.mp ha
    simp [numP, allPole]
  rwa [ed, en, Polynomial.coe_one, one_mul] at h

theorem denC_ne_zero (fs : List (Biquad ℝ)) : (denC fs : PowerSeries ℝ) ≠ 0 := by
  rw [Ne, Polynomial.coe_eq_zero_iff]
  refine List.prod_ne_zero ?_
  intro hm
  obtain ⟨f, -, hf⟩ := List.mem_map.mp hm
  have := congrArg (fun p => Polynomial.coeff p 0) hf
  simp [denP] at this

/-- Output = numerator applied to the all-pole part. -/
theorem chain_eq (fs : List (Biquad ℝ)) (hr : ∀ f ∈ fs, f.AtRest) (x : ℕ → ℝ) :
    (numC fs : PowerSeries ℝ) * PowerSeries.mk (SteadyL.chain (fs.map allPole) x) =
      PowerSeries.mk (SteadyL.chain fs x) := by
  have h1 := chain_series fs hr x
  have h2 := allPole_series fs x
  refine mul_left_cancel₀ (denC_ne_zero fs) ?_
  rw [h1, ← h2]; ring

theorem zero_response (f : Biquad ℝ) (h : f.AtRest) (n : ℕ) : f.response (fun _ => 0) n = 0 := by
  have hz : (PowerSeries.mk fun _ => (0 : ℝ)) = 0 := by ext; simp
  have h1 := section_series f h fun _ => 0
  rw [hz, mul_zero] at h1
  have hd : (denP f : PowerSeries ℝ) ≠ 0 := by
    have := denC_ne_zero [f]; simpa [denC] using this
  have := (mul_eq_zero.mp h1).resolve_left hd
  have := congrArg (PowerSeries.coeff n) this
  simpa using this

/-- Decaying inputs give decaying outputs. -/
theorem chain_decay (fs : List (Biquad ℝ)) (hs : ∀ f ∈ fs, f.stability = true) (x : ℕ → ℝ) {C r : ℝ}
    (hr0 : 0 ≤ r) (hr : r < 1) (hx : ∀ n, |x n| ≤ C * r ^ n) :
    ∃ D ρ : ℝ, 0 ≤ ρ ∧ ρ < 1 ∧ ∀ n, |SteadyL.chain fs x n| ≤ D * ρ ^ n := by
  induction fs generalizing x C r with
  | nil => exact ⟨C, r, hr0, hr, hx⟩
  | cons f fs ih =>
    obtain ⟨D, ρ, h0, h1, h⟩ := SteadyL.approach f (hs f (by simp)) 0 0 x (fun _ => 0) hr0 hr
      (by simpa using hx)
    refine ih (fun g hg => hs g (by simp [hg])) (f.response x) (C := D) h0 h1 fun n => ?_
    have := h n
    rwa [zero_response _ ⟨rfl, rfl⟩, sub_zero] at this

theorem finite_decay (x : ℕ → ℝ) {N : ℕ} (hN : ∀ n, N ≤ n → x n = 0) :
    ∃ C, ∀ n, |x n| ≤ C * (1 / 2 : ℝ) ^ n := by
  refine ⟨∑ k ∈ range N, |x k| * 2 ^ k, fun n => ?_⟩
  by_cases hn : N ≤ n
  · rw [hN n hn, abs_zero]
    have : 0 ≤ ∑ k ∈ range N, |x k| * 2 ^ k := sum_nonneg fun _ _ => by positivity
    positivity
  · have h1 : |x n| * 2 ^ n ≤ ∑ k ∈ range N, |x k| * 2 ^ k :=
      single_le_sum (f := fun k => |x k| * (2 : ℝ) ^ k) (fun _ _ => by positivity)
        (mem_range.mpr (not_le.mp hn))
    have h2 := mul_le_mul_of_nonneg_right h1 (show (0 : ℝ) ≤ (1 / 2) ^ n by positivity)
    rwa [mul_assoc, ← mul_pow, mul_one_div_cancel two_ne_zero, one_pow, mul_one] at h2

theorem allPole_stable {fs : List (Biquad ℝ)} (hs : ∀ f ∈ fs, f.stability = true) :
    ∀ f ∈ fs.map allPole, f.stability = true := by
  intro f hf
  obtain ⟨g, hg, rfl⟩ := List.mem_map.mp hf
  exact hs g hg

end Edsp.EnergyL
