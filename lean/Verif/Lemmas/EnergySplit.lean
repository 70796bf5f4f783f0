import Verif.Lemmas.EnergyChain

/-!
# Energy of the outputs of two chains fed with the same signal
-/

namespace Edsp.EnergyL

open Finset Edsp.Spec

/-- An identity on the unit circle between sums of squared moduli carries over to the squared coefficients. -/
theorem coeffs_split {ι : Type*} (s : Finset ι) {K : ℕ} {α : ι → ℝ} {p : ι → Polynomial ℝ} {q : Polynomial ℝ}
    (hp : ∀ i ∈ s, (p i).natDegree < K) (hq : q.natDegree < K)
    (h : ∀ z : ℂ, ‖z‖ = 1 →
      ∑ i ∈ s, α i * ‖Polynomial.aeval z (p i)‖ ^ 2 = ‖Polynomial.aeval z q‖ ^ 2) :
    ∑ i ∈ s, α i * ∑ j ∈ range K, (p i).coeff j ^ 2 = ∑ j ∈ range K, q.coeff j ^ 2 := by
  have hK : K ≠ 0 := by omega
  have e : ∑ i ∈ s, α i * ∑ k ∈ range K, ‖Fourier.F K (fun j => ((p i).coeff j : ℂ)) k‖ ^ 2 =
      ∑ k ∈ range K, ‖Fourier.F K (fun j => (q.coeff j : ℂ)) k‖ ^ 2 := by
    simp only [mul_sum]
    rw [sum_comm]
    refine sum_congr rfl fun k _ => ?_
    rw [F_aeval q hq, ← h _ (unit_exp K k)]
    exact sum_congr rfl fun i hi => by rw [F_aeval (p i) (hp i hi)]
  rw [pars hK fun j => q.coeff j] at e
  have e2 : ∑ i ∈ s, α i * ∑ k ∈ range K, ‖Fourier.F K (fun j => ((p i).coeff j : ℂ)) k‖ ^ 2 =
      K * ∑ i ∈ s, α i * ∑ j ∈ range K, (p i).coeff j ^ 2 := by
    rw [mul_sum]
    refine sum_congr rfl fun i _ => ?_
    rw [pars hK fun j => (p i).coeff j]; ring
  rw [e2] at e
  exact mul_left_cancel₀ (by exact_mod_cast hK) e

/-- The squared coefficients of a polynomial times a truncated series: those below the cut, and a rest. -/
theorem trunc_energy (q : Polynomial ℝ) (v : ℕ → ℝ) {D ρ : ℝ} (h0 : 0 ≤ ρ) (h1 : ρ < 1)
    (hv : ∀ n, |v n| ≤ D * ρ ^ n) (M d : ℕ) :
    |∑ j ∈ range (M + d), (q * PowerSeries.trunc M (PowerSeries.mk v)).coeff j ^ 2 -
      ∑ n ∈ range M, (PowerSeries.coeff n ((q : PowerSeries ℝ) * PowerSeries.mk v)) ^ 2| ≤
      d * ((∑ i ∈ range (q.natDegree + 1), |q.coeff i|) * (D * ρ ^ (M - q.natDegree))) ^ 2 := by
  rw [sum_range_add]
  have e : ∑ n ∈ range M, (q * PowerSeries.trunc M (PowerSeries.mk v)).coeff n ^ 2 =
      ∑ n ∈ range M, (PowerSeries.coeff n ((q : PowerSeries ℝ) * PowerSeries.mk v)) ^ 2 :=
    sum_congr rfl fun n hn => by rw [mul_trunc_below q v (mem_range.mp hn)]
  rw [e, add_sub_cancel_left, abs_of_nonneg (sum_nonneg fun _ _ => sq_nonneg _)]
  refine (sum_le_card_nsmul _ _
    (((∑ i ∈ range (q.natDegree + 1), |q.coeff i|) * (D * ρ ^ (M - q.natDegree))) ^ 2)
    fun n _ => ?_).trans (le_of_eq ?_)
  · rw [← sq_abs]
    exact pow_le_pow_left₀ (abs_nonneg _) (mul_trunc_above q v h0 h1 hv (by omega)) 2
  · rw [card_range, nsmul_eq_mul]

theorem series_split {ι : Type*} (s : Finset ι) {α : ι → ℝ} {p : ι → Polynomial ℝ} {q : Polynomial ℝ}
    (h : ∀ z : ℂ, ‖z‖ = 1 →
      ∑ i ∈ s, α i * ‖Polynomial.aeval z (p i)‖ ^ 2 = ‖Polynomial.aeval z q‖ ^ 2)
    {v : ℕ → ℝ} {D ρ : ℝ} (h0 : 0 ≤ ρ) (h1 : ρ < 1) (hv : ∀ n, |v n| ≤ D * ρ ^ n) :
    Filter.Tendsto (fun M =>
      ∑ i ∈ s, α i * ∑ n ∈ range M, (PowerSeries.coeff n ((p i : PowerSeries ℝ) * PowerSeries.mk v)) ^ 2 -
      ∑ n ∈ range M, (PowerSeries.coeff n ((q : PowerSeries ℝ) * PowerSeries.mk v)) ^ 2)
      Filter.atTop (nhds 0) := by
  set d := ∑ i ∈ s, (p i).natDegree + q.natDegree + 1 with hd
  have lim : ∀ r : Polynomial ℝ, Filter.Tendsto (fun M =>
      (∑ j ∈ range (M + d), (r * PowerSeries.trunc M (PowerSeries.mk v)).coeff j ^ 2 -
      ∑ n ∈ range M, (PowerSeries.coeff n ((r : PowerSeries ℝ) * PowerSeries.mk v)) ^ 2))
      Filter.atTop (nhds 0) := by
    intro r
    have hp := (tendsto_pow_atTop_nhds_zero_of_lt_one h0 h1).comp
      (Filter.tendsto_sub_atTop_nat r.natDegree)
    have := (((hp.const_mul D).const_mul (∑ i ∈ range (r.natDegree + 1), |r.coeff i|)).pow 2).const_mul (d : ℝ)
    refine squeeze_zero_norm (fun M => trunc_energy r v h0 h1 hv M d) ?_
    simpa using this
  have hl := (lim q).sub (tendsto_finsetSum s fun i _ => (lim (p i)).const_mul (α i))
  simp only [mul_zero, sum_const_zero, sub_zero] at hl
  refine hl.congr fun M => ?_
  set V := PowerSeries.trunc M (PowerSeries.mk v) with hV
  have hVd : V.natDegree ≤ M := by
    rw [Polynomial.natDegree_le_iff_coeff_eq_zero]
    intro n hn
    rw [hV, PowerSeries.coeff_trunc, if_neg (by omega)]
  have deg : ∀ r : Polynomial ℝ, r.natDegree < d → (r * V).natDegree < M + d := by
    intro r hr
    have := Polynomial.natDegree_mul_le (p := r) (q := V); omega
  have hc := coeffs_split s (α := α) (p := fun i => p i * V) (q := q * V)
    (fun i hi => deg _ (by
      have := single_le_sum (f := fun i => (p i).natDegree) (fun _ _ => Nat.zero_le _) hi
      omega)) (deg q (by omega)) fun z hz => by
    simp only [map_mul, norm_mul, mul_pow, ← mul_assoc]
    rw [← sum_mul, h z hz]
  simp only [mul_sub]
  rw [sum_sub_distrib, hc]
  ring

/-- An identity between the moduli of real polynomials at `exp (-i w)`, `0 < w < π`, holds on the whole circle. -/
theorem circle_eq {ι : Type*} (s : Finset ι) {α : ι → ℝ} {p : ι → Polynomial ℝ} {q : Polynomial ℝ}
    (h : ∀ w : ℝ, 0 < w → w < Real.pi →
      ∑ i ∈ s, α i * ‖Polynomial.aeval (Complex.exp (w * Complex.I))⁻¹ (p i)‖ ^ 2 =
      ‖Polynomial.aeval (Complex.exp (w * Complex.I))⁻¹ q‖ ^ 2) (z : ℂ) (hz : ‖z‖ = 1) :
    ∑ i ∈ s, α i * ‖Polynomial.aeval z (p i)‖ ^ 2 = ‖Polynomial.aeval z q‖ ^ 2 := by
  have hcl : ∀ w ∈ Set.Icc 0 Real.pi,
      ∑ i ∈ s, α i * ‖Polynomial.aeval (Complex.exp (-(w * Complex.I))) (p i)‖ ^ 2 =
      ‖Polynomial.aeval (Complex.exp (-(w * Complex.I))) q‖ ^ 2 := by
    intro w hw
    rw [← closure_Ioo (ne_of_lt Real.pi_pos)] at hw
    have hc : ∀ r : Polynomial ℝ, Continuous fun w : ℝ =>
        ‖Polynomial.aeval (Complex.exp (-(w * Complex.I))) r‖ ^ 2 := by
      intro r
      refine (((Polynomial.continuous_aeval r).comp ?_).norm).pow 2
      fun_prop
    have hclosed : IsClosed {w : ℝ |
        ∑ i ∈ s, α i * ‖Polynomial.aeval (Complex.exp (-(w * Complex.I))) (p i)‖ ^ 2 =
        ‖Polynomial.aeval (Complex.exp (-(w * Complex.I))) q‖ ^ 2} :=
      isClosed_eq (continuous_finsetSum s fun i _ => (hc (p i)).const_mul (α i)) (hc q)
    refine closure_minimal ?_ hclosed hw
    intro w hw
    have := h w hw.1 hw.2
    rwa [← Complex.exp_neg] at this
  have he : z = Complex.exp (z.arg * Complex.I) := by
    have := Complex.norm_mul_exp_arg_mul_I z
    rw [hz, Complex.ofReal_one, one_mul] at this
    exact this.symm
  rcases le_total z.arg 0 with ha | ha
  · have := hcl (-z.arg) ⟨by linarith, by linarith [Complex.neg_pi_lt_arg z]⟩
    rwa [Complex.ofReal_neg, neg_mul, neg_neg, ← he] at this
  · have := hcl z.arg ⟨ha, Complex.arg_le_pi z⟩
    have hconj : Complex.exp (-(z.arg * Complex.I)) = (starRingEnd ℂ) z := by
      conv_rhs => rw [he]
      rw [← Complex.exp_conj, map_mul, Complex.conj_ofReal, Complex.conj_I, mul_neg]
    simpa only [hconj, Polynomial.aeval_conj, Complex.norm_conj] using this

theorem denC_flat {ι : Type*} (l : List ι) (fs : ι → List (Biquad ℝ)) :
    denC (l.flatMap fs) = (l.map fun i => denC (fs i)).prod := by
  induction l with
  | nil => simp [denC]
  | cons i l ih =>
    rw [List.flatMap_cons, List.map_cons, List.prod_cons, ← ih]
    simp [denC]

/-- Stable chains fed with the same finite signal.  If a weighted sum of their squared gains is 1 at every
frequency, the weighted sum of the energies of their outputs is, in the long run, the energy of the signal. -/
theorem chains_split {ι : Type*} [Fintype ι] [DecidableEq ι] {fs : ι → List (Biquad ℝ)}
    (hr : ∀ i, ∀ f ∈ fs i, f.AtRest) (hs : ∀ i, ∀ f ∈ fs i, f.stability = true) {α : ι → ℝ}
    (h : ∀ w : ℝ, 0 < w → w < Real.pi → ∃ g : ι → ℝ, (∀ i, ChainGainAt (fs i) w (g i)) ∧
      ∑ i, α i * g i ^ 2 = 1) {x : ℕ → ℝ} {N : ℕ} (hx : ∀ n, N ≤ n → x n = 0) :
    Filter.Tendsto (fun M => ∑ i, α i * ∑ n ∈ range M, SteadyL.chain (fs i) x n ^ 2)
      Filter.atTop (nhds (∑ n ∈ range N, x n ^ 2)) := by
  obtain ⟨C, hC⟩ := finite_decay x hx
  set L := (univ : Finset ι).toList.flatMap fs with hL
  have hsL : ∀ f ∈ L, f.stability = true := by
    intro f hf
    obtain ⟨i, -, hi⟩ := List.mem_flatMap.mp hf
    exact hs i f hi
  have hden : denC L = ∏ i, denC (fs i) := by
    rw [hL, denC_flat]
    exact Finset.prod_map_toList _ _
  obtain ⟨D, ρ, h0, h1, hv⟩ := chain_decay _ (allPole_stable hsL) x (by norm_num) (by norm_num) hC
  have hV := allPole_series L x
  have hco : ∀ i, denC L = denC (fs i) * ∏ j ∈ univ.erase i, denC (fs j) := by
    intro i
    rw [hden, mul_prod_erase univ (fun i => denC (fs i)) (mem_univ i)]
  have key := series_split univ (α := α) (p := fun i => numC (fs i) * ∏ j ∈ univ.erase i, denC (fs j))
    (q := denC L) (circle_eq univ (fun w hw0 hw1 => by
      obtain ⟨g, hg, e⟩ := h w hw0 hw1
      rw [← one_mul (‖_‖ ^ 2), ← e, sum_mul]
      refine sum_congr rfl fun i _ => ?_
      obtain ⟨t, ht, hn⟩ := hg i
      rw [hco i, map_mul, map_mul, transfer_poly _ ht, norm_mul, norm_mul, norm_mul, hn]
      ring)) h0 h1 hv
  set V := PowerSeries.mk (SteadyL.chain (L.map allPole) x) with hVd
  have e1 : ∀ i, ((numC (fs i) * ∏ j ∈ univ.erase i, denC (fs j) : Polynomial ℝ) : PowerSeries ℝ) * V =
      PowerSeries.mk (SteadyL.chain (fs i) x) := by
    intro i
    refine mul_left_cancel₀ (denC_ne_zero (fs i)) ?_
    rw [chain_series (fs i) (hr i) x, ← hV, hco i, Polynomial.coe_mul, Polynomial.coe_mul]; ring
  simp only [e1, hV, PowerSeries.coeff_mk] at key
  have hk := key.add_const (∑ n ∈ range N, x n ^ 2)
  rw [zero_add] at hk
  refine hk.congr' ?_
  filter_upwards [Filter.eventually_ge_atTop N] with M hM
  have : ∑ n ∈ range N, x n ^ 2 = ∑ n ∈ range M, x n ^ 2 := by
    refine sum_subset (range_mono hM) fun n _ hn => ?_
    rw [mem_range, not_lt] at hn
    rw [hx n hn]; norm_num
  rw [this]; ring

end Edsp.EnergyL
