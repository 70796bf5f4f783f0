import Verif.Lemmas.EnergyChain
import Verif.Lemmas.Chebyshev
import Verif.Lemmas.Steady
import Mathlib.Algebra.Polynomial.Roots

/-!
# Sections that cancel each other
-/

namespace Edsp.UndoL

open Edsp.Spec Edsp.EnergyL Edsp.LayoutL Edsp.BilinearL Edsp.AnalogL

theorem denC_append (fs gs : List (Biquad ℝ)) : denC (fs ++ gs) = denC fs * denC gs := by simp [denC]
theorem numC_append (fs gs : List (Biquad ℝ)) : numC (fs ++ gs) = numC fs * numC gs := by simp [numC]

theorem through_append (fs gs : List (Biquad ℝ)) (xs : List ℝ) :
    (through (fs ++ gs) xs).2 = (through gs (through fs xs).2).2 := by
  induction fs generalizing xs with
  | nil => rfl
  | cons f fs ih => exact ih _

theorem through_out (fs : List (Biquad ℝ)) (xs : List ℝ) :
    (through fs xs).2 = (List.range xs.length).map (SteadyL.chain fs fun n => xs.getD n 0) := by
  conv_lhs => rw [range_of_list xs]
  exact SteadyL.through_range _ _ _

/-- Numerators that multiply to the denominators: the output is the input. -/
theorem same_of_poly {fs : List (Biquad ℝ)} (hr : ∀ f ∈ fs, f.AtRest) (h : numC fs = denC fs) (xs : List ℝ) :
    (through fs xs).2 = xs := by
  have hs := chain_series fs hr fun n => xs.getD n 0
  rw [h] at hs
  have := mul_left_cancel₀ (denC_ne_zero fs) hs
  rw [through_out]
  conv_rhs => rw [range_of_list xs]
  refine List.map_congr_left fun n _ => ?_
  simpa using congrArg (fun p => PowerSeries.coeff n p) this

/-- The first sample of the response to an impulse. -/
theorem denC_coeff_zero (fs : List (Biquad ℝ)) : (denC fs).coeff 0 = 1 := by
  induction fs with
  | nil => simp [denC]
  | cons f fs ih =>
    have ed : denC (f :: fs) = denP f * denC fs := by simp [denC]
    rw [ed, Polynomial.mul_coeff_zero, ih]
    simp [denP]

theorem first_sample {fs : List (Biquad ℝ)} (hr : ∀ f ∈ fs, f.AtRest) (x : ℝ) (xs : List ℝ) :
    (through fs (x :: xs)).2.head? = some ((numC fs).coeff 0 * x) := by
  have hs := chain_series fs hr fun n => (x :: xs).getD n 0
  have h0 := congrArg (fun p => PowerSeries.constantCoeff p) hs
  simp only [map_mul, Polynomial.constantCoeff_coe, denC_coeff_zero, one_mul] at h0
  simp only [← PowerSeries.coeff_zero_eq_constantCoeff_apply, PowerSeries.coeff_mk] at h0
  have e0 : (x :: xs).getD 0 0 = x := rfl
  rw [e0] at h0
  rw [through_out, List.length_cons, List.range_succ_eq_map]
  simp only [List.map_cons, List.head?_cons, h0]

/-- The output is the input only if the numerators multiply to the denominators. -/
theorem poly_of_same {fs : List (Biquad ℝ)} (hr : ∀ f ∈ fs, f.AtRest) (h : ∀ xs, (through fs xs).2 = xs) :
    numC fs = denC fs := by
  have hs := chain_series fs hr fun n => if n = 0 then (1 : ℝ) else 0
  have hc : SteadyL.chain fs (fun n => if n = 0 then (1 : ℝ) else 0) = fun n => if n = 0 then (1 : ℝ) else 0 := by
    funext n
    have := h ((List.range (n + 1)).map fun n => if n = 0 then (1 : ℝ) else 0)
    rw [SteadyL.through_range] at this
    have := congrArg (fun l => l[n]?) this
    simpa using this
  rw [hc] at hs
  have e1 : PowerSeries.mk (fun n => if n = 0 then (1 : ℝ) else 0) = 1 := by
    ext n; simp [PowerSeries.coeff_one]
  rw [e1, mul_one, mul_one] at hs
  exact (Polynomial.coe_injective ℝ hs).symm

/-- Two real polynomials that agree at all points `e^{-iw}`, `0 < w < π`, are equal. -/
theorem poly_eq_of_circle {p q : Polynomial ℝ}
    (h : ∀ w : ℝ, 0 < w → w < Real.pi →
      Polynomial.aeval (Complex.exp (w * Complex.I))⁻¹ p = Polynomial.aeval (Complex.exp (w * Complex.I))⁻¹ q) :
    p = q := by
  have hz : ∀ z : ℂ, ‖z‖ = 1 → Polynomial.aeval z (p - q) = 0 := by
    intro z hz
    have := circle_of_upper (p := p - q) (q := 0) (G := 0) (fun w h0 h1 => by
      rw [map_sub, h w h0 h1]; simp) z hz
    simpa using this
  have hm : (p - q).map (algebraMap ℝ ℂ) = 0 := by
    refine Polynomial.eq_zero_of_infinite_isRoot _ (Set.Infinite.mono ?_
      (Set.infinite_of_injective_forall_mem (f := fun n : ℕ => Complex.exp (((1 : ℝ) / (n + 1) : ℝ) * Complex.I))
        (s := {z : ℂ | ‖z‖ = 1}) ?_ fun n => Complex.norm_exp_ofReal_mul_I _))
    · intro z hz'
      show Polynomial.IsRoot _ _
      rw [Polynomial.IsRoot, Polynomial.eval_map_algebraMap]
      exact hz z hz'
    · intro a b hab
      have hpi := Real.two_le_pi
      have hb : ∀ n : ℕ, 0 < (1 : ℝ) / (n + 1) ∧ (1 : ℝ) / (n + 1) ≤ 1 := fun n =>
        ⟨by positivity, by rw [div_le_one (by positivity)]; linarith [(Nat.cast_nonneg n : (0 : ℝ) ≤ n)]⟩
      have := congrArg Complex.arg hab
      simp only [Complex.arg_exp_mul_I] at this
      rw [(toIocMod_eq_self Real.two_pi_pos).mpr ⟨by linarith [(hb a).1], by linarith [(hb a).2]⟩,
        (toIocMod_eq_self Real.two_pi_pos).mpr ⟨by linarith [(hb b).1], by linarith [(hb b).2]⟩] at this
      rw [div_eq_div_iff (by positivity) (by positivity)] at this
      have : (a : ℝ) = b := by linarith
      exact_mod_cast this
  exact sub_eq_zero.mp ((Polynomial.map_eq_zero_iff (algebraMap ℝ ℂ).injective).mp hm)

theorem same_of_transfer {fs : List (Biquad ℝ)} (hr : ∀ f ∈ fs, f.AtRest)
    (h : ∀ w : ℝ, 0 < w → w < Real.pi → ChainTransferAt fs (Complex.exp (w * Complex.I)) 1) (xs : List ℝ) :
    (through fs xs).2 = xs := by
  refine same_of_poly hr (poly_eq_of_circle fun w h0 h1 => ?_) xs
  rw [transfer_poly fs (h w h0 h1), one_mul]

theorem aeval_denC_ne_zero {fs : List (Biquad ℝ)} (hs : ∀ f ∈ fs, f.stability = true) {u : ℂ} (hu : ‖u‖ = 1) :
    Polynomial.aeval u⁻¹ (denC fs) ≠ 0 := by
  induction fs with
  | nil => simp [denC]
  | cons f fs ih =>
    have ed : denC (f :: fs) = denP f * denC fs := by simp [denC]
    rw [ed, map_mul, aeval_denP]
    exact mul_ne_zero (Response.denAt_ne_zero (hs f (by simp)) hu) (ih fun g hg => hs g (by simp [hg]))

theorem transfer_append {fs gs : List (Biquad ℝ)} {u h k : ℂ} (h1 : ChainTransferAt fs u h)
    (h2 : ChainTransferAt gs u k) : ChainTransferAt (fs ++ gs) u (h * k) := by
  induction fs generalizing h with
  | nil =>
    have : h = 1 := h1
    subst this
    rw [one_mul]
    exact h2
  | cons f fs ih =>
    obtain ⟨a, b, t1, t2, rfl⟩ := h1
    exact ⟨a, b * k, t1, ih t2, by ring⟩

/-! ## Scaled chains -/

theorem numC_scaled (f : Biquad ℝ) (fs : List (Biquad ℝ)) (k : ℝ) :
    numC (applyScale f k :: fs) = Polynomial.C k * numC (f :: fs) := by
  have : numP (applyScale f k) = Polynomial.C k * numP f := by
    rw [applyScale_eq]; simp only [numP, map_mul]; ring
  simp only [numC, List.map_cons, List.prod_cons, this]
  ring

theorem denC_scaled (f : Biquad ℝ) (fs : List (Biquad ℝ)) (k : ℝ) :
    denC (applyScale f k :: fs) = denC (f :: fs) := by
  have : denP (applyScale f k) = denP f := by rw [applyScale_eq]; rfl
  simp only [denC, List.map_cons, List.prod_cons, this]

/-! ## The sections of a Butterworth shelf -/

/-- Angle of the `k`-th pair of order `n`. -/
noncomputable def theta (n k : ℕ) : ℝ := Real.pi * (1 / 2 - (2 * ((k : ℝ) + 1) - 1) / (n * 2 : ℕ))

noncomputable def pairs (f σ : ℝ) (n : ℕ) (g : ℝ) : List (Biquad ℝ) :=
  (List.range (n / 2)).map fun k => secConj (σ * lp f (some (polar (-(1 / g)) (theta n k))),
    σ * lp f (Pt.conj (some (polar (-g) (theta n k)))))

noncomputable def single (f σ : ℝ) (n : ℕ) (g : ℝ) : List (Biquad ℝ) :=
  (oddSingle n (-(1 / g)) (some (-g))).toList.map fun q =>
    secSingle (σ * lp f (some (q.1 : ℂ)), σ * lp f (q.2.map Complex.ofReal))

theorem conj_num (σ : ℝ) (p q : ℂ) (z : ℂ) (f : ℝ) :
    numP (secConj (p, σ * lp f (Pt.conj (some z)))) = denP (secConj (σ * lp f (some z), q)) := by
  rw [lp_conj]
  simp only [numP, denP, secConj, Complex.re_ofReal_mul, Complex.im_ofReal_mul, Complex.conj_re, Complex.conj_im]
  rw [show σ * -(lp f (some z)).im * (σ * -(lp f (some z)).im) = σ * (lp f (some z)).im * (σ * (lp f (some z)).im) by ring]

theorem pairs_num (f σ : ℝ) (n : ℕ) {g g' : ℝ} (hg : g' = 1 / g) : numC (pairs f σ n g) = denC (pairs f σ n g') := by
  have : 1 / g' = g := by rw [hg, one_div_one_div]
  unfold numC denC pairs
  rw [List.map_map, List.map_map]
  congr 1
  refine List.map_congr_left fun k _ => ?_
  simp only [Function.comp]
  rw [this]
  exact conj_num _ _ _ _ _

theorem pairs_den (f σ : ℝ) (n : ℕ) {g g' : ℝ} (hg : g' = 1 / g) : numC (pairs f σ n g') = denC (pairs f σ n g) :=
  pairs_num f σ n (by rw [hg, one_div_one_div])

theorem single_even {f σ : ℝ} {n : ℕ} (h : n % 2 = 0) (g : ℝ) : single f σ n g = [] := by
  unfold single oddSingle
  rw [if_neg (by omega)]
  rfl

theorem single_odd {f σ : ℝ} {n : ℕ} (h : n % 2 = 1) (g : ℝ) : single f σ n g =
    [secSingle (σ * lp f (some ((-(1 / g) : ℝ) : ℂ)), σ * lp f (some ((-g : ℝ) : ℂ)))] := by
  unfold single oddSingle
  rw [if_pos h]
  rfl

/-- At `u = ±1` the reversed numerator has the value of the denominator of the opposite section, up to sign. -/
theorem single_eval {f σ : ℝ} {n : ℕ} (h : n % 2 = 1) {g g' : ℝ} (hg : g' = 1 / g) {u : ℝ} (hu : u * u = 1) :
    (numC (single f σ n g)).eval u = u * (denC (single f σ n g')).eval u := by
  have e : 1 / g' = g := by rw [hg, one_div_one_div]
  rw [single_odd h, single_odd h]
  simp only [numC, denC, List.map_cons, List.map_nil, List.prod_cons, List.prod_nil, mul_one, numP, denP, secSingle, e]
  simp
  linear_combination (-σ * (lp f (some (-(g : ℂ)))).re) * (-hu)

theorem single_first {f σ : ℝ} {n : ℕ} (h : n % 2 = 1) (g : ℝ) :
    (numC (single f σ n g)).coeff 0 = -(σ * (lp f (some ((-g : ℝ) : ℂ))).re) := by
  rw [single_odd h]
  simp [numC, numP, secSingle]

theorem pairs_first (f σ : ℝ) (n : ℕ) (g : ℝ) : (numC (pairs f σ n g)).coeff 0 = 1 := by
  rw [pairs_num f σ n rfl, denC_coeff_zero]

theorem single_small {f σ : ℝ} (hf : 0 < f) (hσ : σ = 1 ∨ σ = -1) {g : ℝ} (hg : 0 < g) :
    |σ * (lp f (some ((-g : ℝ) : ℂ))).re| < 1 := by
  have h1 := lp_norm_lt hf (c := ((-g : ℝ) : ℂ)) (by simpa using hg)
  have h2 := (Complex.abs_re_le_norm (lp f (some ((-g : ℝ) : ℂ)))).trans_lt h1
  rcases hσ with rfl | rfl
  · simpa using h2
  · simpa using h2

/-- What both shelves are made of: `f` and `σ` depend on the cutoff only. -/
structure Made (f σ : ℝ) (n : ℕ) (gainDb : ℝ) (u : ℝ) (c : Cascade ℝ) : Prop where
  rest : ∀ s ∈ active c, s.AtRest
  parts : ∃ κ g g0 gs, 0 ≤ κ ∧ 0 < g ∧ g ^ (2 * n) = (10 : ℝ) ^ (gainDb / 20) ∧
    pairs f σ n g ++ single f σ n g = g0 :: gs ∧ active c = applyScale g0 κ :: gs
  one : ∃ h, ChainTransferAt (active c) (u : ℂ) h ∧ ‖h‖ = 1
  stable : ∀ s ∈ active c, s.stability = true

theorem parts_rest {f σ : ℝ} {n : ℕ} {g κ : ℝ} {g0 : Biquad ℝ} {gs : List (Biquad ℝ)}
    (h : pairs f σ n g ++ single f σ n g = g0 :: gs) : ∀ s ∈ applyScale g0 κ :: gs, s.AtRest := by
  have hall : ∀ s ∈ g0 :: gs, s.AtRest := by
    rw [← h]
    intro s hs
    rcases List.mem_append.mp hs with hs | hs
    · obtain ⟨k, -, rfl⟩ := List.mem_map.mp hs; exact ⟨rfl, rfl⟩
    · obtain ⟨k, -, rfl⟩ := List.mem_map.mp hs; exact ⟨rfl, rfl⟩
  intro s hs
  rcases List.mem_cons.mp hs with rfl | hs
  · rw [applyScale_eq]; exact ⟨rfl, rfl⟩
  · exact hall s (by simp [hs])

theorem low_made (dbg : Bool) {N n : Nat} (hn : 1 ≤ n) (hN : n ≤ N) {fs fc : ℝ} (h0 : 0 < fc) (h1 : fc < fs / 2)
    (gainDb : ℝ) : ∃ c, Butterworth.lowShelf dbg N n fs fc gainDb = .ok c ∧
      Made (Real.tan (Real.pi * (fc / fs))) 1 n gainDb (-1) c := by
  have hpi := Real.pi_pos
  have hfs : 0 < fs := by linarith
  have e : fdiv fc fs = .ok (fc / fs) := by unfold fdiv; rw [if_neg hfs.ne']
  have hf0 : 0 < fc / fs := by positivity
  have hf1 : fc / fs < 1 / 2 := by rw [div_lt_iff₀ hfs]; linarith
  obtain ⟨a, g, hg, hgp, ha, haw, hag, hold⟩ := shelf_analog hn hN dbg gainDb
  have hlen := oddSingle_len n (-(1 / g)) (some (-g))
  have hgi : 0 < 1 / g := one_div_pos.mpr hg
  have hlt : Real.pi * (fc / fs) < Real.pi / 2 := by nlinarith
  have hf : 0 < Real.tan (Real.pi * (fc / fs)) := Real.tan_pos_of_pos_of_lt_pi_div_two (by positivity) hlt
  have hct : ctan (Real.pi * (fc / fs)) = .ok (Real.tan (Real.pi * (fc / fs))) := by
    unfold ctan
    have : Real.cos (Real.pi * (fc / fs)) ≠ 0 := (Real.cos_pos_of_mem_Ioo ⟨by nlinarith, hlt⟩).ne'
    simp [this, Real.tan_eq_sin_div_cos]
  set f := Real.tan (Real.pi * (fc / fs)) with hfd
  have hP := fun k (hk : k < n / 2) => polar_lhp hgi (shelf_theta hk).1 (shelf_theta hk).2
  have hZ : ∀ k < n / 2, ∀ c, (some (polar (-g) (Real.pi * (1 / 2 - (2 * ((k : ℝ) + 1) - 1) / (n * 2 : ℕ)))) : Pt) = some c →
      c.re ≤ 0 := by
    intro k hk c hc
    injection hc with hc
    rw [← hc]
    exact (polar_lhp hg (shelf_theta hk).1 (shelf_theta hk).2).1.le
  have hs := oddSingle_neg (n := n) (r := -(1 / g)) (z := some (-g)) (by linarith)
    (by intro c hc; injection hc with hc; linarith)
  obtain ⟨K, hK, hK1, hK2⟩ := M_eq (fun k hk => (hP k hk).1) hf (fun k hk => reg_of hf (hZ k hk)) (reg_single hf hs)
  have hw0 : M f (n / 2)
      (fun k : ℕ => polar (-(1 / g)) (Real.pi * (1 / 2 - (2 * ((k : ℝ) + 1) - 1) / (n * 2 : ℕ))))
      (fun k : ℕ => some (polar (-g) (Real.pi * (1 / 2 - (2 * ((k : ℝ) + 1) - 1) / (n * 2 : ℕ)))))
      (oddSingle n (-(1 / g)) (some (-g))) (((1 : ℝ) : ℂ) * Complex.exp (a.w * Complex.I)) = K := by
    rw [haw, Complex.exp_pi_mul_I, Complex.ofReal_one, one_mul, hK2, MI_finite, mul_one]
  obtain ⟨d, c, e1, e2, e3, e4, ⟨κ, g0, gs, k1, k2, k3⟩, e5⟩ := design_struct hold (by omega) (by omega) hP hf
    (fun k hk => reg_of hf (hZ k hk)) (reg_single hf hs) (σ := 1) (Or.inl rfl)
    (lpMap f) (fun q hq => by rw [lpMap_reg hq]; simp) a.w (by rw [hag]; norm_num) dbg
    (by rw [hw0]; exact hK.ne')
  refine ⟨c, ?_, ?_⟩
  · unfold Butterworth.lowShelf lowPassTransform
    rw [e, ha]
    simp only [bind, Except.bind]
    rw [hct]
    simp only [e1, e2]
  · have hrest := parts_rest (κ := κ) (f := f) (σ := 1) (n := n) (g := g) k2
    refine ⟨by rw [k3]; exact hrest, ⟨κ, g, g0, gs, k1, hg, hgp, k2, k3⟩, ?_, e4⟩
    obtain ⟨h, t1, t2⟩ := e5 Real.pi
    rw [Complex.exp_pi_mul_I] at t1 t2
    refine ⟨h, by simpa using t1, ?_⟩
    rw [t2, hw0, hag, Complex.ofReal_one, one_mul, one_mul, hK2, MI_finite, mul_one, div_self hK.ne']

theorem high_made (dbg : Bool) {N n : Nat} (hn : 1 ≤ n) (hN : n ≤ N) {fs fc : ℝ} (h0 : 0 < fc) (h1 : fc < fs / 2)
    (gainDb : ℝ) : ∃ c, Butterworth.highShelf dbg N n fs fc gainDb = .ok c ∧
      Made (1 / Real.tan (Real.pi * (fc / fs))) (-1) n gainDb 1 c := by
  have hpi := Real.pi_pos
  have hfs : 0 < fs := by linarith
  have e : fdiv fc fs = .ok (fc / fs) := by unfold fdiv; rw [if_neg hfs.ne']
  have hf0 : 0 < fc / fs := by positivity
  have hf1 : fc / fs < 1 / 2 := by rw [div_lt_iff₀ hfs]; linarith
  obtain ⟨a, g, hg, hgp, ha, haw, hag, hold⟩ := shelf_analog hn hN dbg gainDb
  have hlen := oddSingle_len n (-(1 / g)) (some (-g))
  have hgi : 0 < 1 / g := one_div_pos.mpr hg
  have hlt : Real.pi * (fc / fs) < Real.pi / 2 := by nlinarith
  have hft : 0 < Real.tan (Real.pi * (fc / fs)) := Real.tan_pos_of_pos_of_lt_pi_div_two (by positivity) hlt
  have hct : ctan (Real.pi * (fc / fs)) = .ok (Real.tan (Real.pi * (fc / fs))) := by
    unfold ctan
    have : Real.cos (Real.pi * (fc / fs)) ≠ 0 := (Real.cos_pos_of_mem_Ioo ⟨by nlinarith, hlt⟩).ne'
    simp [this, Real.tan_eq_sin_div_cos]
  have hdv : fdiv 1 (Real.tan (Real.pi * (fc / fs))) = .ok (1 / Real.tan (Real.pi * (fc / fs))) := by
    unfold fdiv; rw [if_neg hft.ne']
  have hf : 0 < 1 / Real.tan (Real.pi * (fc / fs)) := by positivity
  set f := 1 / Real.tan (Real.pi * (fc / fs)) with hfd
  have hP := fun k (hk : k < n / 2) => polar_lhp hgi (shelf_theta hk).1 (shelf_theta hk).2
  have hZ : ∀ k < n / 2, ∀ c, (some (polar (-g) (Real.pi * (1 / 2 - (2 * ((k : ℝ) + 1) - 1) / (n * 2 : ℕ)))) : Pt) = some c →
      c.re ≤ 0 := by
    intro k hk c hc
    injection hc with hc
    rw [← hc]
    exact (polar_lhp hg (shelf_theta hk).1 (shelf_theta hk).2).1.le
  have hs := oddSingle_neg (n := n) (r := -(1 / g)) (z := some (-g)) (by linarith)
    (by intro c hc; injection hc with hc; linarith)
  obtain ⟨K, hK, hK1, hK2⟩ := M_eq (fun k hk => (hP k hk).1) hf (fun k hk => reg_of hf (hZ k hk)) (reg_single hf hs)
  have hw0 : M f (n / 2)
      (fun k : ℕ => polar (-(1 / g)) (Real.pi * (1 / 2 - (2 * ((k : ℝ) + 1) - 1) / (n * 2 : ℕ))))
      (fun k : ℕ => some (polar (-g) (Real.pi * (1 / 2 - (2 * ((k : ℝ) + 1) - 1) / (n * 2 : ℕ)))))
      (oddSingle n (-(1 / g)) (some (-g))) (((-1 : ℝ) : ℂ) * Complex.exp ((Real.pi - a.w : ℝ) * Complex.I)) = K := by
    rw [haw, sub_self, Complex.ofReal_zero, zero_mul, Complex.exp_zero, mul_one, Complex.ofReal_neg,
      Complex.ofReal_one, hK2, MI_finite, mul_one]
  obtain ⟨d, c, e1, e2, e3, e4, ⟨κ, g0, gs, k1, k2, k3⟩, e5⟩ := design_struct hold (by omega) (by omega) hP hf
    (fun k hk => reg_of hf (hZ k hk)) (reg_single hf hs) (σ := -1) (Or.inr rfl)
    (hpMap f) (fun q hq => by rw [hpMap_reg hq]; simp) (Real.pi - a.w) (by rw [hag]; norm_num) dbg
    (by rw [hw0]; exact hK.ne')
  refine ⟨c, ?_, ?_⟩
  · unfold Butterworth.highShelf highPassTransform
    rw [e, ha]
    simp only [bind, Except.bind]
    rw [hct]
    simp only [hdv, e1, e2]
  · have hrest := parts_rest (κ := κ) (f := f) (σ := -1) (n := n) (g := g) k2
    refine ⟨by rw [k3]; exact hrest, ⟨κ, g, g0, gs, k1, hg, hgp, k2, k3⟩, ?_, e4⟩
    obtain ⟨h, t1, t2⟩ := e5 0
    rw [Complex.ofReal_zero, zero_mul, Complex.exp_zero] at t1 t2
    refine ⟨h, by simpa using t1, ?_⟩
    rw [t2, hw0, hag, Complex.ofReal_neg, Complex.ofReal_one, one_mul, mul_one, hK2, MI_finite, mul_one,
      div_self hK.ne']

theorem even_undone {f σ u : ℝ} {n : ℕ} (hn : n ≠ 0) (he : n % 2 = 0) (hu : u * u = 1) {G : ℝ} {c c' : Cascade ℝ}
    (h : Made f σ n G u c) (h' : Made f σ n (-G) u c') :
    numC (active c ++ active c') = denC (active c ++ active c') := by
  obtain ⟨κ, g, g0, gs, k1, k2, k3, k4, k5⟩ := h.parts
  obtain ⟨κ', g', g0', gs', k1', k2', k3', k4', k5'⟩ := h'.parts
  have hg : g' = 1 / g := by
    refine (pow_left_inj₀ k2'.le (by positivity) (by omega : 2 * n ≠ 0)).mp ?_
    rw [k3', one_div_pow, k3, neg_div, Real.rpow_neg (by norm_num), one_div]
  rw [single_even he, List.append_nil] at k4 k4'
  have hnum : numC (active c) = Polynomial.C κ * denC (active c') := by
    rw [k5, k5', numC_scaled, denC_scaled, ← k4, ← k4', pairs_num f σ n hg]
  have hnum' : numC (active c') = Polynomial.C κ' * denC (active c) := by
    rw [k5, k5', numC_scaled, denC_scaled, ← k4, ← k4', pairs_den f σ n hg]
  have hun : ‖(u : ℂ)‖ = 1 := by
    rw [Complex.norm_real, Real.norm_eq_abs, ← sq_eq_sq₀ (abs_nonneg u) zero_le_one, sq_abs]; linarith
  obtain ⟨t, t1, t2⟩ := h.one
  obtain ⟨t', t1', t2'⟩ := h'.one
  have p := transfer_poly _ t1
  have p' := transfer_poly _ t1'
  rw [hnum, map_mul, Polynomial.aeval_C] at p
  rw [hnum', map_mul, Polynomial.aeval_C] at p'
  have d := aeval_denC_ne_zero h.stable hun
  have d' := aeval_denC_ne_zero h'.stable hun
  have hk : κ * κ' = 1 := by
    have : (κ : ℂ) * κ' = t * t' := by
      have := congrArg₂ (· * ·) p p'
      refine mul_right_cancel₀ (mul_ne_zero d d') ?_
      linear_combination this
    have := congrArg norm this
    rw [norm_mul, norm_mul, t2, t2', Complex.norm_real, Complex.norm_real, Real.norm_of_nonneg k1,
      Real.norm_of_nonneg k1', mul_one] at this
    exact this
  rw [numC_append, denC_append, hnum, hnum']
  have : Polynomial.C κ * Polynomial.C κ' = (1 : Polynomial ℝ) := by
    rw [← map_mul, hk, map_one]
  linear_combination (denC (active c) * denC (active c')) * this

theorem even_flat {f σ u : ℝ} {n : ℕ} (hn : n ≠ 0) (he : n % 2 = 0) (hu : u * u = 1) {c : Cascade ℝ}
    (h : Made f σ n 0 u c) : numC (active c) = denC (active c) := by
  obtain ⟨κ, g, g0, gs, k1, k2, k3, k4, k5⟩ := h.parts
  have hg : g = 1 := by
    refine (pow_left_inj₀ k2.le zero_le_one (by omega : 2 * n ≠ 0)).mp ?_
    rw [k3, zero_div, Real.rpow_zero, one_pow]
  rw [single_even he, List.append_nil] at k4
  have hnum : numC (active c) = Polynomial.C κ * denC (active c) := by
    rw [k5, numC_scaled, denC_scaled, ← k4, pairs_num f σ n (g' := g) (by rw [hg]; norm_num)]
  have hun : ‖(u : ℂ)‖ = 1 := by
    rw [Complex.norm_real, Real.norm_eq_abs, ← sq_eq_sq₀ (abs_nonneg u) zero_le_one, sq_abs]; linarith
  obtain ⟨t, t1, t2⟩ := h.one
  have p := transfer_poly _ t1
  rw [hnum, map_mul, Polynomial.aeval_C] at p
  have hk : κ = 1 := by
    have := congrArg norm (mul_right_cancel₀ (aeval_denC_ne_zero h.stable hun) p)
    rw [t2, Complex.coe_algebraMap, Complex.norm_real, Real.norm_of_nonneg k1] at this
    exact this
  rw [hnum, hk, map_one, one_mul]

theorem aeval_real (p : Polynomial ℝ) {u : ℝ} (hu : u * u = 1) :
    Polynomial.aeval (u : ℂ)⁻¹ p = ((p.eval u : ℝ) : ℂ) := by
  have hi : (u : ℂ)⁻¹ = (u : ℂ) := by
    rw [← Complex.ofReal_inv]
    congr 1
    exact (eq_inv_of_mul_eq_one_left hu).symm
  rw [hi]
  exact Polynomial.aeval_algebraMap_apply_eq_algebraMap_eval u p

theorem odd_eval {f σ u : ℝ} {n : ℕ} (ho : n % 2 = 1) (hu : u * u = 1) {g g' κ κ' : ℝ} (hg : g' = 1 / g)
    {g0 g0' : Biquad ℝ} {gs gs' : List (Biquad ℝ)} (h : pairs f σ n g ++ single f σ n g = g0 :: gs)
    (h' : pairs f σ n g' ++ single f σ n g' = g0' :: gs') :
    (numC (applyScale g0 κ :: gs)).eval u = κ * u * (denC (applyScale g0' κ' :: gs')).eval u := by
  rw [numC_scaled, denC_scaled, ← h, ← h', numC_append, denC_append, pairs_num f σ n hg]
  simp only [Polynomial.eval_mul, Polynomial.eval_C, single_eval ho hg hu]
  ring

theorem odd_undone {f σ u : ℝ} (hf : 0 < f) (hσ : σ = 1 ∨ σ = -1) {n : ℕ} (ho : n % 2 = 1) (hu : u * u = 1) {G : ℝ}
    {c c' : Cascade ℝ} (h : Made f σ n G u c) (h' : Made f σ n (-G) u c') :
    |(numC (active c ++ active c')).coeff 0| < 1 := by
  obtain ⟨κ, g, g0, gs, k1, k2, k3, k4, k5⟩ := h.parts
  obtain ⟨κ', g', g0', gs', k1', k2', k3', k4', k5'⟩ := h'.parts
  have hg : g' = 1 / g := by
    refine (pow_left_inj₀ k2'.le (by positivity) (by omega : 2 * n ≠ 0)).mp ?_
    rw [k3', one_div_pow, k3, neg_div, Real.rpow_neg (by norm_num), one_div]
  have hg' : g = 1 / g' := by rw [hg, one_div_one_div]
  have hun : ‖(u : ℂ)‖ = 1 := by
    rw [Complex.norm_real, Real.norm_eq_abs, ← sq_eq_sq₀ (abs_nonneg u) zero_le_one, sq_abs]; linarith
  have e1 : (numC (active c)).eval u = κ * u * (denC (active c')).eval u := by
    rw [k5, k5']; exact odd_eval ho hu hg k4 k4'
  have e2 : (numC (active c')).eval u = κ' * u * (denC (active c)).eval u := by
    rw [k5, k5']; exact odd_eval ho hu hg' k4' k4
  obtain ⟨t, t1, t2⟩ := h.one
  obtain ⟨t', t1', t2'⟩ := h'.one
  have p := transfer_poly _ t1
  have p' := transfer_poly _ t1'
  have d := aeval_denC_ne_zero h.stable hun
  have d' := aeval_denC_ne_zero h'.stable hun
  rw [aeval_real _ hu] at d d'
  rw [aeval_real _ hu, aeval_real _ hu, e1] at p
  rw [aeval_real _ hu, aeval_real _ hu, e2] at p'
  push_cast at p p'
  have huc : (u : ℂ) * u = 1 := by exact_mod_cast hu
  have hk : κ * κ' = 1 := by
    have : (κ : ℂ) * κ' = t * t' := by
      have := congrArg₂ (· * ·) p p'
      refine mul_right_cancel₀ (mul_ne_zero d d') ?_
      linear_combination this - (κ : ℂ) * κ' * ((denC (active c)).eval u : ℝ) * ((denC (active c')).eval u : ℝ) * huc
    have := congrArg norm this
    rw [norm_mul, norm_mul, t2, t2', Complex.norm_real, Complex.norm_real, Real.norm_of_nonneg k1,
      Real.norm_of_nonneg k1', mul_one] at this
    exact this
  have q1 := single_small hf hσ k2
  have q2 := single_small hf hσ k2'
  have hc : (numC (active c ++ active c')).coeff 0 =
      κ * κ' * ((σ * (lp f (some ((-g : ℝ) : ℂ))).re) * (σ * (lp f (some ((-g' : ℝ) : ℂ))).re)) := by
    rw [numC_append, k5, k5', numC_scaled, numC_scaled, ← k4, ← k4', numC_append, numC_append]
    simp only [Polynomial.mul_coeff_zero, Polynomial.coeff_C_zero, pairs_first, single_first ho]
    ring
  rw [hc, hk, one_mul, abs_mul]
  exact mul_lt_one_of_nonneg_of_lt_one_left (abs_nonneg _) q1 q2.le

theorem odd_flat {f σ u : ℝ} (hf : 0 < f) (hσ : σ = 1 ∨ σ = -1) {n : ℕ} (ho : n % 2 = 1) (hu : u * u = 1)
    {c : Cascade ℝ} (h : Made f σ n 0 u c) : |(numC (active c)).coeff 0| < 1 := by
  obtain ⟨κ, g, g0, gs, k1, k2, k3, k4, k5⟩ := h.parts
  have hg : g = 1 := by
    refine (pow_left_inj₀ k2.le zero_le_one (by omega : 2 * n ≠ 0)).mp ?_
    rw [k3, zero_div, Real.rpow_zero, one_pow]
  have hun : ‖(u : ℂ)‖ = 1 := by
    rw [Complex.norm_real, Real.norm_eq_abs, ← sq_eq_sq₀ (abs_nonneg u) zero_le_one, sq_abs]; linarith
  have e1 : (numC (active c)).eval u = κ * u * (denC (active c)).eval u := by
    rw [k5]; exact odd_eval ho hu (by rw [hg]; norm_num) k4 k4
  obtain ⟨t, t1, t2⟩ := h.one
  have p := transfer_poly _ t1
  have d := aeval_denC_ne_zero h.stable hun
  rw [aeval_real _ hu] at d
  rw [aeval_real _ hu, aeval_real _ hu, e1] at p
  push_cast at p
  have hk : κ = 1 := by
    have := congrArg norm (mul_right_cancel₀ d p)
    rw [t2, norm_mul, hun, Complex.norm_real, Real.norm_of_nonneg k1, mul_one] at this
    exact this
  have q1 := single_small hf hσ k2
  have hc : (numC (active c)).coeff 0 = κ * -(σ * (lp f (some ((-g : ℝ) : ℂ))).re) := by
    rw [k5, numC_scaled, ← k4, numC_append]
    simp only [Polynomial.mul_coeff_zero, Polynomial.coeff_C_zero, pairs_first, single_first ho]
    ring
  rw [hc, hk, one_mul, abs_neg]
  exact q1

end Edsp.UndoL
