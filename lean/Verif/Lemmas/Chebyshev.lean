import Verif.Lemmas.AnalogDesign
import Mathlib.Analysis.SpecialFunctions.Pow.Real

/-! Helper lemmas: Chebyshev prototypes and Butterworth shelves. -/

namespace Edsp.AnalogL

open Edsp Edsp.Spec Edsp.LayoutL Edsp.BilinearL Edsp.PoleProducts Finset

/-! ### Chebyshev I -/

theorem cq_parts (v : ℝ) (n k : Nat) :
    cq v n k = ((Real.cos ((2 * (k : ℝ) + 1) * Real.pi / (2 * n)) * Real.cosh v : ℝ) : ℂ) -
      ((Real.sin ((2 * (k : ℝ) + 1) * Real.pi / (2 * n)) * Real.sinh v : ℝ) : ℂ) * Complex.I := by
  unfold cq
  rw [Complex.cos_add_mul_I]
  push_cast
  ring

theorem cheb_angle {n : Nat} (hn : 0 < n) (k : Nat) :
    (2 * (k : ℝ) + 1 - n) * Real.pi / (n * 2 : ℕ) = (2 * (k : ℝ) + 1) * Real.pi / (2 * n) - Real.pi / 2 := by
  have : (n : ℝ) ≠ 0 := by exact_mod_cast hn.ne'
  push_cast
  field_simp

theorem cheb_pole {n : Nat} (hn : 0 < n) (v : ℝ) (k : Nat) :
    ChebyshevI.pole v n k = -Complex.I * cq v n k := by
  simp only [ChebyshevI.pole]
  rw [cheb_angle hn, Real.cos_sub_pi_div_two, Real.sin_sub_pi_div_two, cq_parts]
  generalize Real.cos ((2 * (k : ℝ) + 1) * Real.pi / (2 * n)) = c
  generalize Real.sin ((2 * (k : ℝ) + 1) * Real.pi / (2 * n)) = d
  generalize Real.sinh v = e
  generalize Real.cosh v = h
  apply Complex.ext <;> simp <;> ring

theorem cheb_pole_lhp {n k : Nat} (hk : k < n / 2) {v : ℝ} (hv : 0 < v) :
    (ChebyshevI.pole v n k).re < 0 ∧ (ChebyshevI.pole v n k).im ≠ 0 := by
  have hn : 0 < n := by omega
  obtain ⟨h1, h2⟩ := angle_lt hk
  have hpi := Real.pi_pos
  simp only [ChebyshevI.pole]
  rw [cheb_angle hn, Real.cos_sub_pi_div_two, Real.sin_sub_pi_div_two]
  have hs := Real.sin_pos_of_pos_of_lt_pi h1 (by linarith)
  have hc := Real.cos_pos_of_mem_Ioo (x := (2 * (k : ℝ) + 1) * Real.pi / (2 * n)) ⟨by linarith, h2⟩
  have hsh := Real.sinh_pos_iff.mpr hv
  have hch := Real.cosh_pos v
  refine ⟨?_, ?_⟩
  · show -Real.sinh v * _ < 0
    nlinarith [mul_pos hsh hs]
  · show Real.cosh v * -_ ≠ 0
    exact mul_ne_zero hch.ne' (neg_ne_zero.mpr hc.ne')

theorem cheb_dist {n k : Nat} (hk : k < n / 2) (v y : ℝ) :
    ‖Complex.I * (y : ℂ) - ChebyshevI.pole v n k‖ *
      ‖Complex.I * (y : ℂ) - (starRingEnd ℂ) (ChebyshevI.pole v n k)‖ =
      ‖(y : ℂ) + cq v n k‖ * ‖(y : ℂ) + cq v n (n - 1 - k)‖ := by
  rw [cheb_pole (by omega), map_mul, map_neg, Complex.conj_I, cq_neg_conj v n k (by omega)]
  have e1 : Complex.I * (y : ℂ) - -Complex.I * cq v n k = Complex.I * (y + cq v n k) := by ring
  have e2 : Complex.I * (y : ℂ) - - -Complex.I * (starRingEnd ℂ) (cq v n k) =
      Complex.I * (y + -(starRingEnd ℂ) (cq v n k)) := by ring
  rw [e1, e2, norm_mul, norm_mul, Complex.norm_I, one_mul, one_mul]

theorem cq_mid {n : Nat} (h : n % 2 = 1) (v : ℝ) :
    cq v n (n / 2) = -((Real.sinh v : ℝ) : ℂ) * Complex.I := by
  have hn : (n : ℝ) ≠ 0 := by
    have : n ≠ 0 := by omega
    exact_mod_cast this
  have h2 : 2 * ((n / 2 : ℕ) : ℝ) + 1 = n := by
    have : 2 * (n / 2) + 1 = n := by omega
    exact_mod_cast this
  rw [cq_parts, h2]
  have : (n : ℝ) * Real.pi / (2 * n) = Real.pi / 2 := by field_simp
  rw [this]
  simp

/-- The product of the distances to the Chebyshev poles. -/
theorem cheb_prod (n : Nat) (hn : 0 < n) (v y : ℝ) :
    (∏ k ∈ range (n / 2), (‖Complex.I * (y : ℂ) - ChebyshevI.pole v n k‖ *
      ‖Complex.I * (y : ℂ) - (starRingEnd ℂ) (ChebyshevI.pole v n k)‖)) *
        ((oddSingle n (-Real.sinh v) none).toList.map fun q => ‖Complex.I * (y : ℂ) - q.1‖).prod =
      2 / 2 ^ n * Real.sqrt ((Polynomial.Chebyshev.T ℝ n).eval y ^ 2 + Real.sinh (n * v) ^ 2) := by
  rw [fold_poles (fun k => ‖(y : ℂ) + cq v n k‖) _ (-Real.sinh v) none
    (fun r => ‖Complex.I * (y : ℂ) - r‖) (fun k hk => cheb_dist hk v y)]
  · have h := cq_prod_norm v n hn y
    have h4 : (4 : ℝ) / 4 ^ n = (2 / 2 ^ n) ^ 2 := by
      rw [div_pow, ← pow_mul, mul_comm n 2, pow_mul]; norm_num
    rw [h4] at h
    rw [← Real.sqrt_sq (prod_nonneg fun _ _ => norm_nonneg _), h,
      Real.sqrt_mul (by positivity), Real.sqrt_sq (by positivity)]
  · intro h
    rw [cq_mid h]
    have : Complex.I * (y : ℂ) - ((-Real.sinh v : ℝ) : ℂ) =
        Complex.I * (y + -((Real.sinh v : ℝ) : ℂ) * Complex.I) := by
      rw [Complex.ofReal_neg]; linear_combination (Real.sinh v : ℂ) * Complex.I_mul_I
    rw [this, norm_mul, Complex.norm_I, one_mul]

theorem cheb_MA (n : Nat) (hn : 0 < n) (v y : ℝ) :
    MA (n / 2) (ChebyshevI.pole v n) (fun _ => none) (oddSingle n (-Real.sinh v) none)
      (Complex.I * (y : ℂ)) =
      (2 / 2 ^ n * Real.sqrt ((Polynomial.Chebyshev.T ℝ n).eval y ^ 2 + Real.sinh (n * v) ^ 2))⁻¹ := by
  rw [MA_allpole, cheb_prod n hn v y]

theorem cheb_zero_sq (n : Nat) :
    (n % 2 = 1 → (Polynomial.Chebyshev.T ℝ n).eval 0 ^ 2 = 0) ∧
      (n % 2 = 0 → (Polynomial.Chebyshev.T ℝ n).eval 0 ^ 2 = 1) := by
  refine ⟨fun h => ?_, fun h => ?_⟩
  · rw [Polynomial.Chebyshev.T_eval_zero_of_odd]
    · simp
    · exact ⟨(n / 2 : ℕ), by omega⟩
  · rw [Polynomial.Chebyshev.T_eval_zero_of_even]
    · rcases Int.even_or_odd ((n : ℤ) / 2) with h2 | h2
      · rw [Int.negOnePow_even _ h2]; simp
      · rw [Int.negOnePow_odd _ h2]; simp
    · exact ⟨(n / 2 : ℕ), by omega⟩

theorem cheb_neg_sq (n : Nat) (x : ℝ) :
    (Polynomial.Chebyshev.T ℝ n).eval (-x) ^ 2 = (Polynomial.Chebyshev.T ℝ n).eval x ^ 2 := by
  rw [Polynomial.Chebyshev.T_eval_neg, mul_pow]
  rcases Int.even_or_odd (n : ℤ) with h2 | h2
  · rw [Int.negOnePow_even _ h2]; simp
  · rw [Int.negOnePow_odd _ h2]; simp

/-- The ripple parameter. -/
theorem eps_ok {r : ℝ} (hr : 0 < r) :
    ChebyshevI.eps r = .ok (Real.sqrt ((10 : ℝ) ^ (r / 10) - 1)) ∧ 0 < (10 : ℝ) ^ (r / 10) - 1 := by
  have h10 : (1 : ℝ) < (10 : ℝ) ^ (r / 10) := Real.one_lt_rpow (by norm_num) (by positivity)
  have e : 1 / Real.exp (-r * (1 / 10) * Real.log 10) = (10 : ℝ) ^ (r / 10) := by
    rw [Real.rpow_def_of_pos (by norm_num), one_div, ← Real.exp_neg]
    congr 1; ring
  unfold ChebyshevI.eps
  rw [e]
  simp only []
  rw [if_neg (by linarith)]
  exact ⟨rfl, by linarith⟩

theorem v0_ok {n : Nat} (hn : 0 < n) {e : ℝ} (he : 0 < e) :
    fdiv 1 e = .ok (1 / e) ∧ fdiv (Real.arsinh (1 / e)) n = .ok (Real.arsinh (1 / e) / n) ∧
      0 < Real.arsinh (1 / e) / n ∧ Real.sinh (n * (Real.arsinh (1 / e) / n)) = 1 / e := by
  have hn' : (0 : ℝ) < n := by exact_mod_cast hn
  refine ⟨by unfold fdiv; rw [if_neg he.ne'], by unfold fdiv; rw [if_neg hn'.ne'], ?_, ?_⟩
  · exact div_pos (Real.arsinh_pos_iff.mpr (by positivity)) hn'
  · rw [mul_div_cancel₀ _ hn'.ne', Real.sinh_arsinh]

theorem db2mag_sq (r : ℝ) : Zoelzer.db2mag (-r) ^ 2 * (10 : ℝ) ^ (r / 10) = 1 ∧ 0 < Zoelzer.db2mag (-r) := by
  unfold Zoelzer.db2mag
  refine ⟨?_, Real.rpow_pos_of_pos (by norm_num) _⟩
  rw [← Real.rpow_natCast, ← Real.rpow_mul (by norm_num), ← Real.rpow_add (by norm_num)]
  have : -r / 20 * (2 : ℕ) + r / 10 = 0 := by push_cast; ring
  rw [this, Real.rpow_zero]

theorem cheb_analog {N n : Nat} (hn : 0 < n) (hN : n ≤ N) {dbg : Bool} (hd : n % 2 = 1 → dbg = false)
    {r : ℝ} (hr : 0 < r) :
    ∃ a v, 0 < v ∧ Real.sinh (n * v) = 1 / Real.sqrt ((10 : ℝ) ^ (r / 10) - 1) ∧
      ChebyshevI.analog dbg N n r (Layout.new N) = .ok a ∧ a.w = 0 ∧
      (n % 2 = 1 → a.gain = 1) ∧ (n % 2 = 0 → a.gain = Zoelzer.db2mag (-r)) ∧
      Holds N a ((List.range (n / 2)).map fun k => (some (ChebyshevI.pole v n k), none))
        ((oddSingle n (-Real.sinh v) none).map fun q => (some (q.1 : ℂ), q.2.map Complex.ofReal)) := by
  obtain ⟨he, hq⟩ := eps_ok hr
  have hs := Real.sqrt_pos.mpr hq
  obtain ⟨e1, e2, e3, e4⟩ := v0_ok hn hs
  set v := Real.arsinh (1 / Real.sqrt ((10 : ℝ) ^ (r / 10) - 1)) / n with hv
  obtain ⟨l1, h1, h2, h3, h4, h5⟩ := build hN (l0 := (Layout.new N).reset)
    ⟨rfl, holds_new N, _, rfl⟩ (ChebyshevI.pole v n)
    (fun _ => none) (fun l i => l.insertConj (some (ChebyshevI.pole v n i)) none) (fun _ _ _ => rfl)
    (-Real.sinh v) none dbg (by intro h h'; rw [hd h] at h'; cases h')
  unfold ChebyshevI.analog
  rw [if_neg (by omega), he]
  simp only [bind, Except.bind, pure, Except.pure, e1, e2, h1]
  rcases Nat.mod_two_eq_zero_or_one n with h | h
  · rw [if_neg (by omega)]
    exact ⟨_, v, e3, e4, rfl, rfl, by omega, fun _ => rfl, h4 h⟩
  · rw [if_pos h]
    obtain ⟨l2, g1, g2, g3, g4⟩ := h5 h
    simp only [Option.map_none] at g1
    rw [g1]
    exact ⟨_, v, e3, e4, rfl, rfl, fun _ => rfl, by omega, g4⟩

/-! ### Chebyshev II -/

theorem eps2_ok {r : ℝ} (hr : 0 < r) :
    ChebyshevII.eps r = .ok (Real.sqrt (1 / ((10 : ℝ) ^ (r / 10) - 1))) ∧ 0 < (10 : ℝ) ^ (r / 10) - 1 := by
  have h10 : (1 : ℝ) < (10 : ℝ) ^ (r / 10) := Real.one_lt_rpow (by norm_num) (by positivity)
  have e : Real.exp (r * (1 / 10) * Real.log 10) = (10 : ℝ) ^ (r / 10) := by
    rw [Real.rpow_def_of_pos (by norm_num)]
    congr 1; ring
  have hpos : 0 < 1 / ((10 : ℝ) ^ (r / 10) - 1) := by
    apply div_pos one_pos; linarith
  unfold ChebyshevII.eps
  rw [e]
  have : fdiv 1 ((10 : ℝ) ^ (r / 10) - 1) = .ok (1 / ((10 : ℝ) ^ (r / 10) - 1)) := by
    unfold fdiv; rw [if_neg (by linarith)]
  simp only [bind, Except.bind, pure, Except.pure, this]
  rw [if_neg (by linarith)]
  exact ⟨rfl, by linarith⟩

/-- The poles are the inverses of the conjugates of the Chebyshev I poles. -/
theorem cheb2_pole {n k : Nat} (hk : k < n / 2) {v : ℝ} (hv : 0 < v) :
    ChebyshevII.pole v n k = .ok (((starRingEnd ℂ) (ChebyshevI.pole v n k))⁻¹) := by
  have hn : 0 < n := by omega
  have hp := cheb_pole_lhp hk hv
  have hne : ChebyshevI.pole v n k ≠ 0 := by
    intro h; rw [h] at hp; simp at hp
  have ea : ((2 * (k : ℝ) + 1) - n) * (Real.pi / (2 * n : ℕ)) = (2 * (k : ℝ) + 1 - n) * Real.pi / (n * 2 : ℕ) := by
    push_cast; ring
  have e1 : -Real.sinh v * Real.cos (((2 * (k : ℝ) + 1) - n) * (Real.pi / (2 * n : ℕ))) =
      (ChebyshevI.pole v n k).re := by rw [ea]; rfl
  have e2 : Real.cosh v * Real.sin (((2 * (k : ℝ) + 1) - n) * (Real.pi / (2 * n : ℕ))) =
      (ChebyshevI.pole v n k).im := by rw [ea]; rfl
  simp only [ChebyshevII.pole]
  rw [e1, e2]
  have hd : (ChebyshevI.pole v n k).re * (ChebyshevI.pole v n k).re +
      (ChebyshevI.pole v n k).im * (ChebyshevI.pole v n k).im = Complex.normSq (ChebyshevI.pole v n k) :=
    (Complex.normSq_apply _).symm
  rw [hd]
  have hn2 : Complex.normSq (ChebyshevI.pole v n k) ≠ 0 := by simpa using hne
  simp only [bind, Except.bind, pure, Except.pure, fdiv]
  rw [if_neg hn2]
  simp only [if_neg hn2]
  congr 1
  apply Complex.ext
  · rw [Complex.inv_re, Complex.normSq_conj, Complex.conj_re]
  · rw [Complex.inv_im, Complex.normSq_conj, Complex.conj_im, neg_neg]

theorem cheb2_zero {n k : Nat} (hk : k < n / 2) :
    ChebyshevII.zero n k = .ok (Complex.I * ((Real.cos ((2 * (k : ℝ) + 1) * Real.pi / (2 * n)) : ℝ) : ℂ)⁻¹) ∧
      0 < Real.cos ((2 * (k : ℝ) + 1) * Real.pi / (2 * n)) := by
  obtain ⟨h1, h2⟩ := angle_lt hk
  have hc := Real.cos_pos_of_mem_Ioo (x := (2 * (k : ℝ) + 1) * Real.pi / (2 * n)) ⟨by linarith, h2⟩
  refine ⟨?_, hc⟩
  have ea : (2 * (k : ℝ) + 1) * (Real.pi / (2 * n : ℕ)) = (2 * (k : ℝ) + 1) * Real.pi / (2 * n) := by
    push_cast; ring
  unfold ChebyshevII.zero
  rw [ea]
  simp only [bind, Except.bind, pure, Except.pure, fdiv]
  rw [if_neg hc.ne']
  simp only []
  congr 1
  generalize Real.cos ((2 * (k : ℝ) + 1) * Real.pi / (2 * n)) = c
  rw [← Complex.ofReal_inv]
  apply Complex.ext <;> simp

theorem cheb2_pole_lhp {n k : Nat} (hk : k < n / 2) {v : ℝ} (hv : 0 < v) :
    (((starRingEnd ℂ) (ChebyshevI.pole v n k))⁻¹).re < 0 ∧
      (((starRingEnd ℂ) (ChebyshevI.pole v n k))⁻¹).im ≠ 0 := by
  obtain ⟨h1, h2⟩ := cheb_pole_lhp hk hv
  have hne : ChebyshevI.pole v n k ≠ 0 := by
    intro h; rw [h] at h1; simp at h1
  have hn2 : 0 < Complex.normSq (ChebyshevI.pole v n k) := Complex.normSq_pos.mpr hne
  rw [Complex.inv_re, Complex.inv_im, Complex.normSq_conj, Complex.conj_re, Complex.conj_im, neg_neg]
  exact ⟨div_neg_of_neg_of_pos h1 hn2, div_ne_zero h2 hn2.ne'⟩

theorem cheb2_analog {N n : Nat} (hn : 0 < n) (hN : n ≤ N) {dbg : Bool} (hd : n % 2 = 1 → dbg = false)
    {r : ℝ} (hr : 0 < r) :
    ∃ a v, 0 < v ∧ Real.sinh (n * v) ^ 2 = (10 : ℝ) ^ (r / 10) - 1 ∧
      ChebyshevII.analog dbg N n r (Layout.new N) = .ok a ∧ a.w = 0 ∧ a.gain = 1 ∧
      Holds N a ((List.range (n / 2)).map fun k =>
          (some (((starRingEnd ℂ) (ChebyshevI.pole v n k))⁻¹),
            some (Complex.I * ((Real.cos ((2 * (k : ℝ) + 1) * Real.pi / (2 * n)) : ℝ) : ℂ)⁻¹)))
        ((oddSingle n (1 / -Real.sinh v) none).map fun q => (some (q.1 : ℂ), q.2.map Complex.ofReal)) := by
  obtain ⟨he, hq⟩ := eps2_ok hr
  have hs : 0 < Real.sqrt (1 / ((10 : ℝ) ^ (r / 10) - 1)) := Real.sqrt_pos.mpr (by positivity)
  obtain ⟨e1, e2, e3, e4⟩ := v0_ok hn hs
  set v := Real.arsinh (1 / Real.sqrt (1 / ((10 : ℝ) ^ (r / 10) - 1))) / n with hv
  have hsh : 0 < Real.sinh v := Real.sinh_pos_iff.mpr e3
  obtain ⟨l1, h1, h2, h3, h4, h5⟩ := build hN (holds_reset (holds_new N) 0 1)
    (fun k => ((starRingEnd ℂ) (ChebyshevI.pole v n k))⁻¹)
    (fun k => some (Complex.I * ((Real.cos ((2 * (k : ℝ) + 1) * Real.pi / (2 * n)) : ℝ) : ℂ)⁻¹))
    (fun l i => do
      let p ← ChebyshevII.pole v n i
      let z ← ChebyshevII.zero n i
      l.insertConj (some p) (some z))
    (by
      intro k hk l
      rw [cheb2_pole hk e3, (cheb2_zero hk).1]
      rfl)
    (1 / -Real.sinh v) none dbg (by intro h h'; rw [hd h] at h'; cases h')
  unfold ChebyshevII.analog
  rw [if_neg (by omega), he]
  have hrd : fdiv 1 (-Real.sinh v) = .ok (1 / -Real.sinh v) := by
    unfold fdiv; rw [if_neg (by linarith)]
  simp only [bind, Except.bind] at h1
  simp only [bind, Except.bind, pure, Except.pure, e1, e2, h1, hrd]
  have hsq : Real.sinh (n * v) ^ 2 = (10 : ℝ) ^ (r / 10) - 1 := by
    rw [e4, div_pow, Real.sq_sqrt (by positivity)]; simp
  rcases Nat.mod_two_eq_zero_or_one n with h | h
  · rw [if_neg (by omega)]
    exact ⟨_, v, e3, hsq, rfl, h2, h3, h4 h⟩
  · rw [if_pos h]
    obtain ⟨l2, g1, g2, g3, g4⟩ := h5 h
    simp only [Option.map_none] at g1
    rw [g1]
    exact ⟨_, v, e3, hsq, rfl, g2, g3, g4⟩

theorem cq_zero (n k : Nat) : cq 0 n k = ((Real.cos ((2 * (k : ℝ) + 1) * Real.pi / (2 * n)) : ℝ) : ℂ) := by
  rw [cq_parts]; simp

/-- The product of the distances to the zeros of the Chebyshev polynomial. -/
theorem cheb_zeros_prod (n : Nat) (hn : 0 < n) (x : ℝ) :
    (∏ k ∈ range (n / 2), (|x - Real.cos ((2 * (k : ℝ) + 1) * Real.pi / (2 * n))| *
        |x + Real.cos ((2 * (k : ℝ) + 1) * Real.pi / (2 * n))|)) *
      ((oddSingle n 0 none).toList.map fun q => |x - q.1|).prod =
      2 / 2 ^ n * |(Polynomial.Chebyshev.T ℝ n).eval x| := by
  rw [fold_poles (fun k => ‖(x : ℂ) + cq 0 n k‖) _ 0 none (fun r => |x - r|)]
  · have h := cq_prod_norm 0 n hn x
    have h4 : (4 : ℝ) / 4 ^ n = (2 / 2 ^ n) ^ 2 := by
      rw [div_pow, ← pow_mul, mul_comm n 2, pow_mul]; norm_num
    rw [h4, mul_zero, Real.sinh_zero, zero_pow two_ne_zero, add_zero, ← mul_pow] at h
    rw [← Real.sqrt_sq (prod_nonneg fun _ _ => norm_nonneg _), h, Real.sqrt_sq_eq_abs, abs_mul,
      abs_of_pos (by positivity)]
  · intro k hk
    rw [cq_neg_conj 0 n k (by omega), cq_zero, Complex.conj_ofReal, ← Complex.ofReal_neg,
      ← Complex.ofReal_add, ← Complex.ofReal_add, Complex.norm_real, Complex.norm_real,
      Real.norm_eq_abs, Real.norm_eq_abs, mul_comm, sub_eq_add_neg]
  · intro h
    rw [cq_mid h, Real.sinh_zero]
    simp

theorem norm_I_mul_sub (y c : ℝ) : ‖Complex.I * (y : ℂ) - Complex.I * (c : ℂ)‖ = |y - c| := by
  rw [← mul_sub, norm_mul, Complex.norm_I, one_mul, ← Complex.ofReal_sub, Complex.norm_real,
    Real.norm_eq_abs]

/-- Distance to an inverse. -/
theorem norm_sub_inv {p : ℂ} (hp : p ≠ 0) {y : ℝ} (hy : y ≠ 0) :
    ‖Complex.I * (y : ℂ) - p⁻¹‖ =
      |y| * ‖Complex.I * ((1 / y : ℝ) : ℂ) - (starRingEnd ℂ) p‖ / ‖p‖ := by
  have hy' : (y : ℂ) ≠ 0 := by exact_mod_cast hy
  have e : Complex.I * (y : ℂ) - p⁻¹ = Complex.I * y * (p + Complex.I * ((1 / y : ℝ) : ℂ)) / p := by
    push_cast
    field_simp
    linear_combination -Complex.I_mul_I
  have e2 : ‖p + Complex.I * ((1 / y : ℝ) : ℂ)‖ = ‖Complex.I * ((1 / y : ℝ) : ℂ) - (starRingEnd ℂ) p‖ := by
    rw [← Complex.norm_conj, ← norm_neg]
    congr 1
    rw [map_add, map_mul, Complex.conj_I, Complex.conj_ofReal]
    ring
  rw [e, norm_div, norm_mul, norm_mul, Complex.norm_I, one_mul, Complex.norm_real, Real.norm_eq_abs, e2]

theorem cheb2_MA (n : Nat) (hn : 0 < n) {v : ℝ} (hv : 0 < v) :
    ∃ K, 0 < K ∧
      MA (n / 2) (fun k => ((starRingEnd ℂ) (ChebyshevI.pole v n k))⁻¹)
        (fun k => some (Complex.I * ((Real.cos ((2 * (k : ℝ) + 1) * Real.pi / (2 * n)) : ℝ) : ℂ)⁻¹))
        (oddSingle n (1 / -Real.sinh v) none) 0 = K ∧
      (∀ y : ℝ, y ≠ 0 → MA (n / 2) (fun k => ((starRingEnd ℂ) (ChebyshevI.pole v n k))⁻¹)
        (fun k => some (Complex.I * ((Real.cos ((2 * (k : ℝ) + 1) * Real.pi / (2 * n)) : ℝ) : ℂ)⁻¹))
        (oddSingle n (1 / -Real.sinh v) none) (Complex.I * y) =
        K * (|(Polynomial.Chebyshev.T ℝ n).eval (1 / y)| /
          Real.sqrt ((Polynomial.Chebyshev.T ℝ n).eval (1 / y) ^ 2 + Real.sinh (n * v) ^ 2))) ∧
      MI (n / 2)
        (fun k => some (Complex.I * ((Real.cos ((2 * (k : ℝ) + 1) * Real.pi / (2 * n)) : ℝ) : ℂ)⁻¹))
        (oddSingle n (1 / -Real.sinh v) none) =
        K * (|(Polynomial.Chebyshev.T ℝ n).eval 0| /
          Real.sqrt ((Polynomial.Chebyshev.T ℝ n).eval 0 ^ 2 + Real.sinh (n * v) ^ 2)) := by
  have hS : 0 < Real.sinh v := Real.sinh_pos_iff.mpr hv
  set c : Nat → ℝ := fun k => Real.cos ((2 * (k : ℝ) + 1) * Real.pi / (2 * n)) with hc
  set p : Nat → ℂ := fun k => ChebyshevI.pole v n k with hp
  have hcpos : ∀ k < n / 2, 0 < c k := fun k hk => (cheb2_zero hk).2
  have hpne : ∀ k < n / 2, p k ≠ 0 := by
    intro k hk h
    have := (cheb_pole_lhp hk hv).1
    rw [show ChebyshevI.pole v n k = 0 from h] at this
    simp at this
  set K1 : ℝ := ∏ k ∈ range (n / 2), (‖p k‖ ^ 2 / c k ^ 2) with hK1
  set K2 : ℝ := ((oddSingle n (Real.sinh v) none).toList.map fun q => q.1).prod with hK2
  have hK1pos : 0 < K1 := prod_pos fun k hk => by
    have h1 := hcpos k (mem_range.mp hk)
    have h2 := norm_pos_iff.mpr (hpne k (mem_range.mp hk))
    positivity
  have hK2pos : 0 < K2 := by
    rw [hK2]; unfold oddSingle; split <;> simp [hS]
  refine ⟨K1 * K2, by positivity, ?_, ?_, ?_⟩
  · unfold MA
    rw [list_prod]
    congr 1
    · apply prod_congr rfl
      intro k hk
      have h1 := hcpos k (mem_range.mp hk)
      have h2 := norm_pos_iff.mpr (hpne k (mem_range.mp hk))
      simp only [RA, E, Pt.conj, Option.map_some, zero_sub, norm_neg, map_mul, map_inv₀, Complex.conj_I,
        Complex.conj_ofReal, Complex.conj_conj, norm_mul, norm_inv, Complex.norm_I, one_mul,
        Complex.norm_conj, Complex.norm_real, Real.norm_eq_abs, neg_mul]
      change |c k|⁻¹ * |c k|⁻¹ / (‖p k‖⁻¹ * ‖p k‖⁻¹) = _
      rw [abs_of_pos h1]
      field_simp
    · rw [hK2]; unfold oddSingle
      split
      · simp [SA, E, abs_of_pos hS]
      · simp
  · intro y hy
    have habs : 0 < |y| := abs_pos.mpr hy
    have hD := cheb_prod n hn v (1 / y)
    have hA := cheb_zeros_prod n hn (1 / y)
    have hratio : |(Polynomial.Chebyshev.T ℝ n).eval (1 / y)| /
          Real.sqrt ((Polynomial.Chebyshev.T ℝ n).eval (1 / y) ^ 2 + Real.sinh (n * v) ^ 2) =
        (2 / 2 ^ n * |(Polynomial.Chebyshev.T ℝ n).eval (1 / y)|) /
          (2 / 2 ^ n * Real.sqrt ((Polynomial.Chebyshev.T ℝ n).eval (1 / y) ^ 2 + Real.sinh (n * v) ^ 2)) := by
      rw [mul_div_mul_left _ _ (by positivity)]
    rw [hratio, ← hA, ← hD]
    unfold MA
    rw [list_prod]
    have g1 : ∏ k ∈ range (n / 2), RA (Complex.I * y) ((starRingEnd ℂ) (p k))⁻¹
        (some (Complex.I * (c k : ℂ)⁻¹)) = K1 * ((∏ k ∈ range (n / 2), (|1 / y - c k| * |1 / y + c k|)) /
          ∏ k ∈ range (n / 2), (‖Complex.I * ((1 / y : ℝ) : ℂ) - p k‖ *
            ‖Complex.I * ((1 / y : ℝ) : ℂ) - (starRingEnd ℂ) (p k)‖)) := by
      rw [hK1, ← prod_div_distrib, ← prod_mul_distrib]
      apply prod_congr rfl
      intro k hk
      have h1 := hcpos k (mem_range.mp hk)
      have h2 := hpne k (mem_range.mp hk)
      have h2c : (starRingEnd ℂ) (p k) ≠ 0 := by simpa using h2
      have h2n := norm_pos_iff.mpr h2
      simp only [RA, E, Pt.conj, Option.map_some, map_mul, map_inv₀, Complex.conj_I, Complex.conj_ofReal,
        Complex.conj_conj]
      have e1 : ‖Complex.I * (y : ℂ) - Complex.I * (c k : ℂ)⁻¹‖ = |y| * |1 / y - c k| / c k := by
        rw [← Complex.ofReal_inv, norm_I_mul_sub]
        have : y - (c k)⁻¹ = -(y * (1 / y - c k) / c k) := by field_simp; ring
        rw [this, abs_neg, abs_div, abs_mul, abs_of_pos h1]
      have e2 : ‖Complex.I * (y : ℂ) - -Complex.I * (c k : ℂ)⁻¹‖ = |y| * |1 / y + c k| / c k := by
        have : Complex.I * (y : ℂ) - -Complex.I * (c k : ℂ)⁻¹ =
            Complex.I * (y : ℂ) - Complex.I * ((-(c k)⁻¹ : ℝ) : ℂ) := by push_cast; ring
        rw [this, norm_I_mul_sub]
        have : y - -(c k)⁻¹ = y * (1 / y + c k) / c k := by field_simp; ring
        rw [this, abs_div, abs_mul, abs_of_pos h1]
      rw [e1, e2, norm_sub_inv h2 hy, norm_sub_inv h2c hy, Complex.conj_conj, Complex.norm_conj]
      by_cases hz : ‖Complex.I * ((1 / y : ℝ) : ℂ) - p k‖ * ‖Complex.I * ((1 / y : ℝ) : ℂ) - (starRingEnd ℂ) (p k)‖ = 0
      · rw [hz, div_zero, mul_zero]
        rcases mul_eq_zero.mp hz with h | h <;> rw [h] <;> simp
      · have hz1 := left_ne_zero_of_mul hz
        have hz2 := right_ne_zero_of_mul hz
        field_simp
    have g2 : (List.map (fun q => SA (Complex.I * (y : ℂ)) q) (oddSingle n (1 / -Real.sinh v) none).toList).prod =
        K2 * ((List.map (fun q : ℝ × Option ℝ => |1 / y - q.1|) (oddSingle n 0 none).toList).prod /
          (List.map (fun q : ℝ × Option ℝ => ‖Complex.I * ((1 / y : ℝ) : ℂ) - q.1‖)
            (oddSingle n (-Real.sinh v) none).toList).prod) := by
      rw [hK2]
      unfold oddSingle
      split
      · simp only [Option.toList_some, List.map_cons, List.map_nil, List.prod_cons, List.prod_nil,
          mul_one, SA, E, Option.map_none, sub_zero]
        have hne : ((-Real.sinh v : ℝ) : ℂ) ≠ 0 := by
          have : -Real.sinh v ≠ 0 := by linarith
          exact_mod_cast this
        have := norm_sub_inv hne hy
        rw [Complex.conj_ofReal] at this
        rw [one_div (-Real.sinh v), Complex.ofReal_inv, this, Complex.norm_real, Real.norm_eq_abs, abs_neg,
          abs_of_pos hS, abs_div, abs_one]
        by_cases hz : ‖Complex.I * ((1 / y : ℝ) : ℂ) - ((-Real.sinh v : ℝ) : ℂ)‖ = 0
        · rw [hz]; simp
        · field_simp
      · simp
    rw [g2]
    change (∏ k ∈ range (n / 2), RA (Complex.I * y) ((starRingEnd ℂ) (p k))⁻¹
        (some (Complex.I * (c k : ℂ)⁻¹))) * _ = _
    rw [g1, mul_mul_mul_comm, ← mul_div_mul_comm]
  · have hD := cheb_prod n hn v 0
    have hA := cheb_zeros_prod n hn 0
    unfold MI
    rcases Nat.mod_two_eq_zero_or_one n with h | h
    · have o : ∀ r : ℝ, oddSingle n r none = none := by
        intro r; unfold oddSingle; rw [if_neg (by omega)]
      rw [o] at hD hA ⊢
      simp only [o, Option.toList_none, List.map_nil, List.prod_nil, mul_one] at hD hA hK2 ⊢
      rw [hK2, mul_one]
      simp only [Option.isSome_some, if_true]
      have hratio : |(Polynomial.Chebyshev.T ℝ n).eval 0| /
          Real.sqrt ((Polynomial.Chebyshev.T ℝ n).eval 0 ^ 2 + Real.sinh (n * v) ^ 2) =
        (2 / 2 ^ n * |(Polynomial.Chebyshev.T ℝ n).eval 0|) /
          (2 / 2 ^ n * Real.sqrt ((Polynomial.Chebyshev.T ℝ n).eval 0 ^ 2 + Real.sinh (n * v) ^ 2)) := by
        rw [mul_div_mul_left _ _ (by positivity)]
      rw [hratio, ← hA, ← hD, hK1, ← prod_div_distrib, ← prod_mul_distrib]
      rw [list_prod]
      apply prod_congr rfl
      intro k hk
      have h1 := hcpos k (mem_range.mp hk)
      have h2n := norm_pos_iff.mpr (hpne k (mem_range.mp hk))
      rw [Complex.ofReal_zero, mul_zero, zero_sub, zero_sub, zero_sub, zero_add, norm_neg, norm_neg,
        Complex.norm_conj, abs_neg]
      change 1 = ‖p k‖ ^ 2 / c k ^ 2 * (|c k| * |c k| / (‖p k‖ * ‖p k‖))
      rw [abs_of_pos h1]
      field_simp
    · have o : ∀ r : ℝ, oddSingle n r none = some (r, none) := by
        intro r; unfold oddSingle; rw [if_pos h]
      rw [o]
      have := (cheb_zero_sq n).1 h
      have h0 : (Polynomial.Chebyshev.T ℝ n).eval 0 = 0 := by
        simpa using this
      rw [h0]
      simp

/-! ### Butterworth shelves -/

/-- The product of the distances to the points `−g e^{±iθ}`. -/
theorem shelf_prod (n : Nat) (hn : 0 < n) {g : ℝ} (hg : 0 < g) (y : ℝ) :
    (∏ k ∈ range (n / 2),
      (‖Complex.I * (y : ℂ) - polar (-g) (Real.pi * (1 / 2 - (2 * ((k : ℝ) + 1) - 1) / (n * 2 : ℕ)))‖ *
      ‖Complex.I * (y : ℂ) - (starRingEnd ℂ)
        (polar (-g) (Real.pi * (1 / 2 - (2 * ((k : ℝ) + 1) - 1) / (n * 2 : ℕ))))‖)) *
        ((oddSingle n (-g) none).toList.map fun q => ‖Complex.I * (y : ℂ) - q.1‖).prod =
      Real.sqrt (g ^ (2 * n) + y ^ (2 * n)) := by
  have hn' : (n : ℂ) ≠ 0 := by exact_mod_cast hn.ne'
  have hgc : (g : ℂ) ≠ 0 := by exact_mod_cast hg.ne'
  -- each point is `g` times the conjugate of a Butterworth pole
  have hpt : ∀ k : Nat, polar (-g) (Real.pi * (1 / 2 - (2 * ((k : ℝ) + 1) - 1) / (n * 2 : ℕ))) =
      g * (starRingEnd ℂ) (Butterworth.pole n k) := by
    intro k
    unfold polar Butterworth.pole polar
    rw [map_mul, Complex.conj_ofReal, ← Complex.exp_conj, map_mul, Complex.conj_ofReal, Complex.conj_I]
    have : ((Real.pi / 2 + (2 * (k : ℝ) + 1) * Real.pi / (n * 2 : ℕ) : ℝ) : ℂ) * -Complex.I =
        ((Real.pi * (1 / 2 - (2 * ((k : ℝ) + 1) - 1) / (n * 2 : ℕ)) : ℝ) : ℂ) * Complex.I - Real.pi * Complex.I := by
      push_cast; ring
    rw [this, Complex.exp_sub, Complex.exp_pi_mul_I]
    push_cast
    ring
  have hsc : ∀ x : ℂ, ‖Complex.I * (y : ℂ) - g * x‖ = g * ‖Complex.I * ((y / g : ℝ) : ℂ) - x‖ := by
    intro x
    have : Complex.I * (y : ℂ) - g * x = g * (Complex.I * ((y / g : ℝ) : ℂ) - x) := by
      push_cast; field_simp
    rw [this, norm_mul, Complex.norm_real, Real.norm_eq_abs, abs_of_pos hg]
  have hb := butter_prod n hn (y / g)
  have e1 : ∏ k ∈ range (n / 2),
      (‖Complex.I * (y : ℂ) - polar (-g) (Real.pi * (1 / 2 - (2 * ((k : ℝ) + 1) - 1) / (n * 2 : ℕ)))‖ *
      ‖Complex.I * (y : ℂ) - (starRingEnd ℂ)
        (polar (-g) (Real.pi * (1 / 2 - (2 * ((k : ℝ) + 1) - 1) / (n * 2 : ℕ))))‖) =
      (∏ k ∈ range (n / 2), (g * g)) *
      ∏ k ∈ range (n / 2), (‖Complex.I * ((y / g : ℝ) : ℂ) - Butterworth.pole n k‖ *
        ‖Complex.I * ((y / g : ℝ) : ℂ) - (starRingEnd ℂ) (Butterworth.pole n k)‖) := by
    rw [← prod_mul_distrib]
    apply prod_congr rfl
    intro k _
    rw [hpt, map_mul, Complex.conj_ofReal, Complex.conj_conj, hsc, hsc]
    ring
  have e2 : ((oddSingle n (-g) none).toList.map fun q => ‖Complex.I * (y : ℂ) - q.1‖).prod =
      g ^ (n % 2) * ((oddSingle n (-1) none).toList.map fun q => ‖Complex.I * ((y / g : ℝ) : ℂ) - q.1‖).prod := by
    unfold oddSingle
    split
    · rename_i h
      rw [h]
      simp only [Option.toList_some, List.map_cons, List.map_nil, List.prod_cons, List.prod_nil, mul_one,
        pow_one]
      rw [← hsc]
      congr 1
      push_cast
      ring
    · have : n % 2 = 0 := by omega
      simp [this]
  rw [e1, e2, mul_mul_mul_comm, hb, prod_const, card_range, ← sq, ← pow_mul, ← pow_add]
  have e3 : 2 * (n / 2) + n % 2 = n := by omega
  rw [e3]
  have hgn : 0 < g ^ n := by positivity
  rw [← Real.sqrt_sq hgn.le, ← Real.sqrt_mul (by positivity)]
  congr 1
  rw [div_pow, ← pow_mul, mul_comm n 2]
  field_simp

theorem shelf_theta {n k : Nat} (hk : k < n / 2) :
    0 < Real.pi * (1 / 2 - (2 * ((k : ℝ) + 1) - 1) / (n * 2 : ℕ)) ∧
      Real.pi * (1 / 2 - (2 * ((k : ℝ) + 1) - 1) / (n * 2 : ℕ)) < Real.pi / 2 := by
  obtain ⟨h1, h2⟩ := angle_lt hk
  have e : Real.pi * (1 / 2 - (2 * ((k : ℝ) + 1) - 1) / (n * 2 : ℕ)) =
      Real.pi / 2 - (2 * (k : ℝ) + 1) * Real.pi / (2 * n) := by push_cast; ring
  rw [e]
  exact ⟨by linarith, by linarith⟩

theorem polar_lhp {g t : ℝ} (hg : 0 < g) (h0 : 0 < t) (h1 : t < Real.pi / 2) :
    (polar (-g) t).re < 0 ∧ (polar (-g) t).im ≠ 0 := by
  unfold polar
  rw [Complex.re_ofReal_mul, Complex.im_ofReal_mul, Complex.exp_ofReal_mul_I_re,
    Complex.exp_ofReal_mul_I_im]
  have hc := Real.cos_pos_of_mem_Ioo (x := t) ⟨by linarith, h1⟩
  have hs := Real.sin_pos_of_pos_of_lt_pi h0 (by linarith [Real.pi_pos])
  exact ⟨by nlinarith [mul_pos hg hc], mul_ne_zero (by linarith) hs.ne'⟩

theorem shelf_analog {N n : Nat} (hn : 0 < n) (hN : n ≤ N) (dbg : Bool) (gainDb : ℝ) :
    ∃ a g, 0 < g ∧ g ^ (2 * n) = (10 : ℝ) ^ (gainDb / 20) ∧
      Butterworth.shelfAnalog dbg N n gainDb (Layout.new N) = .ok a ∧ a.w = Real.pi ∧ a.gain = 1 ∧
      Holds N a ((List.range (n / 2)).map fun (k : Nat) =>
          (some (polar (-(1 / g)) (Real.pi * (1 / 2 - (2 * ((k : ℝ) + 1) - 1) / (n * 2 : ℕ)))),
            some (polar (-g) (Real.pi * (1 / 2 - (2 * ((k : ℝ) + 1) - 1) / (n * 2 : ℕ))))))
        ((oddSingle n (-(1 / g)) (some (-g))).map fun q => (some (q.1 : ℂ), q.2.map Complex.ofReal)) := by
  have hn2 : ((n * 2 : ℕ) : ℝ) ≠ 0 := by
    have : n * 2 ≠ 0 := by omega
    exact_mod_cast this
  set g := (Zoelzer.db2mag gainDb) ^ (1 / ((n * 2 : ℕ) : ℝ)) with hgd
  have hdb : 0 < Zoelzer.db2mag gainDb := Real.rpow_pos_of_pos (by norm_num) _
  have hg : 0 < g := Real.rpow_pos_of_pos hdb _
  have hpow : g ^ (2 * n) = (10 : ℝ) ^ (gainDb / 20) := by
    rw [hgd, ← Real.rpow_natCast, ← Real.rpow_mul hdb.le, mul_comm 2 n, one_div,
      inv_mul_cancel₀ hn2, Real.rpow_one]
    rfl
  have e1 : fdiv 1 ((n * 2 : ℕ) : ℝ) = .ok (1 / ((n * 2 : ℕ) : ℝ)) := by
    unfold fdiv; rw [if_neg hn2]
  have e2 : fdiv 1 g = .ok (1 / g) := by unfold fdiv; rw [if_neg hg.ne']
  obtain ⟨l1, h1, h2, h3, h4, h5⟩ := build hN (holds_reset (holds_new N) Real.pi 1)
    (fun k => polar (-(1 / g)) (Real.pi * (1 / 2 - (2 * ((k : ℝ) + 1) - 1) / (n * 2 : ℕ))))
    (fun k => some (polar (-g) (Real.pi * (1 / 2 - (2 * ((k : ℝ) + 1) - 1) / (n * 2 : ℕ)))))
    (fun l i => l.insertConj
      (some (polar (-(1 / g)) (Real.pi * (1 / 2 - (2 * ((i : ℝ) + 1) - 1) / (n * 2 : ℕ)))))
      (some (polar (-g) (Real.pi * (1 / 2 - (2 * ((i : ℝ) + 1) - 1) / (n * 2 : ℕ))))))
    (fun _ _ _ => rfl) (-(1 / g)) (some (-g)) dbg (fun _ _ => rfl)
  unfold Butterworth.shelfAnalog
  rw [if_neg (by omega)]
  simp only [bind, Except.bind, pure, Except.pure, e1]
  rw [← hgd, e2]
  simp only []
  rw [h1]
  simp only []
  rcases Nat.mod_two_eq_zero_or_one n with h | h
  · rw [if_neg (by omega)]
    exact ⟨_, g, hg, hpow, rfl, h2, h3, h4 h⟩
  · rw [if_pos h]
    obtain ⟨l2, g1, g2, g3, g4⟩ := h5 h
    refine ⟨l2, g, hg, hpow, ?_, g2, g3, g4⟩
    rw [← g1]
    congr 2

theorem shelf_MA (n : Nat) (hn : 0 < n) {g : ℝ} (hg : 0 < g) (y : ℝ) :
    MA (n / 2) (fun k => polar (-(1 / g)) (Real.pi * (1 / 2 - (2 * ((k : ℝ) + 1) - 1) / (n * 2 : ℕ))))
      (fun k => some (polar (-g) (Real.pi * (1 / 2 - (2 * ((k : ℝ) + 1) - 1) / (n * 2 : ℕ)))))
      (oddSingle n (-(1 / g)) (some (-g))) (Complex.I * y) =
      Real.sqrt (g ^ (2 * n) + y ^ (2 * n)) / Real.sqrt ((1 / g) ^ (2 * n) + y ^ (2 * n)) := by
  rw [← shelf_prod n hn hg y, ← shelf_prod n hn (one_div_pos.mpr hg) y]
  unfold MA
  rw [list_prod, mul_div_mul_comm, ← prod_div_distrib]
  congr 1
  unfold oddSingle
  split
  · simp [SA, E]
  · simp

end Edsp.AnalogL
