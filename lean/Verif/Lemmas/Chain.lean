import Verif.Lemmas.Bilinear

/-! Helper lemmas: the response of a bilinear design is the response of its prototype on the
imaginary axis. -/

namespace Edsp.BilinearL

open Edsp Edsp.Spec Edsp.LayoutL

/-- Distance of `x` to a point (1 for infinity). -/
noncomputable def E (x : ℂ) : Pt → ℝ
  | none => 1
  | some c => ‖x - c‖

noncomputable def RA (x p : ℂ) (q : Pt) : ℝ :=
  E x q * E x q.conj / (E x (some p) * E x (some ((starRingEnd ℂ) p)))

noncomputable def SA (x : ℂ) (q : ℝ × Option ℝ) : ℝ :=
  E x (q.2.map Complex.ofReal) / E x (some (q.1 : ℂ))

/-- Magnitude of the prototype at `x`. -/
noncomputable def MA (m : Nat) (P : Nat → ℂ) (Z : Nat → Pt) (s : Option (ℝ × Option ℝ)) (x : ℂ) : ℝ :=
  ((List.range m).map fun k => RA x (P k) (Z k)).prod * (s.toList.map fun q => SA x q).prod

/-- Magnitude of the prototype at infinity. -/
def MI (m : Nat) (Z : Nat → Pt) (s : Option (ℝ × Option ℝ)) : ℝ :=
  ((List.range m).map fun k => if (Z k).isSome then (1 : ℝ) else 0).prod *
    (s.toList.map fun q => if q.2.isSome then (1 : ℝ) else 0).prod

noncomputable def F (f : ℝ) : Pt → ℝ
  | none => 1
  | some c => f / ‖1 - (f : ℂ) * c‖

theorem F_pos {f : ℝ} (hf : 0 < f) {q : Pt} (hq : Reg f q) : 0 < F f q := by
  cases q with
  | none => exact one_pos
  | some c => exact div_pos hf (norm_pos_iff.mpr (hq c rfl))

theorem norm_sub_lp {f : ℝ} (hf : 0 < f) {q : Pt} (hq : Reg f q) {z : ℂ}
    (hz : z ≠ -1) :
    ‖z - lp f q‖ = ‖z + 1‖ * (F f q * E ((z - 1) / (z + 1) / f) q) := by
  cases q with
  | none => simp [lp, F, E]
  | some c =>
    have hc := hq c rfl
    have hf' : (f : ℂ) ≠ 0 := by exact_mod_cast hf.ne'
    rw [sub_lp hz hc]
    simp only [F, E]
    have e : (z - 1) / (z + 1) - f * c = f * ((z - 1) / (z + 1) / f - c) := by
      field_simp
    rw [e, norm_div, norm_mul, norm_mul, Complex.norm_real, Real.norm_eq_abs, abs_of_pos hf]
    ring

theorem norm_sub_lp_neg {f : ℝ} (hf : 0 < f) {c : ℂ} (h : 1 - (f : ℂ) * c ≠ 0) :
    ‖-1 - lp f (some c)‖ = 2 / f * F f (some c) := by
  simp only [lp, F]
  have : -1 - (1 + (f : ℂ) * c) / (1 - f * c) = -2 / (1 - f * c) := by field_simp; ring
  rw [this, norm_div]
  simp
  field_simp

theorem alg4 {n : ℝ} (hn : n ≠ 0) (a b c d x y u v : ℝ) :
    n * (a * x) * (n * (b * y)) / (n * (c * u) * (n * (d * v))) = a * b / (c * d) * (x * y / (u * v)) := by
  have e1 : n * (a * x) * (n * (b * y)) = (n * n) * ((a * b) * (x * y)) := by ring
  have e2 : n * (c * u) * (n * (d * v)) = (n * n) * ((c * d) * (u * v)) := by ring
  rw [e1, e2, mul_div_mul_left _ _ (mul_ne_zero hn hn), mul_div_mul_comm]

theorem alg2 {n : ℝ} (hn : n ≠ 0) (a b c d : ℝ) :
    n * a * (n * b) / (n * c * (n * d)) = a * b / (c * d) := by
  rw [mul_mul_mul_comm, mul_mul_mul_comm n c, mul_div_mul_left _ _ (mul_ne_zero hn hn)]

theorem M_eq {m : Nat} {P : Nat → ℂ} {Z : Nat → Pt} {s : Option (ℝ × Option ℝ)}
    (hP : ∀ k < m, (P k).re < 0) {f : ℝ} (hf : 0 < f) (hZ : ∀ k < m, Reg f (Z k))
    (hs : ∀ q, s = some q → q.1 < 0 ∧ Reg f (q.2.map Complex.ofReal)) :
    ∃ K, 0 < K ∧ (∀ z, z ≠ -1 → M f m P Z s z = K * MA m P Z s ((z - 1) / (z + 1) / f)) ∧
      M f m P Z s (-1) = K * MI m Z s := by
  -- pairs
  have h1 : ∃ K, 0 < K ∧ (∀ z, z ≠ -1 → ((List.range m).map fun k => R f z (P k) (Z k)).prod =
      K * ((List.range m).map fun k => RA ((z - 1) / (z + 1) / f) (P k) (Z k)).prod) ∧
      ((List.range m).map fun k => R f (-1) (P k) (Z k)).prod =
        K * ((List.range m).map fun k => if (Z k).isSome then (1 : ℝ) else 0).prod := by
    have hmem : ∀ k ∈ List.range m, k < m := fun k => List.mem_range.mp
    revert hmem
    generalize List.range m = l
    induction l with
    | nil => intro _; exact ⟨1, one_pos, by simp, by simp⟩
    | cons k l ih =>
      intro hmem
      obtain ⟨K, hK, hK1, hK2⟩ := ih (fun j hj => hmem j (by simp [hj]))
      have hk := hmem k (by simp)
      have hp1 : Reg f (some (P k)) := by
        refine reg_of hf fun c hc => ?_; injection hc with hc; rw [← hc]; exact (hP k hk).le
      have hp2 : Reg f (some ((starRingEnd ℂ) (P k))) := by
        refine reg_of hf fun c hc => ?_; injection hc with hc; rw [← hc]; simpa using (hP k hk).le
      have hz1 := hZ k hk
      have hz2 := reg_conj hz1
      have F1 := F_pos hf hz1
      have F2 := F_pos hf hz2
      have F3 := F_pos hf hp1
      have F4 := F_pos hf hp2
      refine ⟨F f (Z k) * F f (Z k).conj / (F f (some (P k)) * F f (some ((starRingEnd ℂ) (P k)))) * K,
        by positivity, ?_, ?_⟩
      · intro z hz
        simp only [List.map_cons, List.prod_cons]
        rw [hK1 z hz]
        unfold R RA
        rw [norm_sub_lp hf hz1 hz, norm_sub_lp hf hz2 hz, norm_sub_lp hf hp1 hz,
          norm_sub_lp hf hp2 hz]
        have hn : ‖z + 1‖ ≠ 0 := by
          rw [norm_ne_zero_iff]; intro h; exact hz (by linear_combination h)
        rw [alg4 hn]
        ring
      · simp only [List.map_cons, List.prod_cons]
        rw [hK2]
        have hf2 : (2 / f : ℝ) ≠ 0 := (div_pos two_pos hf).ne'
        cases hz : Z k with
        | none => simp [R, lp]
        | some c =>
          rw [hz] at hz1 hz2
          unfold R
          simp only [Pt.conj, Option.map_some] at hz2 ⊢
          rw [norm_sub_lp_neg hf (hz1 c rfl), norm_sub_lp_neg hf (hz2 _ rfl),
            norm_sub_lp_neg hf (hp1 _ rfl), norm_sub_lp_neg hf (hp2 _ rfl),
            alg2 hf2]
          simp
          ring
  obtain ⟨K, hK, hK1, hK2⟩ := h1
  cases s with
  | none =>
    refine ⟨K, hK, ?_, ?_⟩
    · intro z hz; unfold M MA; rw [hK1 z hz]; simp
    · unfold M MI; rw [hK2]; simp
  | some q =>
    obtain ⟨hq1, hq2⟩ := hs q rfl
    have hp1 : Reg f (some (q.1 : ℂ)) := by
      refine reg_of hf fun c hc => ?_; injection hc with hc; rw [← hc]; simpa using hq1.le
    have hz1 := hq2
    have F1 := F_pos hf hz1
    have F3 := F_pos hf hp1
    refine ⟨K * (F f (q.2.map Complex.ofReal) / F f (some (q.1 : ℂ))), by positivity, ?_, ?_⟩
    · intro z hz
      unfold M MA
      rw [hK1 z hz]
      simp only [Option.toList_some, List.map_cons, List.map_nil, List.prod_cons, List.prod_nil, mul_one]
      unfold S SA
      rw [norm_sub_lp hf hz1 hz, norm_sub_lp hf hp1 hz]
      have hn : ‖z + 1‖ ≠ 0 := by
        rw [norm_ne_zero_iff]; intro h; exact hz (by linear_combination h)
      rw [mul_div_mul_left _ _ hn, mul_div_mul_comm]
      ring
    · unfold M MI
      rw [hK2]
      simp only [Option.toList_some, List.map_cons, List.map_nil, List.prod_cons, List.prod_nil, mul_one]
      have hf2 : (2 / f : ℝ) ≠ 0 := (div_pos two_pos hf).ne'
      unfold S
      cases hx : q.2 with
      | none => simp [lp]
      | some y =>
        rw [hx] at hz1
        simp only [Option.map_some] at hz1 ⊢
        rw [norm_sub_lp_neg hf (hz1 _ rfl), norm_sub_lp_neg hf (hp1 _ rfl), mul_div_mul_left _ _ hf2]
        simp
        ring

/-- The point of the unit circle at angle `w` corresponds to `i tan (w/2)`. -/
theorem circle_axis {w : ℝ} (h : Real.cos (w / 2) ≠ 0) :
    Complex.exp (w * Complex.I) ≠ -1 ∧
      (Complex.exp (w * Complex.I) - 1) / (Complex.exp (w * Complex.I) + 1) =
        Complex.I * (Real.tan (w / 2) : ℝ) := by
  have hw : Complex.exp (w * Complex.I) =
      (Real.cos (w / 2) + Real.sin (w / 2) * Complex.I) ^ 2 := by
    have := Complex.exp_mul_I ((w / 2 : ℝ) : ℂ)
    rw [← Complex.ofReal_cos, ← Complex.ofReal_sin] at this
    rw [← this, ← Complex.exp_nat_mul]
    congr 1; push_cast; ring
  have hcs : (Real.cos (w / 2) : ℂ) ^ 2 + (Real.sin (w / 2) : ℂ) ^ 2 = 1 := by
    have := Real.cos_sq_add_sin_sq (w / 2)
    exact_mod_cast this
  have hc : (Real.cos (w / 2) : ℂ) ≠ 0 := by exact_mod_cast h
  have he : (Real.cos (w / 2) + Real.sin (w / 2) * Complex.I : ℂ) ≠ 0 := by
    intro h0; rw [h0] at hw; simp at hw
  have hplus : Complex.exp (w * Complex.I) + 1 =
      2 * Real.cos (w / 2) * (Real.cos (w / 2) + Real.sin (w / 2) * Complex.I) := by
    rw [hw]
    linear_combination (Real.sin (w / 2) : ℂ) ^ 2 * Complex.I_sq - hcs
  have hminus : Complex.exp (w * Complex.I) - 1 =
      2 * Complex.I * Real.sin (w / 2) * (Real.cos (w / 2) + Real.sin (w / 2) * Complex.I) := by
    rw [hw]
    linear_combination (-(Real.sin (w / 2) : ℂ) ^ 2) * Complex.I_sq + hcs
  refine ⟨?_, ?_⟩
  · intro h1
    have : Complex.exp (w * Complex.I) + 1 = 0 := by rw [h1]; ring
    rw [hplus] at this
    exact mul_ne_zero (mul_ne_zero two_ne_zero hc) he this
  · rw [hplus, hminus, mul_div_mul_right _ _ he, Real.tan_eq_sin_div_cos]
    push_cast
    field_simp

theorem reg_single {s : Option (ℝ × Option ℝ)} {f : ℝ} (hf : 0 < f)
    (hs : ∀ q, s = some q → q.1 < 0 ∧ ∀ c, q.2 = some c → c ≤ 0) :
    ∀ q, s = some q → q.1 < 0 ∧ Reg f (q.2.map Complex.ofReal) := by
  intro q hq
  refine ⟨(hs q hq).1, reg_of hf fun c hc => ?_⟩
  cases hx : q.2 with
  | none => rw [hx] at hc; simp at hc
  | some y => rw [hx] at hc; simp at hc; rw [← hc]; simpa using (hs q hq).2 y hx

/-- What a design built on a prototype gives: existence, number of sections, stability and the
magnitude response; `ref` is the magnitude of the prototype at the normalisation frequency. -/
theorem lowpass_chain_reg {N m : Nat} {a : Layout} {P : Nat → ℂ} {Z : Nat → Pt}
    {s : Option (ℝ × Option ℝ)}
    (hold : Holds N a ((List.range m).map fun k => (some (P k), Z k))
      (s.map fun q => (some (q.1 : ℂ), q.2.map Complex.ofReal)))
    (hpos : 0 < m + s.toList.length) (hN : 2 * m + s.toList.length ≤ N)
    (hP : ∀ k < m, (P k).re < 0 ∧ (P k).im ≠ 0)
    (hgain : 0 ≤ a.gain) (dbg : Bool) {nf : ℝ} (hnf : 0 < nf) (hnf2 : nf < 1 / 2)
    (hZ : ∀ k < m, Reg (Real.tan (Real.pi * nf)) (Z k))
    (hs : ∀ q, s = some q → q.1 < 0 ∧ Reg (Real.tan (Real.pi * nf)) (q.2.map Complex.ofReal)) {ref : ℝ}
    (href : (a.w = 0 ∧ ref = MA m P Z s 0) ∨ (a.w = Real.pi ∧ ref = MI m Z s)) (hr0 : ref ≠ 0) :
    ∃ d c, lowPassTransform dbg nf a (Layout.new N) = .ok d ∧ makeCascade N d = .ok c ∧
      c.num = m + s.toList.length ∧ (∀ g ∈ active c, g.stability = true) ∧
      (∀ w : ℝ, |w| < Real.pi → ChainGainAt (active c) w
        (a.gain * (MA m P Z s (Complex.I * (Real.tan (w / 2) / Real.tan (Real.pi * nf) : ℝ)) / ref))) ∧
      ChainGainAt (active c) Real.pi (a.gain * (MI m Z s / ref)) := by
  have hpi := Real.pi_pos
  have hlt : Real.pi * nf < Real.pi / 2 := by nlinarith
  have hf : 0 < Real.tan (Real.pi * nf) := Real.tan_pos_of_pos_of_lt_pi_div_two (by positivity) hlt
  have hct : ctan (Real.pi * nf) = .ok (Real.tan (Real.pi * nf)) := by
    unfold ctan
    have : Real.cos (Real.pi * nf) ≠ 0 :=
      (Real.cos_pos_of_mem_Ioo ⟨by nlinarith, hlt⟩).ne'
    simp [this, Real.tan_eq_sin_div_cos]
  set f := Real.tan (Real.pi * nf) with hfd
  obtain ⟨K, hK, hK1, hK2⟩ := M_eq (fun k hk => (hP k hk).1) hf hZ hs
  have hw0 : M f m P Z s ((1 : ℝ) * Complex.exp (a.w * Complex.I)) = K * ref := by
    rcases href with ⟨h1, h2⟩ | ⟨h1, h2⟩
    · rw [h1, h2]
      have := hK1 1 (by norm_num)
      simpa using this
    · rw [h1, h2, Complex.exp_pi_mul_I, ← hK2]; simp
  obtain ⟨d, c, h1, h2, h3, h4, h5⟩ := design_gain hold hpos hN hP hf hZ hs (σ := 1) (Or.inl rfl)
    (lpMap f) (fun q hq => by rw [lpMap_reg hq]; simp) a.w hgain dbg
    (by rw [hw0]; exact mul_ne_zero hK.ne' hr0)
  refine ⟨d, c, ?_, h2, h3, h4, ?_, ?_⟩
  · unfold lowPassTransform
    rw [hct]
    exact h1
  · intro w hw
    have hcos : Real.cos (w / 2) ≠ 0 := by
      have := abs_lt.mp hw
      exact (Real.cos_pos_of_mem_Ioo ⟨by linarith, by linarith⟩).ne'
    obtain ⟨hz1, hz2⟩ := circle_axis hcos
    have := h5 w
    rw [hw0, Complex.ofReal_one, one_mul, hK1 _ hz1, hz2, mul_div_mul_left _ _ hK.ne', mul_div_assoc]
      at this
    rw [Complex.ofReal_div]
    exact this
  · have := h5 Real.pi
    rw [hw0, Complex.ofReal_one, one_mul, Complex.exp_pi_mul_I, hK2, mul_div_mul_left _ _ hK.ne'] at this
    exact this

theorem lowpass_chain {N m : Nat} {a : Layout} {P : Nat → ℂ} {Z : Nat → Pt}
    {s : Option (ℝ × Option ℝ)}
    (hold : Holds N a ((List.range m).map fun k => (some (P k), Z k))
      (s.map fun q => (some (q.1 : ℂ), q.2.map Complex.ofReal)))
    (hpos : 0 < m + s.toList.length) (hN : 2 * m + s.toList.length ≤ N)
    (hP : ∀ k < m, (P k).re < 0 ∧ (P k).im ≠ 0) (hZ : ∀ k < m, ∀ c, Z k = some c → c.re ≤ 0)
    (hs : ∀ q, s = some q → q.1 < 0 ∧ ∀ c, q.2 = some c → c ≤ 0)
    (hgain : 0 ≤ a.gain) (dbg : Bool) {nf : ℝ} (hnf : 0 < nf) (hnf2 : nf < 1 / 2) {ref : ℝ}
    (href : (a.w = 0 ∧ ref = MA m P Z s 0) ∨ (a.w = Real.pi ∧ ref = MI m Z s)) (hr0 : ref ≠ 0) :
    ∃ d c, lowPassTransform dbg nf a (Layout.new N) = .ok d ∧ makeCascade N d = .ok c ∧
      c.num = m + s.toList.length ∧ (∀ g ∈ active c, g.stability = true) ∧
      (∀ w : ℝ, |w| < Real.pi → ChainGainAt (active c) w
        (a.gain * (MA m P Z s (Complex.I * (Real.tan (w / 2) / Real.tan (Real.pi * nf) : ℝ)) / ref))) ∧
      ChainGainAt (active c) Real.pi (a.gain * (MI m Z s / ref)) := by
  have hf : 0 < Real.tan (Real.pi * nf) :=
    Real.tan_pos_of_pos_of_lt_pi_div_two (by positivity) (by nlinarith [Real.pi_pos])
  exact lowpass_chain_reg hold hpos hN hP hgain dbg hnf hnf2 (fun k hk => reg_of hf (hZ k hk))
    (reg_single hf hs) href hr0

theorem highpass_chain {N m : Nat} {a : Layout} {P : Nat → ℂ} {Z : Nat → Pt}
    {s : Option (ℝ × Option ℝ)}
    (hold : Holds N a ((List.range m).map fun k => (some (P k), Z k))
      (s.map fun q => (some (q.1 : ℂ), q.2.map Complex.ofReal)))
    (hpos : 0 < m + s.toList.length) (hN : 2 * m + s.toList.length ≤ N)
    (hP : ∀ k < m, (P k).re < 0 ∧ (P k).im ≠ 0) (hZ : ∀ k < m, ∀ c, Z k = some c → c.re ≤ 0)
    (hs : ∀ q, s = some q → q.1 < 0 ∧ ∀ c, q.2 = some c → c ≤ 0)
    (hgain : 0 ≤ a.gain) (dbg : Bool) {nf : ℝ} (hnf : 0 < nf) (hnf2 : nf < 1 / 2) {ref : ℝ}
    (href : (a.w = 0 ∧ ref = MA m P Z s 0) ∨ (a.w = Real.pi ∧ ref = MI m Z s)) (hr0 : ref ≠ 0) :
    ∃ d c, highPassTransform dbg nf a (Layout.new N) = .ok d ∧ makeCascade N d = .ok c ∧
      c.num = m + s.toList.length ∧ (∀ g ∈ active c, g.stability = true) ∧
      (∀ w : ℝ, w ≠ 0 → |w| < Real.pi → ChainGainAt (active c) w
        (a.gain * (MA m P Z s (Complex.I * (-(Real.tan (Real.pi * nf) / Real.tan (w / 2)) : ℝ)) / ref))) ∧
      ChainGainAt (active c) Real.pi (a.gain * (MA m P Z s 0 / ref)) ∧
      ChainGainAt (active c) 0 (a.gain * (MI m Z s / ref)) := by
  have hpi := Real.pi_pos
  have hlt : Real.pi * nf < Real.pi / 2 := by nlinarith
  have hf0 : 0 < Real.tan (Real.pi * nf) := Real.tan_pos_of_pos_of_lt_pi_div_two (by positivity) hlt
  have hct : ctan (Real.pi * nf) = .ok (Real.tan (Real.pi * nf)) := by
    unfold ctan
    have : Real.cos (Real.pi * nf) ≠ 0 :=
      (Real.cos_pos_of_mem_Ioo ⟨by nlinarith, hlt⟩).ne'
    simp [this, Real.tan_eq_sin_div_cos]
  set t := Real.tan (Real.pi * nf) with htd
  have hf : 0 < 1 / t := by positivity
  obtain ⟨K, hK, hK1, hK2⟩ := M_eq (fun k hk => (hP k hk).1) hf (fun k hk => reg_of hf (hZ k hk)) (reg_single hf hs)
  have hw0 : M (1 / t) m P Z s ((-1 : ℝ) * Complex.exp ((Real.pi - a.w : ℝ) * Complex.I)) = K * ref := by
    rcases href with ⟨h1, h2⟩ | ⟨h1, h2⟩
    · rw [h1, h2, sub_zero, Complex.exp_pi_mul_I]
      have := hK1 1 (by norm_num)
      simpa using this
    · rw [h1, h2, ← hK2]; simp
  obtain ⟨d, c, h1, h2, h3, h4, h5⟩ := design_gain hold hpos hN hP hf (fun k hk => reg_of hf (hZ k hk))
    (reg_single hf hs) (σ := -1) (Or.inr rfl)
    (hpMap (1 / t)) (fun q hq => by rw [hpMap_reg hq]; simp) (Real.pi - a.w) hgain dbg
    (by rw [hw0]; exact mul_ne_zero hK.ne' hr0)
  refine ⟨d, c, ?_, h2, h3, h4, ?_, ?_, ?_⟩
  · unfold highPassTransform
    rw [hct]
    have : fdiv 1 t = .ok (1 / t) := by unfold fdiv; rw [if_neg hf0.ne']
    simp only [bind, Except.bind, this]
    exact h1
  · intro w hw0' hw
    have habs := abs_lt.mp hw
    have hcos : Real.cos (w / 2) ≠ 0 :=
      (Real.cos_pos_of_mem_Ioo ⟨by linarith, by linarith⟩).ne'
    have htan : Real.tan (w / 2) ≠ 0 := by
      rcases lt_or_gt_of_ne hw0' with h | h
      · exact (Real.tan_neg_of_neg_of_pi_div_two_lt (by linarith) (by linarith)).ne
      · exact (Real.tan_pos_of_pos_of_lt_pi_div_two (by linarith) (by linarith)).ne'
    obtain ⟨hz1, hz2⟩ := circle_axis hcos
    set z := Complex.exp (w * Complex.I) with hz
    have hzp : z + 1 ≠ 0 := by intro h; exact hz1 (by linear_combination h)
    have htc : (Real.tan (w / 2) : ℂ) ≠ 0 := by exact_mod_cast htan
    have hzm : z - 1 ≠ 0 := by
      intro h
      rw [h, zero_div] at hz2
      exact mul_ne_zero Complex.I_ne_zero htc hz2.symm
    have hne : -z ≠ -1 := by intro h; exact hzm (by linear_combination -h)
    have hinv : (-z - 1) / (-z + 1) = -Complex.I / Real.tan (w / 2) := by
      have e1 : (-z - 1) / (-z + 1) = ((z - 1) / (z + 1))⁻¹ := by
        rw [inv_div]
        rw [show -z - 1 = -(z + 1) by ring, show -z + 1 = -(z - 1) by ring, neg_div_neg_eq]
      rw [e1, hz2, mul_inv, Complex.inv_I]
      rfl
    have := h5 w
    rw [hw0, Complex.ofReal_neg, Complex.ofReal_one, neg_one_mul, hK1 _ hne, hinv,
      mul_div_mul_left _ _ hK.ne'] at this
    convert this using 5
    push_cast
    have : (t : ℂ) ≠ 0 := by exact_mod_cast hf0.ne'
    field_simp
  · have := h5 Real.pi
    rw [hw0, Complex.exp_pi_mul_I] at this
    have e : ((-1 : ℝ) : ℂ) * (-1) = 1 := by norm_num
    rw [e, hK1 1 (by norm_num), mul_div_mul_left _ _ hK.ne'] at this
    simpa using this
  · have := h5 0
    rw [hw0] at this
    have e : ((-1 : ℝ) : ℂ) * Complex.exp ((0 : ℝ) * Complex.I) = -1 := by simp
    rw [e, hK2, mul_div_mul_left _ _ hK.ne'] at this
    exact this

end Edsp.BilinearL
