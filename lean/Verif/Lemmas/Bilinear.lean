import Verif.Lemmas.Layout

/-! Helper lemmas: magnitude response of a bilinear design in terms of the analog prototype. -/

namespace Edsp.BilinearL

open Edsp Edsp.Spec Edsp.LayoutL

/-- The bilinear image of a point. -/
noncomputable def lp (f : ℝ) : Pt → ℂ
  | none => -1
  | some c => (1 + f * c) / (1 - f * c)

theorem one_sub_ne {f : ℝ} (hf : 0 < f) {c : ℂ} (hc : c.re ≤ 0) : 1 - (f : ℂ) * c ≠ 0 := by
  intro h
  have := congrArg Complex.re h
  simp at this
  nlinarith

/-- The bilinear image is a finite point. -/
def Reg (f : ℝ) (q : Pt) : Prop := ∀ c, q = some c → 1 - (f : ℂ) * c ≠ 0

theorem reg_of {f : ℝ} (hf : 0 < f) {q : Pt} (hq : ∀ c, q = some c → c.re ≤ 0) : Reg f q :=
  fun c hc => one_sub_ne hf (hq c hc)

theorem reg_conj {f : ℝ} {q : Pt} (hq : Reg f q) : Reg f q.conj := by
  intro c hc h
  cases q with
  | none => simp [Pt.conj] at hc
  | some x =>
    simp [Pt.conj] at hc
    refine hq x rfl ?_
    have := congrArg (starRingEnd ℂ) h
    rw [← hc] at this
    simpa using this

theorem lpMap_reg {f : ℝ} {q : Pt} (hq : Reg f q) :
    lpMap f q = .ok (some (lp f q)) := by
  cases q with
  | none => rfl
  | some c => simp only [lpMap, lp]; rw [if_neg (hq c rfl)]

theorem lpMap_ok {f : ℝ} (hf : 0 < f) {q : Pt} (hq : ∀ c, q = some c → c.re ≤ 0) :
    lpMap f q = .ok (some (lp f q)) := lpMap_reg (reg_of hf hq)

theorem hpMap_reg {f : ℝ} {q : Pt} (hq : Reg f q) :
    hpMap f q = .ok (some (-lp f q)) := by
  cases q with
  | none => simp [hpMap, lp]
  | some c => simp only [hpMap, lp]; rw [if_neg (hq c rfl), neg_div]

theorem hpMap_ok {f : ℝ} (hf : 0 < f) {q : Pt} (hq : ∀ c, q = some c → c.re ≤ 0) :
    hpMap f q = .ok (some (-lp f q)) := hpMap_reg (reg_of hf hq)

theorem lp_conj (f : ℝ) (q : Pt) : lp f q.conj = (starRingEnd ℂ) (lp f q) := by
  cases q with
  | none => simp [lp, Pt.conj]
  | some c => simp [lp, Pt.conj]

/-- Inside the disc. -/
theorem lp_norm_lt {f : ℝ} (hf : 0 < f) {c : ℂ} (hc : c.re < 0) : ‖lp f (some c)‖ < 1 := by
  unfold lp
  have hne := one_sub_ne hf hc.le
  rw [norm_div, div_lt_one (norm_pos_iff.mpr hne)]
  have h1 : ‖(1 : ℂ) + f * c‖ ^ 2 < ‖(1 : ℂ) - f * c‖ ^ 2 := by
    rw [Complex.sq_norm, Complex.sq_norm, Complex.normSq_apply, Complex.normSq_apply]
    simp
    nlinarith [mul_pos hf (neg_pos.mpr hc)]
  exact lt_of_pow_lt_pow_left₀ 2 (norm_nonneg _) h1

/-- On the circle. -/
theorem lp_norm_eq {f : ℝ} {c : ℂ} (hc : c.re = 0) : ‖lp f (some c)‖ = 1 := by
  unfold lp
  have hne : (1 : ℂ) - f * c ≠ 0 := by
    intro h
    have := congrArg Complex.re h
    simp [hc] at this
  rw [norm_div, div_eq_one_iff_eq (norm_ne_zero_iff.mpr hne)]
  have h1 : ‖(1 : ℂ) + f * c‖ ^ 2 = ‖(1 : ℂ) - f * c‖ ^ 2 := by
    rw [Complex.sq_norm, Complex.sq_norm, Complex.normSq_apply, Complex.normSq_apply]
    simp [hc]
  exact (pow_left_inj₀ (norm_nonneg _) (norm_nonneg _) two_ne_zero).mp h1

/-- Outside the disc. -/
theorem lp_norm_gt {f : ℝ} (hf : 0 < f) {c : ℂ} (hc : 0 < c.re) (hne : 1 - (f : ℂ) * c ≠ 0) :
    1 < ‖lp f (some c)‖ := by
  unfold lp
  rw [norm_div, one_lt_div (norm_pos_iff.mpr hne)]
  have h1 : ‖(1 : ℂ) - f * c‖ ^ 2 < ‖(1 : ℂ) + f * c‖ ^ 2 := by
    rw [Complex.sq_norm, Complex.sq_norm, Complex.normSq_apply, Complex.normSq_apply]
    simp
    nlinarith [mul_pos hf hc]
  exact lt_of_pow_lt_pow_left₀ 2 (norm_nonneg _) h1

theorem lp_ne_zero {f : ℝ} (hf : 0 < f) {c : ℂ} (hc : c.re < 0) (him : c.im ≠ 0) :
    lp f (some c) ≠ 0 := by
  unfold lp
  refine div_ne_zero ?_ (one_sub_ne hf hc.le)
  intro h
  have := congrArg Complex.im h
  simp [hf.ne'] at this
  exact him this

theorem lp_real (f r : ℝ) : (lp f (some (r : ℂ))).im = 0 := by
  show ((1 + (f : ℂ) * r) / (1 - f * r)).im = 0
  have : (1 + (f : ℂ) * r) / (1 - f * r) = (((1 + f * r) / (1 - f * r) : ℝ) : ℂ) := by push_cast; rfl
  rw [this, Complex.ofReal_im]

/-- Distance to the image of a finite point. -/
theorem sub_lp {f : ℝ} {c z : ℂ} (hz : z ≠ -1) (hc : 1 - (f : ℂ) * c ≠ 0) :
    z - lp f (some c) = (z + 1) * ((z - 1) / (z + 1) - f * c) / (1 - f * c) := by
  have hz' : z + 1 ≠ 0 := by intro h; exact hz (by linear_combination h)
  unfold lp
  field_simp
  ring

/-- Magnitude ratio of a conjugate pair. -/
noncomputable def R (f : ℝ) (z p : ℂ) (q : Pt) : ℝ :=
  ‖z - lp f q‖ * ‖z - lp f q.conj‖ /
    (‖z - lp f (some p)‖ * ‖z - lp f (some ((starRingEnd ℂ) p))‖)

/-- Magnitude ratio of a real pole with its zero. -/
noncomputable def S (f : ℝ) (z : ℂ) (q : ℝ × Option ℝ) : ℝ :=
  ‖z - lp f (q.2.map Complex.ofReal)‖ / ‖z - lp f (some (q.1 : ℂ))‖

/-- Magnitude (up to a constant) of a design. -/
noncomputable def M (f : ℝ) (m : Nat) (P : Nat → ℂ) (Z : Nat → Pt) (s : Option (ℝ × Option ℝ))
    (z : ℂ) : ℝ :=
  ((List.range m).map fun k => R f z (P k) (Z k)).prod * (s.toList.map fun q => S f z q).prod

theorem denAt_conj (P Z : ℂ) {z : ℂ} (hz : z ≠ 0) :
    denAt (secConj (P, Z)) z = (z - P) * (z - (starRingEnd ℂ) P) / z ^ 2 := by
  have e1 : (P + (starRingEnd ℂ) P) = ((2 * P.re : ℝ) : ℂ) := Complex.add_conj P
  have e2 : P * (starRingEnd ℂ) P = ((P.re * P.re + P.im * P.im : ℝ) : ℂ) := by
    rw [Complex.mul_conj, Complex.normSq_apply]
  have : (z - P) * (z - (starRingEnd ℂ) P) = z ^ 2 - (P + (starRingEnd ℂ) P) * z + P * (starRingEnd ℂ) P := by
    ring
  rw [this, e1, e2]
  simp only [denAt, secConj]
  push_cast
  field_simp
  ring

theorem numAt_conj (P Z : ℂ) {z : ℂ} (hz : z ≠ 0) :
    numAt (secConj (P, Z)) z = (z - Z) * (z - (starRingEnd ℂ) Z) / z ^ 2 := by
  have e1 : (Z + (starRingEnd ℂ) Z) = ((2 * Z.re : ℝ) : ℂ) := Complex.add_conj Z
  have e2 : Z * (starRingEnd ℂ) Z = ((Z.re * Z.re + Z.im * Z.im : ℝ) : ℂ) := by
    rw [Complex.mul_conj, Complex.normSq_apply]
  have : (z - Z) * (z - (starRingEnd ℂ) Z) = z ^ 2 - (Z + (starRingEnd ℂ) Z) * z + Z * (starRingEnd ℂ) Z := by
    ring
  rw [this, e1, e2]
  simp only [numAt, secConj]
  push_cast
  field_simp
  ring

theorem tf_conj_norm (P Z : ℂ) {z : ℂ} (hz : z ≠ 0) :
    ‖tf (secConj (P, Z)) z‖ = ‖z - Z‖ * ‖z - (starRingEnd ℂ) Z‖ / (‖z - P‖ * ‖z - (starRingEnd ℂ) P‖) := by
  unfold tf
  rw [denAt_conj P Z hz, numAt_conj P Z hz, div_div_div_cancel_right₀ (pow_ne_zero 2 hz), norm_div,
    norm_mul, norm_mul]

theorem denAt_single (p q : ℝ) {z : ℂ} (hz : z ≠ 0) :
    denAt (secSingle ((p : ℂ), (q : ℂ))) z = (z - p) / z := by
  simp only [denAt, secSingle]
  push_cast
  simp only [Complex.ofReal_re]
  field_simp
  ring

theorem numAt_single_norm (p q : ℝ) {z : ℂ} (hz : ‖z‖ = 1) :
    ‖numAt (secSingle ((p : ℂ), (q : ℂ))) z‖ = ‖z - q‖ := by
  have hz0 : z ≠ 0 := by intro h; rw [h] at hz; simp at hz
  have hzz : z⁻¹ = (starRingEnd ℂ) z := by
    rw [Complex.inv_def, Complex.normSq_eq_norm_sq, hz]; simp
  have : numAt (secSingle ((p : ℂ), (q : ℂ))) z = (starRingEnd ℂ) (z - q) := by
    simp only [numAt, secSingle, hzz, map_sub, Complex.conj_ofReal, Complex.ofReal_re]
    push_cast
    ring
  rw [this, Complex.norm_conj]

theorem tf_single_norm (p q : ℝ) {z : ℂ} (hz : ‖z‖ = 1) :
    ‖tf (secSingle ((p : ℂ), (q : ℂ))) z‖ = ‖z - q‖ / ‖z - p‖ := by
  have hz0 : z ≠ 0 := by intro h; rw [h] at hz; simp at hz
  unfold tf
  rw [norm_div, numAt_single_norm p q hz, denAt_single p q hz0, norm_div, hz, div_one]

theorem stable_conj (P Z : ℂ) (h : ‖P‖ < 1) : (secConj (P, Z)).stability = true := by
  have h2 : P.re * P.re + P.im * P.im < 1 := by
    have : ‖P‖ ^ 2 < 1 := by
      have := norm_nonneg P
      nlinarith
    rw [Complex.sq_norm, Complex.normSq_apply] at this
    exact this
  have hs : 0 ≤ P.re * P.re + P.im * P.im := by nlinarith [mul_self_nonneg P.re, mul_self_nonneg P.im]
  unfold Biquad.stability
  rw [Bool.and_eq_true, decide_eq_true_eq, decide_eq_true_eq]
  show |P.re * P.re + P.im * P.im| < 1 ∧ |-2 * P.re| < 1 + (P.re * P.re + P.im * P.im)
  rw [abs_of_nonneg hs, abs_lt]
  refine ⟨h2, ?_, ?_⟩ <;> nlinarith [sq_nonneg (P.re - 1), sq_nonneg (P.re + 1), sq_nonneg P.im]

theorem stable_single (P Z : ℂ) (h : ‖P‖ < 1) : (secSingle (P, Z)).stability = true := by
  have h2 : |P.re| < 1 := lt_of_le_of_lt (Complex.abs_re_le_norm P) h
  unfold Biquad.stability
  rw [Bool.and_eq_true, decide_eq_true_eq, decide_eq_true_eq]
  show |(0 : ℝ)| < 1 ∧ |-P.re| < 1 + 0
  simpa using h2

/-- **Sections and magnitude response of a bilinear design.** `σ = 1` for the low-pass and `-1` for the high-pass
map. -/
theorem design_struct {N m : Nat} {a : Layout} {P : Nat → ℂ} {Z : Nat → Pt}
    {s : Option (ℝ × Option ℝ)}
    (hold : Holds N a ((List.range m).map fun k => (some (P k), Z k))
      (s.map fun q => (some (q.1 : ℂ), q.2.map Complex.ofReal)))
    (hpos : 0 < m + s.toList.length) (hN : 2 * m + s.toList.length ≤ N)
    (hP : ∀ k < m, (P k).re < 0 ∧ (P k).im ≠ 0) {f : ℝ} (hf : 0 < f) (hZ : ∀ k < m, Reg f (Z k))
    (hs : ∀ q, s = some q → q.1 < 0 ∧ Reg f (q.2.map Complex.ofReal)) {σ : ℝ} (hσ : σ = 1 ∨ σ = -1) (T : Pt → Except Fault Pt)
    (hT : ∀ q : Pt, Reg f q → T q = .ok (some (σ * lp f q)))
    (w0 : ℝ) (hgain : 0 ≤ a.gain) (dbg : Bool)
    (hnum : M f m P Z s (σ * Complex.exp (w0 * Complex.I)) ≠ 0) :
    ∃ d c, transformWith dbg T w0 a (Layout.new N) = .ok d ∧ makeCascade N d = .ok c ∧
      c.num = m + s.toList.length ∧ (∀ g ∈ active c, g.stability = true) ∧
      (∃ κ g0 gs, 0 ≤ κ ∧ ((List.range m).map fun k => secConj (σ * lp f (some (P k)), σ * lp f (Z k).conj)) ++
          (s.toList.map fun q => secSingle (σ * lp f (some (q.1 : ℂ)), σ * lp f (q.2.map Complex.ofReal))) =
          g0 :: gs ∧ active c = applyScale g0 κ :: gs) ∧
      ∀ w : ℝ, ChainGainAt (active c) w (a.gain * (M f m P Z s (σ * Complex.exp (w * Complex.I)) /
        M f m P Z s (σ * Complex.exp (w0 * Complex.I)))) := by
  have hσ2 : (σ : ℂ) * σ = 1 := by rcases hσ with rfl | rfl <;> simp
  have hσn : ‖(σ : ℂ)‖ = 1 := by rcases hσ with rfl | rfl <;> simp
  have hσc : (starRingEnd ℂ) (σ : ℂ) = σ := Complex.conj_ofReal σ
  -- distances
  have hdist : ∀ z x : ℂ, ‖z - σ * x‖ = ‖σ * z - x‖ := by
    intro z x
    have : z - σ * x = σ * (σ * z - x) := by linear_combination (-z) * hσ2
    rw [this, norm_mul, hσn, one_mul]
  -- the digital layout
  have hPc : ∀ k < m, Reg f (some (P k)) := by
    intro k hk
    refine reg_of hf ?_
    intro c hc
    injection hc with hc; rw [← hc]; exact (hP k hk).1.le
  obtain ⟨d, hd1, hd2, hd3, hd4⟩ := transform_holds hold (holds_new N)
    (by cases s <;> simp at hN ⊢ <;> omega) T (fun q => some (σ * lp f q)) w0 dbg
    (fun k hk => ⟨hT _ (hPc k hk), hT _ (reg_conj (hZ k hk))⟩)
    (by
      intro q hq
      cases s with
      | none => simp at hq
      | some x =>
        simp at hq
        obtain ⟨h1, h2⟩ := hs x rfl
        subst hq
        refine ⟨hT _ (reg_of hf ?_), hT _ h2, fun _ => ⟨?_, ?_⟩⟩
        · intro c hc; injection hc with hc; rw [← hc]; simpa using h1.le
        · simp only [Pt.imagZero, Complex.mul_im, lp_real, Complex.ofReal_im]; ring
        · cases hx : x.2 with
          | none => simp [Pt.imagZero, lp]
          | some y =>
            simp only [Pt.imagZero, Option.map_some, Complex.mul_im, lp_real, Complex.ofReal_im]; ring)
  -- the sections
  set A : List (Biquad ℝ) := (List.range m).map fun k =>
    secConj (σ * lp f (some (P k)), σ * lp f (Z k).conj) with hA
  set B : List (Biquad ℝ) := s.toList.map fun q =>
    secSingle (σ * lp f (some (q.1 : ℂ)), σ * lp f (q.2.map Complex.ofReal)) with hB
  have hlen : (A ++ B).length = m + s.toList.length := by simp [hA, hB]
  have hdp : d.poles = 2 * m + s.toList.length := by
    rw [hd2.1]; cases s <;> simp
  have hs1 : s.toList.length ≤ 1 := by cases s <;> simp
  have hdp2 : (d.poles + 1) / 2 = m + s.toList.length := by omega
  -- real numbers behind the single section
  have hreal : ∀ (q : ℝ × Option ℝ), ∃ u v : ℝ, (σ : ℂ) * lp f (some (q.1 : ℂ)) = u ∧
      (σ : ℂ) * lp f (q.2.map Complex.ofReal) = v := by
    intro q
    have h1 : ∃ u : ℝ, lp f (some (q.1 : ℂ)) = u := by
      refine ⟨(lp f (some (q.1 : ℂ))).re, ?_⟩
      apply Complex.ext <;> simp [lp_real]
    have h2 : ∃ u : ℝ, lp f (q.2.map Complex.ofReal) = u := by
      cases q.2 with
      | none => exact ⟨-1, by simp [lp]⟩
      | some y =>
        refine ⟨(lp f (some (y : ℂ))).re, ?_⟩
        apply Complex.ext <;> simp [lp_real]
    obtain ⟨u, hu⟩ := h1
    obtain ⟨v, hv⟩ := h2
    exact ⟨σ * u, σ * v, by rw [hu]; push_cast; rfl, by rw [hv]; push_cast; rfl⟩
  have hget : ∀ i (hi : i < (A ++ B).length),
      ∃ q, d.get i = .ok q ∧ makeBiquad q = .ok (A ++ B)[i] := by
    intro i hi
    by_cases him : i < m
    · refine ⟨_, get_holds hd2 i (by simpa using him), ?_⟩
      rw [List.getElem_append_left (by simpa [hA] using him)]
      simp only [List.getElem_map, List.getElem_range, hA]
      apply makeBiquad_conj
      rintro ⟨h0, -⟩
      refine mul_ne_zero ?_ (lp_ne_zero hf (hP i him).1 (hP i him).2) h0
      rcases hσ with rfl | rfl <;> simp
    · have hi' : i = m := by omega
      subst hi'
      cases s with
      | none => rw [hlen] at hi; simp at hi
      | some q =>
        have := get_holds_single hd2
        simp only [List.length_map, List.length_range] at this
        refine ⟨_, this, ?_⟩
        rw [List.getElem_append_right (by simp [hA])]
        simp only [hA, hB, List.length_map, List.length_range, Nat.sub_self, Option.toList_some,
          List.map_cons, List.map_nil, List.getElem_cons_zero]
        obtain ⟨u, v, hu, hv⟩ := hreal q
        apply makeBiquad_single
        · rw [hu]; simp
        · rw [hv]; simp
  have ha0 : ∀ g ∈ A ++ B, g.a0 = 1 := by
    intro g hg
    rcases List.mem_append.mp hg with hg | hg
    · obtain ⟨k, -, rfl⟩ := List.mem_map.mp hg; rfl
    · obtain ⟨k, -, rfl⟩ := List.mem_map.mp hg; rfl
  have hstab : ∀ g ∈ A ++ B, g.stability = true := by
    intro g hg
    rcases List.mem_append.mp hg with hg | hg
    · obtain ⟨k, hk, rfl⟩ := List.mem_map.mp hg
      apply stable_conj
      rw [norm_mul, hσn, one_mul]
      exact lp_norm_lt hf (hP k (List.mem_range.mp hk)).1
    · obtain ⟨q, hq, rfl⟩ := List.mem_map.mp hg
      apply stable_single
      rw [norm_mul, hσn, one_mul]
      apply lp_norm_lt hf
      simpa using (hs q (by simpa using hq)).1
  have hunit : ∀ w : ℝ, ‖Complex.exp (w * Complex.I)‖ = 1 := Complex.norm_exp_ofReal_mul_I
  have hden : ∀ (w : ℝ), ∀ g ∈ A ++ B, denAt g (Complex.exp (w * Complex.I)) ≠ 0 :=
    fun w g hg => Response.denAt_ne_zero (hstab g hg) (hunit w)
  -- the norm of the product
  have hprod : ∀ w : ℝ, ‖((A ++ B).map fun g => tf g (Complex.exp (w * Complex.I))).prod‖ =
      M f m P Z s (σ * Complex.exp (w * Complex.I)) := by
    intro w
    set z := Complex.exp (w * Complex.I) with hz
    have hz0 : z ≠ 0 := Complex.exp_ne_zero _
    unfold M
    rw [List.map_append, List.prod_append, norm_mul]
    congr 1
    · rw [hA, List.map_map]
      generalize List.range m = l
      induction l with
      | nil => simp
      | cons k l ih =>
        simp only [List.map_cons, List.prod_cons, norm_mul]
        rw [ih]
        congr 1
        simp only [Function.comp]
        rw [tf_conj_norm _ _ hz0]
        rw [map_mul, map_mul, hσc, ← lp_conj, ← lp_conj, hdist, hdist, hdist, hdist]
        have : (Z k).conj.conj = Z k := by cases Z k <;> simp [Pt.conj]
        rw [this, mul_comm ‖_ - lp f (Z k).conj‖]
        rfl
    · rw [hB, List.map_map]
      cases s with
      | none => simp
      | some q =>
        simp only [Option.toList_some, List.map_cons, List.map_nil, List.prod_cons, List.prod_nil,
          mul_one, Function.comp]
        obtain ⟨u, v, hu, hv⟩ := hreal q
        rw [hu, hv, tf_single_norm u v (hunit w), ← hu, ← hv, hdist, hdist]
        rfl
  have hnum' : ∀ g ∈ A ++ B, numAt g (Complex.exp (d.w * Complex.I)) ≠ 0 := by
    intro g hg h0
    apply hnum
    rw [← hprod w0, norm_eq_zero, List.prod_eq_zero_iff, List.mem_map]
    refine ⟨g, hg, ?_⟩
    rw [hd3] at h0
    simp [tf, h0]
  cases hAB : A ++ B with
  | nil => rw [hAB] at hlen; simp at hlen; omega
  | cons g0 gs =>
    rw [hAB] at hget ha0 hden hnum' hlen hprod hstab
    obtain ⟨c, hc1, hc2, hc3⟩ := makeCascade_eq g0 gs (by rw [hlen, hdp2]) (by rw [hlen]; omega)
      hget ha0 (hden d.w) hnum' (N := N)
    refine ⟨d, c, hd1, hc1, by rw [hc2, hdp2], ?_, ⟨_, g0, gs, ?_, rfl, hc3⟩, ?_⟩
    · intro g hg
      rw [hc3] at hg
      rcases List.mem_cons.mp hg with rfl | hg
      · rw [applyScale_eq]; exact hstab g0 (by simp)
      · exact hstab g (by simp [hg])
    · rw [hd4]
      exact div_nonneg hgain (norm_nonneg _)
    · intro w
      rw [hc3]
      refine ⟨_, chain_scaled (hden w), ?_⟩
      rw [norm_mul, hprod w, hd3, hprod w0, hd4, Complex.norm_real, Real.norm_eq_abs,
        abs_of_nonneg]
      · ring
      · apply div_nonneg hgain
        rw [← hprod w0]; exact norm_nonneg _

/-- **Magnitude response of a bilinear design.** `σ = 1` for the low-pass and `-1` for the high-pass
map. -/
theorem design_gain {N m : Nat} {a : Layout} {P : Nat → ℂ} {Z : Nat → Pt}
    {s : Option (ℝ × Option ℝ)}
    (hold : Holds N a ((List.range m).map fun k => (some (P k), Z k))
      (s.map fun q => (some (q.1 : ℂ), q.2.map Complex.ofReal)))
    (hpos : 0 < m + s.toList.length) (hN : 2 * m + s.toList.length ≤ N)
    (hP : ∀ k < m, (P k).re < 0 ∧ (P k).im ≠ 0) {f : ℝ} (hf : 0 < f) (hZ : ∀ k < m, Reg f (Z k))
    (hs : ∀ q, s = some q → q.1 < 0 ∧ Reg f (q.2.map Complex.ofReal)) {σ : ℝ} (hσ : σ = 1 ∨ σ = -1) (T : Pt → Except Fault Pt)
    (hT : ∀ q : Pt, Reg f q → T q = .ok (some (σ * lp f q)))
    (w0 : ℝ) (hgain : 0 ≤ a.gain) (dbg : Bool)
    (hnum : M f m P Z s (σ * Complex.exp (w0 * Complex.I)) ≠ 0) :
    ∃ d c, transformWith dbg T w0 a (Layout.new N) = .ok d ∧ makeCascade N d = .ok c ∧
      c.num = m + s.toList.length ∧ (∀ g ∈ active c, g.stability = true) ∧
      ∀ w : ℝ, ChainGainAt (active c) w (a.gain * (M f m P Z s (σ * Complex.exp (w * Complex.I)) /
        M f m P Z s (σ * Complex.exp (w0 * Complex.I)))) := by
  obtain ⟨d, c, h1, h2, h3, h4, -, h5⟩ := design_struct hold hpos hN hP hf hZ hs hσ T hT w0 hgain dbg hnum
  exact ⟨d, c, h1, h2, h3, h4, h5⟩

end Edsp.BilinearL
