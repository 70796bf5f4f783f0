import Verif.Lemmas.AnalogDesign
import Verif.Lemmas.Steady
import Verif.Spec.Polarity
import Verif.Spec.Prototype
import Verif.Props.C75_Steady
import Mathlib.Topology.Algebra.Field

/-!
# Signs and phases of transfer values
-/

namespace Edsp.PolarityL

open Edsp.Spec Edsp.LayoutL Edsp.BilinearL Edsp.AnalogL Edsp.SteadyL

/-- The value `h` has the phase `φ`. -/
def HasPhase (h : ℂ) (φ : ℝ) : Prop := h = ‖h‖ * Complex.exp (φ * Complex.I)

theorem HasPhase.of_mul {r φ : ℝ} (hr : 0 ≤ r) : HasPhase (r * Complex.exp (φ * Complex.I)) φ := by
  unfold HasPhase
  rw [norm_mul, Complex.norm_exp_ofReal_mul_I, mul_one, Complex.norm_of_nonneg hr]

theorem HasPhase.of_nonneg {r : ℝ} (hr : 0 ≤ r) : HasPhase (r : ℂ) 0 := by
  have := HasPhase.of_mul (φ := 0) hr
  simpa using this

theorem HasPhase.mul {h k : ℂ} {φ ψ : ℝ} (hh : HasPhase h φ) (hk : HasPhase k ψ) : HasPhase (h * k) (φ + ψ) := by
  unfold HasPhase at *
  conv_lhs => rw [hh, hk]
  rw [norm_mul, Complex.ofReal_add, add_mul, Complex.exp_add, Complex.ofReal_mul]
  ring

theorem HasPhase.list {l : List ℂ} {φ : ℝ} (h : ∀ x ∈ l, HasPhase x φ) : HasPhase l.prod (l.length * φ) := by
  induction l with
  | nil =>
    have := HasPhase.of_nonneg (r := 1) zero_le_one
    simpa using this
  | cons x l ih =>
    have := (h x (by simp)).mul (ih fun y hy => h y (by simp [hy]))
    rw [List.prod_cons, List.length_cons, Nat.cast_add, Nat.cast_one, show ((l.length : ℝ) + 1) * φ = φ + l.length * φ by ring]
    exact this

theorem HasPhase.sinusoid {h : ℂ} {φ : ℝ} (hh : HasPhase h φ) (A w p : ℝ) :
    sinusoid (‖h‖ * A) w (p + h.arg) = sinusoid (‖h‖ * A) w (p + φ) := by
  funext n
  rw [← sinusoid_gain, sinusoid_eq]
  congr 1
  conv_lhs => rw [hh]
  push_cast
  rw [add_mul, Complex.exp_add]
  ring

theorem sinusoid_constant (c : ℝ) : sinusoid c 0 0 = constant c := by
  funext n; simp [sinusoid, constant]

theorem sinusoid_alternating (c : ℝ) : sinusoid c Real.pi 0 = alternating c := by
  funext n
  unfold sinusoid alternating
  rw [add_zero, mul_comm Real.pi, Real.cos_nat_mul_pi, mul_comm]

theorem sinusoid_turned (c w p : ℝ) : sinusoid c w (p + Real.pi) = sinusoid (-c) w p := by
  funext n
  unfold sinusoid
  rw [← add_assoc, Real.cos_add_pi]
  ring

/-! ## Second-order sections -/

theorem section_answers {f : Biquad ℝ} (hf : f.stability = true) (s0 s1 : ℝ) {w φ : ℝ} {h : ℂ}
    (ht : TransferAt f (Complex.exp (w * Complex.I)) h) (hp : HasPhase h φ) (A p : ℝ) :
    Answers (fun xs => (({ f with w0 := s0, w1 := s1 } : Biquad ℝ).filter xs).2) (sinusoid A w p)
      (sinusoid (‖h‖ * A) w (p + φ)) := by
  have := Edsp.Props.C75_section { f with w0 := s0, w1 := s1 } hf A w p (h := h) ht
  rw [hp.sinusoid] at this
  exact this

/-- At frequency 0. -/
theorem transfer_one {f : Biquad ℝ} {K : ℝ} {n d : ℝ × ℝ × ℝ} (hb : BilinearOf f K n d) (h : d.2.2 ≠ 0) :
    TransferAt f (Complex.exp ((0 : ℝ) * Complex.I)) ((n.2.2 / d.2.2 : ℝ) : ℂ) := by
  have h0 := hb 1 one_ne_zero (by norm_num)
  have e : ∀ q : ℝ × ℝ × ℝ, quadAt q ((1 - 1) / (K * (1 + 1))) = q.2.2 := by intro q; simp [quadAt]
  rw [e, e] at h0
  have := h0 (by exact_mod_cast h)
  rw [Complex.ofReal_zero, zero_mul, Complex.exp_zero]
  push_cast
  exact this

/-- At Nyquist. -/
theorem transfer_neg_one {f : Biquad ℝ} (hf : f.stability = true) {K : ℝ} (hK : K ≠ 0) {n d : ℝ × ℝ × ℝ}
    (hb : BilinearOf f K n d) (h : d.1 ≠ 0) :
    TransferAt f (Complex.exp (Real.pi * Complex.I)) ((n.1 / d.1 : ℝ) : ℂ) := by
  rw [Complex.exp_pi_mul_I]
  refine ⟨Response.denAt_ne_zero hf (by simp), ?_⟩
  have hKc : (K : ℂ) ≠ 0 := by exact_mod_cast hK
  have hdc : (d.1 : ℂ) ≠ 0 := by exact_mod_cast h
  let Pq : ℝ × ℝ × ℝ → ℂ → ℂ := fun q z =>
    q.1 * (z - 1) ^ 2 + q.2.1 * ((z - 1) * (K * (z + 1))) + q.2.2 * (K * (z + 1)) ^ 2
  have hPc : ∀ q, Continuous (Pq q) := by intro q; fun_prop
  have hPe : ∀ q z, z ≠ -1 → Pq q z = (K * (z + 1)) ^ 2 * quadAt q ((z - 1) / (K * (z + 1))) := by
    intro q z hz
    have : z + 1 ≠ 0 := by intro h; exact hz (by linear_combination h)
    simp only [Pq, quadAt]
    field_simp
  have hne : ∀ᶠ z in nhds (-1 : ℂ), z ≠ 0 ∧ Pq d z ≠ 0 := by
    refine Filter.Eventually.and ?_ ?_
    · exact continuousAt_id.eventually_ne (by norm_num)
    · refine (hPc d).continuousAt.eventually_ne ?_
      simp only [Pq]
      rw [show (d.1 : ℂ) * (-1 - 1) ^ 2 + d.2.1 * ((-1 - 1) * (K * (-1 + 1))) + d.2.2 * (K * (-1 + 1)) ^ 2 =
        4 * d.1 by ring]
      exact mul_ne_zero (by norm_num) hdc
  have hev : (fun z => numAt f z * Pq d z) =ᶠ[nhdsWithin (-1 : ℂ) {-1}ᶜ] fun z => Pq n z * denAt f z := by
    filter_upwards [self_mem_nhdsWithin, nhdsWithin_le_nhds hne] with z hz1 hz
    have hz1' : z ≠ -1 := hz1
    have hp := hz.2
    rw [hPe d z hz1'] at hp
    obtain ⟨-, ht⟩ := hb z hz.1 hz1' (right_ne_zero_of_mul hp)
    have hq := right_ne_zero_of_mul hp
    rw [hPe d z hz1', hPe n z hz1', ht]
    generalize quadAt d ((z - 1) / (K * (z + 1))) = D at *
    field_simp
  have hc1 : ContinuousAt (fun z => numAt f z * Pq d z) (-1 : ℂ) := by
    refine ContinuousAt.mul ?_ (hPc d).continuousAt
    unfold numAt
    have : ContinuousAt (fun z : ℂ => z⁻¹) (-1) := continuousAt_inv₀ (by norm_num)
    fun_prop
  have hc2 : ContinuousAt (fun z => Pq n z * denAt f z) (-1 : ℂ) := by
    refine ContinuousAt.mul (hPc n).continuousAt ?_
    unfold denAt
    have : ContinuousAt (fun z : ℂ => z⁻¹) (-1) := continuousAt_inv₀ (by norm_num)
    fun_prop
  have := ((hc1.eventuallyEq_nhds_iff_eventuallyEq_nhdsNE hc2).1 hev).eq_of_nhds
  have e : ∀ q : ℝ × ℝ × ℝ, Pq q (-1) = 4 * q.1 := by intro q; simp only [Pq]; ring
  rw [e, e] at this
  push_cast
  rw [div_mul_eq_mul_div, eq_div_iff hdc]
  linear_combination this / 4

/-- At the cutoff. -/
theorem transfer_cutoff {f : Biquad ℝ} {fc fs : ℝ} (h0 : 0 < fc) (h1 : fc < fs / 2) {n d : ℝ × ℝ × ℝ}
    (hb : BilinearOf f (Real.tan (Real.pi * fc / fs)) n d) (h : d.2.1 ≠ 0) :
    TransferAt f (Complex.exp ((2 * Real.pi * fc / fs : ℝ) * Complex.I))
      (((n.2.2 - n.1 : ℝ) + (n.2.1 : ℝ) * Complex.I) / ((d.2.2 - d.1 : ℝ) + (d.2.1 : ℝ) * Complex.I)) := by
  have hpi := Real.pi_pos
  have hfs : 0 < fs := by linarith
  have hlt : Real.pi * fc / fs < Real.pi / 2 := by
    rw [div_lt_div_iff₀ hfs two_pos]; nlinarith
  have hgt : 0 < Real.pi * fc / fs := by positivity
  have hw : 2 * Real.pi * fc / fs / 2 = Real.pi * fc / fs := by ring
  have ht := Real.tan_pos_of_pos_of_lt_pi_div_two hgt hlt
  obtain ⟨hz, hu⟩ := circle_axis (w := 2 * Real.pi * fc / fs)
    (by rw [hw]; exact (Real.cos_pos_of_mem_Ioo ⟨by linarith, hlt⟩).ne')
  rw [hw] at hu
  set z := Complex.exp ((2 * Real.pi * fc / fs : ℝ) * Complex.I)
  set K := Real.tan (Real.pi * fc / fs)
  have hKc : (K : ℂ) ≠ 0 := by exact_mod_cast ht.ne'
  have hs : (z - 1) / (K * (z + 1)) = Complex.I := by
    rw [mul_comm, ← div_div, hu, mul_div_cancel_right₀ _ hKc]
  have e : ∀ q : ℝ × ℝ × ℝ, quadAt q Complex.I = (q.2.2 - q.1 : ℝ) + (q.2.1 : ℝ) * Complex.I := by
    intro q
    unfold quadAt
    rw [Complex.I_sq]; push_cast; ring
  have := hb z (Complex.exp_ne_zero _) hz
  rw [hs, e, e] at this
  refine this ?_
  intro hx
  have := congrArg Complex.im hx
  simp at this
  exact h this

/-! ## Cascades -/

theorem cascade_answers {c : Cascade ℝ} (hs : ∀ f ∈ active c, f.stability = true) {w g φ : ℝ}
    (hg : ChainGainAt (active c) w g) (hp : ∃ h, ChainTransferAt (active c) (Complex.exp (w * Complex.I)) h ∧ HasPhase h φ)
    (A p : ℝ) : Answers (fun xs => (c.filter xs).2) (sinusoid A w p) (sinusoid (g * A) w (p + φ)) := by
  obtain ⟨h, ht, hh⟩ := hp
  obtain ⟨k, hk, rfl⟩ := hg
  have huniq : ∀ (fs : List (Biquad ℝ)) (z a b : ℂ), ChainTransferAt fs z a → ChainTransferAt fs z b → a = b := by
    intro fs z
    induction fs with
    | nil => intro a b ha hb; exact Eq.trans ha (Eq.symm hb)
    | cons f fs ih =>
      rintro a b ⟨a1, a2, ⟨d1, e1⟩, ta, rfl⟩ ⟨b1, b2, ⟨d2, e2⟩, tb, rfl⟩
      rw [ih _ _ ta tb, mul_right_cancel₀ d1 (e1.symm.trans e2)]
  obtain rfl := huniq _ _ _ _ ht hk
  have := Edsp.Props.C75_cascade c hs A w p ht
  rw [hh.sinusoid] at this
  exact this

/-- What the bilinear designs are made of. -/
def Parts (σ f : ℝ) (m : Nat) (P : Nat → ℂ) (Z : Nat → Pt) (s : Option (ℝ × Option ℝ)) (c : Cascade ℝ) : Prop :=
  (∀ g ∈ active c, g.stability = true) ∧
    ∃ κ g0 gs, 0 ≤ κ ∧ ((List.range m).map fun k => secConj (σ * lp f (some (P k)), σ * lp f (Z k).conj)) ++
      (s.toList.map fun q => secSingle (σ * lp f (some (q.1 : ℂ)), σ * lp f (q.2.map Complex.ofReal))) =
      g0 :: gs ∧ active c = applyScale g0 κ :: gs

theorem parts_phase {σ f : ℝ} {m : Nat} {P : Nat → ℂ} {Z : Nat → Pt} {s : Option (ℝ × Option ℝ)} {c : Cascade ℝ}
    (h : Parts σ f m P Z s c) {z : ℂ} (hz : ‖z‖ = 1) {α β : ℝ}
    (hA : ∀ k < m, HasPhase (tf (secConj (σ * lp f (some (P k)), σ * lp f (Z k).conj)) z) α)
    (hB : ∀ q, s = some q →
      HasPhase (tf (secSingle (σ * lp f (some (q.1 : ℂ)), σ * lp f (q.2.map Complex.ofReal))) z) β) :
    ∃ h, ChainTransferAt (active c) z h ∧ HasPhase h (m * α + s.toList.length * β) := by
  obtain ⟨hst, κ, g0, gs, hκ, hL, hact⟩ := h
  have hden : ∀ g ∈ g0 :: gs, denAt g z ≠ 0 := by
    intro g hg
    rcases List.mem_cons.mp hg with rfl | hg
    · have := Response.denAt_ne_zero (hst (applyScale g κ) (by rw [hact]; simp)) hz
      rw [applyScale_eq] at this
      exact this
    · exact Response.denAt_ne_zero (hst g (by rw [hact]; simp [hg])) hz
  refine ⟨_, by rw [hact]; exact chain_scaled hden, ?_⟩
  rw [← hL, List.map_append, List.prod_append, ← zero_add ((m : ℝ) * α + s.toList.length * β)]
  refine (HasPhase.of_nonneg hκ).mul (HasPhase.mul ?_ ?_)
  · have := HasPhase.list (l := (((List.range m).map fun k =>
      secConj (σ * lp f (some (P k)), σ * lp f (Z k).conj)).map fun g => tf g z)) (φ := α) (by
        intro x hx
        simp only [List.map_map, List.mem_map, List.mem_range, Function.comp] at hx
        obtain ⟨k, hk, rfl⟩ := hx
        exact hA k hk)
    simpa using this
  · have := HasPhase.list (l := ((s.toList.map fun q =>
      secSingle (σ * lp f (some (q.1 : ℂ)), σ * lp f (q.2.map Complex.ofReal))).map fun g => tf g z)) (φ := β) (by
        intro x hx
        simp only [List.map_map, List.mem_map, Option.mem_toList, Function.comp] at hx
        obtain ⟨q, hq, rfl⟩ := hx
        exact hB q hq)
    simpa using this

/-- Both transformations of a prototype normalised at frequency 0. -/
theorem parts {N m : Nat} {a : Layout} {P : Nat → ℂ} {Z : Nat → Pt} {s : Option (ℝ × Option ℝ)}
    (hold : Holds N a ((List.range m).map fun k => (some (P k), Z k))
      (s.map fun q => (some (q.1 : ℂ), q.2.map Complex.ofReal)))
    (hpos : 0 < m + s.toList.length) (hN : 2 * m + s.toList.length ≤ N)
    (hP : ∀ k < m, (P k).re < 0 ∧ (P k).im ≠ 0) (hZ : ∀ k < m, ∀ c, Z k = some c → c.re ≤ 0)
    (hs : ∀ q, s = some q → q.1 < 0 ∧ ∀ c, q.2 = some c → c ≤ 0)
    (hgain : 0 ≤ a.gain) (dbg : Bool) {nf : ℝ} (hnf : 0 < nf) (hnf2 : nf < 1 / 2)
    (haw : a.w = 0) (hr0 : MA m P Z s 0 ≠ 0) :
    (∃ d c, lowPassTransform dbg nf a (Layout.new N) = .ok d ∧ makeCascade N d = .ok c ∧
      Parts 1 (Real.tan (Real.pi * nf)) m P Z s c) ∧
    ∃ d c, highPassTransform dbg nf a (Layout.new N) = .ok d ∧ makeCascade N d = .ok c ∧
      Parts (-1) (1 / Real.tan (Real.pi * nf)) m P Z s c := by
  have hpi := Real.pi_pos
  have hlt : Real.pi * nf < Real.pi / 2 := by nlinarith
  have hf0 : 0 < Real.tan (Real.pi * nf) := Real.tan_pos_of_pos_of_lt_pi_div_two (by positivity) hlt
  have hct : ctan (Real.pi * nf) = .ok (Real.tan (Real.pi * nf)) := by
    unfold ctan
    have : Real.cos (Real.pi * nf) ≠ 0 := (Real.cos_pos_of_mem_Ioo ⟨by nlinarith, hlt⟩).ne'
    simp [this, Real.tan_eq_sin_div_cos]
  set t := Real.tan (Real.pi * nf) with htd
  have key : ∀ (σ f : ℝ), (σ = 1 ∨ σ = -1) → 0 < f → ∀ T : Pt → Except Fault Pt,
      (∀ q : Pt, Reg f q → T q = .ok (some (σ * lp f q))) → ∀ w0 : ℝ, (σ : ℂ) * Complex.exp (w0 * Complex.I) = 1 →
      ∃ d c, transformWith dbg T w0 a (Layout.new N) = .ok d ∧ makeCascade N d = .ok c ∧ Parts σ f m P Z s c := by
    intro σ f hσ hf T hT w0 hw0
    obtain ⟨K, hK, hK1, -⟩ := M_eq (fun k hk => (hP k hk).1) hf (fun k hk => reg_of hf (hZ k hk)) (reg_single hf hs)
    obtain ⟨d, c, h1, h2, -, h4, h5, -⟩ := design_struct hold hpos hN hP hf (fun k hk => reg_of hf (hZ k hk))
      (reg_single hf hs) hσ T hT w0 hgain dbg (by
        rw [hw0, hK1 1 (by norm_num)]
        refine mul_ne_zero hK.ne' ?_
        simpa using hr0)
    exact ⟨d, c, h1, h2, h4, h5⟩
  constructor
  · obtain ⟨d, c, h1, h2, h3⟩ := key 1 t (Or.inl rfl) hf0 (lpMap t) (fun q hq => by rw [lpMap_reg hq]; simp) a.w
      (by rw [haw]; simp)
    refine ⟨d, c, ?_, h2, h3⟩
    unfold lowPassTransform
    rw [hct]
    exact h1
  · obtain ⟨d, c, h1, h2, h3⟩ := key (-1) (1 / t) (Or.inr rfl) (by positivity) (hpMap (1 / t))
      (fun q hq => by rw [hpMap_reg hq]; simp) (Real.pi - a.w) (by
        rw [haw, sub_zero, Complex.exp_pi_mul_I]; norm_num)
    refine ⟨d, c, ?_, h2, h3⟩
    unfold highPassTransform
    rw [hct]
    have : fdiv 1 t = .ok (1 / t) := by unfold fdiv; rw [if_neg hf0.ne']
    simp only [bind, Except.bind, this]
    exact h1

/-! ### The end of the pass band: frequency 0 or Nyquist -/

/-- What half a turn is to be counted for the one-pole section of a high-pass. -/
noncomputable def turn (σ : ℝ) : ℝ := (1 - σ) / 2 * Real.pi

theorem turn_phase {σ : ℝ} (hσ : σ = 1 ∨ σ = -1) {r : ℝ} (hr : 0 ≤ r) : HasPhase ((σ * r : ℝ) : ℂ) (turn σ) := by
  have := HasPhase.of_mul (φ := turn σ) hr
  have e : ((σ * r : ℝ) : ℂ) = r * Complex.exp (turn σ * Complex.I) := by
    rcases hσ with rfl | rfl
    · simp [turn]
    · have : turn (-1) = Real.pi := by unfold turn; ring
      rw [this, Complex.exp_pi_mul_I]; push_cast; ring
  rw [e]
  exact this

theorem conj_end {σ : ℝ} (hσ : σ = 1 ∨ σ = -1) (P Z : ℂ) : HasPhase (tf (secConj (σ * P, σ * Z)) σ) 0 := by
  have hσ0 : (σ : ℂ) ≠ 0 := by rcases hσ with rfl | rfl <;> simp
  have hσ2 : (σ : ℂ) * σ = 1 := by rcases hσ with rfl | rfl <;> simp
  have key : ∀ x : ℂ, ((σ : ℂ) - σ * x) * (σ - (starRingEnd ℂ) (σ * x)) = ((‖1 - x‖ ^ 2 : ℝ) : ℂ) := by
    intro x
    rw [map_mul, Complex.conj_ofReal]
    have e : ((‖1 - x‖ ^ 2 : ℝ) : ℂ) = (1 - x) * (starRingEnd ℂ) (1 - x) := by
      rw [Complex.mul_conj, Complex.normSq_eq_norm_sq]
    rw [e, map_sub, map_one]
    linear_combination ((1 - x) * (1 - (starRingEnd ℂ) x)) * hσ2
  unfold tf
  rw [denAt_conj _ _ hσ0, numAt_conj _ _ hσ0, div_div_div_cancel_right₀ (pow_ne_zero 2 hσ0), key, key,
    ← Complex.ofReal_div]
  exact HasPhase.of_nonneg (by positivity)

theorem single_end {σ f r : ℝ} (hσ : σ = 1 ∨ σ = -1) (hf : 0 < f) (hr : r < 0) :
    HasPhase (tf (secSingle (σ * lp f (some (r : ℂ)), σ * lp f (Option.map Complex.ofReal none))) σ) (turn σ) := by
  have hσ0 : (σ : ℂ) ≠ 0 := by rcases hσ with rfl | rfl <;> simp
  have hσ2 : (σ : ℂ) * σ = 1 := by rcases hσ with rfl | rfl <;> simp
  have hlp : lp f (some (r : ℂ)) = ((((1 + f * r) / (1 - f * r) : ℝ)) : ℂ) := by unfold lp; push_cast; rfl
  have hd : 0 < 1 - f * r := by nlinarith
  have h1 : 0 < 1 - (1 + f * r) / (1 - f * r) := by
    rw [sub_pos, div_lt_one hd]; nlinarith
  set q := (1 + f * r) / (1 - f * r) with hq
  have e : tf (secSingle (σ * lp f (some (r : ℂ)), σ * lp f (Option.map Complex.ofReal none))) σ =
      ((σ * (2 / (1 - q)) : ℝ) : ℂ) := by
    unfold tf numAt denAt secSingle
    rw [hlp]
    have hc : (1 : ℂ) - q ≠ 0 := by exact_mod_cast h1.ne'
    rcases hσ with rfl | rfl
    · simp [lp]
      rw [← sub_eq_add_neg]; ring
    · simp [lp]
      rw [← sub_eq_add_neg]; ring
  rw [e]
  exact turn_phase hσ (by positivity)

theorem end_phase {σ f : ℝ} {m : Nat} {P : Nat → ℂ} {Z : Nat → Pt} {s : Option (ℝ × Option ℝ)} {c : Cascade ℝ}
    (h : Parts σ f m P Z s c) (hσ : σ = 1 ∨ σ = -1) (hf : 0 < f) (hs : ∀ q, s = some q → q.1 < 0 ∧ q.2 = none) :
    ∃ h, ChainTransferAt (active c) σ h ∧ HasPhase h (s.toList.length * turn σ) := by
  have := parts_phase h (z := σ) (α := 0) (β := turn σ) (by rcases hσ with rfl | rfl <;> simp)
    (fun k _ => conj_end hσ _ _) (fun q hq => by
      obtain ⟨h1, h2⟩ := hs q hq
      rw [h2]
      exact single_end hσ hf h1)
  simpa using this

/-! ### The cutoff of a Butterworth design -/

theorem conj_cutoff {σ f : ℝ} (hσ : σ = 1 ∨ σ = -1) (hf : 0 < f) {p z : ℂ} (hp : p.re < 0) (hn : ‖p‖ = 1)
    (hz : (σ : ℂ) * z ≠ -1) (hu : (σ * z - 1) / (σ * z + 1) = σ * (Complex.I * f)) (hz0 : z ≠ 0) :
    HasPhase (tf (secConj (σ * lp f (some p), σ * lp f (Pt.conj none))) z) (-σ * (Real.pi / 2)) := by
  have hσ2 : (σ : ℂ) * σ = 1 := by rcases hσ with rfl | rfl <;> simp
  have hy : (σ : ℂ) * z + 1 ≠ 0 := by intro h; exact hz (by linear_combination h)
  have hfc : (f : ℂ) ≠ 0 := by exact_mod_cast hf.ne'
  have hr1 : 1 - (f : ℂ) * p ≠ 0 := one_sub_ne hf hp.le
  have hr2 : 1 - (f : ℂ) * (starRingEnd ℂ) p ≠ 0 := one_sub_ne hf (by simpa using hp.le)
  have hpp : p * (starRingEnd ℂ) p = 1 := by rw [Complex.mul_conj, Complex.normSq_eq_norm_sq, hn]; simp
  have hps : p + (starRingEnd ℂ) p = ((2 * p.re : ℝ) : ℂ) := Complex.add_conj p
  have hcj : (starRingEnd ℂ) (lp f (some p)) = lp f (some ((starRingEnd ℂ) p)) := by
    have := lp_conj f (some p)
    simpa [Pt.conj] using this.symm
  have hden : (z - σ * lp f (some p)) * (z - (starRingEnd ℂ) (σ * lp f (some p))) =
      (σ * z - lp f (some p)) * (σ * z - lp f (some ((starRingEnd ℂ) p))) := by
    rw [map_mul, Complex.conj_ofReal, hcj]
    linear_combination (lp f (some p) * lp f (some ((starRingEnd ℂ) p)) - z ^ 2) * hσ2
  have hnum : (z - σ * lp f (Pt.conj none)) * (z - (starRingEnd ℂ) (σ * lp f (Pt.conj none))) = (σ * z + 1) ^ 2 := by
    have : lp f (Pt.conj none) = -1 := rfl
    rw [this, map_mul, Complex.conj_ofReal, map_neg, map_one]
    linear_combination (1 - z ^ 2) * hσ2
  have hn2 : (1 - (f : ℂ) * p) * (1 - f * (starRingEnd ℂ) p) = ((‖1 - (f : ℂ) * p‖ ^ 2 : ℝ) : ℂ) := by
    rw [← Complex.normSq_eq_norm_sq, ← Complex.mul_conj, map_sub, map_mul, map_one, Complex.conj_ofReal]
  have hquad : (σ * (Complex.I * f) - f * p) * (σ * (Complex.I * f) - f * (starRingEnd ℂ) p) =
      ((f ^ 2 * (-2 * p.re) : ℝ) : ℂ) * (σ * Complex.I) := by
    have : (σ * (Complex.I * f) - f * p) * (σ * (Complex.I * f) - f * (starRingEnd ℂ) p) =
        (f : ℂ) ^ 2 * ((σ * σ) * Complex.I ^ 2 - σ * Complex.I * (p + (starRingEnd ℂ) p) + p * (starRingEnd ℂ) p) := by
      ring
    rw [this, hσ2, hps, hpp, Complex.I_sq]
    push_cast; ring
  have e : tf (secConj (σ * lp f (some p), σ * lp f (Pt.conj none))) z =
      ((‖1 - (f : ℂ) * p‖ ^ 2 / (f ^ 2 * (-2 * p.re)) : ℝ) : ℂ) * Complex.exp ((-σ * (Real.pi / 2) : ℝ) * Complex.I) := by
    unfold tf
    rw [denAt_conj _ _ hz0, numAt_conj _ _ hz0, div_div_div_cancel_right₀ (pow_ne_zero 2 hz0), hden, hnum,
      sub_lp hz hr1, sub_lp hz hr2, hu]
    have hexp : Complex.exp ((-σ * (Real.pi / 2) : ℝ) * Complex.I) * (σ * Complex.I) = 1 := by
      rcases hσ with rfl | rfl
      · have : ((-1 * (Real.pi / 2) : ℝ) : ℂ) * Complex.I = -(Real.pi / 2 * Complex.I) := by push_cast; ring
        rw [this, Complex.exp_neg, Complex.exp_pi_div_two_mul_I]; simp
      · have : ((- -1 * (Real.pi / 2) : ℝ) : ℂ) * Complex.I = Real.pi / 2 * Complex.I := by push_cast; ring
        rw [this, Complex.exp_pi_div_two_mul_I]; simp
    have hσI : (σ : ℂ) * Complex.I ≠ 0 := by rcases hσ with rfl | rfl <;> simp
    have hq0 : ((f ^ 2 * (-2 * p.re) : ℝ) : ℂ) ≠ 0 := by
      have : 0 < f ^ 2 * (-2 * p.re) := by have := sq_pos_of_pos hf; nlinarith
      exact_mod_cast this.ne'
    rw [Complex.ofReal_div, ← hn2]
    generalize ((f ^ 2 * (-2 * p.re) : ℝ) : ℂ) = Q at *
    have hq1 : σ * (Complex.I * f) - f * p ≠ 0 := by
      intro h; rw [h, zero_mul] at hquad; exact mul_ne_zero hq0 hσI hquad.symm
    have hq2 : σ * (Complex.I * f) - f * (starRingEnd ℂ) p ≠ 0 := by
      intro h; rw [h, mul_zero] at hquad; exact mul_ne_zero hq0 hσI hquad.symm
    generalize Complex.exp ((-σ * (Real.pi / 2) : ℝ) * Complex.I) = E at *
    generalize (σ : ℂ) * (Complex.I * f) - f * p = X at *
    generalize (σ : ℂ) * (Complex.I * f) - f * (starRingEnd ℂ) p = Y at *
    generalize (1 : ℂ) - f * p = U at *
    generalize (1 : ℂ) - f * (starRingEnd ℂ) p = V at *
    generalize (σ : ℂ) * z + 1 = W at *
    have h1 : W ^ 2 / (W * X / U * (W * Y / V)) = U * V / (X * Y) := by field_simp
    rw [h1, hquad]
    generalize (σ : ℂ) * Complex.I = J at *
    field_simp
    linear_combination -hexp
  rw [e]
  refine HasPhase.of_mul ?_
  have : 0 < f ^ 2 * (-2 * p.re) := by have := sq_pos_of_pos hf; nlinarith
  positivity

theorem single_cutoff {σ f : ℝ} (hσ : σ = 1 ∨ σ = -1) (hf : 0 < f) {z : ℂ}
    (hz : (σ : ℂ) * z ≠ -1) (hu : (σ * z - 1) / (σ * z + 1) = σ * (Complex.I * f)) (hz0 : z ≠ 0) :
    HasPhase (tf (secSingle (σ * lp f (some ((-1 : ℝ) : ℂ)), σ * lp f (Option.map Complex.ofReal none))) z)
      (turn σ + -σ * (Real.pi / 4)) := by
  have hσ2 : (σ : ℂ) * σ = 1 := by rcases hσ with rfl | rfl <;> simp
  have hy : (σ : ℂ) * z + 1 ≠ 0 := by intro h; exact hz (by linear_combination h)
  have hfc : (f : ℂ) ≠ 0 := by exact_mod_cast hf.ne'
  have hr1 : 1 - (f : ℂ) * ((-1 : ℝ) : ℂ) ≠ 0 := one_sub_ne hf (by simp)
  have hlp : σ * lp f (some ((-1 : ℝ) : ℂ)) = ((σ * ((1 - f) / (1 + f)) : ℝ) : ℂ) := by
    unfold lp; push_cast; ring
  have hden : denAt (secSingle (σ * lp f (some ((-1 : ℝ) : ℂ)), σ * lp f (Option.map Complex.ofReal none))) z =
      (z - σ * lp f (some ((-1 : ℝ) : ℂ))) / z := by
    unfold denAt secSingle
    rw [hlp]
    simp only [Complex.ofReal_re]
    push_cast
    field_simp
    ring
  have hnum : numAt (secSingle (σ * lp f (some ((-1 : ℝ) : ℂ)), σ * lp f (Option.map Complex.ofReal none))) z =
      (σ * z + 1) / z := by
    unfold numAt secSingle
    simp [lp]
    field_simp
  have hex : Complex.exp ((-σ * (Real.pi / 4) : ℝ) * Complex.I) * (1 + σ * Complex.I) = Real.sqrt 2 := by
    have hs2 : (Real.sqrt 2 : ℂ) * Real.sqrt 2 = 2 := by
      have := Real.mul_self_sqrt (show (0 : ℝ) ≤ 2 by norm_num)
      exact_mod_cast this
    rw [Complex.exp_mul_I, ← Complex.ofReal_cos, ← Complex.ofReal_sin]
    have hc : Real.cos (-σ * (Real.pi / 4)) = Real.sqrt 2 / 2 := by
      rcases hσ with rfl | rfl
      · rw [neg_one_mul, Real.cos_neg, Real.cos_pi_div_four]
      · rw [neg_neg, one_mul, Real.cos_pi_div_four]
    have hsn : Real.sin (-σ * (Real.pi / 4)) = -σ * (Real.sqrt 2 / 2) := by
      rcases hσ with rfl | rfl
      · rw [neg_one_mul, Real.sin_neg, Real.sin_pi_div_four]; ring
      · rw [neg_neg, one_mul, Real.sin_pi_div_four]; ring
    rw [hc, hsn]
    push_cast
    linear_combination (-(Real.sqrt 2 / 2) * Complex.I ^ 2 : ℂ) * hσ2 - (Real.sqrt 2 / 2 : ℂ) * Complex.I_sq
  have hs0 : (Real.sqrt 2 : ℂ) ≠ 0 := by
    have : Real.sqrt 2 ≠ 0 := by positivity
    exact_mod_cast this
  have h1σ : (1 : ℂ) + σ * Complex.I ≠ 0 := by
    intro h; rw [h, mul_zero] at hex; exact hs0 hex.symm
  have e : tf (secSingle (σ * lp f (some ((-1 : ℝ) : ℂ)), σ * lp f (Option.map Complex.ofReal none))) z =
      ((σ * 1 : ℝ) : ℂ) * (((1 + f) / (f * Real.sqrt 2) : ℝ) * Complex.exp ((-σ * (Real.pi / 4) : ℝ) * Complex.I)) := by
    unfold tf
    rw [hden, hnum, div_div_div_cancel_right₀ hz0]
    have h1 : z - σ * lp f (some ((-1 : ℝ) : ℂ)) = σ * (σ * z - lp f (some ((-1 : ℝ) : ℂ))) := by
      linear_combination -z * hσ2
    rw [h1, sub_lp hz hr1, hu]
    have h2 : (σ : ℂ) * (Complex.I * f) - f * ((-1 : ℝ) : ℂ) = f * (1 + σ * Complex.I) := by push_cast; ring
    have h3 : 1 - (f : ℂ) * ((-1 : ℝ) : ℂ) = 1 + f := by push_cast; ring
    rw [h3] at hr1
    rw [h2, h3]
    generalize Complex.exp ((-σ * (Real.pi / 4) : ℝ) * Complex.I) = E at *
    push_cast
    have hσ0 : (σ : ℂ) ≠ 0 := by rcases hσ with rfl | rfl <;> simp
    generalize (1 : ℂ) + σ * Complex.I = W at *
    generalize (Real.sqrt 2 : ℂ) = R at *
    rw [← hex]
    have hE : E ≠ 0 := by intro h; rw [h, zero_mul] at hex; exact hs0 hex.symm
    field_simp
    linear_combination -hσ2
  rw [e]
  exact (turn_phase hσ zero_le_one).mul (HasPhase.of_mul (by positivity))

theorem cutoff_phase {σ f : ℝ} {n : Nat} {c : Cascade ℝ}
    (h : Parts σ f (n / 2) (Butterworth.pole n) (fun _ => none) (oddSingle n (-1) none) c)
    (hσ : σ = 1 ∨ σ = -1) (hf : 0 < f) {z : ℂ} (hz1 : ‖z‖ = 1) (hz : (σ : ℂ) * z ≠ -1)
    (hu : (σ * z - 1) / (σ * z + 1) = σ * (Complex.I * f)) :
    ∃ h, ChainTransferAt (active c) z h ∧ HasPhase h (-σ * (n * Real.pi / 4) + (n % 2 : ℕ) * turn σ) := by
  have hz0 : z ≠ 0 := by intro h; rw [h] at hz1; simp at hz1
  obtain ⟨h, h1, h2⟩ := parts_phase h hz1 (α := -σ * (Real.pi / 2)) (β := turn σ + -σ * (Real.pi / 4))
    (fun k hk => conj_cutoff hσ hf (butter_pole_lhp hk).1 (by
      rw [butter_pole, norm_mul, Complex.norm_I, one_mul]
      exact Complex.norm_exp_ofReal_mul_I _) hz hu hz0)
    (fun q hq => by
      unfold oddSingle at hq
      split at hq
      · injection hq with hq; subst hq; exact single_cutoff hσ hf hz hu hz0
      · cases hq)
  refine ⟨h, h1, ?_⟩
  convert h2 using 1
  have hl : (oddSingle n (-1) none).toList.length = n % 2 := by
    unfold oddSingle; split <;> simp <;> omega
  rw [hl]
  have : (n : ℝ) = 2 * (n / 2 : ℕ) + (n % 2 : ℕ) := by exact_mod_cast (Nat.div_add_mod n 2).symm
  rw [this]
  ring

end Edsp.PolarityL
