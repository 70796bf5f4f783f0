import Verif.Lemmas.Perturbation
import Verif.Props.C75_Steady
import Verif.Props.C100_RoundedBiquad
import Verif.Props.C116_RoundedRbj
import Verif.Props.C135_RoundedZoelzer

/-!
# C138: a filter designed and run in `float` or `double` follows the exact filter for ever
-/

namespace Edsp.C138

open Edsp Edsp.Spec Edsp.Rounded Edsp.FloatL Edsp.PerturbL Edsp.RndWin Edsp.Props

/-- **C138**, any design: `g` is the filter asked for, with coefficients of at most `S ≥ 1` and poles of modulus at most
`1 - 1/k`; the coefficients of `f` are within `δ` of it; `f` runs with `p` bits. -/
theorem C138_coefficients {p : ℕ} {δ S k X : ℝ} {f g : Biquad ℝ} (h : Within δ f g) (hS : CoeffLe g S) (hk : 1 ≤ k)
    (hg : ∀ z : ℂ, z ^ 2 + g.a1 * z + g.a2 = 0 → ‖z‖ ≤ 1 - 1 / k) (hδ : 13 * δ * k ^ 2 ≤ 1)
    (hp : 9600 * S ^ 2 * k ^ 2 ≤ 2 ^ p) {x : ℕ → ℝ} (hx : ∀ n, |x n| ≤ X) (n : ℕ) :
    |biquadResponse (rnd p) f x n - g.response x n| ≤
      (1075200 * S ^ 4 * 2 ^ (-(p : ℤ)) + 1641 * S ^ 3 * δ) * k ^ 4 * X := by
  have hδ0 : 0 ≤ δ := (abs_nonneg _).trans h.a1
  have hk2 : 1 ≤ k ^ 2 := one_le_pow₀ hk
  have hδ1 : δ ≤ 1 := by nlinarith
  have h1 := C100_section_partial (p := p) (f := f) (S := 2 * S) (k := 2 * k) (X := X) (h.coeffs hS hδ1) (by linarith)
    (fun z hz => h.poles hk hg hδ hz) (by linarith [show 600 * (2 * S) ^ 2 * (2 * k) ^ 2 = 9600 * S ^ 2 * k ^ 2 by ring])
    h.fw0 h.fw1 hx n
  have h2 := h.outputs hS hk hg hδ hx n
  have h3 := abs_add_le (biquadResponse (rnd p) f x n - f.response x n) (f.response x n - g.response x n)
  rw [sub_add_sub_cancel] at h3
  refine h3.trans ((add_le_add h1 h2).trans (le_of_eq ?_))
  ring

/-- The poles of a section with `a1² ≤ 4 a2` have the modulus `√a2`. -/
theorem complex_poles {a1 a2 : ℝ} (h : a1 ^ 2 ≤ 4 * a2) {z : ℂ} (hz : z ^ 2 + a1 * z + a2 = 0) : ‖z‖ ^ 2 ≤ a2 := by
  rw [← Complex.normSq_eq_norm_sq, Complex.normSq_apply]
  have hr := congrArg Complex.re hz
  have hi := congrArg Complex.im hz
  simp [pow_two] at hr hi
  generalize z.re = u at *
  generalize z.im = v at *
  have hv : v * (2 * u + a1) = 0 := by linarith
  rcases mul_eq_zero.1 hv with e | e
  · rw [e] at hr ⊢
    nlinarith [sq_nonneg (2 * u + a1)]
  · have : a1 = -2 * u := by linarith
    rw [this] at hr
    linarith

/-- The radius of the poles common to the designs: `α = sin(2π·fc/fs) / (2Q)`. -/
theorem radius {α : ℝ} (h0 : 0 < α) {a1 a2 : ℝ} (h : a1 ^ 2 ≤ 4 * a2) (ha : a2 = (1 - α) / (1 + α)) {z : ℂ}
    (hz : z ^ 2 + a1 * z + a2 = 0) : ‖z‖ ≤ 1 - 1 / (1 + 1 / α) := by
  have h1 := complex_poles h hz
  have e : 1 - 1 / (1 + 1 / α) = 1 / (1 + α) := by field_simp; ring
  rw [e]
  refine abs_le_of_sq_le_sq' (a := ‖z‖) ?_ (by positivity) |>.2
  refine h1.trans ?_
  rw [ha, div_pow, one_pow, div_le_div_iff₀ (by positivity) (by positivity)]
  nlinarith [mul_pos h0 h0, mul_pos (mul_pos h0 h0) h0]

/-- What the exact designs have in common. -/
structure Common (α : ℝ) (g : Biquad ℝ) : Prop where
  coeffs : CoeffLe g 2
  disc : g.a1 ^ 2 ≤ 4 * g.a2
  a2 : g.a2 = (1 - α) / (1 + α)

theorem div_le_two {a d : ℝ} (hd : 0 < d) (h : |a| ≤ 2 * d) : |a / d| ≤ 2 := by
  rw [abs_div, abs_of_pos hd, div_le_iff₀ hd]
  exact h

theorem common_of {α c b0 b1 b2 : ℝ} (h0 : 0 < α) (hc : c ^ 2 ≤ 1 - α ^ 2) (h1 : |b0| ≤ 2 * (1 + α))
    (h2 : |b1| ≤ 2 * (1 + α)) (h3 : |b2| ≤ 2 * (1 + α)) :
    ∃ g, Biquad.ofCoeffs (1 + α) (-2 * c) (1 - α) b0 b1 b2 = .ok g ∧ Common α g := by
  have hd : 0 < 1 + α := by linarith
  refine ⟨_, by rw [Biquad.ofCoeffs, if_neg hd.ne'], ⟨by norm_num, div_le_two hd h1, div_le_two hd h2, div_le_two hd h3,
    div_le_two hd ?_, div_le_two hd ?_⟩, ?_, rfl⟩
  · have : |c| ≤ 1 := abs_le_one_iff_mul_self_le_one.2 (by nlinarith)
    rw [abs_mul, abs_neg, abs_two]
    linarith
  · rw [abs_le]
    constructor <;> linarith
  · show (-2 * c / (1 + α)) ^ 2 ≤ 4 * ((1 - α) / (1 + α))
    have e : 4 * ((1 - α) / (1 + α)) = 4 * (1 - α ^ 2) / (1 + α) ^ 2 := by field_simp; ring
    rw [e, div_pow, div_le_div_iff_of_pos_right (by positivity)]
    nlinarith

theorem rbj_common {fc fs Q : ℝ} (h0 : 0 < fc) (h1 : fc < fs / 2) (hQ : 1 / 2 ≤ Q) {α : ℝ}
    (hα : α = Real.sin (2 * Real.pi * fc / fs) / (2 * Q)) :
    0 < α ∧ ∀ design ∈ [Rbj.lowPass, Rbj.highPass, Rbj.bandPass, Rbj.allPass], ∃ g, design fc fs Q = .ok g ∧ Common α g := by
  obtain ⟨hfs, hs, hc1, hc2⟩ := rbj_angle h0 h1
  have hsq := Real.sin_sq_add_cos_sq (2 * Real.pi * fc / fs)
  have hQ0 : 0 < Q := by linarith
  have hα0 : 0 < α := by rw [hα]; positivity
  have hαQ : Q * α = Real.sin (2 * Real.pi * fc / fs) / 2 := by rw [hα]; field_simp
  have hαs : α ≤ Real.sin (2 * Real.pi * fc / fs) := by
    rw [hα, div_le_iff₀ (by positivity)]
    nlinarith
  have hs1 := Real.sin_le_one (2 * Real.pi * fc / fs)
  refine ⟨hα0, fun design hd => ?_⟩
  have o : fdiv (2 * Real.pi * fc) fs = .ok (2 * Real.pi * fc / fs) := fdiv_ok _ hfs.ne'
  have a : fdiv (Real.sin (2 * Real.pi * fc / fs)) (2 * Q) = .ok α := by rw [fdiv_ok _ (by positivity), hα]
  have hcc : Real.cos (2 * Real.pi * fc / fs) ^ 2 ≤ 1 - α ^ 2 := by nlinarith
  simp only [List.mem_cons, List.not_mem_nil, or_false] at hd
  rcases hd with rfl | rfl | rfl | rfl
  · simp only [Rbj.lowPass, o, a, bind, Except.bind]
    refine common_of hα0 hcc ?_ ?_ ?_ <;> rw [abs_le] <;> constructor <;> linarith
  · simp only [Rbj.highPass, o, a, bind, Except.bind]
    refine common_of hα0 hcc ?_ ?_ ?_ <;> rw [abs_le] <;> constructor <;> linarith
  · simp only [Rbj.bandPass, o, a, bind, Except.bind]
    refine common_of hα0 hcc ?_ ?_ ?_ <;> rw [abs_le] <;> constructor <;> linarith
  · simp only [Rbj.allPass, o, a, bind, Except.bind]
    refine common_of hα0 hcc ?_ ?_ ?_ <;> rw [abs_le] <;> constructor <;> linarith

/-- The designs of a family in floating point arithmetic, each with the exact one. -/
noncomputable def rbjDesigns (p : ℕ) (s c : ℝ → ℝ) :
    List ((ℝ → ℝ → ℝ → Except Fault (Biquad ℝ)) × (ℝ → ℝ → ℝ → Except Fault (Biquad ℝ))) :=
  [(RndRbj.lowPass p s c, Rbj.lowPass), (RndRbj.highPass p s c, Rbj.highPass), (RndRbj.bandPass p s c, Rbj.bandPass),
    (RndRbj.allPass p s c, Rbj.allPass)]

noncomputable def zoelzerDesigns (p : ℕ) (t : ℝ → ℝ) :
    List ((ℝ → ℝ → ℝ → Except Fault (Biquad ℝ)) × (ℝ → ℝ → ℝ → Except Fault (Biquad ℝ))) :=
  [(RndZoelzer.lowPass p t, Zoelzer.lowPass), (RndZoelzer.highPass p t, Zoelzer.highPass),
    (RndZoelzer.bandPass p t, Zoelzer.bandPass)]

theorem within_of {E : ℝ} {f g : Biquad ℝ} (h : C116.Near E f g) : Within E f g :=
  ⟨h.a1, h.a2, h.b0, h.b1, h.b2, h.rest.1, h.rest.2.1, h.rest.2.2.1, h.rest.2.2.2⟩

/-- The general bound for a design with the common shape. -/
theorem common_bound {p : ℕ} {δ α k X : ℝ} {f g : Biquad ℝ} (h : Within δ f g) (hα : 0 < α) (hg : Common α g)
    (hk : k = 1 + 1 / α) (hδ : 13 * δ * k ^ 2 ≤ 1) (hp : 38400 * k ^ 2 ≤ 2 ^ p) {x : ℕ → ℝ} (hx : ∀ n, |x n| ≤ X) (n : ℕ) :
    |biquadResponse (rnd p) f x n - g.response x n| ≤ (17203200 * 2 ^ (-(p : ℤ)) + 13128 * δ) * k ^ 4 * X := by
  have hk1 : 1 ≤ k := by
    have : 0 < 1 / α := by positivity
    linarith
  have := C138_coefficients (S := 2) h hg.coeffs hk1 (fun z hz => by rw [hk]; exact radius hα hg.disc hg.a2 hz) hδ
    (by linarith) hx n
  refine this.trans (le_of_eq ?_)
  ring

theorem recip_pow (p : ℕ) : (2 : ℝ) ^ (-(p : ℤ)) * 2 ^ p = 1 := by
  rw [zpow_neg, zpow_natCast, inv_mul_cancel₀ (by positivity)]

/-- **C138, RBJ designs.**  Designed and run with `p` bits, for a quality of at least 1/2 and `k = 1 + 2Q / sin(2π·fc/fs)`:
if `38400 k² ≤ 2^p`, the output for any input within `X` stays within `2·10⁷ k⁴ 2^-p X` of the output of the exact filter. -/
theorem C138_rbj_partial {p : ℕ} {s c : ℝ → ℝ} {fc fs Q k : ℝ} (hp : 24 ≤ p) (hq : p ≤ 53) (hs : SinLike p s)
    (hc : CosLike p c) (h0 : 0 < fc) (h1 : fc < fs / 2) (hQ : 1 / 2 ≤ Q)
    (hk : k = 1 + 2 * Q / Real.sin (2 * Real.pi * fc / fs)) (hb : 38400 * k ^ 2 ≤ 2 ^ p) :
    ∀ d ∈ rbjDesigns p s c, ∃ f g, d.1 fc fs Q = .ok f ∧ d.2 fc fs Q = .ok g ∧
      ∀ (X : ℝ) (x : ℕ → ℝ), (∀ n, |x n| ≤ X) → ∀ n,
        |biquadResponse (rnd p) f x n - g.response x n| ≤ 20000000 * k ^ 4 * 2 ^ (-(p : ℤ)) * X := by
  obtain ⟨hα, hg⟩ := rbj_common h0 h1 hQ rfl
  obtain ⟨-, hsin, -⟩ := rbj_angle h0 h1
  have hQ0 : 0 < Q := by linarith
  have hk' : k = 1 + 1 / (Real.sin (2 * Real.pi * fc / fs) / (2 * Q)) := by rw [hk, one_div_div]
  have hu : 0 < (2 : ℝ) ^ (-(p : ℤ)) := by positivity
  have hu1 := recip_pow p
  have hk2 : 38400 * k ^ 2 * 2 ^ (-(p : ℤ)) ≤ 1 := by
    rw [← hu1, mul_comm ((2 : ℝ) ^ (-(p : ℤ)))]
    exact mul_le_mul_of_nonneg_right hb hu.le
  have hk1 : 1 ≤ k := by
    have : 0 < 2 * Q / Real.sin (2 * Real.pi * fc / fs) := by positivity
    linarith
  have hkk : 1 ≤ k ^ 2 := one_le_pow₀ hk1
  have hQi : 1 / Q ≤ 2 := by rw [div_le_iff₀ hQ0]; linarith
  generalize hue : (2 : ℝ) ^ (-(p : ℤ)) = u at *
  have hu2 : 38400 * u ≤ 1 := by nlinarith
  have hv : u * (1 + 1 / Q) ≤ 1 / 1000 := by nlinarith
  obtain ⟨A, B, C, D⟩ := C116_accuracy_partial hp hq hs hc h0 h1 hQ0 (by rw [hue]; exact hv)
  have key : ∀ {f g : Biquad ℝ}, C116.Near (64 * ((2 : ℝ) ^ (-(p : ℤ)) * (1 + 1 / Q))) f g →
      Common (Real.sin (2 * Real.pi * fc / fs) / (2 * Q)) g → ∀ (X : ℝ) (x : ℕ → ℝ), (∀ n, |x n| ≤ X) → ∀ n,
        |biquadResponse (rnd p) f x n - g.response x n| ≤ 20000000 * k ^ 4 * u * X := by
    intro f g hn hcm X x hx n
    have hX : 0 ≤ X := (abs_nonneg _).trans (hx 0)
    rw [hue] at hn
    have hδ : 64 * (u * (1 + 1 / Q)) ≤ 192 * u := by nlinarith
    have := common_bound (p := p) (within_of hn) hα hcm hk' (by nlinarith) hb hx n
    refine this.trans ?_
    rw [hue]
    have e : 20000000 * k ^ 4 * u * X = 20000000 * u * k ^ 4 * X := by ring
    rw [e]
    refine mul_le_mul_of_nonneg_right (mul_le_mul_of_nonneg_right ?_ (by positivity)) hX
    linarith
  intro d hd
  simp only [rbjDesigns, List.mem_cons, List.not_mem_nil, or_false] at hd
  rcases hd with rfl | rfl | rfl | rfl
  · obtain ⟨f, g, e1, e2, e3⟩ := A
    obtain ⟨g', e4, e5⟩ := hg _ (List.mem_cons_self ..)
    cases e2.symm.trans e4
    exact ⟨f, g, e1, e2, key e3 e5⟩
  · obtain ⟨f, g, e1, e2, e3⟩ := B
    obtain ⟨g', e4, e5⟩ := hg Rbj.highPass (by simp)
    cases e2.symm.trans e4
    exact ⟨f, g, e1, e2, key e3 e5⟩
  · obtain ⟨f, g, e1, e2, e3⟩ := C
    obtain ⟨g', e4, e5⟩ := hg Rbj.bandPass (by simp)
    cases e2.symm.trans e4
    exact ⟨f, g, e1, e2, key e3 e5⟩
  · obtain ⟨f, g, e1, e2, e3⟩ := D
    obtain ⟨g', e4, e5⟩ := hg Rbj.allPass (by simp)
    cases e2.symm.trans e4
    exact ⟨f, g, e1, e2, key e3 e5⟩

theorem zoelzer_common {fc fs Q : ℝ} (h0 : 0 < fc) (h1 : fc < fs / 2) (hQ : 1 / 2 ≤ Q) {α : ℝ}
    (hα : α = Real.sin (2 * Real.pi * fc / fs) / (2 * Q)) :
    ∀ design ∈ [Zoelzer.lowPass, Zoelzer.highPass, Zoelzer.bandPass], ∃ g, design fc fs Q = .ok g ∧ Common α g := by
  have hQ0 : 0 < Q := by linarith
  obtain ⟨K, -, hK0, hKc, hKs, hK⟩ := zoelzer_K h0 h1
  obtain ⟨-, k1, k2, k3⟩ := C135.exact_designs h0 h1 hQ0 hK rfl
  have hB := mul_pos hK0 hK0
  have hA := div_pos hK0 hQ0
  have hAK : K / Q ≤ 2 * K := by rw [div_le_iff₀ hQ0]; nlinarith
  have hαK : α * (1 + K * K) = K / Q := by
    rw [hα]
    field_simp
    linear_combination hKs
  generalize K / Q = A at *
  have hD : 0 < 1 + A + K * K := by linarith
  have h2 : (1 - A + K * K) / (1 + A + K * K) = (1 - α) / (1 + α) := by
    have hα0 : 0 < α := by
      by_contra hc
      push Not at hc
      nlinarith
    rw [div_eq_div_iff hD.ne' (by linarith)]
    linear_combination 2 * hαK
  have hdisc : (2 * (K * K - 1) / (1 + A + K * K)) ^ 2 ≤ 4 * ((1 - A + K * K) / (1 + A + K * K)) := by
    have e : 4 * ((1 - A + K * K) / (1 + A + K * K)) = 4 * ((1 - A + K * K) * (1 + A + K * K)) / (1 + A + K * K) ^ 2 := by
      field_simp
    rw [e, div_pow, div_le_div_iff_of_pos_right (by positivity)]
    nlinarith
  have ha1 : |2 * (K * K - 1) / (1 + A + K * K)| ≤ 2 := div_le_two hD (by rw [abs_le]; constructor <;> linarith)
  have ha2 : |(1 - A + K * K) / (1 + A + K * K)| ≤ 2 := div_le_two hD (by rw [abs_le]; constructor <;> linarith)
  have hq : ∀ {a : ℝ}, |a| ≤ 1 + A + K * K → |a / (1 + A + K * K)| ≤ 1 := by
    intro a ha
    rw [abs_div, abs_of_pos hD, div_le_one hD]
    exact ha
  intro design hd
  simp only [List.mem_cons, List.not_mem_nil, or_false] at hd
  rcases hd with rfl | rfl | rfl
  · have hb := hq (a := K * K) (by rw [abs_of_pos hB]; linarith)
    refine ⟨_, k1, ⟨by norm_num, ?_, ?_, ?_, ha1, ha2⟩, hdisc, h2⟩
    · exact hb.trans (by norm_num)
    · rw [abs_mul, abs_two]; linarith
    · exact hb.trans (by norm_num)
  · have hb := hq (a := 1) (by rw [abs_one]; linarith)
    refine ⟨_, k2, ⟨by norm_num, ?_, ?_, ?_, ha1, ha2⟩, hdisc, h2⟩
    · exact hb.trans (by norm_num)
    · rw [abs_neg, abs_mul, abs_two]; linarith
    · exact hb.trans (by norm_num)
  · have hb := hq (a := A) (by rw [abs_of_pos hA]; linarith)
    refine ⟨_, k3, ⟨by norm_num, ?_, ?_, ?_, ha1, ha2⟩, hdisc, h2⟩
    · exact hb.trans (by norm_num)
    · rw [abs_zero]; norm_num
    · rw [abs_neg]; exact hb.trans (by norm_num)

/-- **C138, Zoelzer designs.**  The same with `cos(π·fc/fs)` in the bounds. -/
theorem C138_zoelzer_partial {p : ℕ} {t : ℝ → ℝ} {fc fs Q k C : ℝ} (hp : 24 ≤ p) (hq : p ≤ 53) (ht : TanLike p t)
    (h0 : 0 < fc) (h1 : fc < fs / 2) (hQ : 1 / 2 ≤ Q) (hk : k = 1 + 2 * Q / Real.sin (2 * Real.pi * fc / fs))
    (hC : C = Real.cos (Real.pi * fc / fs)) (hb : 38400 * k ^ 2 ≤ 2 ^ p * C) :
    ∀ d ∈ zoelzerDesigns p t, ∃ f g, d.1 fc fs Q = .ok f ∧ d.2 fc fs Q = .ok g ∧
      ∀ (X : ℝ) (x : ℕ → ℝ), (∀ n, |x n| ≤ X) → ∀ n,
        |biquadResponse (rnd p) f x n - g.response x n| ≤ 20000000 * k ^ 4 * (2 ^ (-(p : ℤ)) / C) * X := by
  obtain ⟨hα, -⟩ := rbj_common h0 h1 hQ rfl
  have hg := zoelzer_common h0 h1 hQ rfl
  obtain ⟨-, hsin, -⟩ := rbj_angle h0 h1
  have hQ0 : 0 < Q := by linarith
  have hk' : k = 1 + 1 / (Real.sin (2 * Real.pi * fc / fs) / (2 * Q)) := by rw [hk, one_div_div]
  have hu : 0 < (2 : ℝ) ^ (-(p : ℤ)) := by positivity
  have hu1 := recip_pow p
  have hk1 : 1 ≤ k := by
    have : 0 < 2 * Q / Real.sin (2 * Real.pi * fc / fs) := by positivity
    linarith
  have hkk : 1 ≤ k ^ 2 := one_le_pow₀ hk1
  have h2p : (0 : ℝ) < 2 ^ p := by positivity
  have hC0 : 0 < C := by
    by_contra hc
    push Not at hc
    nlinarith
  have hC1 : C ≤ 1 := by rw [hC]; exact Real.cos_le_one _
  have hb' : 38400 * k ^ 2 ≤ 2 ^ p := by nlinarith
  have hk2 : 38400 * k ^ 2 * 2 ^ (-(p : ℤ)) ≤ C := by
    have := mul_le_mul_of_nonneg_right hb hu.le
    have e : 2 ^ p * C * 2 ^ (-(p : ℤ)) = C * (2 ^ (-(p : ℤ)) * 2 ^ p) := by ring
    rw [e, hu1, mul_one] at this
    exact this
  generalize hue : (2 : ℝ) ^ (-(p : ℤ)) = u at *
  have hr : 38400 * k ^ 2 * (u / C) ≤ 1 := by
    rw [← mul_div_assoc, div_le_one hC0]
    exact hk2
  have hur : u ≤ u / C := by rw [le_div_iff₀ hC0]; nlinarith
  have hv : 1000 * u ≤ C := by nlinarith
  obtain ⟨A, B, E⟩ := C135_accuracy_partial (Q := Q) hp hq ht h0 h1 hQ0 (by rw [hue, ← hC]; exact hv)
  rw [hue, ← hC] at A B E
  have key : ∀ {f g : Biquad ℝ}, C116.Near (132 * (u / C)) f g →
      Common (Real.sin (2 * Real.pi * fc / fs) / (2 * Q)) g → ∀ (X : ℝ) (x : ℕ → ℝ), (∀ n, |x n| ≤ X) → ∀ n,
        |biquadResponse (rnd p) f x n - g.response x n| ≤ 20000000 * k ^ 4 * (u / C) * X := by
    intro f g hn hcm X x hx n
    have hX : 0 ≤ X := (abs_nonneg _).trans (hx 0)
    have := common_bound (p := p) (within_of hn) hα hcm hk' (by nlinarith) hb' hx n
    refine this.trans ?_
    rw [hue]
    have e : 20000000 * k ^ 4 * (u / C) * X = 20000000 * (u / C) * k ^ 4 * X := by ring
    rw [e]
    refine mul_le_mul_of_nonneg_right (mul_le_mul_of_nonneg_right ?_ (by positivity)) hX
    linarith
  intro d hd
  simp only [zoelzerDesigns, List.mem_cons, List.not_mem_nil, or_false] at hd
  rcases hd with rfl | rfl | rfl
  · obtain ⟨f, g, e1, e2, e3⟩ := A
    obtain ⟨g', e4, e5⟩ := hg _ (List.mem_cons_self ..)
    cases e2.symm.trans e4
    exact ⟨f, g, e1, e2, key e3.near e5⟩
  · obtain ⟨f, g, e1, e2, e3⟩ := B
    obtain ⟨g', e4, e5⟩ := hg Zoelzer.highPass (by simp)
    cases e2.symm.trans e4
    exact ⟨f, g, e1, e2, key e3.near e5⟩
  · obtain ⟨f, g, e1, e2, e3⟩ := E
    obtain ⟨g', e4, e5⟩ := hg Zoelzer.bandPass (by simp)
    cases e2.symm.trans e4
    exact ⟨f, g, e1, e2, key e3.near e5⟩

/-- The exact low-pass passes a constant. -/
theorem low_pass_dc {fc fs Q : ℝ} (h0 : 0 < fc) (h1 : fc < fs / 2) (hQ : 0 < Q) :
    ∃ g, Rbj.lowPass fc fs Q = .ok g ∧ Filter.Tendsto (g.response fun _ => 1) Filter.atTop (nhds 1) := by
  obtain ⟨g, hg, hst, -⟩ := C16_low_pass fc fs Q h0 h1 hQ
  refine ⟨g, hg, ?_⟩
  obtain ⟨hfs, hs, hc1, hc2⟩ := rbj_angle h0 h1
  have ht : TransferAt g (Complex.exp ((0 : ℝ) * Complex.I)) 1 := by
    rw [Complex.ofReal_zero, zero_mul, Complex.exp_zero]
    unfold Rbj.lowPass at hg
    rw [fdiv_ok _ hfs.ne'] at hg
    simp only [bind, Except.bind] at hg
    rw [fdiv_ok _ (by positivity)] at hg
    have hα : 0 < Real.sin (2 * Real.pi * fc / fs) / (2 * Q) := by positivity
    generalize Real.sin (2 * Real.pi * fc / fs) / (2 * Q) = α at *
    generalize Real.cos (2 * Real.pi * fc / fs) = c at *
    dsimp only at hg
    have hd : 1 + α ≠ 0 := by linarith
    unfold Biquad.ofCoeffs at hg
    rw [if_neg hd] at hg
    cases hg
    have e : (1 : ℝ) + -2 * c / (1 + α) + (1 - α) / (1 + α) = 2 * (1 - c) / (1 + α) := by
      field_simp
      ring
    have e' : (1 - c) / 2 / (1 + α) + (1 - c) / (1 + α) + (1 - c) / 2 / (1 + α) = 2 * (1 - c) / (1 + α) := by
      field_simp
      ring
    constructor
    · simp only [denAt, inv_one, mul_one, one_pow]
      rw [← Complex.ofReal_one, ← Complex.ofReal_add, ← Complex.ofReal_add, e, Ne, Complex.ofReal_eq_zero]
      exact (div_pos (by linarith) (by linarith)).ne'
    · simp only [denAt, numAt, inv_one, mul_one, one_pow, one_mul]
      rw [← Complex.ofReal_one, ← Complex.ofReal_add, ← Complex.ofReal_add, ← Complex.ofReal_add, ← Complex.ofReal_add, e,
        e']
  obtain ⟨D, ρ, r0, r1, hr⟩ := C75_section g hst 1 0 0 ht
  have hone : sinusoid 1 0 0 = fun _ => 1 := by
    funext n
    simp [sinusoid]
  have htar : sinusoid (‖(1 : ℂ)‖ * 1) 0 (0 + (1 : ℂ).arg) = fun _ => 1 := by
    funext n
    simp [sinusoid]
  rw [hone, htar] at hr
  have hb : ∀ n, |g.response (fun _ => 1) n - 1| ≤ D * ρ ^ n := by
    intro n
    obtain ⟨-, h⟩ := hr (n + 1)
    obtain ⟨y, hy, hy'⟩ := h n (Nat.lt_succ_self n)
    dsimp only at hy
    rw [(Biquad.filter_range g _ _).2] at hy
    simp at hy
    rw [hy]
    exact hy'
  rw [tendsto_iff_norm_sub_tendsto_zero]
  refine squeeze_zero (fun n => norm_nonneg _) hb ?_
  simpa using (tendsto_pow_atTop_nhds_zero_of_lt_one r0 r1).const_mul D

/-- **Violation.**  The condition `38400 k² ≤ 2^p` cannot be dropped: for a very low cutoff the designed low-pass outputs 0
for ever for the constant 1, while the output of the exact one tends to 1. -/
theorem C138_silent_violates {p : ℕ} {s c : ℝ → ℝ} {fc fs Q : ℝ} (hp : 24 ≤ p) (hq : p ≤ 53) (hs : SinLike p s)
    (hc : ∀ x, c x = rnd p (Real.cos x)) (h0 : 0 < fc) (h1 : fc < fs / 2) (hQ : 1 / 2 ≤ Q)
    (hlow : 2 * (2 * Real.pi * fc / fs) ^ 2 ≤ 2 ^ (-(p : ℤ))) :
    ∃ f g, RndRbj.lowPass p s c fc fs Q = .ok f ∧ Rbj.lowPass fc fs Q = .ok g ∧
      (∀ n, biquadResponse (rnd p) f (fun _ => 1) n = 0) ∧
        Filter.Tendsto (g.response fun _ => 1) Filter.atTop (nhds 1) := by
  have hQ0 : 0 < Q := by linarith
  have hu : (2 : ℝ) ^ (-(p : ℤ)) ≤ 2 ^ (-(24 : ℤ)) := zpow_le_zpow_right₀ (by norm_num) (by omega)
  have hu0 : 0 < (2 : ℝ) ^ (-(p : ℤ)) := by positivity
  have hQi : 1 / Q ≤ 2 := by rw [div_le_iff₀ hQ0]; linarith
  have hv : 2 ^ (-(p : ℤ)) * (1 + 1 / Q) ≤ (1 : ℝ) / 1000 := by
    have e : (2 : ℝ) ^ (-(24 : ℤ)) ≤ 1 / 3000 := by norm_num
    have := mul_le_mul (hu.trans e) (show 1 + 1 / Q ≤ 3 by linarith) (by positivity) (by norm_num)
    linarith
  obtain ⟨⟨f, hf, hz⟩, -⟩ := C116_silent_violates hp hq hs hc h0 h1 hQ0 hv hlow
  obtain ⟨g, hg, ht⟩ := low_pass_dc h0 h1 hQ0
  exact ⟨f, g, hf, hg, fun n => hz _ n, ht⟩

/-- In `float` at 44100 samples per second with cutoff 0.5 Hz. -/
example {s c : ℝ → ℝ} (hs : SinLike 24 s) (hc : ∀ x, c x = rnd 24 (Real.cos x)) :
    ∃ f g, RndRbj.lowPass 24 s c (1 / 2) 44100 1 = .ok f ∧ Rbj.lowPass (1 / 2) 44100 1 = .ok g ∧
      (∀ n, biquadResponse (rnd 24) f (fun _ => 1) n = 0) ∧
        Filter.Tendsto (g.response fun _ => 1) Filter.atTop (nhds 1) := by
  refine C138_silent_violates (by norm_num) (by norm_num) hs hc (by norm_num) (by norm_num) (by norm_num) ?_
  have h3 : Real.pi ≤ 3.1416 := Real.pi_lt_d4.le
  have hpi := Real.pi_pos
  have a : 2 * Real.pi * (1 / 2) / 44100 ≤ 1 / 14000 := by
    rw [div_le_iff₀ (by norm_num)]
    linarith
  have b := pow_le_pow_left₀ (by positivity) a 2
  refine le_trans (mul_le_mul_of_nonneg_left b (by norm_num)) ?_
  norm_num

/-- In `double`, a quarter of the sampling frequency and quality 1: `k = 3`, and the computed output of the low-pass stays
within 2·10⁻⁷ of the exact one for an input within `[-1, 1]`. -/
example {s c : ℝ → ℝ} (hs : SinLike 53 s) (hc : CosLike 53 c) {x : ℕ → ℝ} (hx : ∀ n, |x n| ≤ 1) :
    ∃ f g, RndRbj.lowPass 53 s c 11025 44100 1 = .ok f ∧ Rbj.lowPass 11025 44100 1 = .ok g ∧
      ∀ n, |biquadResponse (rnd 53) f x n - g.response x n| ≤ 2 / 10000000 := by
  have e : 2 * Real.pi * 11025 / 44100 = Real.pi / 2 := by ring
  obtain ⟨f, g, h1, h2, h3⟩ := C138_rbj_partial (p := 53) (fc := 11025) (fs := 44100) (Q := 1) (k := 3) (by norm_num)
    (by norm_num) hs hc (by norm_num) (by norm_num) (by norm_num) (by rw [e, Real.sin_pi_div_two]; norm_num)
    (by norm_num) _ (List.mem_cons_self ..)
  refine ⟨f, g, h1, h2, fun n => (h3 1 x hx n).trans ?_⟩
  norm_num

/-- The same for the band-pass of Zoelzer. -/
example {t : ℝ → ℝ} (ht : TanLike 53 t) {x : ℕ → ℝ} (hx : ∀ n, |x n| ≤ 1) :
    ∃ f g, RndZoelzer.bandPass 53 t 11025 44100 1 = .ok f ∧ Zoelzer.bandPass 11025 44100 1 = .ok g ∧
      ∀ n, |biquadResponse (rnd 53) f x n - g.response x n| ≤ 4 / 10000000 := by
  have e : 2 * Real.pi * 11025 / 44100 = Real.pi / 2 := by ring
  have e' : Real.pi * 11025 / 44100 = Real.pi / 4 := by ring
  have hc : (1 : ℝ) / 2 ≤ Real.cos (Real.pi * 11025 / 44100) := by
    rw [e', Real.cos_pi_div_four]
    have : (1 : ℝ) ≤ √2 := Real.one_le_sqrt.2 (by norm_num)
    linarith
  obtain ⟨f, g, h1, h2, h3⟩ := C138_zoelzer_partial (p := 53) (fc := 11025) (fs := 44100) (Q := 1) (k := 3) (by norm_num)
    (by norm_num) ht (by norm_num) (by norm_num) (by norm_num) (by rw [e, Real.sin_pi_div_two]; norm_num)
    rfl (by linarith [mul_le_mul_of_nonneg_left hc (show (0 : ℝ) ≤ 2 ^ 53 by positivity),
      show (38400 : ℝ) * 3 ^ 2 ≤ 2 ^ 53 * (1 / 2) by norm_num]) (RndZoelzer.bandPass 53 t, Zoelzer.bandPass)
    (by simp [zoelzerDesigns])
  refine ⟨f, g, h1, h2, fun n => (h3 1 x hx n).trans ?_⟩
  generalize Real.cos (Real.pi * 11025 / 44100) = C at *
  have hd : (2 : ℝ) ^ (-((53 : ℕ) : ℤ)) / C ≤ 2 ^ (-((53 : ℕ) : ℤ)) / (1 / 2) :=
    div_le_div_of_nonneg_left (by positivity) (by norm_num) hc
  have := mul_le_mul_of_nonneg_left hd (show (0 : ℝ) ≤ 20000000 * 3 ^ 4 by norm_num)
  rw [mul_one]
  refine this.trans ?_
  norm_num

end Edsp.C138
