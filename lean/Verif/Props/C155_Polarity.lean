import Verif.Lemmas.Polarity
import Verif.Props.C16_Prototype
import Verif.Props.C57_Chebyshev

/-!
# C155: sign and phase with which designs let signals through

Gains are magnitudes.  Here: constants, alternating samples and sinusoids at the cutoff with their sign and
phase.  The equaliser sections are as in the textbooks.  Low-passes of any order keep the sign of constants and
delay the cutoff by an eighth of a period per order.  High-passes of even order keep the sign of alternating
samples; those of odd order **turn it round**, because the section of one pole and one zero has its numerator
reversed.
-/

namespace Edsp.Props

open Edsp Edsp.Spec Edsp.LayoutL Edsp.BilinearL Edsp.AnalogL Edsp.PolarityL

/-- A section with given contents of its two memory cells, as a function of the samples. -/
noncomputable def fromState (f : Biquad ℝ) (s : ℝ × ℝ) : List ℝ → List ℝ :=
  fun xs => (({ f with w0 := s.1, w1 := s.2 } : Biquad ℝ).filter xs).2

/-- The three answers of a section that is the bilinear image of `n / d`. -/
theorem C155_three {f : Biquad ℝ} (hf : f.stability = true) {fc fs : ℝ} (h0 : 0 < fc) (h1 : fc < fs / 2)
    {n d : ℝ × ℝ × ℝ} (hb : BilinearOf f (Real.tan (Real.pi * fc / fs)) n d) (hd2 : d.1 ≠ 0) (hd1 : d.2.1 ≠ 0)
    (hd0 : d.2.2 ≠ 0) {r0 r1 g φ : ℝ} (e0 : n.2.2 / d.2.2 = r0) (p0 : 0 ≤ r0) (e1 : n.1 / d.1 = r1) (p1 : 0 ≤ r1)
    (pg : 0 ≤ g)
    (eg : (((n.2.2 - n.1 : ℝ) + (n.2.1 : ℝ) * Complex.I) / ((d.2.2 - d.1 : ℝ) + (d.2.1 : ℝ) * Complex.I) : ℂ) =
      g * Complex.exp (φ * Complex.I)) (s : ℝ × ℝ) (A p : ℝ) :
    Answers (fromState f s) (constant A) (constant (r0 * A)) ∧
    Answers (fromState f s) (alternating A) (alternating (r1 * A)) ∧
    Answers (fromState f s) (sinusoid A (2 * Real.pi * fc / fs) p) (sinusoid (g * A) (2 * Real.pi * fc / fs) (p + φ)) := by
  have hK : Real.tan (Real.pi * fc / fs) ≠ 0 := by
    have hfs : 0 < fs := by linarith
    refine (Real.tan_pos_of_pos_of_lt_pi_div_two (by positivity) ?_).ne'
    rw [div_lt_div_iff₀ hfs two_pos]; nlinarith [Real.pi_pos]
  refine ⟨?_, ?_, ?_⟩
  · have := section_answers hf s.1 s.2 (transfer_one hb hd0) (e0 ▸ HasPhase.of_nonneg p0) A 0
    rw [e0, Complex.norm_of_nonneg p0, add_zero, sinusoid_constant, sinusoid_constant] at this
    exact this
  · have := section_answers hf s.1 s.2 (transfer_neg_one hf hK hb hd2) (e1 ▸ HasPhase.of_nonneg p1) A 0
    rw [e1, Complex.norm_of_nonneg p1, add_zero, sinusoid_alternating, sinusoid_alternating] at this
    exact this
  · have h := transfer_cutoff h0 h1 hb hd1
    rw [eg] at h
    have := section_answers hf s.1 s.2 h (HasPhase.of_mul pg) A p
    rw [norm_mul, Complex.norm_exp_ofReal_mul_I, mul_one, Complex.norm_of_nonneg pg] at this
    exact this

theorem same_ok {α : Type*} {e : Except Fault α} {x y : α} (h : e = .ok x) (h' : e = .ok y) : x = y := by
  rw [h] at h'; injection h'

theorem quarter_back (Q : ℝ) (hQ : 0 < Q) :
    (((1 - 0 : ℝ) + (0 : ℝ) * Complex.I) / ((1 - 1 : ℝ) + (1 / Q : ℝ) * Complex.I) : ℂ) =
      Q * Complex.exp ((-(Real.pi / 2) : ℝ) * Complex.I) := by
  have hQc : (Q : ℂ) ≠ 0 := by exact_mod_cast hQ.ne'
  have : ((-(Real.pi / 2) : ℝ) : ℂ) * Complex.I = -(Real.pi / 2 * Complex.I) := by push_cast; ring
  rw [this, Complex.exp_neg, Complex.exp_pi_div_two_mul_I]
  push_cast
  field_simp
  simp

/-- **C155, second-order low-passes** (RBJ and Zoelzer), for every cutoff between 0 and Nyquist, every quality
and every state: constants come out as they are, alternating samples die out, and a sinusoid at the cutoff comes out
`Q` times as large and a quarter of a period late. -/
theorem C155_low_passes (fc fs Q : ℝ) (h0 : 0 < fc) (h1 : fc < fs / 2) (hQ : 0 < Q) :
    ∀ design ∈ [Rbj.lowPass, Zoelzer.lowPass], ∃ f, design fc fs Q = .ok f ∧ ∀ s A p,
      Answers (fromState f s) (constant A) (constant A) ∧ Answers (fromState f s) (alternating A) (constant 0) ∧
      Answers (fromState f s) (sinusoid A (2 * Real.pi * fc / fs) p)
        (sinusoid (Q * A) (2 * Real.pi * fc / fs) (p - Real.pi / 2)) := by
  have key : ∀ f : Biquad ℝ, f.stability = true → BilinearOf f (Real.tan (Real.pi * fc / fs)) (0, 0, 1) (1, 1 / Q, 1) →
      ∀ s A p, Answers (fromState f s) (constant A) (constant A) ∧
      Answers (fromState f s) (alternating A) (constant 0) ∧
      Answers (fromState f s) (sinusoid A (2 * Real.pi * fc / fs) p)
        (sinusoid (Q * A) (2 * Real.pi * fc / fs) (p - Real.pi / 2)) := by
    intro f hs hb s A p
    have hq : 1 / Q ≠ 0 := by positivity
    obtain ⟨a, b, c⟩ := C155_three hs h0 h1 hb one_ne_zero hq one_ne_zero (r0 := 1) (r1 := 0) (by norm_num)
      zero_le_one (by norm_num) le_rfl hQ.le (quarter_back Q hQ) s A p
    rw [one_mul] at a
    refine ⟨a, ?_, ?_⟩
    · rw [zero_mul] at b
      have e : alternating 0 = constant 0 := by funext k; simp [alternating, constant]
      rwa [e] at b
    · rw [sub_eq_add_neg]; exact c
  intro design hd
  simp only [List.mem_cons, List.not_mem_nil, or_false] at hd
  rcases hd with rfl | rfl
  · obtain ⟨f, hf, hs, -⟩ := C16_low_pass fc fs Q h0 h1 hQ
    obtain ⟨g, hg, hb⟩ := C16_low_pass_prototype fc fs Q h0 h1 hQ
    obtain rfl := same_ok hf hg
    exact ⟨f, hf, key f hs hb⟩
  · obtain ⟨f, hf, hs, -⟩ := C17_low_pass fc fs Q h0 h1 hQ
    obtain ⟨g, hg, hb⟩ := C17_low_pass_prototype fc fs Q h0 h1 hQ
    obtain rfl := same_ok hf hg
    exact ⟨f, hf, key f hs hb⟩

/-- A section with something left in its memory, fed a constant. -/
example : ∃ f, Rbj.lowPass 1000 48000 0.5 = .ok f ∧ Answers (fromState f (3, -2)) (constant 7) (constant 7) := by
  obtain ⟨f, hf, h⟩ := C155_low_passes 1000 48000 0.5 (by norm_num) (by norm_num) (by norm_num) Rbj.lowPass (by simp)
  exact ⟨f, hf, (h (3, -2) 7 0).1⟩

/-- **C155, second-order high-passes**: constants die out, alternating samples come out as they are, and a sinusoid at
the cutoff comes out `Q` times as large and a quarter of a period early. -/
theorem C155_high_passes (fc fs Q : ℝ) (h0 : 0 < fc) (h1 : fc < fs / 2) (hQ : 0 < Q) :
    ∀ design ∈ [Rbj.highPass, Zoelzer.highPass], ∃ f, design fc fs Q = .ok f ∧ ∀ s A p,
      Answers (fromState f s) (constant A) (constant 0) ∧ Answers (fromState f s) (alternating A) (alternating A) ∧
      Answers (fromState f s) (sinusoid A (2 * Real.pi * fc / fs) p)
        (sinusoid (Q * A) (2 * Real.pi * fc / fs) (p + Real.pi / 2)) := by
  have key : ∀ f : Biquad ℝ, f.stability = true → BilinearOf f (Real.tan (Real.pi * fc / fs)) (1, 0, 0) (1, 1 / Q, 1) →
      ∀ s A p, Answers (fromState f s) (constant A) (constant 0) ∧
      Answers (fromState f s) (alternating A) (alternating A) ∧
      Answers (fromState f s) (sinusoid A (2 * Real.pi * fc / fs) p)
        (sinusoid (Q * A) (2 * Real.pi * fc / fs) (p + Real.pi / 2)) := by
    intro f hs hb s A p
    have hq : 1 / Q ≠ 0 := by positivity
    obtain ⟨a, b, c⟩ := C155_three hs h0 h1 hb one_ne_zero hq one_ne_zero (r0 := 0) (r1 := 1) (g := Q)
      (φ := Real.pi / 2) (by norm_num) le_rfl (by norm_num) zero_le_one hQ.le (by
        have hQc : (Q : ℂ) ≠ 0 := by exact_mod_cast hQ.ne'
        have : ((Real.pi / 2 : ℝ) : ℂ) * Complex.I = Real.pi / 2 * Complex.I := by push_cast; ring
        rw [this, Complex.exp_pi_div_two_mul_I]
        push_cast
        field_simp
        linear_combination -Complex.I_sq) s A p
    rw [zero_mul] at a
    rw [one_mul] at b
    exact ⟨a, b, c⟩
  intro design hd
  simp only [List.mem_cons, List.not_mem_nil, or_false] at hd
  rcases hd with rfl | rfl
  · obtain ⟨f, hf, hs, -⟩ := C16_high_pass fc fs Q h0 h1 hQ
    obtain ⟨g, hg, hb⟩ := C16_high_pass_prototype fc fs Q h0 h1 hQ
    obtain rfl := same_ok hf hg
    exact ⟨f, hf, key f hs hb⟩
  · obtain ⟨f, hf, hs, -⟩ := C17_high_pass fc fs Q h0 h1 hQ
    obtain ⟨g, hg, hb⟩ := C17_high_pass_prototype fc fs Q h0 h1 hQ
    obtain rfl := same_ok hf hg
    exact ⟨f, hf, key f hs hb⟩

example : ∃ f, Zoelzer.highPass 1000 48000 2 = .ok f ∧
    Answers (fromState f (1, 1)) (alternating 5) (alternating 5) := by
  obtain ⟨f, hf, h⟩ := C155_high_passes 1000 48000 2 (by norm_num) (by norm_num) (by norm_num) Zoelzer.highPass (by simp)
  exact ⟨f, hf, (h (1, 1) 5 0).2.1⟩

/-- **C155, band-passes**: constants and alternating samples die out; a sinusoid at the centre comes out in phase,
`Q` times as large from the RBJ design and of its own size from the Zoelzer design. -/
theorem C155_band_passes (fc fs Q : ℝ) (h0 : 0 < fc) (h1 : fc < fs / 2) (hQ : 0 < Q) :
    ∀ q ∈ [(Rbj.bandPass, Q), (Zoelzer.bandPass, 1)], ∃ f, q.1 fc fs Q = .ok f ∧ ∀ s A p,
      Answers (fromState f s) (constant A) (constant 0) ∧ Answers (fromState f s) (alternating A) (constant 0) ∧
      Answers (fromState f s) (sinusoid A (2 * Real.pi * fc / fs) p) (sinusoid (q.2 * A) (2 * Real.pi * fc / fs) p) := by
  have hQc : (Q : ℂ) ≠ 0 := by exact_mod_cast hQ.ne'
  have key : ∀ (f : Biquad ℝ) (b g : ℝ), 0 ≤ g → b = g / Q → f.stability = true →
      BilinearOf f (Real.tan (Real.pi * fc / fs)) (0, b, 0) (1, 1 / Q, 1) →
      ∀ s A p, Answers (fromState f s) (constant A) (constant 0) ∧
      Answers (fromState f s) (alternating A) (constant 0) ∧
      Answers (fromState f s) (sinusoid A (2 * Real.pi * fc / fs) p) (sinusoid (g * A) (2 * Real.pi * fc / fs) p) := by
    intro f b g hg hbg hs hb s A p
    have hq : 1 / Q ≠ 0 := by positivity
    obtain ⟨a, b, c⟩ := C155_three hs h0 h1 hb one_ne_zero hq one_ne_zero (r0 := 0) (r1 := 0) (g := g) (φ := 0)
      (by norm_num) le_rfl (by norm_num) le_rfl hg (by
        rw [Complex.ofReal_zero, zero_mul, Complex.exp_zero]
        simp only [hbg]
        push_cast
        have := Complex.I_ne_zero
        field_simp
        ring) s A p
    rw [zero_mul] at a b
    have e : alternating 0 = constant 0 := by funext k; simp [alternating, constant]
    rw [e] at b
    rw [add_zero] at c
    exact ⟨a, b, c⟩
  intro q hq
  simp only [List.mem_cons, List.not_mem_nil, or_false] at hq
  rcases hq with rfl | rfl
  · obtain ⟨f, hf, hs, -⟩ := C16_band_pass fc fs Q h0 h1 hQ
    obtain ⟨g, hg, hb⟩ := C16_band_pass_prototype fc fs Q h0 h1 hQ
    obtain rfl := same_ok hf hg
    exact ⟨f, hf, key f _ _ hQ.le (div_self hQ.ne').symm hs hb⟩
  · obtain ⟨f, hf, hs, -⟩ := C17_band_pass fc fs Q h0 h1 hQ
    obtain ⟨g, hg, hb⟩ := C17_band_pass_prototype fc fs Q h0 h1 hQ
    obtain rfl := same_ok hf hg
    exact ⟨f, hf, key f _ _ zero_le_one rfl hs hb⟩

example : ∃ f, Zoelzer.bandPass 1000 48000 3 = .ok f ∧
    Answers (fromState f (0, 0)) (sinusoid 2 (2 * Real.pi * 1000 / 48000) 1) (sinusoid (1 * 2) (2 * Real.pi * 1000 / 48000) 1) := by
  obtain ⟨f, hf, h⟩ := C155_band_passes 1000 48000 3 (by norm_num) (by norm_num) (by norm_num) (Zoelzer.bandPass, 1)
    (by simp)
  exact ⟨f, hf, (h (0, 0) 2 1).2.2⟩

/-- **C155, all-pass**: constants and alternating samples come out as they are, a sinusoid at the cutoff with its sign
turned round. -/
theorem C155_all_pass (fc fs Q : ℝ) (h0 : 0 < fc) (h1 : fc < fs / 2) (hQ : 0 < Q) :
    ∃ f, Rbj.allPass fc fs Q = .ok f ∧ ∀ s A p,
      Answers (fromState f s) (constant A) (constant A) ∧ Answers (fromState f s) (alternating A) (alternating A) ∧
      Answers (fromState f s) (sinusoid A (2 * Real.pi * fc / fs) p) (sinusoid (-A) (2 * Real.pi * fc / fs) p) := by
  obtain ⟨f, hf, hs, -⟩ := C16_all_pass fc fs Q h0 h1 hQ
  obtain ⟨g, hg, hb⟩ := C16_all_pass_prototype fc fs Q h0 h1 hQ
  obtain rfl := same_ok hf hg
  refine ⟨f, hf, fun s A p => ?_⟩
  have hq : 1 / Q ≠ 0 := by positivity
  obtain ⟨a, b, c⟩ := C155_three hs h0 h1 hb one_ne_zero hq one_ne_zero (r0 := 1) (r1 := 1) (g := 1) (φ := Real.pi)
    (by norm_num) zero_le_one (by norm_num) zero_le_one zero_le_one (by
      have hQc : (Q : ℂ) ≠ 0 := by exact_mod_cast hQ.ne'
      rw [Complex.exp_pi_mul_I]
      push_cast
      have := Complex.I_ne_zero
      field_simp
      ring) s A p
  rw [one_mul] at a b c
  rw [sinusoid_turned] at c
  exact ⟨a, b, c⟩

example : ∃ f, Rbj.allPass 1000 48000 1 = .ok f ∧
    Answers (fromState f (0, 0)) (sinusoid 2 (2 * Real.pi * 1000 / 48000) 1) (sinusoid (-2) (2 * Real.pi * 1000 / 48000) 1) := by
  obtain ⟨f, hf, h⟩ := C155_all_pass 1000 48000 1 (by norm_num) (by norm_num) (by norm_num)
  exact ⟨f, hf, (h (0, 0) 2 1).2.2⟩

/-- **C155, RBJ shelves**: a low shelf multiplies constants by its gain and leaves alternating samples as they are; a
high shelf the other way round. -/
theorem C155_shelves (fc fs Q G : ℝ) (h0 : 0 < fc) (h1 : fc < fs / 2) (hQ : 0 < Q) :
    (∃ f, Rbj.lowShelf fc fs Q G = .ok f ∧ ∀ s A,
      Answers (fromState f s) (constant A) (constant ((10 : ℝ) ^ (G / 20) * A)) ∧
      Answers (fromState f s) (alternating A) (alternating A)) ∧
    ∃ f, Rbj.highShelf fc fs Q G = .ok f ∧ ∀ s A,
      Answers (fromState f s) (constant A) (constant A) ∧
      Answers (fromState f s) (alternating A) (alternating ((10 : ℝ) ^ (G / 20) * A)) := by
  have hpos : (0 : ℝ) < (10 : ℝ) ^ (G / 40) := Real.rpow_pos_of_pos (by norm_num) _
  have hsq : (10 : ℝ) ^ (G / 40) * (10 : ℝ) ^ (G / 40) = (10 : ℝ) ^ (G / 20) := by
    rw [← Real.rpow_add (by norm_num)]; congr 1; ring
  have hs1 : Real.sqrt ((10 : ℝ) ^ (G / 40)) / Q ≠ 0 := by
    have := Real.sqrt_pos.mpr hpos; positivity
  have polar : ∀ z : ℂ, z = ‖z‖ * Complex.exp (z.arg * Complex.I) := fun z => (Complex.norm_mul_exp_arg_mul_I z).symm
  constructor
  · obtain ⟨f, hf, hs, -⟩ := C16_low_shelf fc fs Q G h0 h1 hQ
    obtain ⟨g, hg, hb⟩ := C16_low_shelf_prototype fc fs Q h0 h1 hQ G _ rfl
    obtain rfl := same_ok hf hg
    refine ⟨f, hf, fun s A => ?_⟩
    obtain ⟨a, b, -⟩ := C155_three hs h0 h1 hb hpos.ne' hs1 one_ne_zero (r0 := (10 : ℝ) ^ (G / 20)) (r1 := 1)
      (by simp only [div_one]; exact hsq) (by positivity) (div_self hpos.ne') zero_le_one (norm_nonneg _) (polar _) s A 0
    rw [one_mul] at b
    exact ⟨a, b⟩
  · obtain ⟨f, hf, hs, -⟩ := C16_high_shelf fc fs Q G h0 h1 hQ
    obtain ⟨g, hg, hb⟩ := C16_high_shelf_prototype fc fs Q h0 h1 hQ G _ rfl
    obtain rfl := same_ok hf hg
    refine ⟨f, hf, fun s A => ?_⟩
    obtain ⟨a, b, -⟩ := C155_three hs h0 h1 hb one_ne_zero hs1 hpos.ne' (r0 := 1) (r1 := (10 : ℝ) ^ (G / 20))
      (div_self hpos.ne') zero_le_one (by simp only [div_one]; exact hsq) (by positivity) (norm_nonneg _) (polar _) s A 0
    rw [one_mul] at a
    exact ⟨a, b⟩

example : ∃ f, Rbj.lowShelf 1000 48000 1 20 = .ok f ∧
    Answers (fromState f (4, 4)) (constant 2) (constant ((10 : ℝ) ^ (20 / 20 : ℝ) * 2)) := by
  obtain ⟨⟨f, hf, h⟩, -⟩ := C155_shelves 1000 48000 1 20 (by norm_num) (by norm_num) (by norm_num)
  exact ⟨f, hf, (h (4, 4) 2).1⟩

/-- **C155, Zoelzer shelves that boost** (partial: the gain is not negative): as the RBJ shelves. -/
theorem C155_zoelzer_shelves_partial (fc fs G : ℝ) (h0 : 0 < fc) (h1 : fc < fs / 2) (hG : 0 ≤ G) :
    (∃ f, Zoelzer.lowShelf fc fs G = .ok f ∧ ∀ s A,
      Answers (fromState f s) (constant A) (constant ((10 : ℝ) ^ (G / 20) * A)) ∧
      Answers (fromState f s) (alternating A) (alternating A)) ∧
    ∃ f, Zoelzer.highShelf fc fs G = .ok f ∧ ∀ s A,
      Answers (fromState f s) (constant A) (constant A) ∧
      Answers (fromState f s) (alternating A) (alternating ((10 : ℝ) ^ (G / 20) * A)) := by
  have hpos : (0 : ℝ) < (10 : ℝ) ^ (G / 20) := Real.rpow_pos_of_pos (by norm_num) _
  have h2 : Real.sqrt 2 ≠ 0 := by positivity
  have polar : ∀ z : ℂ, z = ‖z‖ * Complex.exp (z.arg * Complex.I) := fun z => (Complex.norm_mul_exp_arg_mul_I z).symm
  constructor
  · obtain ⟨f, hf, hs, -⟩ := C17_low_shelf_boost_partial fc fs G h0 h1 hG
    obtain ⟨g, hg, hb⟩ := C17_low_shelf_boost_prototype_partial fc fs G h0 h1 hG
    obtain rfl := same_ok hf hg
    refine ⟨f, hf, fun s A => ?_⟩
    obtain ⟨a, b, -⟩ := C155_three hs h0 h1 hb one_ne_zero h2 one_ne_zero (r0 := (10 : ℝ) ^ (G / 20)) (r1 := 1)
      (div_one _) hpos.le (div_one _) zero_le_one (norm_nonneg _) (polar _) s A 0
    rw [one_mul] at b
    exact ⟨a, b⟩
  · obtain ⟨f, hf, hs, -⟩ := C17_high_shelf_boost_partial fc fs G h0 h1 hG
    obtain ⟨g, hg, hb⟩ := C17_high_shelf_boost_prototype_partial fc fs G h0 h1 hG
    obtain rfl := same_ok hf hg
    refine ⟨f, hf, fun s A => ?_⟩
    obtain ⟨a, b, -⟩ := C155_three hs h0 h1 hb one_ne_zero h2 one_ne_zero (r0 := 1) (r1 := (10 : ℝ) ^ (G / 20))
      (div_one _) zero_le_one (div_one _) hpos.le (norm_nonneg _) (polar _) s A 0
    rw [one_mul] at a
    exact ⟨a, b⟩

example : ∃ f, Zoelzer.highShelf 1000 48000 20 = .ok f ∧ Answers (fromState f (4, 4)) (constant 2) (constant 2) := by
  obtain ⟨-, f, hf, h⟩ := C155_zoelzer_shelves_partial 1000 48000 20 (by norm_num) (by norm_num) (by norm_num)
  exact ⟨f, hf, (h (4, 4) 2).1⟩

/-! ## Cascades of any order -/

/-- A cascade as a function of the samples. -/
noncomputable def fromCascade (c : Cascade ℝ) : List ℝ → List ℝ := fun xs => (c.filter xs).2

theorem cutoff_tan {fs fc : ℝ} (h0 : 0 < fc) (h1 : fc < fs / 2) :
    0 < Real.tan (Real.pi * (fc / fs)) ∧ Real.cos (2 * Real.pi * fc / fs / 2) ≠ 0 ∧
      2 * Real.pi * fc / fs / 2 = Real.pi * (fc / fs) ∧ 0 < 2 * Real.pi * fc / fs ∧ 2 * Real.pi * fc / fs < Real.pi := by
  have hpi := Real.pi_pos
  have hfs : 0 < fs := by linarith
  have e : 2 * Real.pi * fc / fs / 2 = Real.pi * (fc / fs) := by ring
  have hq : fc / fs < 1 / 2 := by rw [div_lt_iff₀ hfs]; linarith
  have hgt : 0 < Real.pi * (fc / fs) := by positivity
  have hlt : Real.pi * (fc / fs) < Real.pi / 2 := by nlinarith
  have e2 : 2 * Real.pi * fc / fs = 2 * (Real.pi * (fc / fs)) := by ring
  refine ⟨Real.tan_pos_of_pos_of_lt_pi_div_two hgt hlt, ?_, e, by rw [e2]; linarith, by rw [e2]; linarith⟩
  rw [e]
  exact (Real.cos_pos_of_mem_Ioo ⟨by linarith, hlt⟩).ne'

/-- The sections of the two Butterworth designs. -/
theorem butter_parts (dbg : Bool) {N n : Nat} (hn : 1 ≤ n) (hN : n ≤ N) (hd : n % 2 = 1 → dbg = false) {fs fc : ℝ}
    (h0 : 0 < fc) (h1 : fc < fs / 2) :
    (∃ c, Butterworth.lowPass dbg N n fs fc = .ok c ∧
      Parts 1 (Real.tan (Real.pi * (fc / fs))) (n / 2) (Butterworth.pole n) (fun _ => none) (oddSingle n (-1) none) c) ∧
    ∃ c, Butterworth.highPass dbg N n fs fc = .ok c ∧
      Parts (-1) (1 / Real.tan (Real.pi * (fc / fs))) (n / 2) (Butterworth.pole n) (fun _ => none) (oddSingle n (-1) none) c := by
  obtain ⟨e, hf0, hf1⟩ := fdiv_cutoff h0 h1
  obtain ⟨a, ha, haw, hag, hold⟩ := butter_analog hN hd
  have hlen := oddSingle_len n (-1) none
  have hM0 : MA (n / 2) (Butterworth.pole n) (fun _ => none) (oddSingle n (-1) none) 0 = 1 := by
    have := butter_MA n (by omega) 0
    rw [Complex.ofReal_zero, mul_zero] at this
    rw [this, zero_pow (by omega)]; simp
  obtain ⟨⟨d, c, hd', hc, hp⟩, ⟨d2, c2, hd2, hc2, hp2⟩⟩ := parts hold (by omega) (by omega)
    (fun k hk => butter_pole_lhp hk) (by intro k _ c hc; cases hc)
    (oddSingle_neg (by norm_num) (by intro c hc; cases hc)) (by rw [hag]; norm_num) dbg hf0 hf1 haw
    (by rw [hM0]; exact one_ne_zero)
  refine ⟨⟨c, ?_, hp⟩, c2, ?_, hp2⟩
  · unfold Butterworth.lowPass
    rw [e, ha]
    simp only [bind, Except.bind, hd', hc]
  · unfold Butterworth.highPass
    rw [e, ha]
    simp only [bind, Except.bind, hd2, hc2]

theorem single_none {n : Nat} {r : ℝ} (hr : r < 0) : ∀ q, oddSingle n r none = some q → q.1 < 0 ∧ q.2 = none := by
  intro q hq
  unfold oddSingle at hq
  split at hq
  · injection hq with hq; subst hq; exact ⟨hr, rfl⟩
  · cases hq

theorem single_length (n : Nat) (r : ℝ) : (oddSingle n r none).toList.length = n % 2 := by
  unfold oddSingle; split <;> simp <;> omega

theorem at_zero {c : Cascade ℝ} {h : ℂ} (ht : ChainTransferAt (active c) ((1 : ℝ) : ℂ) h) :
    ChainTransferAt (active c) (Complex.exp ((0 : ℝ) * Complex.I)) h := by
  rw [Complex.ofReal_zero, zero_mul, Complex.exp_zero]; simpa using ht

theorem at_pi {c : Cascade ℝ} {h : ℂ} (ht : ChainTransferAt (active c) ((-1 : ℝ) : ℂ) h) :
    ChainTransferAt (active c) (Complex.exp (Real.pi * Complex.I)) h := by
  rw [Complex.exp_pi_mul_I]; simpa using ht

/-- What a low-pass does to constants, whatever its prototype. -/
theorem low_end {f : ℝ} {m : Nat} {P : Nat → ℂ} {Z : Nat → Pt} {s : Option (ℝ × Option ℝ)} {c : Cascade ℝ}
    (h : Parts 1 f m P Z s c) (hf : 0 < f) (hs : ∀ q, s = some q → q.1 < 0 ∧ q.2 = none) {g : ℝ}
    (hg : ChainGainAt (active c) 0 g) (A : ℝ) : Answers (fromCascade c) (constant A) (constant (g * A)) := by
  obtain ⟨k, ht, hk⟩ := end_phase h (Or.inl rfl) hf hs
  have := cascade_answers h.1 hg ⟨k, at_zero ht, hk⟩ A 0
  have e : (0 : ℝ) + s.toList.length * turn 1 = 0 := by unfold turn; ring
  rw [e, sinusoid_constant, sinusoid_constant] at this
  exact this

/-- What a high-pass does to alternating samples, whatever its prototype. -/
theorem high_end {f : ℝ} {m : Nat} {P : Nat → ℂ} {Z : Nat → Pt} {n : Nat} {r : ℝ} (hr : r < 0) {c : Cascade ℝ}
    (h : Parts (-1) f m P Z (oddSingle n r none) c) (hf : 0 < f) {g : ℝ}
    (hg : ChainGainAt (active c) Real.pi g) (A : ℝ) :
    Answers (fromCascade c) (alternating A) (alternating ((if n % 2 = 0 then g else -g) * A)) := by
  obtain ⟨k, ht, hk⟩ := end_phase h (Or.inr rfl) hf (single_none hr)
  have := cascade_answers h.1 hg ⟨k, at_pi ht, hk⟩ A 0
  have e : turn (-1) = Real.pi := by unfold turn; ring
  rw [single_length, e] at this
  rcases Nat.mod_two_eq_zero_or_one n with h2 | h2
  · rw [h2, Nat.cast_zero, zero_mul, add_zero, sinusoid_alternating, sinusoid_alternating] at this
    rw [if_pos h2]
    exact this
  · rw [h2, Nat.cast_one, one_mul, sinusoid_turned, sinusoid_alternating, sinusoid_alternating] at this
    rw [if_neg (by omega), neg_mul]
    exact this

/-- **C155, Butterworth low-passes of every order**: constants come out as they are, alternating samples die out, and
a sinusoid at the cutoff comes out with `1/√2` of its amplitude and late by an eighth of a period per order. -/
theorem C155_butterworth_low (dbg : Bool) {N n : Nat} (hn : 1 ≤ n) (hN : n ≤ N) (hd : n % 2 = 1 → dbg = false)
    {fs fc : ℝ} (h0 : 0 < fc) (h1 : fc < fs / 2) :
    ∃ c, Butterworth.lowPass dbg N n fs fc = .ok c ∧ ∀ A p,
      Answers (fromCascade c) (constant A) (constant A) ∧ Answers (fromCascade c) (alternating A) (constant 0) ∧
      Answers (fromCascade c) (sinusoid A (2 * Real.pi * fc / fs) p)
        (sinusoid (1 / Real.sqrt 2 * A) (2 * Real.pi * fc / fs) (p - n * Real.pi / 4)) := by
  obtain ⟨⟨c, hc, hp⟩, -⟩ := butter_parts dbg hn hN hd h0 h1
  obtain ⟨c', hc', -, hst, -, hny⟩ := C55_butterworth_lowpass dbg hn hN hd h0 h1
  obtain rfl := same_ok hc hc'
  obtain ⟨c', hc', hz, hcut⟩ := C55_butterworth_lowpass_cutoff dbg hn hN hd h0 h1
  obtain rfl := same_ok hc hc'
  obtain ⟨ht, hcos, hw, hw0, hw1⟩ := cutoff_tan h0 h1
  refine ⟨c, hc, fun A p => ⟨?_, ?_, ?_⟩⟩
  · have := low_end hp ht (single_none (by norm_num)) hz A
    rwa [one_mul] at this
  · obtain ⟨h, hh, hn0⟩ := hny
    have h00 : h = 0 := norm_eq_zero.mp hn0
    have := cascade_answers hst ⟨h, hh, hn0⟩ ⟨h, hh, (by rw [h00]; simpa using HasPhase.of_nonneg le_rfl : HasPhase h 0)⟩ A 0
    rw [zero_mul, sinusoid_alternating, add_zero, sinusoid_alternating] at this
    have e : alternating 0 = constant 0 := by funext k; simp [alternating, constant]
    rw [e] at this
    exact this
  · obtain ⟨hz1, hu⟩ := circle_axis hcos
    rw [hw] at hu
    obtain ⟨h, hh, hph⟩ := cutoff_phase hp (Or.inl rfl) ht (z := Complex.exp ((2 * Real.pi * fc / fs : ℝ) * Complex.I))
      (Complex.norm_exp_ofReal_mul_I _) (by simpa using hz1) (by simpa using hu)
    have := cascade_answers hst hcut ⟨h, hh, hph⟩ A p
    have e : p + (-1 * (n * Real.pi / 4) + (n % 2 : ℕ) * turn 1) = p - n * Real.pi / 4 := by unfold turn; ring
    rw [e] at this
    exact this

example : ∃ c, Butterworth.lowPass true 8 4 48000 1000 = .ok c ∧
    Answers (fromCascade c) (constant 3) (constant 3) := by
  obtain ⟨c, h1, h2⟩ := C155_butterworth_low true (N := 8) (n := 4) (by norm_num) (by norm_num) (by norm_num)
    (fs := 48000) (fc := 1000) (by norm_num) (by norm_num)
  exact ⟨c, h1, (h2 3 0).1⟩

/-- What all Butterworth high-passes do; the sign `ε` is 1 for even orders and -1 for odd ones. -/
theorem C155_butterworth_high_all (dbg : Bool) {N n : Nat} (hn : 1 ≤ n) (hN : n ≤ N) (hd : n % 2 = 1 → dbg = false)
    {fs fc : ℝ} (h0 : 0 < fc) (h1 : fc < fs / 2) {ε : ℝ} (hε : ε = if n % 2 = 0 then 1 else -1) :
    ∃ c, Butterworth.highPass dbg N n fs fc = .ok c ∧ ∀ A p,
      Answers (fromCascade c) (constant A) (constant 0) ∧ Answers (fromCascade c) (alternating A) (alternating (ε * A)) ∧
      Answers (fromCascade c) (sinusoid A (2 * Real.pi * fc / fs) p)
        (sinusoid (ε * (1 / Real.sqrt 2) * A) (2 * Real.pi * fc / fs) (p + n * Real.pi / 4)) := by
  obtain ⟨-, ⟨c, hc, hp⟩⟩ := butter_parts dbg hn hN hd h0 h1
  obtain ⟨c', hc', -, hst, hg, hny, hz⟩ := C56_butterworth_highpass dbg hn hN hd h0 h1
  obtain rfl := same_ok hc hc'
  obtain ⟨ht, hcos, hw, hw0, hw1⟩ := cutoff_tan h0 h1
  refine ⟨c, hc, fun A p => ⟨?_, ?_, ?_⟩⟩
  · obtain ⟨h, hh, hn0⟩ := hz
    have h00 : h = 0 := norm_eq_zero.mp hn0
    have := cascade_answers hst ⟨h, hh, hn0⟩ ⟨h, hh, (by rw [h00]; simpa using HasPhase.of_nonneg le_rfl : HasPhase h 0)⟩ A 0
    rw [zero_mul, sinusoid_constant, add_zero, sinusoid_constant] at this
    exact this
  · have := high_end (by norm_num) hp (by positivity) hny A
    rw [hε]
    exact this
  · obtain ⟨hz1, hu⟩ := circle_axis hcos
    rw [hw] at hu
    set z := Complex.exp ((2 * Real.pi * fc / fs : ℝ) * Complex.I) with hzd
    have htc : (Real.tan (Real.pi * (fc / fs)) : ℂ) ≠ 0 := by exact_mod_cast ht.ne'
    have hzp : z + 1 ≠ 0 := by intro h; exact hz1 (by linear_combination h)
    have hzm : z - 1 ≠ 0 := by
      intro h
      rw [h, zero_div] at hu
      exact mul_ne_zero Complex.I_ne_zero htc hu.symm
    have hcut : ChainGainAt (active c) (2 * Real.pi * fc / fs) (1 / Real.sqrt 2) := by
      have := hg (2 * Real.pi * fc / fs) hw0.ne' (by rw [abs_of_pos hw0]; exact hw1)
      rw [hw, div_self ht.ne', one_pow] at this
      convert this using 3; norm_num
    obtain ⟨h, hh, hph⟩ := cutoff_phase hp (Or.inr rfl) (by positivity) (z := z)
      (Complex.norm_exp_ofReal_mul_I _) (by
        intro h
        refine hzm ?_
        push_cast at h
        linear_combination -h) (by
        have e1 : (((-1 : ℝ) : ℂ) * z - 1) / (((-1 : ℝ) : ℂ) * z + 1) = ((z - 1) / (z + 1))⁻¹ := by
          rw [inv_div]
          rw [show ((-1 : ℝ) : ℂ) * z - 1 = -(z + 1) by push_cast; ring,
            show ((-1 : ℝ) : ℂ) * z + 1 = -(z - 1) by push_cast; ring, neg_div_neg_eq]
        rw [e1, hu, mul_inv, Complex.inv_I]
        push_cast
        field_simp)
    have := cascade_answers hst hcut ⟨h, hh, hph⟩ A p
    have e : turn (-1) = Real.pi := by unfold turn; ring
    rw [e] at this
    rcases Nat.mod_two_eq_zero_or_one n with h2 | h2
    · rw [if_pos h2] at hε
      rw [h2] at this
      rw [hε, one_mul, show p + n * Real.pi / 4 = p + (- -1 * (n * Real.pi / 4) + (0 : ℕ) * Real.pi) by push_cast; ring]
      exact this
    · rw [if_neg (by omega)] at hε
      rw [h2, ← add_assoc, Nat.cast_one, one_mul, sinusoid_turned] at this
      rw [hε, show -1 * (1 / Real.sqrt 2) * A = -(1 / Real.sqrt 2 * A) by ring,
        show p + n * Real.pi / 4 = p + - -1 * (n * Real.pi / 4) by ring]
      exact this

/-- **C155, Butterworth high-passes of even order** (partial: not of odd order): constants die out, alternating samples
come out as they are, and a sinusoid at the cutoff comes out with `1/√2` of its amplitude and early by an eighth of a
period per order. -/
theorem C155_butterworth_high_partial (dbg : Bool) {N n : Nat} (hn : 1 ≤ n) (hN : n ≤ N) (he : n % 2 = 0)
    {fs fc : ℝ} (h0 : 0 < fc) (h1 : fc < fs / 2) :
    ∃ c, Butterworth.highPass dbg N n fs fc = .ok c ∧ ∀ A p,
      Answers (fromCascade c) (constant A) (constant 0) ∧ Answers (fromCascade c) (alternating A) (alternating A) ∧
      Answers (fromCascade c) (sinusoid A (2 * Real.pi * fc / fs) p)
        (sinusoid (1 / Real.sqrt 2 * A) (2 * Real.pi * fc / fs) (p + n * Real.pi / 4)) := by
  have := C155_butterworth_high_all dbg hn hN (by omega) h0 h1 (ε := 1) (by rw [if_pos he])
  simpa only [one_mul] using this

example : ∃ c, Butterworth.highPass true 8 4 48000 1000 = .ok c ∧
    Answers (fromCascade c) (alternating 3) (alternating 3) := by
  obtain ⟨c, h1, h2⟩ := C155_butterworth_high_partial true (N := 8) (n := 4) (by norm_num) (by norm_num) (by norm_num)
    (fs := 48000) (fc := 1000) (by norm_num) (by norm_num)
  exact ⟨c, h1, (h2 3 0).2.1⟩

/-- **C155 is violated by every Butterworth high-pass of odd order**: at Nyquist, the far end of its pass band, it
answers every alternating signal with the opposite one, and a sinusoid at the cutoff comes out with the opposite sign,
as well. -/
theorem C155_butterworth_high_violates {N n : Nat} (hN : n ≤ N) (ho : n % 2 = 1)
    {fs fc : ℝ} (h0 : 0 < fc) (h1 : fc < fs / 2) :
    ∃ c, Butterworth.highPass false N n fs fc = .ok c ∧ ∀ A p,
      Answers (fromCascade c) (alternating A) (alternating (-A)) ∧
      Answers (fromCascade c) (sinusoid A (2 * Real.pi * fc / fs) p)
        (sinusoid (-(1 / Real.sqrt 2 * A)) (2 * Real.pi * fc / fs) (p + n * Real.pi / 4)) := by
  obtain ⟨c, hc, h⟩ := C155_butterworth_high_all false (by omega) hN (fun _ => rfl) h0 h1 (ε := -1)
    (by rw [if_neg (by omega)])
  refine ⟨c, hc, fun A p => ?_⟩
  obtain ⟨-, a, b⟩ := h A p
  rw [neg_one_mul] at a
  rw [neg_one_mul, neg_mul] at b
  exact ⟨a, b⟩

example : ∃ c, Butterworth.highPass false 8 3 48000 1000 = .ok c ∧
    Answers (fromCascade c) (alternating 3) (alternating (-3)) := by
  obtain ⟨c, h1, h2⟩ := C155_butterworth_high_violates (N := 8) (n := 3) (by norm_num) (by norm_num)
    (fs := 48000) (fc := 1000) (by norm_num) (by norm_num)
  exact ⟨c, h1, (h2 3 0).1⟩

/-- The sections of the four Chebyshev designs. -/
theorem cheb_parts (dbg : Bool) {N n : Nat} (hn : 1 ≤ n) (hN : n ≤ N) (hd : n % 2 = 1 → dbg = false) {r : ℝ} (hr : 0 < r)
    {fs fc : ℝ} (h0 : 0 < fc) (h1 : fc < fs / 2) :
    ∃ (P P' : Nat → ℂ) (Z : Nat → Pt) (u u' : ℝ), u < 0 ∧ u' < 0 ∧
    (∃ c, ChebyshevI.lowPass dbg N n fs fc r = .ok c ∧
      Parts 1 (Real.tan (Real.pi * (fc / fs))) (n / 2) P (fun _ => none) (oddSingle n u none) c) ∧
    (∃ c, ChebyshevI.highPass dbg N n fs fc r = .ok c ∧
      Parts (-1) (1 / Real.tan (Real.pi * (fc / fs))) (n / 2) P (fun _ => none) (oddSingle n u none) c) ∧
    (∃ c, ChebyshevII.lowPass dbg N n fs fc r = .ok c ∧
      Parts 1 (Real.tan (Real.pi * (fc / fs))) (n / 2) P' Z (oddSingle n u' none) c) ∧
    ∃ c, ChebyshevII.highPass dbg N n fs fc r = .ok c ∧
      Parts (-1) (1 / Real.tan (Real.pi * (fc / fs))) (n / 2) P' Z (oddSingle n u' none) c := by
  obtain ⟨e, hf0, hf1⟩ := fdiv_cutoff h0 h1
  obtain ⟨a, v, hv, ha, haw, hag, hold, hM0, -⟩ := cheb1_setup dbg hn hN hd hr
  have hlen := oddSingle_len n (-Real.sinh v) none
  have hsh : 0 < Real.sinh v := Real.sinh_pos_iff.mpr hv
  obtain ⟨⟨d1, c1, hd1, hc1, hp1⟩, ⟨d2, c2, hd2, hc2, hp2⟩⟩ := parts hold (by omega) (by omega)
    (fun k hk => cheb_pole_lhp hk hv) (by intro k _ c hc; cases hc)
    (oddSingle_neg (by linarith) (by intro c hc; cases hc)) hag dbg hf0 hf1 haw hM0
  obtain ⟨a', v', hv', -, ha', haw', hag', hold'⟩ := cheb2_analog hn hN hd hr
  have hlen' := oddSingle_len n (1 / -Real.sinh v') none
  have hsh' : 0 < Real.sinh v' := Real.sinh_pos_iff.mpr hv'
  obtain ⟨K, hK, hK0, -, -⟩ := cheb2_MA n hn hv'
  have hneg : 1 / -Real.sinh v' < 0 := one_div_neg.mpr (by linarith)
  obtain ⟨⟨d3, c3, hd3, hc3, hp3⟩, ⟨d4, c4, hd4, hc4, hp4⟩⟩ := parts hold' (by omega) (by omega)
    (fun k hk => cheb2_pole_lhp hk hv')
    (by
      intro k hk c hc
      injection hc with hc
      rw [← hc, ← Complex.ofReal_inv]
      generalize (Real.cos ((2 * (k : ℝ) + 1) * Real.pi / (2 * n)))⁻¹ = t
      simp)
    (oddSingle_neg hneg (by intro c hc; cases hc)) (by rw [hag']; norm_num) dbg hf0 hf1 haw'
    (by rw [hK0]; exact hK.ne')
  refine ⟨_, _, _, _, _, neg_neg_of_pos hsh, hneg, ⟨c1, ?_, hp1⟩, ⟨c2, ?_, hp2⟩, ⟨c3, ?_, hp3⟩, c4, ?_, hp4⟩
  · unfold ChebyshevI.lowPass
    rw [e, ha]
    simp only [bind, Except.bind, hd1, hc1]
  · unfold ChebyshevI.highPass
    rw [e, ha]
    simp only [bind, Except.bind, hd2, hc2]
  · unfold ChebyshevII.lowPass
    rw [e, ha']
    simp only [bind, Except.bind, hd3, hc3]
  · unfold ChebyshevII.highPass
    rw [e, ha']
    simp only [bind, Except.bind, hd4, hc4]

/-- **C155, Chebyshev low-passes of every order** keep the sign of constants: type I multiplies them by its gain at
frequency 0 (1 for odd orders, the full ripple for even ones), type II by 1. -/
theorem C155_chebyshev_low (dbg : Bool) {N n : Nat} (hn : 1 ≤ n) (hN : n ≤ N) (hd : n % 2 = 1 → dbg = false)
    {r : ℝ} (hr : 0 < r) {fs fc : ℝ} (h0 : 0 < fc) (h1 : fc < fs / 2) :
    (∃ c, ChebyshevI.lowPass dbg N n fs fc r = .ok c ∧ ∀ A, Answers (fromCascade c) (constant A)
      (constant (1 / Real.sqrt (1 + ((10 : ℝ) ^ (r / 10) - 1) * chebT n 0 ^ 2) * A))) ∧
    ∃ c, ChebyshevII.lowPass dbg N n fs fc r = .ok c ∧ ∀ A, Answers (fromCascade c) (constant A) (constant A) := by
  obtain ⟨P, P', Z, u, u', hu, hu', ⟨c1, hc1, hp1⟩, -, ⟨c3, hc3, hp3⟩, -⟩ := cheb_parts dbg hn hN hd hr h0 h1
  obtain ⟨ht, -⟩ := cutoff_tan h0 h1
  obtain ⟨c, hc, -, -, hg, -⟩ := C57_chebyshev1_lowpass dbg hn hN hd hr h0 h1
  obtain rfl := same_ok hc1 hc
  obtain ⟨c, hc, -, -, hg3, -⟩ := C58_chebyshev2_lowpass dbg hn hN hd hr h0 h1
  obtain rfl := same_ok hc3 hc
  refine ⟨⟨c1, hc1, fun A => ?_⟩, c3, hc3, fun A => ?_⟩
  · have := low_end hp1 ht (single_none hu) (hg 0 (by simpa using Real.pi_pos)) A
    rwa [zero_div, Real.tan_zero, zero_div] at this
  · have := low_end hp3 ht (single_none hu') hg3 A
    rwa [one_mul] at this

/-- **C155, Chebyshev II high-passes of even order** (partial: not of odd order) leave alternating samples as they are. -/
theorem C155_chebyshev_high_partial (dbg : Bool) {N n : Nat} (hn : 1 ≤ n) (hN : n ≤ N) (he : n % 2 = 0)
    {r : ℝ} (hr : 0 < r) {fs fc : ℝ} (h0 : 0 < fc) (h1 : fc < fs / 2) :
    ∃ c, ChebyshevII.highPass dbg N n fs fc r = .ok c ∧
      ∀ A, Answers (fromCascade c) (alternating A) (alternating A) := by
  obtain ⟨P, P', Z, u, u', hu, hu', -, -, -, ⟨c, hc, hp⟩⟩ := cheb_parts dbg hn hN (by omega) hr h0 h1
  obtain ⟨ht, -⟩ := cutoff_tan h0 h1
  obtain ⟨c', hc', -, -, hg, -⟩ := C58_chebyshev2_highpass dbg hn hN (by omega) hr h0 h1
  obtain rfl := same_ok hc hc'
  refine ⟨c, hc, fun A => ?_⟩
  have := high_end hu' hp (by positivity) hg A
  rwa [if_pos he, one_mul] at this

/-- **C155 is violated by every Chebyshev II high-pass of odd order**: alternating samples come out with the opposite
sign. -/
theorem C155_chebyshev_high_violates {N n : Nat} (hN : n ≤ N) (ho : n % 2 = 1)
    {r : ℝ} (hr : 0 < r) {fs fc : ℝ} (h0 : 0 < fc) (h1 : fc < fs / 2) :
    ∃ c, ChebyshevII.highPass false N n fs fc r = .ok c ∧
      ∀ A, Answers (fromCascade c) (alternating A) (alternating (-A)) := by
  obtain ⟨P, P', Z, u, u', hu, hu', -, -, -, ⟨c, hc, hp⟩⟩ :=
    cheb_parts false (by omega : 1 ≤ n) hN (fun _ => rfl) hr h0 h1
  obtain ⟨ht, -⟩ := cutoff_tan h0 h1
  obtain ⟨c', hc', -, -, hg, -⟩ := C58_chebyshev2_highpass false (by omega : 1 ≤ n) hN (fun _ => rfl) hr h0 h1
  obtain rfl := same_ok hc hc'
  refine ⟨c, hc, fun A => ?_⟩
  have := high_end hu' hp (by positivity) hg A
  rwa [if_neg (by omega), neg_one_mul] at this

example : (∃ c, ChebyshevII.lowPass true 8 4 48000 1000 40 = .ok c ∧ Answers (fromCascade c) (constant 3) (constant 3)) ∧
    (∃ c, ChebyshevII.highPass true 8 4 48000 1000 40 = .ok c ∧ Answers (fromCascade c) (alternating 3) (alternating 3)) ∧
    ∃ c, ChebyshevII.highPass false 8 5 48000 1000 40 = .ok c ∧ Answers (fromCascade c) (alternating 3) (alternating (-3)) := by
  refine ⟨?_, ?_, ?_⟩
  · obtain ⟨-, c, h1, h2⟩ := C155_chebyshev_low true (N := 8) (n := 4) (by norm_num) (by norm_num) (by norm_num)
      (r := 40) (by norm_num) (fs := 48000) (fc := 1000) (by norm_num) (by norm_num)
    exact ⟨c, h1, h2 3⟩
  · obtain ⟨c, h1, h2⟩ := C155_chebyshev_high_partial true (N := 8) (n := 4) (by norm_num) (by norm_num) (by norm_num)
      (r := 40) (by norm_num) (fs := 48000) (fc := 1000) (by norm_num) (by norm_num)
    exact ⟨c, h1, h2 3⟩
  · obtain ⟨c, h1, h2⟩ := C155_chebyshev_high_violates (N := 8) (n := 5) (by norm_num) (by norm_num)
      (r := 40) (by norm_num) (fs := 48000) (fc := 1000) (by norm_num) (by norm_num)
    exact ⟨c, h1, h2 3⟩

/-! ## A crossover -/

theorem settles_add {o₁ o₂ : ℕ → List ℝ} {t₁ t₂ : ℕ → ℝ} (h₁ : SettlesTo o₁ t₁) (h₂ : SettlesTo o₂ t₂) :
    SettlesTo (fun n => List.zipWith (· + ·) (o₁ n) (o₂ n)) (fun k => t₁ k + t₂ k) := by
  obtain ⟨D, ρ, a0, a1, a⟩ := h₁
  obtain ⟨E, τ, b0, b1, b⟩ := h₂
  refine ⟨|D| + |E|, max ρ τ, le_max_of_le_left a0, max_lt a1 b1, fun n => ?_⟩
  obtain ⟨la, va⟩ := a n
  obtain ⟨lb, vb⟩ := b n
  refine ⟨by simp [la, lb], fun k hk => ?_⟩
  obtain ⟨x, hx, ex⟩ := va k hk
  obtain ⟨y, hy, ey⟩ := vb k hk
  refine ⟨x + y, by simp [List.getElem?_zipWith, hx, hy], ?_⟩
  have e1 : D * ρ ^ k ≤ |D| * max ρ τ ^ k :=
    mul_le_mul (le_abs_self D) (pow_le_pow_left₀ a0 (le_max_left _ _) k) (by positivity) (abs_nonneg _)
  have e2 : E * τ ^ k ≤ |E| * max ρ τ ^ k :=
    mul_le_mul (le_abs_self E) (pow_le_pow_left₀ b0 (le_max_right _ _) k) (by positivity) (abs_nonneg _)
  rw [show x + y - (t₁ k + t₂ k) = (x - t₁ k) + (y - t₂ k) by ring]
  refine (abs_add_le _ _).trans ?_
  linarith

/-- **C155, the two halves of a crossover, added**: with Butterworth filters of even order `n` a sinusoid at the
crossover frequency comes out with `√2 cos (n π/4)` of its amplitude: not at all for `n = 2, 6, 10, …`, 3 dB too loud
for `n = 4, 8, …`. -/
theorem C155_crossover (dbg : Bool) {N n : Nat} (hn : 1 ≤ n) (hN : n ≤ N) (he : n % 2 = 0)
    {fs fc : ℝ} (h0 : 0 < fc) (h1 : fc < fs / 2) :
    ∃ l h, Butterworth.lowPass dbg N n fs fc = .ok l ∧ Butterworth.highPass dbg N n fs fc = .ok h ∧ ∀ A p,
      Answers (fun xs => List.zipWith (· + ·) (l.filter xs).2 (h.filter xs).2) (sinusoid A (2 * Real.pi * fc / fs) p)
        (sinusoid (Real.sqrt 2 * Real.cos (n * Real.pi / 4) * A) (2 * Real.pi * fc / fs) p) := by
  obtain ⟨l, hl, a⟩ := C155_butterworth_low dbg hn hN (by omega) h0 h1
  obtain ⟨h, hh, b⟩ := C155_butterworth_high_partial dbg hn hN he h0 h1
  refine ⟨l, h, hl, hh, fun A p => ?_⟩
  have := settles_add (a A p).2.2 (b A p).2.2
  have e : (fun k => sinusoid (1 / Real.sqrt 2 * A) (2 * Real.pi * fc / fs) (p - n * Real.pi / 4) k +
      sinusoid (1 / Real.sqrt 2 * A) (2 * Real.pi * fc / fs) (p + n * Real.pi / 4) k) =
      sinusoid (Real.sqrt 2 * Real.cos (n * Real.pi / 4) * A) (2 * Real.pi * fc / fs) p := by
    funext k
    unfold sinusoid
    have hs : Real.sqrt 2 = 2 * (1 / Real.sqrt 2) := by
      have := Real.mul_self_sqrt (show (0 : ℝ) ≤ 2 by norm_num)
      have h2 : Real.sqrt 2 ≠ 0 := by positivity
      field_simp
      nlinarith
    rw [← add_sub_assoc, ← add_assoc]
    generalize 2 * Real.pi * fc / fs * k + p = t
    rw [Real.cos_sub, Real.cos_add]
    linear_combination (-Real.cos (n * Real.pi / 4) * A * Real.cos t) * hs
  rw [e] at this
  exact this

/-- The hole of the crossover of order two. -/
example : ∃ l h, Butterworth.lowPass true 8 2 48000 1000 = .ok l ∧ Butterworth.highPass true 8 2 48000 1000 = .ok h ∧
    Answers (fun xs => List.zipWith (· + ·) (l.filter xs).2 (h.filter xs).2) (sinusoid 1 (2 * Real.pi * 1000 / 48000) 0)
      (constant 0) := by
  obtain ⟨l, h, h1, h2, h3⟩ := C155_crossover true (N := 8) (n := 2) (by norm_num) (by norm_num) (by norm_num)
    (fs := 48000) (fc := 1000) (by norm_num) (by norm_num)
  refine ⟨l, h, h1, h2, ?_⟩
  have := h3 1 0
  have e : ((2 : ℕ) : ℝ) * Real.pi / 4 = Real.pi / 2 := by push_cast; ring
  rw [e, Real.cos_pi_div_two, mul_zero, zero_mul] at this
  have e2 : sinusoid 0 (2 * Real.pi * 1000 / 48000) 0 = constant 0 := by funext k; simp [sinusoid, constant]
  rwa [e2] at this

end Edsp.Props
