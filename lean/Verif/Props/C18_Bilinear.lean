import Verif.Lemmas.Chain

/-! # C18: the bilinear low-pass and high-pass maps -/

namespace Edsp.Props

open Edsp Edsp.Spec Edsp.BilinearL

theorem ctan_cutoff {nf : ℝ} (h0 : 0 < nf) (h1 : nf < 1 / 2) :
    ctan (Real.pi * nf) = .ok (Real.tan (Real.pi * nf)) ∧ 0 < Real.tan (Real.pi * nf) := by
  have hpi := Real.pi_pos
  have hlt : Real.pi * nf < Real.pi / 2 := by nlinarith
  refine ⟨?_, Real.tan_pos_of_pos_of_lt_pi_div_two (by positivity) hlt⟩
  unfold ctan
  have : Real.cos (Real.pi * nf) ≠ 0 := (Real.cos_pos_of_mem_Ioo ⟨by nlinarith, hlt⟩).ne'
  simp [this, Real.tan_eq_sin_div_cos]

theorem lpMap_conj (f : ℝ) {p z : Pt} (hz : lpMap f p = .ok z) : lpMap f p.conj = .ok z.conj := by
  cases p with
  | none => cases hz; simp [lpMap, Pt.conj]
  | some c =>
    simp only [lpMap] at hz
    split at hz
    · cases hz
    · rename_i hne
      cases hz
      have hne' : ¬ (1 - (f : ℂ) * (starRingEnd ℂ) c = 0) := by
        intro h
        apply hne
        have := congrArg (starRingEnd ℂ) h
        simpa using this
      simp only [Pt.conj, Option.map_some, lpMap]
      rw [if_neg hne']
      simp

theorem hpMap_conj (f : ℝ) {p z : Pt} (hz : hpMap f p = .ok z) : hpMap f p.conj = .ok z.conj := by
  cases p with
  | none => cases hz; simp [hpMap, Pt.conj]
  | some c =>
    simp only [hpMap] at hz
    split at hz
    · cases hz
    · rename_i hne
      cases hz
      have hne' : ¬ (1 - (f : ℂ) * (starRingEnd ℂ) c = 0) := by
        intro h
        apply hne
        have := congrArg (starRingEnd ℂ) h
        simpa using this
      simp only [Pt.conj, Option.map_some, hpMap]
      rw [if_neg hne']
      simp

/-- **C18, low-pass map.** For every normalised cutoff strictly between 0 and 1/2 the warping factor
is defined, and the map sends the open left half plane strictly inside the unit circle, the
imaginary axis onto it, the rest of the right half plane outside, infinity to −1, 0 to 1, and
conjugates to conjugates. -/
theorem C18_lowpass_map {nf : ℝ} (h0 : 0 < nf) (h1 : nf < 1 / 2) :
    ∃ f, ctan (Real.pi * nf) = .ok f ∧
      (∀ p : ℂ, p.re < 0 → ∃ z, lpMap f (some p) = .ok (some z) ∧ ‖z‖ < 1) ∧
      (∀ p : ℂ, p.re = 0 → ∃ z, lpMap f (some p) = .ok (some z) ∧ ‖z‖ = 1) ∧
      (∀ (p : ℂ) (z : Pt), 0 < p.re → lpMap f (some p) = .ok z → ∃ z', z = some z' ∧ 1 < ‖z'‖) ∧
      lpMap f none = .ok (some (-1)) ∧ lpMap f (some 0) = .ok (some 1) ∧
      (∀ (p z : Pt), lpMap f p = .ok z → lpMap f p.conj = .ok z.conj) := by
  obtain ⟨e, hf⟩ := ctan_cutoff h0 h1
  refine ⟨_, e, ?_, ?_, ?_, rfl, ?_, ?_⟩
  · intro p hp
    exact ⟨_, lpMap_ok hf (by rintro c ⟨⟩; exact hp.le), lp_norm_lt hf hp⟩
  · intro p hp
    exact ⟨_, lpMap_ok hf (by rintro c ⟨⟩; exact hp.le), lp_norm_eq hp⟩
  · intro p z hp hz
    simp only [lpMap] at hz
    split at hz
    · cases hz
    · rename_i hne
      cases hz
      exact ⟨_, rfl, lp_norm_gt hf hp hne⟩
  · simp [lpMap]
  · exact fun p z hz => lpMap_conj _ hz

example : ∃ f, ctan (Real.pi * (1 / 4)) = .ok f ∧
    ∃ z, lpMap f (some (-1 + Complex.I)) = .ok (some z) ∧ ‖z‖ < 1 := by
  obtain ⟨f, h, hl, -⟩ := C18_lowpass_map (nf := 1 / 4) (by norm_num) (by norm_num)
  exact ⟨f, h, hl _ (by simp)⟩

/-- **C18, high-pass map.** The same with infinity sent to 1 and 0 to −1. -/
theorem C18_highpass_map {nf : ℝ} (h0 : 0 < nf) (h1 : nf < 1 / 2) :
    ∃ f, (do fdiv 1 (← ctan (Real.pi * nf))) = .ok f ∧
      (∀ p : ℂ, p.re < 0 → ∃ z, hpMap f (some p) = .ok (some z) ∧ ‖z‖ < 1) ∧
      (∀ p : ℂ, p.re = 0 → ∃ z, hpMap f (some p) = .ok (some z) ∧ ‖z‖ = 1) ∧
      (∀ (p : ℂ) (z : Pt), 0 < p.re → hpMap f (some p) = .ok z → ∃ z', z = some z' ∧ 1 < ‖z'‖) ∧
      hpMap f none = .ok (some 1) ∧ hpMap f (some 0) = .ok (some (-1)) ∧
      (∀ (p z : Pt), hpMap f p = .ok z → hpMap f p.conj = .ok z.conj) := by
  obtain ⟨e, ht⟩ := ctan_cutoff h0 h1
  have hf : 0 < 1 / Real.tan (Real.pi * nf) := by positivity
  refine ⟨1 / Real.tan (Real.pi * nf), ?_, ?_, ?_, ?_, rfl, ?_, ?_⟩
  · rw [e]
    simp only [bind, Except.bind, fdiv]
    rw [if_neg ht.ne']
  · intro p hp
    exact ⟨_, hpMap_ok hf (by rintro c ⟨⟩; exact hp.le), by rw [norm_neg]; exact lp_norm_lt hf hp⟩
  · intro p hp
    exact ⟨_, hpMap_ok hf (by rintro c ⟨⟩; exact hp.le), by rw [norm_neg]; exact lp_norm_eq hp⟩
  · intro p z hp hz
    simp only [hpMap] at hz
    split at hz
    · cases hz
    · rename_i hne
      cases hz
      refine ⟨_, rfl, ?_⟩
      rw [neg_div, norm_neg]
      exact lp_norm_gt hf hp hne
  · simp [hpMap]
  · exact fun p z hz => hpMap_conj _ hz

example : ∃ f, (do fdiv 1 (← ctan (Real.pi * (1 / 4)))) = .ok f ∧
    ∃ z, hpMap f (some (-1 + Complex.I)) = .ok (some z) ∧ ‖z‖ < 1 := by
  obtain ⟨f, h, hl, -⟩ := C18_highpass_map (nf := 1 / 4) (by norm_num) (by norm_num)
  exact ⟨f, h, hl _ (by simp)⟩

/-- **C18, sections.** A conjugate pair of poles inside the unit circle with a conjugate
pair of zeros yields a (real) biquad that the library calls stable, whose transfer function has
exactly these poles and zeros.  (If all four are 0 the pair is taken for a single real pole.) -/
theorem C18_conjugate_section (p z : ℂ) (hp : ‖p‖ < 1) (h0 : ¬ (p = 0 ∧ z = 0)) :
    ∃ g, makeBiquad ⟨some p, some z, Pt.conj (some p), Pt.conj (some z)⟩ = .ok g ∧
      g.stability = true ∧
      ∀ x : ℂ, x ≠ 0 → denAt g x = (x - p) * (x - (starRingEnd ℂ) p) / x ^ 2 ∧
        numAt g x = (x - z) * (x - (starRingEnd ℂ) z) / x ^ 2 :=
  ⟨_, LayoutL.makeBiquad_conj p z h0, stable_conj p z hp,
    fun _ hx => ⟨denAt_conj p z hx, numAt_conj p z hx⟩⟩

example : ∃ g, makeBiquad ⟨some (1 / 2 : ℂ), some (-1), Pt.conj (some (1 / 2 : ℂ)),
    Pt.conj (some (-1))⟩ = .ok g ∧ g.stability = true := by
  obtain ⟨g, h1, h2, -⟩ := C18_conjugate_section (1 / 2) (-1) (by norm_num) (by norm_num)
  exact ⟨g, h1, h2⟩

end Edsp.Props
