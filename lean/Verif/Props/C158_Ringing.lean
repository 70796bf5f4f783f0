import Verif.Lemmas.Ringing
import Verif.Props.C17_Zoelzer
import Verif.Props.C155_Polarity

/-!
# C158: how long a filter rings after its input has stopped

A resonant second-order filter goes on sounding when its input is over.  For every quality above 1/2 the amplitude of
what it puts out is multiplied by one fixed number per sample, whatever it was fed before: never faster, never slower.
-/

namespace Edsp.Props

open Edsp Edsp.Spec Edsp.RingingL

theorem coeffs_ring {a0 a1 a2 b0 b1 b2 : ℝ} {f : Biquad ℝ} (hf : Biquad.ofCoeffs a0 a1 a2 b0 b1 b2 = .ok f) (ha : 0 < a0)
    (hc : a1 ^ 2 < 4 * (a0 * a2)) (s : ℝ × ℝ) : RingsWith (fromState f s) (Real.sqrt (a2 / a0)) := by
  unfold Biquad.ofCoeffs at hf
  rw [if_neg ha.ne'] at hf
  injection hf with hf
  have e1 : f.a1 = a1 / a0 := by rw [← hf]
  have e2 : f.a2 = a2 / a0 := by rw [← hf]
  have : RingsWith (fromState f s) (Real.sqrt f.a2) := section_rings (f := { f with w0 := s.1, w1 := s.2 }) (by
    show f.a1 ^ 2 < 4 * f.a2
    rw [e1, e2, div_pow, div_lt_iff₀ (by positivity)]
    have : 4 * (a2 / a0) * a0 ^ 2 = 4 * (a0 * a2) := by field_simp
    rw [this]; exact hc)
  rwa [e2] at this

/-- **C158, RBJ designs** (low-pass, high-pass, band-pass, all-pass) for every cutoff between 0 and Nyquist, every quality
above 1/2, every state and every input: with `α = sin (2 π fc / fs) / (2 Q)`, the ringing is multiplied by
`√((1 - α) / (1 + α))` per sample. -/
theorem C158_rbj (fc fs Q : ℝ) (h0 : 0 < fc) (h1 : fc < fs / 2) (hQ : 1 / 2 < Q) :
    ∀ design ∈ [Rbj.lowPass, Rbj.highPass, Rbj.bandPass, Rbj.allPass], ∃ f, design fc fs Q = .ok f ∧
      ∀ s, RingsWith (fromState f s) (Real.sqrt ((1 - Real.sin (2 * Real.pi * fc / fs) / (2 * Q)) /
        (1 + Real.sin (2 * Real.pi * fc / fs) / (2 * Q)))) := by
  have hQ0 : 0 < Q := by linarith
  obtain ⟨hfs, hsin, hc1, hc2⟩ := rbj_angle h0 h1
  have hsq := Real.sin_sq_add_cos_sq (2 * Real.pi * fc / fs)
  have hd : fdiv (2 * Real.pi * fc) fs = .ok (2 * Real.pi * fc / fs) := fdiv_ok _ hfs.ne'
  have ha : fdiv (Real.sin (2 * Real.pi * fc / fs)) (2 * Q) = .ok (Real.sin (2 * Real.pi * fc / fs) / (2 * Q)) :=
    fdiv_ok _ (by positivity)
  set s := Real.sin (2 * Real.pi * fc / fs) with hs
  set c := Real.cos (2 * Real.pi * fc / fs) with hc
  have hα : 0 < s / (2 * Q) := by positivity
  have hlt : s / (2 * Q) < s := by rw [div_lt_iff₀ (by positivity)]; nlinarith
  have hcx : (-2 * c) ^ 2 < 4 * ((1 + s / (2 * Q)) * (1 - s / (2 * Q))) := by nlinarith
  have key : ∀ {b0 b1 b2 : ℝ}, ∃ f, Biquad.ofCoeffs (1 + s / (2 * Q)) (-2 * c) (1 - s / (2 * Q)) b0 b1 b2 = .ok f ∧
      ∀ st, RingsWith (fromState f st) (Real.sqrt ((1 - s / (2 * Q)) / (1 + s / (2 * Q)))) := by
    intro b0 b1 b2
    have hex : ∃ f, Biquad.ofCoeffs (1 + s / (2 * Q)) (-2 * c) (1 - s / (2 * Q)) b0 b1 b2 = .ok f := by
      unfold Biquad.ofCoeffs
      rw [if_neg (by positivity)]
      exact ⟨_, rfl⟩
    obtain ⟨f, hf⟩ := hex
    exact ⟨f, hf, coeffs_ring hf (by positivity) hcx⟩
  intro design hm
  simp only [List.mem_cons, List.not_mem_nil, or_false] at hm
  rcases hm with rfl | rfl | rfl | rfl
  · unfold Rbj.lowPass
    simp only [hd, bind, Except.bind, ← hs, ← hc, ha]
    exact key
  · unfold Rbj.highPass
    simp only [hd, bind, Except.bind, ← hs, ← hc, ha]
    exact key
  · unfold Rbj.bandPass
    simp only [hd, bind, Except.bind, ← hs, ← hc, ha]
    exact key
  · unfold Rbj.allPass
    simp only [hd, bind, Except.bind, ← hs, ← hc, ha]
    exact key

/-- **C158, Zoelzer designs** (low-pass, high-pass, band-pass): the same factor. -/
theorem C158_zoelzer (fc fs Q : ℝ) (h0 : 0 < fc) (h1 : fc < fs / 2) (hQ : 1 / 2 < Q) :
    ∀ design ∈ [Zoelzer.lowPass, Zoelzer.highPass, Zoelzer.bandPass], ∃ f, design fc fs Q = .ok f ∧
      ∀ s, RingsWith (fromState f s) (Real.sqrt ((1 - Real.sin (2 * Real.pi * fc / fs) / (2 * Q)) /
        (1 + Real.sin (2 * Real.pi * fc / fs) / (2 * Q)))) := by
  have hQ0 : 0 < Q := by linarith
  obtain ⟨K, hK, hKp, hcos, hsin, -⟩ := zoelzer_K h0 h1
  have hq : fdiv K Q = .ok (K / Q) := fdiv_ok _ hQ0.ne'
  have hkq : 0 < K / Q := by positivity
  have hn0 : 0 < 1 + K / Q + K * K := by positivity
  have hnorm : fdiv 1 (1 + K / Q + K * K) = .ok (1 / (1 + K / Q + K * K)) := fdiv_ok _ hn0.ne'
  have hlt : K / Q < 2 * K := by rw [div_lt_iff₀ hQ0]; nlinarith
  have hs : Real.sin (2 * Real.pi * fc / fs) = 2 * K / (1 + K ^ 2) := by
    rw [eq_div_iff (by positivity), mul_comm]; exact hsin
  have hρ : (1 - Real.sin (2 * Real.pi * fc / fs) / (2 * Q)) / (1 + Real.sin (2 * Real.pi * fc / fs) / (2 * Q)) =
      (1 - K / Q + K * K) * (1 / (1 + K / Q + K * K)) / 1 := by
    have d1 : 0 < 1 + Real.sin (2 * Real.pi * fc / fs) / (2 * Q) := by rw [hs]; positivity
    rw [div_one, mul_one_div, div_eq_div_iff d1.ne' hn0.ne', hs]
    field_simp
    ring
  have hcx : (2 * (K * K - 1) * (1 / (1 + K / Q + K * K))) ^ 2 <
      4 * (1 * ((1 - K / Q + K * K) * (1 / (1 + K / Q + K * K)))) := by
    set N := 1 + K / Q + K * K with hN
    have e1 : (2 * (K * K - 1) * (1 / N)) ^ 2 = 4 * (K * K - 1) ^ 2 / N ^ 2 := by field_simp; ring
    have e2 : 4 * (1 * ((1 - K / Q + K * K) * (1 / N))) = 4 * ((1 - K / Q + K * K) * N) / N ^ 2 := by field_simp
    rw [e1, e2]
    apply div_lt_div_of_pos_right _ (by positivity)
    rw [hN]
    nlinarith
  have key : ∀ {b0 b1 b2 : ℝ}, ∃ f, Biquad.ofCoeffs 1 (2 * (K * K - 1) * (1 / (1 + K / Q + K * K)))
      ((1 - K / Q + K * K) * (1 / (1 + K / Q + K * K))) b0 b1 b2 = .ok f ∧
      ∀ st, RingsWith (fromState f st) (Real.sqrt ((1 - Real.sin (2 * Real.pi * fc / fs) / (2 * Q)) /
        (1 + Real.sin (2 * Real.pi * fc / fs) / (2 * Q)))) := by
    intro b0 b1 b2
    have hex : ∃ f, Biquad.ofCoeffs 1 (2 * (K * K - 1) * (1 / (1 + K / Q + K * K)))
        ((1 - K / Q + K * K) * (1 / (1 + K / Q + K * K))) b0 b1 b2 = .ok f := by
      unfold Biquad.ofCoeffs
      rw [if_neg one_ne_zero]
      exact ⟨_, rfl⟩
    obtain ⟨f, hf⟩ := hex
    refine ⟨f, hf, ?_⟩
    rw [hρ]
    exact coeffs_ring hf one_pos hcx
  intro design hm
  simp only [List.mem_cons, List.not_mem_nil, or_false] at hm
  rcases hm with rfl | rfl | rfl
  · unfold Zoelzer.lowPass
    rw [← bind_assoc, hK]
    simp only [bind, Except.bind, hq, hnorm]
    exact key
  · unfold Zoelzer.highPass
    rw [← bind_assoc, hK]
    simp only [bind, Except.bind, hq, hnorm]
    exact key
  · unfold Zoelzer.bandPass
    rw [← bind_assoc, hK]
    simp only [bind, Except.bind, hq, hnorm]
    exact key

example : ∃ f, Zoelzer.lowPass 12000 48000 (5 / 2) = .ok f ∧ RingsWith (fromState f (0, 1)) (Real.sqrt (2 / 3)) := by
  obtain ⟨f, hf, h⟩ := C158_zoelzer 12000 48000 (5 / 2) (by norm_num) (by norm_num) (by norm_num) Zoelzer.lowPass (by simp)
  refine ⟨f, hf, ?_⟩
  have := h (0, 1)
  rw [show 2 * Real.pi * 12000 / 48000 = Real.pi / 2 by ring, Real.sin_pi_div_two] at this
  rw [show (1 - 1 / (2 * (5 / 2 : ℝ))) / (1 + 1 / (2 * (5 / 2))) = 2 / 3 by norm_num] at this
  exact this

/-- **C158, shelves** (RBJ), with `A = √(10^(G/20))`. -/
theorem C158_shelves (fc fs Q G A : ℝ) (h0 : 0 < fc) (h1 : fc < fs / 2) (hQ : 1 / 2 < Q)
    (hA : A = Real.sqrt ((10 : ℝ) ^ (G / 20))) :
    (∃ f, Rbj.lowShelf fc fs Q G = .ok f ∧ ∀ s, RingsWith (fromState f s)
      (Real.sqrt (((A + 1) + (A - 1) * Real.cos (2 * Real.pi * fc / fs) - Real.sqrt A / Q * Real.sin (2 * Real.pi * fc / fs)) /
        ((A + 1) + (A - 1) * Real.cos (2 * Real.pi * fc / fs) + Real.sqrt A / Q * Real.sin (2 * Real.pi * fc / fs))))) ∧
    ∃ f, Rbj.highShelf fc fs Q G = .ok f ∧ ∀ s, RingsWith (fromState f s)
      (Real.sqrt (((A + 1) - (A - 1) * Real.cos (2 * Real.pi * fc / fs) - Real.sqrt A / Q * Real.sin (2 * Real.pi * fc / fs)) /
        ((A + 1) - (A - 1) * Real.cos (2 * Real.pi * fc / fs) + Real.sqrt A / Q * Real.sin (2 * Real.pi * fc / fs)))) := by
  have hQ0 : 0 < Q := by linarith
  obtain ⟨hfs, hsin, hc1, hc2⟩ := rbj_angle h0 h1
  have hsq := Real.sin_sq_add_cos_sq (2 * Real.pi * fc / fs)
  have hA0 : 0 < A := by rw [hA]; exact Real.sqrt_pos.mpr (Real.rpow_pos_of_pos (by norm_num) _)
  have hr : 0 < Real.sqrt A := Real.sqrt_pos.mpr hA0
  have hd : fdiv (2 * Real.pi * fc) fs = .ok (2 * Real.pi * fc / fs) := fdiv_ok _ hfs.ne'
  have hb : fdiv (Real.sqrt A) Q = .ok (Real.sqrt A / Q) := fdiv_ok _ hQ0.ne'
  set s := Real.sin (2 * Real.pi * fc / fs) with hs
  set c := Real.cos (2 * Real.pi * fc / fs) with hc
  have hβ : 0 < Real.sqrt A / Q := by positivity
  have hββ : (Real.sqrt A / Q) ^ 2 < 4 * A := by
    rw [div_pow, Real.sq_sqrt hA0.le, div_lt_iff₀ (by positivity)]
    have h4 : 1 < 4 * Q ^ 2 := by nlinarith
    have := mul_lt_mul_of_pos_left h4 hA0
    linarith
  set β := Real.sqrt A / Q
  have hs2 : 0 < s ^ 2 := by positivity
  have hβs : 0 < β * s := by positivity
  have hm : β ^ 2 * s ^ 2 < 4 * A * s ^ 2 := mul_lt_mul_of_pos_right hββ hs2
  have key : ∀ {a0 a1 a2 b0 b1 b2 : ℝ}, 0 < a0 → a1 ^ 2 < 4 * (a0 * a2) → ∃ f, Biquad.ofCoeffs a0 a1 a2 b0 b1 b2 = .ok f ∧
      ∀ st, RingsWith (fromState f st) (Real.sqrt (a2 / a0)) := by
    intro a0 a1 a2 b0 b1 b2 ha hcx
    have hex : ∃ f, Biquad.ofCoeffs a0 a1 a2 b0 b1 b2 = .ok f := by
      unfold Biquad.ofCoeffs
      rw [if_neg ha.ne']
      exact ⟨_, rfl⟩
    obtain ⟨f, hf⟩ := hex
    exact ⟨f, hf, coeffs_ring hf ha hcx⟩
  constructor
  · unfold Rbj.lowShelf
    simp only [← hA, hd, bind, Except.bind, ← hs, ← hc, hb]
    refine key (by nlinarith) ?_
    have e : 4 * (((A + 1) + (A - 1) * c + β * s) * ((A + 1) + (A - 1) * c - β * s)) - (-2 * ((A - 1) + (A + 1) * c)) ^ 2 =
        4 * (4 * A * (1 - c ^ 2) - β ^ 2 * s ^ 2) := by ring
    have e2 : 1 - c ^ 2 = s ^ 2 := by linarith
    rw [e2] at e
    linarith
  · unfold Rbj.highShelf
    simp only [← hA, hd, bind, Except.bind, ← hs, ← hc, hb]
    refine key (by nlinarith) ?_
    have e : 4 * (((A + 1) - (A - 1) * c + β * s) * ((A + 1) - (A - 1) * c - β * s)) - (2 * ((A - 1) - (A + 1) * c)) ^ 2 =
        4 * (4 * A * (1 - c ^ 2) - β ^ 2 * s ^ 2) := by ring
    have e2 : 1 - c ^ 2 = s ^ 2 := by linarith
    rw [e2] at e
    linarith

example : ∃ f, Rbj.lowShelf 12000 48000 1 0 = .ok f ∧ RingsWith (fromState f (0, 1)) (Real.sqrt (1 / 3)) := by
  obtain ⟨⟨f, hf, h⟩, -⟩ := C158_shelves 12000 48000 1 0 1 (by norm_num) (by norm_num) (by norm_num) (by norm_num)
  refine ⟨f, hf, ?_⟩
  have := h (0, 1)
  rw [show 2 * Real.pi * 12000 / 48000 = Real.pi / 2 by ring, Real.sin_pi_div_two, Real.sqrt_one] at this
  rw [show ((1 : ℝ) + 1 + (1 - 1) * Real.cos (Real.pi / 2) - 1 / 1 * 1) / (1 + 1 + (1 - 1) * Real.cos (Real.pi / 2) + 1 / 1 * 1) =
    1 / 3 by norm_num] at this
  exact this

/-- The ringing is not excluded: after any state but 0 the filter does not fall silent at once. -/
theorem C158_not_silent {f : Biquad ℝ} {s : ℝ × ℝ} (hs : s ≠ 0) : ¬ ∀ n, after (fromState f s) [] n = 0 := by
  intro h
  have e : ∀ n, after (fromState f s) [] n = ({ f with w0 := s.1, w1 := s.2 } : Biquad ℝ).response (fun _ => 0) n :=
    fun n => after_section { f with w0 := s.1, w1 := s.2 } [] n
  have a := h 0
  have b := h 1
  rw [e, Biquad.response_zero] at a
  rw [e, Biquad.response_one, Biquad.response_zero] at b
  apply hs
  simp only [mul_zero, zero_add] at a b
  refine Prod.ext a ?_
  rw [a] at b
  simpa using b

example : ¬ ∀ n, after (fromState ({ Biquad.default with a2 := 0.81 } : Biquad ℝ) (0, 1)) [] n = 0 :=
  C158_not_silent (by intro h; have := congrArg Prod.snd h; norm_num at this)

/-- **C158, one factor only**: a device that does not fall silent after every input rings with at most one factor. -/
theorem C158_unique {filt : List ℝ → List ℝ} {xs : List ℝ} (hn : ¬ ∀ n, after filt xs n = 0) {ρ σ : ℝ} (hρ : 0 < ρ)
    (hσ : 0 < σ) (h1 : RingsWith filt ρ) (h2 : RingsWith filt σ) : ρ = σ := by
  have key : ∀ {ρ σ : ℝ}, 0 < ρ → 0 < σ → RingsWith filt ρ → RingsWith filt σ → ρ ≤ σ := by
    intro ρ σ hρ hσ h1 h2
    rcases h1 xs with h | ⟨c, C, hc, h⟩
    · exact absurd h hn
    rcases h2 xs with h' | ⟨d, D, hd, h'⟩
    · exact absurd h' hn
    by_contra hlt
    push Not at hlt
    have hD : 0 ≤ D := by have := (abs_nonneg _).trans (h' 0).1; simpa using this
    have hb : ∀ n, c * (ρ / σ) ^ n ≤ D * max 1 σ := by
      intro n
      have a := (h n).2
      have b : max |after filt xs n| |after filt xs (n + 1)| ≤ D * max 1 σ * σ ^ n := by
        apply max_le
        · refine (h' n).1.trans ?_
          have : D * 1 ≤ D * max 1 σ := mul_le_mul_of_nonneg_left (le_max_left _ _) hD
          have := mul_le_mul_of_nonneg_right this (pow_nonneg hσ.le n)
          linarith
        · refine (h' (n + 1)).1.trans ?_
          have : D * σ ≤ D * max 1 σ := mul_le_mul_of_nonneg_left (le_max_right _ _) hD
          have := mul_le_mul_of_nonneg_right this (pow_nonneg hσ.le n)
          rw [pow_succ]
          linarith
      rw [div_pow, mul_div_assoc', div_le_iff₀ (pow_pos hσ n)]
      exact a.trans b
    obtain ⟨n, hn⟩ := pow_unbounded_of_one_lt (D * max 1 σ / c) ((one_lt_div hσ).mpr hlt)
    have := hb n
    rw [div_lt_iff₀ hc] at hn
    linarith
  exact le_antisymm (key hρ hσ h1 h2) (key hσ hρ h2 h1)

/-- At a quarter of the sampling rate with quality 5/2 the amplitude is multiplied by `√(2/3)` per sample. -/
example : ∃ f, Rbj.bandPass 12000 48000 (5 / 2) = .ok f ∧ RingsWith (fromState f (1, 2)) (Real.sqrt (2 / 3)) := by
  obtain ⟨f, hf, h⟩ := C158_rbj 12000 48000 (5 / 2) (by norm_num) (by norm_num) (by norm_num) Rbj.bandPass (by simp)
  refine ⟨f, hf, ?_⟩
  have := h (1, 2)
  rw [show 2 * Real.pi * 12000 / 48000 = Real.pi / 2 by ring, Real.sin_pi_div_two] at this
  rw [show (1 - 1 / (2 * (5 / 2 : ℝ))) / (1 + 1 / (2 * (5 / 2))) = 2 / 3 by norm_num] at this
  exact this

example (σ : ℝ) (hσ : 0 < σ) (h : RingsWith (fromState ({ Biquad.default with a2 := 0.81 } : Biquad ℝ) (0, 1)) σ) :
    Real.sqrt 0.81 = σ := by
  have h1 : RingsWith (fromState ({ Biquad.default with a2 := 0.81 } : Biquad ℝ) (0, 1)) (Real.sqrt 0.81) :=
    section_rings (f := { Biquad.default with a2 := 0.81, w0 := 0, w1 := 1 }) (by norm_num [Biquad.default])
  exact C158_unique (xs := []) (C158_not_silent (by intro h; have := congrArg Prod.snd h; norm_num at this))
    (by positivity) hσ h1 h

end Edsp.Props
