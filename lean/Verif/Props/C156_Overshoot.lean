import Verif.Lemmas.Overshoot
import Verif.Props.C137_ConvolutionAlgebra
import Verif.Props.C155_Polarity

/-!
# C156: which low-passes overshoot

A low-pass used to smooth a control signal should not produce values outside the range of what it is fed, and should
not turn a rising signal round.  The second-order low-passes do so exactly for qualities up to 1/2 and cutoffs up
to a quarter of the sampling rate, the first-order Butterworth low-pass for cutoffs up to a quarter of the sampling
rate, and no Butterworth low-pass of a higher order does.
-/

namespace Edsp.Props

open Edsp Edsp.Spec Edsp.LayoutL Edsp.BilinearL Edsp.AnalogL Edsp.PolarityL Edsp.OvershootL Edsp.ConvL

theorem section_lti {f : Biquad ℝ} (hr : f.w0 = 0 ∧ f.w1 = 0) : Lti fun xs => (f.filter xs).2 :=
  C137.through_lti (fs := [f]) (by simpa using (show f.AtRest from hr))

theorem cascade_lti {c : Cascade ℝ} (hr : ∀ f ∈ active c, f.w0 = 0 ∧ f.w1 = 0) : Lti (fromCascade c) := by
  have : fromCascade c = fun x => (through (active c) x).2 := by
    funext x; exact SteadyL.filter_out c x
  rw [this]
  exact C137.through_lti hr

theorem cos_quarter {fc fs : ℝ} (h0 : 0 < fc) (h1 : fc < fs / 2) :
    0 ≤ Real.cos (2 * Real.pi * fc / fs) ↔ fc ≤ fs / 4 := by
  have hfs : 0 < fs := by linarith
  have hpi := Real.pi_pos
  constructor
  · intro h
    by_contra hc
    push Not at hc
    refine absurd h (not_le.mpr (Real.cos_neg_of_pi_div_two_lt_of_lt ?_ ?_))
    · rw [div_lt_div_iff₀ two_pos hfs]; nlinarith
    · rw [div_lt_iff₀ hfs]; nlinarith
  · intro h
    refine Real.cos_nonneg_of_neg_pi_div_two_le_of_le ?_ ?_
    · have : 0 < 2 * Real.pi * fc / fs := by positivity
      linarith
    · rw [div_le_div_iff₀ hfs two_pos]; nlinarith

/-- The range and the order of samples are kept exactly if the poles are real with a sum that is not negative. -/
theorem low_section {a0 a1 a2 b0 b1 b2 : ℝ} {f : Biquad ℝ} (hf : Biquad.ofCoeffs a0 a1 a2 b0 b1 b2 = .ok f) (ha : 0 < a0)
    (hb : 0 < b0) (hb1 : b1 = 2 * b0) (hb2 : b2 = b0) (hs : f.stability = true)
    (hd : ∀ s, Answers (fromState f s) (constant 1) (constant 1)) :
    (KeepsRange (fun xs => (f.filter xs).2) ↔ a1 ≤ 0 ∧ 4 * a2 * a0 ≤ a1 ^ 2) ∧
    (KeepsOrder (fun xs => (f.filter xs).2) ↔ a1 ≤ 0 ∧ 4 * a2 * a0 ≤ a1 ^ 2) := by
  unfold Biquad.ofCoeffs at hf
  rw [if_neg ha.ne'] at hf
  injection hf with hf
  have hr : f.w0 = 0 ∧ f.w1 = 0 := by rw [← hf]; exact ⟨rfl, rfl⟩
  have hst : fromState f (0, 0) = fun xs => (f.filter xs).2 := by rw [← hf]; rfl
  have hd0 := hd (0, 0)
  rw [hst] at hd0
  have hl := section_lti hr
  have e1 : f.a1 = a1 / a0 := by rw [← hf]
  have e2 : f.a2 = a2 / a0 := by rw [← hf]
  have e3 : f.b0 = b0 / a0 := by rw [← hf]
  have key := section_iff hr (by rw [← hf, hb1]; ring) (by rw [← hf, hb2]) (by rw [e3]; positivity) hs
  have e4 : (f.a1 ≤ 0 ∧ 4 * f.a2 ≤ f.a1 ^ 2) ↔ a1 ≤ 0 ∧ 4 * a2 * a0 ≤ a1 ^ 2 := by
    rw [e1, e2, div_nonpos_iff, div_pow, le_div_iff₀ (by positivity)]
    have : 4 * (a2 / a0) * a0 ^ 2 = 4 * a2 * a0 := by field_simp
    rw [this]
    constructor
    · rintro ⟨h | h, h'⟩
      · exact absurd h.2 (not_le.mpr ha)
      · exact ⟨h.1, h'⟩
    · rintro ⟨h, h'⟩
      exact ⟨Or.inr ⟨h, ha.le⟩, h'⟩
  exact ⟨(range_iff hl hd0).trans (key.trans e4), (order_iff hl).trans (key.trans e4)⟩

/-- **C156, second-order low-passes** (RBJ and Zoelzer), for every cutoff between 0 and Nyquist and every quality: from
rest, no output leaves the range of the samples exactly if the quality is at most 1/2 and the cutoff at most a quarter of
the sampling rate; and exactly then rising samples come out rising. -/
theorem C156_low_passes (fc fs Q : ℝ) (h0 : 0 < fc) (h1 : fc < fs / 2) (hQ : 0 < Q) :
    ∀ design ∈ [Rbj.lowPass, Zoelzer.lowPass], ∃ f, design fc fs Q = .ok f ∧
      (KeepsRange (fun xs => (f.filter xs).2) ↔ Q ≤ 1 / 2 ∧ fc ≤ fs / 4) ∧
      (KeepsOrder (fun xs => (f.filter xs).2) ↔ Q ≤ 1 / 2 ∧ fc ≤ fs / 4) := by
  intro design hd
  obtain ⟨f, hf, ha⟩ := C155_low_passes fc fs Q h0 h1 hQ design hd
  refine ⟨f, hf, ?_⟩
  have hdc : ∀ s, Answers (fromState f s) (constant 1) (constant 1) := fun s => (ha s 1 0).1
  simp only [List.mem_cons, List.not_mem_nil, or_false] at hd
  have hq := cos_quarter h0 h1
  rcases hd with rfl | rfl
  · obtain ⟨g, hg, hs, -⟩ := C16_low_pass fc fs Q h0 h1 hQ
    obtain rfl := same_ok hf hg
    obtain ⟨hfs, hsin, hc1, hc2⟩ := rbj_angle h0 h1
    have hsq := Real.sin_sq_add_cos_sq (2 * Real.pi * fc / fs)
    unfold Rbj.lowPass at hf
    rw [fdiv_ok _ hfs.ne'] at hf
    simp only [bind, Except.bind] at hf
    rw [fdiv_ok _ (by positivity)] at hf
    set s := Real.sin (2 * Real.pi * fc / fs)
    set c := Real.cos (2 * Real.pi * fc / fs)
    have hα : 0 < s / (2 * Q) := by positivity
    have hαQ : s / (2 * Q) * (2 * Q) = s := by field_simp
    set α := s / (2 * Q)
    simp only [] at hf
    have hl := low_section hf (by linarith) (by linarith) (by ring) rfl hs hdc
    have e : (-2 * c ≤ 0 ∧ 4 * (1 - α) * (1 + α) ≤ (-2 * c) ^ 2) ↔ Q ≤ 1 / 2 ∧ fc ≤ fs / 4 := by
      rw [← hq]
      constructor
      · rintro ⟨h, h'⟩
        have h2 : s ≤ α := by nlinarith
        refine ⟨?_, by linarith⟩
        by_contra hc
        push Not at hc
        nlinarith
      · rintro ⟨h, h'⟩
        have h2 : s ≤ α := by nlinarith
        exact ⟨by linarith, by nlinarith⟩
    rw [e] at hl
    exact hl
  · obtain ⟨g, hg, hs, -⟩ := C17_low_pass fc fs Q h0 h1 hQ
    obtain rfl := same_ok hf hg
    obtain ⟨K, hK, hKp, hcos, hsin, -⟩ := zoelzer_K h0 h1
    have hkq : 0 < K / Q := by positivity
    have hD : 0 < 1 + K / Q + K * K := by positivity
    have e : Zoelzer.lowPass fc fs Q =
        Biquad.ofCoeffs (1 + K / Q + K * K) (2 * (K * K - 1)) (1 - K / Q + K * K)
          (K * K) (2 * (K * K)) (K * K) := by
      unfold Zoelzer.lowPass
      rw [← bind_assoc, hK]
      simp only [bind, Except.bind]
      rw [fdiv_ok _ hQ.ne']
      simp only []
      rw [fdiv_ok _ hD.ne']
      simp only []
      rw [← ofCoeffs_norm hD.ne']
      congr 1; ring
    rw [e] at hf
    have hl := low_section hf hD (by positivity) rfl rfl hs hdc
    have hkQ : K / Q * Q = K := by field_simp
    set k := K / Q
    have e : (2 * (K * K - 1) ≤ 0 ∧ 4 * (1 - k + K * K) * (1 + k + K * K) ≤ (2 * (K * K - 1)) ^ 2) ↔
        Q ≤ 1 / 2 ∧ fc ≤ fs / 4 := by
      rw [← hq]
      have h3 : 0 ≤ Real.cos (2 * Real.pi * fc / fs) ↔ K * K ≤ 1 := by
        have hp : 0 < 1 + K ^ 2 := by positivity
        constructor
        · intro h; nlinarith [mul_nonneg hp.le h]
        · intro h
          by_contra hc
          push Not at hc
          nlinarith [mul_neg_of_pos_of_neg hp hc]
      rw [h3]
      constructor
      · rintro ⟨h, h'⟩
        have h2 : 2 * K ≤ k := by nlinarith
        refine ⟨?_, by linarith⟩
        by_contra hc
        push Not at hc
        nlinarith
      · rintro ⟨h, h'⟩
        have h2 : 2 * K ≤ k := by nlinarith
        exact ⟨by linarith, by nlinarith⟩
    rw [e] at hl
    exact hl

/-- A smoother of a control signal at a hundredth of the sampling rate, and the same with the usual quality. -/
example : (∃ f, Rbj.lowPass 480 48000 0.5 = .ok f ∧ KeepsRange fun xs => (f.filter xs).2) ∧
    ∃ f, Rbj.lowPass 480 48000 0.7 = .ok f ∧ ¬ KeepsRange fun xs => (f.filter xs).2 := by
  obtain ⟨f, hf, h, -⟩ := C156_low_passes 480 48000 0.5 (by norm_num) (by norm_num) (by norm_num) Rbj.lowPass (by simp)
  obtain ⟨g, hg, k, -⟩ := C156_low_passes 480 48000 0.7 (by norm_num) (by norm_num) (by norm_num) Rbj.lowPass (by simp)
  exact ⟨⟨f, hf, h.mpr ⟨by norm_num, by norm_num⟩⟩, g, hg, fun hc => by have := (k.mp hc).1; norm_num at this⟩

theorem parts_rest {σ f : ℝ} {m : Nat} {P : Nat → ℂ} {Z : Nat → Pt} {s : Option (ℝ × Option ℝ)} {c : Cascade ℝ}
    (h : Parts σ f m P Z s c) : ∀ g ∈ active c, g.w0 = 0 ∧ g.w1 = 0 := by
  obtain ⟨-, κ, g0, gs, -, hL, hact⟩ := h
  have hall : ∀ g ∈ g0 :: gs, g.w0 = 0 ∧ g.w1 = 0 := by
    rw [← hL]
    intro g hg
    rcases List.mem_append.mp hg with hg | hg
    · obtain ⟨k, -, rfl⟩ := List.mem_map.mp hg; exact ⟨rfl, rfl⟩
    · obtain ⟨k, -, rfl⟩ := List.mem_map.mp hg; exact ⟨rfl, rfl⟩
  intro g hg
  rw [hact] at hg
  rcases List.mem_cons.mp hg with rfl | hg
  · rw [applyScale_eq]; exact ⟨rfl, rfl⟩
  · exact hall g (List.mem_cons_of_mem _ hg)

/-- **C156, first-order Butterworth low-pass**: range and order are kept exactly for cutoffs up to a quarter of the
sampling rate. -/
theorem C156_butterworth_first {N : Nat} (hN : 1 ≤ N) {fs fc : ℝ} (h0 : 0 < fc) (h1 : fc < fs / 2) :
    ∃ c, Butterworth.lowPass false N 1 fs fc = .ok c ∧ (KeepsRange (fromCascade c) ↔ fc ≤ fs / 4) ∧
      (KeepsOrder (fromCascade c) ↔ fc ≤ fs / 4) := by
  obtain ⟨⟨c, hc, hp⟩, -⟩ := butter_parts false le_rfl hN (fun _ => rfl) h0 h1
  obtain ⟨c', hc', hans⟩ := C155_butterworth_low false le_rfl hN (fun _ => rfl) h0 h1
  obtain rfl := same_ok hc hc'
  refine ⟨c, hc, ?_⟩
  have hrest := parts_rest hp
  have hl := cascade_lti hrest
  have hdc := (hans 1 0).1
  obtain ⟨ht, -, hw, hw0, hw1⟩ := cutoff_tan h0 h1
  obtain ⟨hst, κ, g0, gs, hκ, hL, hact⟩ := hp
  set K := Real.tan (Real.pi * (fc / fs)) with hK
  have hL' : [secSingle (1 * lp K (some ((-1 : ℝ) : ℂ)), 1 * lp K none)] = g0 :: gs := by
    rw [← hL]; simp [oddSingle]
  injection hL' with e1 e2
  subst e2
  have hP : (1 * lp K (some ((-1 : ℝ) : ℂ)) : ℂ) = (((1 - K) / (1 + K) : ℝ) : ℂ) := by
    simp only [lp]; push_cast; ring
  have hg0 : g0 = ⟨0, 1, 1, 0, -((1 - K) / (1 + K)), 1, 0, 0⟩ := by
    rw [← e1, hP]
    simp only [secSingle, lp, Complex.ofReal_re]
    norm_num
  set f := applyScale g0 κ with hf
  have hfe : f = ⟨0, κ, κ, 0, -((1 - K) / (1 + K)), 1, 0, 0⟩ := by
    rw [hf, applyScale_eq, hg0]; simp
  have hone : fromCascade c = fun xs => (f.filter xs).2 := by
    funext xs
    have := SteadyL.filter_out c xs
    rw [hact, Biquad.through_eq_foldl] at this
    exact this
  have hκ' : κ ≠ 0 := by
    intro hz
    have h2 := dc_sum hl hdc
    have h3 : ∀ k, imp (fromCascade c) k = 0 := by
      intro k
      rw [hone, imp_section]
      have h4 : ∀ k, f.response unit k = 0 ∧ f.response unit (k + 1) = 0 := by
        intro k
        induction k with
        | zero =>
          have a : f.response unit 0 = 0 := by rw [Biquad.response_zero, hfe, hz]; simp
          refine ⟨a, ?_⟩
          rw [zero_add, Biquad.response_one, a, hfe, hz]; simp
        | succ k ih =>
          refine ⟨ih.2, ?_⟩
          rw [Biquad.response_step, ih.1, ih.2, hfe, hz]; simp
      exact (h4 k).1
    simp only [h3, Finset.sum_const_zero] at h2
    exact zero_ne_one (tendsto_nhds_unique tendsto_const_nhds h2)
  have hκp : 0 < κ := lt_of_le_of_ne hκ hκ'.symm
  have key := single_iff (f := f) (by rw [hfe]; exact ⟨rfl, rfl⟩) (by rw [hfe]) (by rw [hfe]) (by rw [hfe])
    (by rw [hfe]; exact hκp) (hst f (by rw [hact]; simp))
  rw [← hone] at key
  have e : f.a1 ≤ 0 ↔ fc ≤ fs / 4 := by
    obtain ⟨K', -, hKp, hcos, -, hK'⟩ := zoelzer_K h0 h1
    have hKK : K' = K := by rw [hK', hK, mul_div_assoc]
    subst hKK
    rw [← cos_quarter h0 h1, hfe]
    have hp : 0 < 1 + K ^ 2 := by positivity
    have hp1 : 0 < 1 + K := by positivity
    rw [neg_nonpos, le_div_iff₀ hp1, zero_mul]
    constructor
    · intro h
      by_contra hc
      push Not at hc
      nlinarith [mul_neg_of_pos_of_neg hp hc]
    · intro h
      by_contra hc
      push Not at hc
      nlinarith [mul_nonneg hp.le h]
  exact ⟨(range_iff hl hdc).trans (key.trans e), (order_iff hl).trans (key.trans e)⟩

example : ∃ c, Butterworth.lowPass false 8 1 48000 100 = .ok c ∧ KeepsRange (fromCascade c) := by
  obtain ⟨c, hc, h, -⟩ := C156_butterworth_first (N := 8) (by norm_num) (fs := 48000) (fc := 100) (by norm_num) (by norm_num)
  exact ⟨c, hc, h.mpr (by norm_num)⟩

/-- The answer of a cascade to sinusoids, at every frequency, with some phase. -/
theorem cascade_phase {c : Cascade ℝ} (hs : ∀ f ∈ active c, f.stability = true) {w g : ℝ}
    (hg : ChainGainAt (active c) w g) :
    ∃ φ, ∀ p, Answers (fromCascade c) (sinusoid 1 w p) (sinusoid g w (p + φ)) := by
  obtain ⟨h, ht, hh⟩ := id hg
  refine ⟨h.arg, fun p => ?_⟩
  have := cascade_answers hs hg ⟨h, ht, (Complex.norm_mul_exp_arg_mul_I h).symm⟩ 1 p
  rwa [mul_one] at this

theorem tan_le {y : ℝ} (h0 : 0 ≤ y) (h1 : y ≤ 1 / 2) : Real.tan y ≤ 2 * y := by
  have hc := Real.one_sub_sq_div_two_le_cos (x := y)
  have hcp : 1 / 2 ≤ Real.cos y := by nlinarith
  rw [Real.tan_eq_sin_div_cos, div_le_iff₀ (by linarith)]
  nlinarith [Real.sin_le h0]

theorem inv_sqrt_ge {u : ℝ} (hu : 0 ≤ u) : 1 - u ≤ 1 / Real.sqrt (1 + u) := by
  have h1 : Real.sqrt (1 + u) ≤ 1 + u := by
    rw [Real.sqrt_le_left (by linarith)]; nlinarith
  have h2 : 0 < Real.sqrt (1 + u) := Real.sqrt_pos.mpr (by linarith)
  rw [le_div_iff₀ h2]
  by_cases h : 1 ≤ u
  · nlinarith
  · push Not at h
    nlinarith [mul_le_mul_of_nonneg_left h1 (by linarith : 0 ≤ 1 - u)]

/-- Neither range nor order are kept if the impulse response has negative values. -/
theorem overshoots {T : List ℝ → List ℝ} (hl : Lti T) (hd : Answers T (constant 1) (constant 1)) (h : ∃ k, imp T k < 0) :
    ¬ KeepsRange T ∧ ¬ KeepsOrder T := by
  obtain ⟨k, hk⟩ := h
  exact ⟨fun hc => absurd ((range_iff hl hd).mp hc k) (not_le.mpr hk),
    fun hc => absurd ((order_iff hl).mp hc k) (not_le.mpr hk)⟩

/-- **C156, Butterworth low-passes of order 2 and more**, whatever the cutoff: there are samples for which the outputs
leave the range of the samples, and rising samples that do not come out rising.  Their response is too flat. -/
theorem C156_butterworth_higher (dbg : Bool) {N n : Nat} (hn : 2 ≤ n) (hN : n ≤ N) (hd : n % 2 = 1 → dbg = false)
    {fs fc : ℝ} (h0 : 0 < fc) (h1 : fc < fs / 2) :
    ∃ c, Butterworth.lowPass dbg N n fs fc = .ok c ∧ ¬ KeepsRange (fromCascade c) ∧ ¬ KeepsOrder (fromCascade c) := by
  obtain ⟨⟨c, hc, hp⟩, -⟩ := butter_parts dbg (by omega : 1 ≤ n) hN hd h0 h1
  obtain ⟨c', hc', hans⟩ := C155_butterworth_low dbg (by omega : 1 ≤ n) hN hd h0 h1
  obtain rfl := same_ok hc hc'
  obtain ⟨c', hc', -, hst, hg, -⟩ := C55_butterworth_lowpass dbg (by omega : 1 ≤ n) hN hd h0 h1
  obtain rfl := same_ok hc hc'
  refine ⟨c, hc, ?_⟩
  have hl := cascade_lti (parts_rest hp)
  have hdc := (hans 1 0).1
  have halt := (hans 1 0).2.1
  have e : constant 0 = alternating 0 := by funext k; simp [alternating, constant]
  rw [e] at halt
  obtain ⟨ht, -⟩ := cutoff_tan h0 h1
  set K := Real.tan (Real.pi * (fc / fs)) with hK
  refine overshoots hl hdc (flat_neg hl (r := 0) (by simp) hdc halt (C := 1 / K ^ 4) (δ := min 1 K)
    (lt_min one_pos ht) fun w hw0 hw1 => ?_)
  have hw2 : w < 1 := lt_of_lt_of_le hw1 (min_le_left _ _)
  have hw3 : w < K := lt_of_lt_of_le hw1 (min_le_right _ _)
  have hpi := Real.pi_gt_three
  have hgw := hg w (by rw [abs_of_pos hw0]; linarith)
  obtain ⟨φ, hφ⟩ := cascade_phase hst hgw
  refine ⟨_, φ, hφ, ?_⟩
  have t0 : 0 ≤ Real.tan (w / 2) := Real.tan_nonneg_of_nonneg_of_le_pi_div_two (by linarith) (by linarith)
  have t1 : Real.tan (w / 2) ≤ w := by
    have := tan_le (y := w / 2) (by linarith) (by linarith)
    linarith
  have x0 : 0 ≤ Real.tan (w / 2) / K := by positivity
  have x1 : Real.tan (w / 2) / K ≤ w / K := by gcongr
  have x2 : w / K ≤ 1 := by rw [div_le_one ht]; linarith
  have h2 : (Real.tan (w / 2) / K) ^ (2 * n) ≤ (w / K) ^ 4 :=
    (pow_le_pow_of_le_one x0 (x1.trans x2) (by omega)).trans (pow_le_pow_left₀ x0 x1 4)
  have h3 : (w / K) ^ 4 ≤ 1 / K ^ 4 * w ^ 3 := by
    rw [div_pow, div_mul_eq_mul_div, one_mul]
    gcongr ?_ / _
    exact pow_le_pow_of_le_one hw0.le hw2.le (by norm_num)
  have h4 := inv_sqrt_ge (u := (Real.tan (w / 2) / K) ^ (2 * n)) (by positivity)
  linarith

example : ∃ c, Butterworth.lowPass true 8 4 48000 1000 = .ok c ∧ ¬ KeepsRange (fromCascade c) := by
  obtain ⟨c, hc, h, -⟩ := C156_butterworth_higher true (N := 8) (n := 4) (by norm_num) (by norm_num) (by norm_num)
    (fs := 48000) (fc := 1000) (by norm_num) (by norm_num)
  exact ⟨c, hc, h⟩

theorem chebT_grow {y : ℝ} (hy : 1 ≤ y) (n : ℕ) : 1 ≤ chebT n y ∧ chebT n y ≤ chebT (n + 1) y := by
  induction n with
  | zero => simp [chebT, hy]
  | succ n ih =>
    have e : chebT (n + 2) y = 2 * y * chebT (n + 1) y - chebT n y := by
      unfold chebT
      push_cast
      rw [Polynomial.Chebyshev.T_add_two]
      simp
    refine ⟨ih.1.trans ih.2, ?_⟩
    rw [show n + 1 + 1 = n + 2 by omega, e]
    nlinarith [ih.1, ih.2]

theorem chebT_ge_sq {y : ℝ} (hy : 1 ≤ y) {n : ℕ} (hn : 2 ≤ n) : y ^ 2 ≤ chebT n y := by
  induction n, hn using Nat.le_induction with
  | base =>
    have : chebT 2 y = 2 * y ^ 2 - 1 := by
      unfold chebT
      push_cast
      rw [Polynomial.Chebyshev.T_two]
      simp
    rw [this]; nlinarith
  | succ n _ ih => exact ih.trans (chebT_grow hy n).2

/-- **C156, Chebyshev II low-passes of order 2 and more**: the same. -/
theorem C156_chebyshev2 (dbg : Bool) {N n : Nat} (hn : 2 ≤ n) (hN : n ≤ N) (hd : n % 2 = 1 → dbg = false)
    {r : ℝ} (hr : 0 < r) {fs fc : ℝ} (h0 : 0 < fc) (h1 : fc < fs / 2) :
    ∃ c, ChebyshevII.lowPass dbg N n fs fc r = .ok c ∧ ¬ KeepsRange (fromCascade c) ∧ ¬ KeepsOrder (fromCascade c) := by
  obtain ⟨P, P', Z, u, u', hu, hu', -, -, ⟨c, hc, hp⟩, -⟩ := cheb_parts dbg (by omega : 1 ≤ n) hN hd hr h0 h1
  obtain ⟨-, c', hc', hans⟩ := C155_chebyshev_low dbg (by omega : 1 ≤ n) hN hd hr h0 h1
  obtain rfl := same_ok hc hc'
  obtain ⟨c', hc', -, hst, -, hg, hny⟩ := C58_chebyshev2_lowpass dbg (by omega : 1 ≤ n) hN hd hr h0 h1
  obtain rfl := same_ok hc hc'
  refine ⟨c, hc, ?_⟩
  have hl := cascade_lti (parts_rest hp)
  have hdc := hans 1
  have hε : 0 < (10 : ℝ) ^ (r / 10) - 1 := by
    have := Real.one_lt_rpow (x := 10) (by norm_num) (show 0 < r / 10 by linarith)
    linarith
  set ε := (10 : ℝ) ^ (r / 10) - 1 with hεd
  obtain ⟨ψ, hψ⟩ := cascade_phase hst hny
  obtain ⟨ρ, hρ, halt⟩ := nyquist_answer hψ
  have hgl : |(|chebT n 0| / Real.sqrt (chebT n 0 ^ 2 + ε))| < 1 := by
    have hs : 0 < Real.sqrt (chebT n 0 ^ 2 + ε) := Real.sqrt_pos.mpr (by positivity)
    rw [abs_of_nonneg (by positivity), div_lt_one hs]
    exact Real.lt_sqrt_of_sq_lt (by rw [sq_abs]; linarith)
  obtain ⟨ht, -⟩ := cutoff_tan h0 h1
  set K := Real.tan (Real.pi * (fc / fs)) with hK
  refine overshoots hl hdc (flat_neg hl (lt_of_le_of_lt hρ hgl) hdc halt (C := ε / K ^ 4) (δ := min 1 K)
    (lt_min one_pos ht) fun w hw0 hw1 => ?_)
  have hw2 : w < 1 := lt_of_lt_of_le hw1 (min_le_left _ _)
  have hw3 : w < K := lt_of_lt_of_le hw1 (min_le_right _ _)
  have hpi := Real.pi_gt_three
  have hgw := hg w hw0.ne' (by rw [abs_of_pos hw0]; linarith)
  obtain ⟨φ, hφ⟩ := cascade_phase hst hgw
  refine ⟨_, φ, hφ, ?_⟩
  have t0 : 0 < Real.tan (w / 2) := Real.tan_pos_of_pos_of_lt_pi_div_two (by linarith) (by linarith)
  have t1 : Real.tan (w / 2) ≤ w := by
    have := tan_le (y := w / 2) (by linarith) (by linarith)
    linarith
  have y1 : K / w ≤ K / Real.tan (w / 2) := by gcongr
  have y2 : 1 ≤ K / w := by rw [one_le_div hw0]; exact hw3.le
  have h2 := chebT_ge_sq (y2.trans y1) hn
  have h3 : (K / w) ^ 2 ≤ chebT n (K / Real.tan (w / 2)) := (pow_le_pow_left₀ (by positivity) y1 2).trans h2
  set t := chebT n (K / Real.tan (w / 2)) with htd
  have tp : 0 < t := lt_of_lt_of_le (by positivity) h3
  have e1 : |t| / Real.sqrt (t ^ 2 + ε) = 1 / Real.sqrt (1 + ε / t ^ 2) := by
    have : t ^ 2 + ε = t ^ 2 * (1 + ε / t ^ 2) := by field_simp
    rw [this, Real.sqrt_mul (by positivity), Real.sqrt_sq tp.le, abs_of_pos tp]
    have : 0 < Real.sqrt (1 + ε / t ^ 2) := Real.sqrt_pos.mpr (by positivity)
    field_simp
  rw [e1]
  have h4 := inv_sqrt_ge (u := ε / t ^ 2) (by positivity)
  have h5 : ε / t ^ 2 ≤ ε / ((K / w) ^ 2) ^ 2 := by gcongr
  have h6 : ε / ((K / w) ^ 2) ^ 2 = ε / K ^ 4 * w ^ 4 := by field_simp
  have h7 : w ^ 4 ≤ w ^ 3 := pow_le_pow_of_le_one hw0.le hw2.le (by norm_num)
  have h8 : ε / K ^ 4 * w ^ 4 ≤ ε / K ^ 4 * w ^ 3 := by gcongr
  linarith

theorem chebT_odd {n : ℕ} (h : n % 2 = 1) : chebT n 0 = 0 := by
  have e := Polynomial.Chebyshev.T_real_cos (Real.pi / 2) n
  rw [Real.cos_pi_div_two] at e
  unfold chebT
  rw [e]
  obtain ⟨m, rfl⟩ : ∃ m, n = 2 * m + 1 := ⟨n / 2, by omega⟩
  rw [Real.cos_eq_zero_iff]
  exact ⟨m, by push_cast; ring⟩

/-- **C156, Chebyshev I low-passes of order 2 and more**: there are rising samples that do not come out rising; for odd
orders (which keep constants) there are samples for which the outputs leave their range. -/
theorem C156_chebyshev1 (dbg : Bool) {N n : Nat} (hn : 2 ≤ n) (hN : n ≤ N) (hd : n % 2 = 1 → dbg = false)
    {r : ℝ} (hr : 0 < r) {fs fc : ℝ} (h0 : 0 < fc) (h1 : fc < fs / 2) :
    ∃ c, ChebyshevI.lowPass dbg N n fs fc r = .ok c ∧ ¬ KeepsOrder (fromCascade c) ∧
      (n % 2 = 1 → ¬ KeepsRange (fromCascade c)) := by
  obtain ⟨P, P', Z, u, u', hu, hu', ⟨c, hc, hp⟩, -⟩ := cheb_parts dbg (by omega : 1 ≤ n) hN hd hr h0 h1
  obtain ⟨⟨c', hc', hans⟩, -⟩ := C155_chebyshev_low dbg (by omega : 1 ≤ n) hN hd hr h0 h1
  obtain rfl := same_ok hc hc'
  obtain ⟨c', hc', -, hst, hg, hny⟩ := C57_chebyshev1_lowpass dbg (by omega : 1 ≤ n) hN hd hr h0 h1
  obtain rfl := same_ok hc hc'
  refine ⟨c, hc, ?_⟩
  have hl := cascade_lti (parts_rest hp)
  have hdc := hans 1
  have hε : 0 < (10 : ℝ) ^ (r / 10) - 1 := by
    have := Real.one_lt_rpow (x := 10) (by norm_num) (show 0 < r / 10 by linarith)
    linarith
  set ε := (10 : ℝ) ^ (r / 10) - 1 with hεd
  obtain ⟨ht, -⟩ := cutoff_tan h0 h1
  set K := Real.tan (Real.pi * (fc / fs)) with hK
  have hpi := Real.pi_pos
  have hn0 : (0 : ℝ) < n := by exact_mod_cast (by omega : 0 < n)
  -- a frequency in the pass band with gain 1
  set x := Real.cos (Real.pi / (2 * n)) with hx
  have hn2 : (2 : ℝ) ≤ n := by exact_mod_cast hn
  have hx0 : 0 < x := by
    refine Real.cos_pos_of_mem_Ioo ⟨by have : 0 < Real.pi / (2 * n) := by positivity
                                       linarith, ?_⟩
    rw [div_lt_div_iff₀ (by positivity) two_pos]; nlinarith
  have hT : chebT n x = 0 := by
    unfold chebT
    rw [hx, Polynomial.Chebyshev.T_real_cos]
    push_cast
    rw [show (n : ℝ) * (Real.pi / (2 * n)) = Real.pi / 2 by field_simp]
    exact Real.cos_pi_div_two
  set w := 2 * Real.arctan (x * K) with hw
  have hxK : 0 < x * K := mul_pos hx0 ht
  have hw0 : 0 < w := by have := Real.arctan_pos.mpr hxK; linarith
  have hw1 : w < Real.pi := by have := Real.arctan_lt_pi_div_two (x * K); linarith
  have hgw := hg w (by rw [abs_of_pos hw0]; exact hw1)
  have e : Real.tan (w / 2) / K = x := by
    rw [hw, mul_div_cancel_left₀ _ two_ne_zero, Real.tan_arctan, mul_div_cancel_right₀ _ ht.ne']
  rw [e, hT] at hgw
  norm_num at hgw
  obtain ⟨φ, hφ⟩ := cascade_phase hst hgw
  have hneg : ∃ k, imp (fromCascade c) k < 0 := by
    by_contra hk
    push Not at hk
    rcases Nat.mod_two_eq_zero_or_one n with hpar | hpar
    · -- the gain of constants is less than 1
      have h2 := gain_le hl hk hdc hφ
      have hT0 : chebT n 0 ^ 2 = 1 := by
        unfold chebT
        rw [← Real.cos_pi_div_two, Polynomial.Chebyshev.T_real_cos]
        obtain ⟨m, rfl⟩ : ∃ m, n = 2 * m := ⟨n / 2, by omega⟩
        push_cast
        rw [show (2 * (m : ℝ)) * (Real.pi / 2) = m * Real.pi by ring, Real.cos_nat_mul_pi, ← pow_mul, mul_comm, pow_mul]
        norm_num
      rw [hT0, mul_one, mul_one] at h2
      have h3 : 1 < Real.sqrt (1 + ε) := Real.lt_sqrt_of_sq_lt (by linarith)
      have : 1 / Real.sqrt (1 + ε) < 1 := by rw [div_lt_one (by linarith)]; exact h3
      linarith
    · have hT0 : chebT n 0 = 0 := chebT_odd hpar
      rw [hT0] at hdc
      norm_num at hdc
      obtain ⟨ψ, hψ⟩ := cascade_phase hst hny
      obtain ⟨ρ, hρ, halt⟩ := nyquist_answer hψ
      have : ρ = 0 := abs_nonpos_iff.mp (by simpa using hρ)
      subst this
      refine flat_top hl hk hdc halt hw0 hw1 hφ fun v hv0 hv1 => ?_
      obtain ⟨θ, hθ⟩ := cascade_phase hst (hg v (by rw [abs_of_nonneg hv0]; exact hv1))
      exact ⟨_, θ, by positivity, hθ⟩
  refine ⟨?_, fun hpar => ?_⟩
  · obtain ⟨k, hk⟩ := hneg
    exact fun hc => absurd ((order_iff hl).mp hc k) (not_le.mpr hk)
  · have hT0 : chebT n 0 = 0 := chebT_odd hpar
    rw [hT0] at hdc
    norm_num at hdc
    exact (overshoots hl hdc hneg).1

example : (∃ c, ChebyshevII.lowPass true 8 4 48000 1000 40 = .ok c ∧ ¬ KeepsRange (fromCascade c)) ∧
    ∃ c, ChebyshevI.lowPass false 8 5 48000 1000 1 = .ok c ∧ ¬ KeepsRange (fromCascade c) := by
  obtain ⟨c, hc, h, -⟩ := C156_chebyshev2 true (N := 8) (n := 4) (by norm_num) (by norm_num) (by norm_num) (r := 40)
    (by norm_num) (fs := 48000) (fc := 1000) (by norm_num) (by norm_num)
  obtain ⟨d, hd, -, k⟩ := C156_chebyshev1 false (N := 8) (n := 5) (by norm_num) (by norm_num) (by norm_num) (r := 1)
    (by norm_num) (fs := 48000) (fc := 1000) (by norm_num) (by norm_num)
  exact ⟨⟨c, hc, h⟩, d, hd, k (by norm_num)⟩

/-- **C156, what follows for the gain**: a cascade that keeps the order of samples nowhere has a larger gain than for
constants (no resonance), so no cascade with a resonance keeps it. -/
theorem C156_no_resonance {c : Cascade ℝ} (hr : ∀ f ∈ active c, f.w0 = 0 ∧ f.w1 = 0)
    (hs : ∀ f ∈ active c, f.stability = true) (hk : KeepsOrder (fromCascade c)) {w g g0 : ℝ}
    (h0 : Answers (fromCascade c) (constant 1) (constant g0)) (hg : ChainGainAt (active c) w g) : g ≤ g0 := by
  have hl := cascade_lti hr
  obtain ⟨φ, hφ⟩ := cascade_phase hs hg
  exact gain_le hl ((order_iff hl).mp hk) h0 hφ

end Edsp.Props
