import Verif.Props.C06_Biquad
import Verif.Props.C09_Stability
import Verif.Props.C141_Undo
import Verif.Props.C13_MovingFilters

/-!
# C169: what can be recovered from the output of a filter
-/

namespace Edsp.Props.C169

open Edsp Edsp.Spec

/-! ## Lemmas -/

theorem biquad_inj (f : Biquad ℝ) (hb : f.b0 ≠ 0) : ∀ xs ys : List ℝ, (f.filter xs).2 = (f.filter ys).2 → xs = ys := by
  intro xs
  induction xs generalizing f with
  | nil =>
    intro ys h
    have := congrArg List.length h
    simp at this
    exact (List.length_eq_zero_iff.mp this.symm).symm
  | cons x xs ih =>
    intro ys h
    cases ys with
    | nil => simp [Biquad.filter] at h
    | cons y ys =>
      simp only [Biquad.filter, List.cons.injEq] at h
      obtain ⟨h1, h2⟩ := h
      have hxy : x = y := by
        simp only [Biquad.tick] at h1
        exact mul_left_cancel₀ hb (by linarith)
      subst hxy
      rw [ih (f.tick x).1 hb ys h2]

theorem through_inj (fs : List (Biquad ℝ)) (hb : ∀ f ∈ fs, f.b0 ≠ 0) (xs ys : List ℝ)
    (h : (through fs xs).2 = (through fs ys).2) : xs = ys := by
  induction fs generalizing xs ys with
  | nil => exact h
  | cons f fs ih =>
    exact biquad_inj f (hb f (by simp)) xs ys (ih (fun g hg => hb g (by simp [hg])) _ _ h)

theorem through_one (fs : List (Biquad ℝ)) : ∃ c : ℝ, ∀ x : ℝ,
    (through fs [x]).2 = [(fs.map Biquad.b0).prod * x + c] := by
  induction fs with
  | nil => exact ⟨0, fun x => by simp [through]⟩
  | cons f fs ih =>
    obtain ⟨c, hc⟩ := ih
    refine ⟨(fs.map Biquad.b0).prod * f.w0 + c, fun x => ?_⟩
    simp only [through, Biquad.filter, Biquad.tick]
    rw [hc, List.map_cons, List.prod_cons]
    congr 1
    ring

theorem through_iff (fs : List (Biquad ℝ)) :
    (∀ xs ys : List ℝ, (through fs xs).2 = (through fs ys).2 → xs = ys) ↔ ∀ f ∈ fs, f.b0 ≠ 0 := by
  refine ⟨fun h f hf hb => ?_, through_inj fs⟩
  obtain ⟨c, hc⟩ := through_one fs
  have hp : (fs.map Biquad.b0).prod = 0 := List.prod_eq_zero (List.mem_map.mpr ⟨f, hf, hb⟩)
  have := h [0] [1] (by rw [hc, hc, hp]; simp)
  simp at this

theorem ofCoeffs_b0 {a0 a1 a2 b0 b1 b2 : ℝ} {f : Biquad ℝ} (h : Biquad.ofCoeffs a0 a1 a2 b0 b1 b2 = .ok f) :
    f.b0 ≠ 0 ↔ b0 ≠ 0 := by
  unfold Biquad.ofCoeffs at h
  split at h
  · cases h
  · rename_i ha
    injection h with h
    subst h
    simp [ha]

theorem mean_snoc {n : ℕ} (h0 : 0 < n) (h : List ℝ) (x : ℝ) :
    Spec.mean (window n (h ++ [x])) = ((window n h).tail.sum + x) / n := by
  rw [Spec.mean, Moving.window_length, Moving.window_snoc h0, List.sum_append]
  simp

theorem mean_inj {n : ℕ} (h0 : 0 < n) : ∀ (xs ys h : List ℝ),
    moving Spec.mean n h (xs.map .tick) = moving Spec.mean n h (ys.map .tick) → xs = ys := by
  intro xs
  induction xs with
  | nil => intro ys h e; cases ys with
    | nil => rfl
    | cons y ys => simp [moving] at e
  | cons x xs ih =>
    intro ys h e
    cases ys with
    | nil => simp [moving] at e
    | cons y ys =>
      simp only [List.map_cons, moving, List.cons.injEq] at e
      obtain ⟨e1, e2⟩ := e
      rw [mean_snoc h0, mean_snoc h0] at e1
      have hn : (n : ℝ) ≠ 0 := Nat.cast_ne_zero.mpr h0.ne'
      rw [div_left_inj' hn] at e1
      have hxy : x = y := by linarith
      subst hxy
      rw [ih ys _ e2]

theorem rms_snoc {n : ℕ} (h0 : 0 < n) (h : List ℝ) (x : ℝ) :
    Spec.rms (window n (h ++ [x])) = Real.sqrt (((window n (h.map fun v => v ^ 2)).tail.sum + x ^ 2) / n) := by
  rw [Spec.rms, Moving.window_length, Moving.window_snoc h0, List.map_append, List.sum_append,
    Moving.window_map (fun v : ℝ => v ^ 2) (by simp), List.map_tail]
  simp

theorem tail_nonneg (n : ℕ) (h : List ℝ) : 0 ≤ (window n (h.map fun v => v ^ 2)).tail.sum := by
  rw [Moving.window_map (fun v : ℝ => v ^ 2) (by simp), ← List.map_tail]
  refine List.sum_nonneg fun v hv => ?_
  obtain ⟨w, -, rfl⟩ := List.mem_map.mp hv
  positivity

theorem rms_iff {n : ℕ} (h0 : 0 < n) : ∀ (xs ys h h' : List ℝ), (h.map fun v => v ^ 2) = (h'.map fun v => v ^ 2) →
    (moving Spec.rms n h (xs.map .tick) = moving Spec.rms n h' (ys.map .tick) ↔
      (xs.map fun v => |v|) = ys.map fun v => |v|) := by
  intro xs
  induction xs with
  | nil => intro ys h h' hh; cases ys <;> simp [moving]
  | cons x xs ih =>
    intro ys h h' hh
    cases ys with
    | nil => simp [moving]
    | cons y ys =>
      simp only [List.map_cons, moving, List.cons.injEq]
      rw [rms_snoc h0, rms_snoc h0, ← hh]
      have hn : (0 : ℝ) < n := Nat.cast_pos.mpr h0
      have t := tail_nonneg n h
      have e : Real.sqrt (((window n (h.map fun v => v ^ 2)).tail.sum + x ^ 2) / n) =
          Real.sqrt (((window n (h.map fun v => v ^ 2)).tail.sum + y ^ 2) / n) ↔ |x| = |y| := by
        rw [Real.sqrt_inj (by positivity) (by positivity), div_left_inj' hn.ne', add_right_inj, sq_eq_sq_iff_abs_eq_abs]
      rw [e]
      refine and_congr_right fun hxy => ih ys _ _ ?_
      rw [List.map_append, List.map_append, hh]
      simp [sq_eq_sq_iff_abs_eq_abs, hxy]

/-! ## Theorems -/

/-- C169: whatever its state, a cascade gives different outputs for different inputs, exactly if
no stage has a zero as its first feed-forward coefficient. -/
theorem C169_cascade (c : Cascade ℝ) :
    (∀ xs ys : List ℝ, (c.filter xs).2 = (c.filter ys).2 → xs = ys) ↔ ∀ f ∈ active c, f.b0 ≠ 0 := by
  rw [← through_iff]
  simp only [SteadyL.filter_out]

/-- C169: the same for a single biquad in any state. -/
theorem C169_biquad (f : Biquad ℝ) :
    (∀ xs ys : List ℝ, (f.filter xs).2 = (f.filter ys).2 → xs = ys) ↔ f.b0 ≠ 0 := by
  have := through_iff [f]
  simpa [through] using this

/-- C169: the biquad with the two rows of coefficients exchanged exists if the first feed-forward
coefficient is not zero; it undoes the biquad and is undone by it, and it is reported as stable exactly if all zeros of
the biquad lie within the unit circle. -/
theorem C169_restored {a0 a1 a2 b0 b1 b2 : ℝ} {f : Biquad ℝ} (hf : Biquad.ofCoeffs a0 a1 a2 b0 b1 b2 = .ok f)
    (hb : b0 ≠ 0) : ∃ g, Biquad.ofCoeffs b0 b1 b2 a0 a1 a2 = .ok g ∧
      (∀ xs, (g.filter (f.filter xs).2).2 = xs) ∧ (∀ xs, (f.filter (g.filter xs).2).2 = xs) ∧
      (g.stability = true ↔ ∀ z : ℂ, b0 * z ^ 2 + b1 * z + b2 = 0 → ‖z‖ < 1) := by
  obtain ⟨g, hg⟩ := (C06_constructor b0 b1 b2 a0 a1 a2).mpr hb
  refine ⟨g, hg, C141.cancel (k := 1) hf hg (by ring) (by ring) (by ring) (by ring) (by ring) (by ring),
    C141.cancel (k := 1) hg hf (by ring) (by ring) (by ring) (by ring) (by ring) (by ring), ?_⟩
  rw [C09_stability_iff_poles]
  obtain ⟨-, r1, r2, -⟩ := C06_reported hg []
  simp only [Biquad.filterCalls] at r1 r2
  rw [r1, r2]
  have hc : (b0 : ℂ) ≠ 0 := Complex.ofReal_ne_zero.mpr hb
  refine forall_congr' fun z => ?_
  have : z ^ 2 + ((b1 / b0 : ℝ) : ℂ) * z + ((b2 / b0 : ℝ) : ℂ) = 0 ↔ b0 * z ^ 2 + b1 * z + b2 = 0 := by
    rw [show (b0 : ℂ) * z ^ 2 + b1 * z + b2 = b0 * (z ^ 2 + ((b1 / b0 : ℝ) : ℂ) * z + ((b2 / b0 : ℝ) : ℂ)) by
      push_cast
      field_simp]
    simp [hc]
  rw [this]

/-- C169: from the output of the low-pass, high-pass and band-pass of the cookbook the input can be
recovered, at every setting; from that of the all-pass at every setting but those with `sin w = 2 Q`. -/
theorem C169_rbj {fc fs Q : ℝ} (h0 : 0 < fc) (h1 : fc < fs / 2) (hQ : 0 < Q) :
    (∀ design ∈ [Rbj.lowPass, Rbj.highPass, Rbj.bandPass], ∃ f, design fc fs Q = .ok f ∧
      ∀ xs ys : List ℝ, (f.filter xs).2 = (f.filter ys).2 → xs = ys) ∧
    ∃ f, Rbj.allPass fc fs Q = .ok f ∧
      ((∀ xs ys : List ℝ, (f.filter xs).2 = (f.filter ys).2 → xs = ys) ↔ Real.sin (2 * Real.pi * fc / fs) ≠ 2 * Q) := by
  have hfs : 0 < fs := by linarith
  have hw0 : 0 < 2 * Real.pi * fc / fs := by have := Real.pi_pos; positivity
  have hw1 : 2 * Real.pi * fc / fs < Real.pi := by
    rw [div_lt_iff₀ hfs]
    nlinarith [Real.pi_pos]
  have hs := Real.sin_pos_of_pos_of_lt_pi hw0 hw1
  have hc1 : Real.cos (2 * Real.pi * fc / fs) < 1 := by
    have := Real.cos_lt_cos_of_nonneg_of_le_pi le_rfl hw1.le hw0
    rwa [Real.cos_zero] at this
  have hc2 : -1 < Real.cos (2 * Real.pi * fc / fs) := by
    have := Real.cos_lt_cos_of_nonneg_of_le_pi hw0.le le_rfl hw1
    rwa [Real.cos_pi] at this
  have hal : 0 < Real.sin (2 * Real.pi * fc / fs) / (2 * Q) := by positivity
  have hne : 1 + Real.sin (2 * Real.pi * fc / fs) / (2 * Q) ≠ 0 := by positivity
  have key : ∀ b0 b1 b2 a1 a2 : ℝ, ∃ f, Biquad.ofCoeffs (1 + Real.sin (2 * Real.pi * fc / fs) / (2 * Q)) a1 a2 b0 b1 b2 = .ok f ∧
      ((∀ xs ys : List ℝ, (f.filter xs).2 = (f.filter ys).2 → xs = ys) ↔ b0 ≠ 0) := fun b0 b1 b2 a1 a2 => by
    obtain ⟨f, hf⟩ := (C06_constructor _ a1 a2 b0 b1 b2).mpr hne
    exact ⟨f, hf, (C169_biquad f).trans (ofCoeffs_b0 hf)⟩
  have hd : ∀ a : ℝ, fdiv a fs = .ok (a / fs) := fun a => by simp [fdiv, hfs.ne']
  have hd2 : ∀ a : ℝ, fdiv a (2 * Q) = .ok (a / (2 * Q)) := fun a => by simp [fdiv, hQ.ne']
  constructor
  · intro design hdes
    simp only [List.mem_cons, List.not_mem_nil, or_false] at hdes
    rcases hdes with rfl | rfl | rfl
    · simp only [Rbj.lowPass, hd, hd2, bind, Except.bind]
      obtain ⟨f, hf, hi⟩ := key _ _ _ _ _
      exact ⟨f, hf, hi.mpr (by linarith)⟩
    · simp only [Rbj.highPass, hd, hd2, bind, Except.bind]
      obtain ⟨f, hf, hi⟩ := key _ _ _ _ _
      exact ⟨f, hf, hi.mpr (by linarith)⟩
    · simp only [Rbj.bandPass, hd, hd2, bind, Except.bind]
      obtain ⟨f, hf, hi⟩ := key _ _ _ _ _
      exact ⟨f, hf, hi.mpr (by positivity)⟩
  · simp only [Rbj.allPass, hd, hd2, bind, Except.bind]
    obtain ⟨f, hf, hi⟩ := key _ _ _ _ _
    refine ⟨f, hf, hi.trans (not_congr ?_)⟩
    rw [sub_eq_zero, eq_comm, div_eq_one_iff_eq (by positivity)]

/-- C169: the outputs of a new moving average determine the samples. -/
theorem C169_moving_average {n : ℕ} (h0 : 0 < n) (hn : n < 2 ^ 63) {xs ys : List ℝ} {m mx my : MovingAverage ℝ}
    {o : List ℝ} (hm : MovingAverage.new n = .ok m) (hx : m.run (xs.map .tick) = .ok (mx, o))
    (hy : m.run (ys.map .tick) = .ok (my, o)) : xs = ys := by
  obtain ⟨m1, m1', e1, r1⟩ := C13_moving_average_partial n h0 hn xs
  obtain ⟨m2, m2', e2, r2⟩ := C13_moving_average_partial n h0 hn ys
  rw [hm] at e1 e2
  injection e1 with e1
  injection e2 with e2
  subst e1 e2
  rw [hx] at r1
  rw [hy] at r2
  simp only [Except.ok.injEq, Prod.mk.injEq] at r1 r2
  exact mean_inj h0 xs ys [] (r1.2.symm.trans r2.2)

/-- C169: two signals give the same outputs of a new moving root mean square exactly if they
agree up to the signs of their samples. -/
theorem C169_moving_rms {n : ℕ} (h0 : 0 < n) (hn : n < 2 ^ 63) (xs ys : List ℝ) :
    ∃ m mx my ox oy, MovingRms.new n = .ok m ∧ m.run (xs.map .tick) = .ok (mx, ox) ∧
      m.run (ys.map .tick) = .ok (my, oy) ∧ (ox = oy ↔ (xs.map fun v => |v|) = ys.map fun v => |v|) := by
  obtain ⟨m1, m1', e1, r1⟩ := C14_moving_rms_partial n h0 hn xs
  obtain ⟨m2, m2', e2, r2⟩ := C14_moving_rms_partial n h0 hn ys
  rw [e1] at e2
  injection e2 with e2
  subst e2
  exact ⟨_, _, _, _, _, e1, r1, r2, rms_iff h0 xs ys [] [] rfl⟩

/-! ## Cases that meet the hypotheses -/

/-- Zeros at -1/2 and 0: the restoring filter is stable. -/
example : ∃ f g : Biquad ℝ, Biquad.ofCoeffs 1 0 (1 / 4) 2 1 0 = .ok f ∧ Biquad.ofCoeffs 2 1 0 1 0 (1 / 4) = .ok g ∧
    (∀ xs, (g.filter (f.filter xs).2).2 = xs) ∧ g.stability = true := by
  obtain ⟨f, hf⟩ := (C06_constructor (1 : ℝ) 0 (1 / 4) 2 1 0).mpr (by norm_num)
  obtain ⟨g, hg, h1, -, -⟩ := C169_restored hf (by norm_num)
  refine ⟨f, g, hf, hg, h1, ?_⟩
  obtain ⟨-, r1, r2, -⟩ := C06_reported hg []
  simp only [Biquad.filterCalls] at r1 r2
  simp [Biquad.stability, r1, r2]
  norm_num [abs_lt]

/-- A delay by one sample loses the last one. -/
example : ¬ ∀ xs ys : List ℝ, ((⟨0, 1, 0, 0, 0, 1, 0, 0⟩ : Biquad ℝ).filter xs).2 =
    ((⟨0, 1, 0, 0, 0, 1, 0, 0⟩ : Biquad ℝ).filter ys).2 → xs = ys := by
  rw [C169_biquad]
  simp

/-- The all-pass at a quarter of the sample rate with `Q = 1/2` is a delay. -/
example : ∃ f, Rbj.allPass 12000 48000 (1 / 2) = .ok f ∧
    ¬ ∀ xs ys : List ℝ, (f.filter xs).2 = (f.filter ys).2 → xs = ys := by
  obtain ⟨-, f, hf, h⟩ := C169_rbj (fc := 12000) (fs := 48000) (Q := 1 / 2) (by norm_num) (by norm_num) (by norm_num)
  refine ⟨f, hf, ?_⟩
  rw [h, not_not, show 2 * Real.pi * 12000 / 48000 = Real.pi / 2 by ring, Real.sin_pi_div_two]
  norm_num

end Edsp.Props.C169
