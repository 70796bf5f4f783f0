import Verif.Props.C186_PeriodicPower

/-!
# C187: what Butterworth filters do to the harmonics of a periodic signal
-/

namespace Edsp.Props.C187

open Finset Filter Edsp Edsp.Spec Edsp.ConvL Edsp.OvershootL Edsp.Props.C184 Edsp.Props.C185

/-- A device that answers every signal of period `P` with a signal of period `P`, in which line `k` is `g k` times as
strong, for every `k` that satisfies `S`. -/
def ScalesLines (filt : List ℝ → List ℝ) (P : ℕ) (S : ℕ → Prop) (g : ℕ → ℝ) : Prop :=
  ∀ x : ℕ → ℝ, (∀ n, x (n + P) = x n) → ∃ y : ℕ → ℝ, (∀ n, y (n + P) = y n) ∧ Answers filt x y ∧
    ∀ k, S k → ‖bin (ofReals (period y P)) k‖ = g k * ‖bin (ofReals (period x P)) k‖

theorem scales {c : Cascade ℝ} (hl : Lti fun xs => (c.filter xs).2) (hs : ∀ f ∈ active c, f.stability = true) {P : ℕ}
    (hP : 0 < P) {S : ℕ → Prop} {g : ℕ → ℝ} (hg : ∀ k, S k → ChainGainAt (active c) (2 * Real.pi * k / P) (g k)) :
    ScalesLines (fun xs => (c.filter xs).2) P S g := by
  intro x hx
  obtain ⟨d, hd⟩ := stable_answers hs
  obtain ⟨y, hy, hxy⟩ := lti_periodic hl hd hP hx
  refine ⟨y, hy, hxy, fun k hk => ?_⟩
  obtain ⟨H, ht, hn⟩ := hg k hk
  rw [bin_period, bin_period, lines hl hs (Complex.norm_exp_ofReal_mul_I _) ht (root_pow hP k) hx hy hxy, norm_mul, hn]

theorem below {P k : ℕ} (hk : 2 * k < P) : |2 * Real.pi * k / P| < Real.pi := by
  have hP : (0 : ℝ) < P := by exact_mod_cast (by omega : 0 < P)
  have h : (2 * k : ℝ) < P := by exact_mod_cast hk
  rw [abs_of_nonneg (by positivity), div_lt_iff₀ hP]
  nlinarith [Real.pi_pos]

theorem nyquist {P k : ℕ} (hP : 0 < P) (hk : 2 * k = P) : 2 * Real.pi * k / P = Real.pi := by
  have hP : (0 : ℝ) < P := by exact_mod_cast hP
  have h : (2 * k : ℝ) = P := by exact_mod_cast hk
  rw [div_eq_iff hP.ne']
  linear_combination Real.pi * h

theorem half (P k : ℕ) : 2 * Real.pi * k / P / 2 = Real.pi * k / P := by ring

/-- **C187 (low-pass).**  Line `k` below the Nyquist frequency comes out of the Butterworth low-pass of order `n` as
`1 / √(1 + (tan(π k / P) / tan(π fc / fs))^(2n))` of itself, and the line at the Nyquist frequency not at all. -/
theorem C187_low_pass (dbg : Bool) {N n : Nat} (hn : 1 ≤ n) (hN : n ≤ N) (hd : n % 2 = 1 → dbg = false) {fs fc : ℝ}
    (h0 : 0 < fc) (h1 : fc < fs / 2) {P : ℕ} (hP : 0 < P) :
    ∃ c, Butterworth.lowPass dbg N n fs fc = .ok c ∧ ScalesLines (fun xs => (c.filter xs).2) P (fun k => 2 * k ≤ P)
      fun k => if 2 * k = P then 0
        else 1 / Real.sqrt (1 + (Real.tan (Real.pi * k / P) / Real.tan (Real.pi * (fc / fs))) ^ (2 * n)) := by
  obtain ⟨⟨c, hc, hp⟩, -⟩ := butter_parts dbg hn hN hd h0 h1
  obtain ⟨c', hc', -, hs, hw, hny⟩ := C55_butterworth_lowpass dbg hn hN hd h0 h1
  obtain rfl := same_ok hc hc'
  refine ⟨c, hc, scales (cascade_lti (parts_rest hp)) hs hP fun k hk => ?_⟩
  by_cases e : 2 * k = P
  · rw [if_pos e, nyquist hP e]
    exact hny
  · rw [if_neg e, ← half]
    exact hw _ (below (by omega))

/-- **C187 (high-pass).**  Out of the high-pass of order `n` line `k` comes as
`1 / √(1 + (tan(π fc / fs) / tan(π k / P))^(2n))` of itself, the line at the Nyquist frequency unchanged, and the constant
part not at all. -/
theorem C187_high_pass (dbg : Bool) {N n : Nat} (hn : 1 ≤ n) (hN : n ≤ N) (hd : n % 2 = 1 → dbg = false) {fs fc : ℝ}
    (h0 : 0 < fc) (h1 : fc < fs / 2) {P : ℕ} (hP : 0 < P) :
    ∃ c, Butterworth.highPass dbg N n fs fc = .ok c ∧ ScalesLines (fun xs => (c.filter xs).2) P (fun k => 2 * k ≤ P)
      fun k => if k = 0 then 0 else if 2 * k = P then 1
        else 1 / Real.sqrt (1 + (Real.tan (Real.pi * (fc / fs)) / Real.tan (Real.pi * k / P)) ^ (2 * n)) := by
  obtain ⟨-, ⟨c, hc, hp⟩⟩ := butter_parts dbg hn hN hd h0 h1
  obtain ⟨c', hc', -, hs, hw, hny, hz⟩ := C56_butterworth_highpass dbg hn hN hd h0 h1
  obtain rfl := same_ok hc hc'
  refine ⟨c, hc, scales (cascade_lti (parts_rest hp)) hs hP fun k hk => ?_⟩
  by_cases e0 : k = 0
  · subst e0
    simpa using hz
  rw [if_neg e0]
  by_cases e : 2 * k = P
  · rw [if_pos e, nyquist hP e]
    exact hny
  · rw [if_neg e, ← half]
    refine hw _ ?_ (below (by omega))
    have hP : (0 : ℝ) < P := by exact_mod_cast hP
    have hk : (0 : ℝ) < k := by exact_mod_cast Nat.pos_of_ne_zero e0
    have := Real.pi_pos
    positivity

/-- **C187 (resonators and the like).**  The same for the second-order designs: the RBJ low-pass lets the line at its cutoff
through `Q` times as strong, if there is one. -/
theorem C187_cutoff_line (fc fs Q : ℝ) (h0 : 0 < fc) (h1 : fc < fs / 2) (hQ : 0 < Q) {P k : ℕ} (hP : 0 < P)
    (hk : fc * P = k * fs) :
    ∃ (f : Biquad ℝ) (c : Cascade ℝ) (o : List (List ℝ)), Rbj.lowPass fc fs Q = .ok f ∧
      (Cascade.new 1).run [.push f] = .ok (c, o) ∧
      ScalesLines (fun xs => (c.reset.filter xs).2) P (fun j => j = k) fun _ => Q := by
  obtain ⟨f, hf, st, -, -, g⟩ := C16_low_pass fc fs Q h0 h1 hQ
  have hc : (Cascade.new 1).run [.push f] = .ok (⟨1, [f]⟩, [[]]) := by
    simp [Cascade.run, Cascade.step, Cascade.new, Cascade.pushBack, Except.bind, Bind.bind, pure, Except.pure]
  have ha : active (⟨1, [f]⟩ : Cascade ℝ).reset = [f.reset] := rfl
  refine ⟨f, _, _, hf, hc, scales (C181.cascade_lti hc) ?_ hP ?_⟩
  · intro g hg
    rw [ha, List.mem_singleton] at hg
    rw [hg]
    exact st
  · rintro j rfl
    have hP' : (P : ℝ) ≠ 0 := by exact_mod_cast hP.ne'
    have hfs : fs ≠ 0 := by linarith
    obtain ⟨H, ht, hn⟩ := g
    have e : 2 * Real.pi * j / P = 2 * Real.pi * fc / fs := by
      rw [div_eq_div_iff hP' hfs]
      linear_combination (-2 * Real.pi) * hk
    rw [e, ha]
    exact ⟨H, ⟨H, 1, ht, rfl, (mul_one H).symm⟩, hn⟩

/-- Signals of period 48 at 48 kHz through a fourth-order low-pass at 1 kHz: the fundamental loses 3 dB and the line at
24 kHz disappears. -/
example : ∃ c, Butterworth.lowPass true 8 4 48000 1000 = .ok c ∧ ∀ x : ℕ → ℝ, (∀ n, x (n + 48) = x n) →
    ∃ y : ℕ → ℝ, (∀ n, y (n + 48) = y n) ∧ Answers (fun xs => (c.filter xs).2) x y ∧
      ‖bin (ofReals (period y 48)) 1‖ = 1 / Real.sqrt 2 * ‖bin (ofReals (period x 48)) 1‖ ∧
      ‖bin (ofReals (period y 48)) 24‖ = 0 := by
  obtain ⟨c, hc, h⟩ := C187_low_pass true (N := 8) (n := 4) (fs := 48000) (fc := 1000) (by norm_num) (by norm_num)
    (by norm_num) (by norm_num) (by norm_num) (P := 48) (by norm_num)
  refine ⟨c, hc, fun x hx => ?_⟩
  obtain ⟨y, hy, hxy, hb⟩ := h x hx
  refine ⟨y, hy, hxy, ?_, ?_⟩
  · have := hb 1 (by norm_num)
    dsimp only at this
    have ht : Real.tan (Real.pi * (1000 / 48000)) ≠ 0 :=
      (Real.tan_pos_of_pos_of_lt_pi_div_two (by have := Real.pi_pos; positivity) (by linarith [Real.pi_pos])).ne'
    rw [if_neg (by norm_num), show Real.pi * (1 : ℕ) / (48 : ℕ) = Real.pi * (1000 / 48000) by push_cast; ring,
      div_self ht, one_pow, show (1 : ℝ) + 1 = 2 by norm_num] at this
    exact this
  · have := hb 24 (by norm_num)
    dsimp only at this
    rwa [if_pos (by norm_num), zero_mul] at this

/-- The fundamental of signals of period 48 at the cutoff of a resonant low-pass. -/
example : ∃ (f : Biquad ℝ) (c : Cascade ℝ) (o : List (List ℝ)), Rbj.lowPass 1000 48000 2 = .ok f ∧
    (Cascade.new 1).run [.push f] = .ok (c, o) ∧
    ScalesLines (fun xs => (c.reset.filter xs).2) 48 (fun j => j = 1) fun _ => 2 :=
  C187_cutoff_line 1000 48000 2 (by norm_num) (by norm_num) (by norm_num) (by norm_num) (by norm_num)

end Edsp.Props.C187
