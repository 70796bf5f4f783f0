import Verif.Lemmas.AnalogDesign
import Verif.Spec.PoleZero
import Mathlib.Algebra.Order.BigOperators.Group.List

/-! # C19, C55, C56: Butterworth prototypes and low-pass/high-pass designs -/

namespace Edsp.Props

open Edsp Edsp.Spec Edsp.LayoutL Edsp.BilinearL Edsp.AnalogL Edsp.PoleProducts

theorem polesOf_holds {N : Nat} {l : Layout} {prs : List (Pt × Pt)} {s : Option (Pt × Pt)}
    (h : Holds N l prs s) :
    polesOf l = (prs.flatMap fun q => [q.1, q.1.conj]) ++ s.toList.map (·.1) ∧
      zerosOf l = (prs.flatMap fun q => [q.2, q.2.conj]) ++ s.toList.map (·.2) := by
  obtain ⟨h1, h2, rest, h3⟩ := h
  unfold polesOf zerosOf
  cases s with
  | none =>
    simp only [Option.toList_none, List.length_nil, List.map_nil, List.append_nil] at h1 h3 ⊢
    have e : l.poles / 2 = prs.length := by omega
    rw [if_neg (by omega), if_neg (by omega), e, h3]
    have : ((prs.map mkConj) ++ rest).take prs.length = prs.map mkConj := by
      rw [List.take_append_of_le_length (by simp)]; simp
    rw [this]
    simp [List.flatMap_map, mkConj]
  | some q =>
    simp only [Option.toList_some, List.length_cons, List.length_nil, List.map_cons, List.map_nil] at h1 h3 ⊢
    have e : l.poles / 2 = prs.length := by omega
    rw [if_pos (by omega), if_pos (by omega), e, h3]
    have : ((prs.map mkConj) ++ [mkSingle q] ++ rest).take prs.length = prs.map mkConj := by
      rw [List.append_assoc, List.take_append_of_le_length (by simp)]; simp
    rw [this]
    have g : ((prs.map mkConj) ++ [mkSingle q] ++ rest)[prs.length]? = some (mkSingle q) := by
      rw [List.append_assoc, List.getElem?_append_right (by simp)]; simp
    rw [g]
    simp [List.flatMap_map, mkConj, mkSingle]

/-- **C19, Butterworth prototype.** For every order `n ≥ 1` within the capacity (in a release build,
or for an even order) the design succeeds with exactly `n` finite poles, all of modulus 1 and with
negative real part, closed under conjugation; the product of the distances to the poles satisfies
`|∏ (i w − p)|² = 1 + w^(2n)` at every frequency; and there are `n` zeros, all at infinity. -/
theorem C19_prototype (dbg : Bool) {N n : Nat} (h1 : 1 ≤ n) (hN : n ≤ N)
    (hd : n % 2 = 1 → dbg = false) :
    ∃ (a : Layout) (ps : List ℂ), Butterworth.analog dbg N n (Layout.new N) = .ok a ∧ a.poles = n ∧
      polesOf a = ps.map some ∧ ps.length = n ∧
      (∀ p ∈ ps, ‖p‖ = 1 ∧ p.re < 0 ∧ (starRingEnd ℂ) p ∈ ps) ∧
      (∀ w : ℝ, ‖(ps.map fun p => Complex.I * w - p).prod‖ ^ 2 = 1 + w ^ (2 * n)) ∧
      zerosOf a = List.replicate n none := by
  obtain ⟨a, ha, -, -, hold⟩ := butter_analog hN hd
  obtain ⟨hp, hz⟩ := polesOf_holds hold
  set s := oddSingle n (-1) none with hs
  have hlen := oddSingle_len n (-1) none
  rw [← hs] at hlen
  refine ⟨a, ((List.range (n / 2)).flatMap fun k => [Butterworth.pole n k,
    (starRingEnd ℂ) (Butterworth.pole n k)]) ++ s.toList.map fun q => (q.1 : ℂ), ha, ?_, ?_, ?_, ?_, ?_, ?_⟩
  · rw [hold.1]
    have : (s.map fun q => ((some (q.1 : ℂ), q.2.map Complex.ofReal) : Pt × Pt)).toList.length = s.toList.length := by
      cases s <;> rfl
    simp only [List.length_map, List.length_range]
    omega
  · rw [hp]
    simp only [List.flatMap_map, List.map_append, List.map_flatMap]
    congr 1
    cases s <;> simp
  · simp only [List.length_append, List.length_flatMap, List.length_map]
    simp
    omega
  · have hmod : ∀ k, ‖Butterworth.pole n k‖ = 1 := by
      intro k
      rw [butter_pole, norm_mul, Complex.norm_I, one_mul]
      exact Complex.norm_exp_ofReal_mul_I _
    intro p hp
    rcases List.mem_append.mp hp with hp | hp
    · obtain ⟨k, hk, hpk⟩ := List.mem_flatMap.mp hp
      have hk' := List.mem_range.mp hk
      simp at hpk
      rcases hpk with rfl | rfl
      · exact ⟨hmod k, (butter_pole_lhp hk').1, List.mem_append_left _
          (List.mem_flatMap.mpr ⟨k, hk, by simp⟩)⟩
      · refine ⟨by rw [Complex.norm_conj]; exact hmod k, by simpa using (butter_pole_lhp hk').1,
          List.mem_append_left _ (List.mem_flatMap.mpr ⟨k, hk, by simp⟩)⟩
    · obtain ⟨q, hq, rfl⟩ := List.mem_map.mp hp
      have hq' : q.1 = -1 := by
        rw [hs] at hq
        unfold oddSingle at hq
        split at hq
        · simp at hq; rw [hq]
        · simp at hq
      refine ⟨by rw [hq']; simp, by rw [hq']; simp, List.mem_append_right _ ?_⟩
      exact List.mem_map.mpr ⟨q, hq, by simp⟩
  · intro w
    have hprod := butter_prod n (by omega) w
    rw [← hs] at hprod
    have e : ‖((((List.range (n / 2)).flatMap fun k => [Butterworth.pole n k,
        (starRingEnd ℂ) (Butterworth.pole n k)]) ++ s.toList.map fun q => (q.1 : ℂ)).map
          fun p => Complex.I * w - p).prod‖ = Real.sqrt (1 + w ^ (2 * n)) := by
      rw [← hprod, List.map_append, List.prod_append, norm_mul]
      congr 1
      · rw [← list_prod]
        generalize List.range (n / 2) = L
        induction L with
        | nil => simp
        | cons k L ih =>
          simp only [List.flatMap_cons, List.map_append, List.prod_append, norm_mul, List.map_cons,
            List.prod_cons, List.map_nil, List.prod_nil, mul_one]
          rw [ih]
      · cases s <;> simp
    rw [e, Real.sq_sqrt]
    have : 0 ≤ w ^ (2 * n) := by rw [pow_mul]; positivity
    linarith
  · rw [hz]
    simp only [List.flatMap_map, Pt.conj, Option.map_none]
    have h2 : (s.map fun q => ((some (q.1 : ℂ), q.2.map Complex.ofReal) : Pt × Pt)).toList.map (·.2) =
        List.replicate s.toList.length none := by
      rw [hs]; unfold oddSingle; split <;> simp
    have h3 : ∀ m : Nat, ((List.range m).flatMap fun _ => ([none, none] : List Pt)) =
        List.replicate (2 * m) none := by
      intro m
      induction m with
      | zero => simp
      | succ m ih =>
        rw [List.range_succ, List.flatMap_append, ih]
        simp only [List.flatMap_cons, List.flatMap_nil, List.append_nil]
        rw [show [none, none] = List.replicate 2 (none : Pt) from rfl, List.replicate_append_replicate]
        congr 1
    rw [h2, h3, List.replicate_append_replicate, hlen.2]

example : ∃ a, Butterworth.analog true 4 2 (Layout.new 4) = .ok a ∧ a.poles = 2 := by
  obtain ⟨a, -, h, h2, -⟩ := C19_prototype true (N := 4) (n := 2) (by norm_num) (by norm_num)
    (by norm_num)
  exact ⟨a, h, h2⟩

/-- **C19 is violated in debug builds for every odd order**: the real pole is inserted together with
a zero at infinity, whose imaginary part is not 0, and the contract check of the pair fails. -/
theorem C19_odd_debug_violates {N n : Nat} (hN : n ≤ N) (hodd : n % 2 = 1) :
    Butterworth.analog true N n (Layout.new N) = .error .assertion := by
  obtain ⟨l1, h1, -⟩ := build hN (holds_reset (holds_new N) 0 1) (Butterworth.pole n)
    (fun _ => none) (fun l i => l.insertConj (some (Butterworth.pole n i)) none) (fun _ _ _ => rfl)
    (-1) (some 0) true (by simp)
  unfold Butterworth.analog
  rw [if_neg (by omega)]
  simp only [bind, Except.bind, pure, Except.pure, h1]
  rw [if_pos hodd, insert_inf_dbg]

example : Butterworth.analog true 4 3 (Layout.new 4) = .error .assertion :=
  C19_odd_debug_violates (by norm_num) (by norm_num)

theorem fdiv_cutoff {fs fc : ℝ} (h0 : 0 < fc) (h1 : fc < fs / 2) :
    fdiv fc fs = .ok (fc / fs) ∧ 0 < fc / fs ∧ fc / fs < 1 / 2 := by
  have hfs : 0 < fs := by linarith
  refine ⟨by unfold fdiv; rw [if_neg hfs.ne'], by positivity, ?_⟩
  rw [div_lt_div_iff₀ hfs two_pos]; linarith

/-- **C55, Butterworth low-pass.** For every order `1 ≤ n ≤ N` (in a release build, or for an even
order) and every cutoff strictly between 0 and Nyquist the design succeeds, uses `⌈n/2⌉` sections,
each of them stable, and its gain at every angular frequency `|w| < π` is exactly
`1 / √(1 + (tan(w/2) / tan(π fc / fs))^(2n))`, and 0 at the Nyquist frequency. -/
theorem C55_butterworth_lowpass (dbg : Bool) {N n : Nat} (hn : 1 ≤ n) (hN : n ≤ N)
    (hd : n % 2 = 1 → dbg = false) {fs fc : ℝ} (h0 : 0 < fc) (h1 : fc < fs / 2) :
    ∃ c, Butterworth.lowPass dbg N n fs fc = .ok c ∧ c.num = (n + 1) / 2 ∧
      (∀ g ∈ active c, g.stability = true) ∧
      (∀ w : ℝ, |w| < Real.pi → ChainGainAt (active c) w
        (1 / Real.sqrt (1 + (Real.tan (w / 2) / Real.tan (Real.pi * (fc / fs))) ^ (2 * n)))) ∧
      ChainGainAt (active c) Real.pi 0 := by
  obtain ⟨e, hf0, hf1⟩ := fdiv_cutoff h0 h1
  obtain ⟨a, ha, haw, hag, hold⟩ := butter_analog hN hd
  have hlen := oddSingle_len n (-1) none
  have hM0 : MA (n / 2) (Butterworth.pole n) (fun _ => none) (oddSingle n (-1) none) 0 = 1 := by
    have := butter_MA n (by omega) 0
    rw [Complex.ofReal_zero, mul_zero] at this
    rw [this, zero_pow (by omega)]; simp
  obtain ⟨d, c, hd', hc, hnum, hst, hgain, hpi⟩ := lowpass_chain hold (by omega) (by omega)
    (fun k hk => butter_pole_lhp hk) (by intro k _ c hc; cases hc)
    (oddSingle_neg (by norm_num) (by intro c hc; cases hc)) (by rw [hag]; norm_num) dbg hf0 hf1
    (ref := 1) (Or.inl ⟨haw, hM0.symm⟩) one_ne_zero
  refine ⟨c, ?_, by rw [hnum, hlen.1], hst, ?_, ?_⟩
  · unfold Butterworth.lowPass
    rw [e, ha]
    simp only [bind, Except.bind, hd', hc]
  · intro w hw
    have := hgain w hw
    rwa [hag, one_mul, div_one, butter_MA n (by omega)] at this
  · rw [MI_allpole n (by omega), zero_div, mul_zero] at hpi
    exact hpi

example : ∃ c, Butterworth.lowPass true 8 4 48000 1000 = .ok c ∧ c.num = 2 := by
  obtain ⟨c, h1, h2, -⟩ := C55_butterworth_lowpass true (N := 8) (n := 4) (by norm_num) (by norm_num)
    (by norm_num) (fs := 48000) (fc := 1000) (by norm_num) (by norm_num)
  exact ⟨c, h1, h2⟩

/-- **C55, cutoff.** In particular the gain is 1 at 0 and `1/√2` (−3 dB) at the cutoff, for every order. -/
theorem C55_butterworth_lowpass_cutoff (dbg : Bool) {N n : Nat} (hn : 1 ≤ n) (hN : n ≤ N)
    (hd : n % 2 = 1 → dbg = false) {fs fc : ℝ} (h0 : 0 < fc) (h1 : fc < fs / 2) :
    ∃ c, Butterworth.lowPass dbg N n fs fc = .ok c ∧ ChainGainAt (active c) 0 1 ∧
      ChainGainAt (active c) (2 * Real.pi * fc / fs) (1 / Real.sqrt 2) := by
  obtain ⟨c, hc, -, -, hg, -⟩ := C55_butterworth_lowpass dbg hn hN hd h0 h1
  obtain ⟨-, hf0, hf1⟩ := fdiv_cutoff h0 h1
  have hpi := Real.pi_pos
  refine ⟨c, hc, ?_, ?_⟩
  · have := hg 0 (by simpa using hpi)
    simpa [zero_pow (show 2 * n ≠ 0 by omega)] using this
  · have e : 2 * Real.pi * fc / fs = 2 * (Real.pi * (fc / fs)) := by ring
    have := hg (2 * Real.pi * fc / fs) (by
      rw [e, abs_of_pos (by positivity)]; nlinarith)
    rw [e, mul_div_cancel_left₀ _ two_ne_zero, div_self, one_pow] at this
    · rw [e]; convert this using 3; norm_num
    · exact (Real.tan_pos_of_pos_of_lt_pi_div_two (by positivity) (by nlinarith)).ne'

example : ∃ c, Butterworth.lowPass true 8 4 48000 1000 = .ok c ∧ ChainGainAt (active c) 0 1 := by
  obtain ⟨c, h1, h2, -⟩ := C55_butterworth_lowpass_cutoff true (N := 8) (n := 4) (by norm_num)
    (by norm_num) (by norm_num) (fs := 48000) (fc := 1000) (by norm_num) (by norm_num)
  exact ⟨c, h1, h2⟩

/-- **C56, Butterworth high-pass.** The same with gain
`1 / √(1 + (tan(π fc / fs) / tan(w/2))^(2n))` for `0 < |w| < π`, gain 0 at frequency 0 and 1 at
Nyquist. -/
theorem C56_butterworth_highpass (dbg : Bool) {N n : Nat} (hn : 1 ≤ n) (hN : n ≤ N)
    (hd : n % 2 = 1 → dbg = false) {fs fc : ℝ} (h0 : 0 < fc) (h1 : fc < fs / 2) :
    ∃ c, Butterworth.highPass dbg N n fs fc = .ok c ∧ c.num = (n + 1) / 2 ∧
      (∀ g ∈ active c, g.stability = true) ∧
      (∀ w : ℝ, w ≠ 0 → |w| < Real.pi → ChainGainAt (active c) w
        (1 / Real.sqrt (1 + (Real.tan (Real.pi * (fc / fs)) / Real.tan (w / 2)) ^ (2 * n)))) ∧
      ChainGainAt (active c) Real.pi 1 ∧ ChainGainAt (active c) 0 0 := by
  obtain ⟨e, hf0, hf1⟩ := fdiv_cutoff h0 h1
  obtain ⟨a, ha, haw, hag, hold⟩ := butter_analog hN hd
  have hlen := oddSingle_len n (-1) none
  have hM0 : MA (n / 2) (Butterworth.pole n) (fun _ => none) (oddSingle n (-1) none) 0 = 1 := by
    have := butter_MA n (by omega) 0
    rw [Complex.ofReal_zero, mul_zero] at this
    rw [this, zero_pow (by omega)]; simp
  obtain ⟨d, c, hd', hc, hnum, hst, hgain, hpi, hz⟩ := highpass_chain hold (by omega) (by omega)
    (fun k hk => butter_pole_lhp hk) (by intro k _ c hc; cases hc)
    (oddSingle_neg (by norm_num) (by intro c hc; cases hc)) (by rw [hag]; norm_num) dbg hf0 hf1
    (ref := 1) (Or.inl ⟨haw, hM0.symm⟩) one_ne_zero
  refine ⟨c, ?_, by rw [hnum, hlen.1], hst, ?_, ?_, ?_⟩
  · unfold Butterworth.highPass
    rw [e, ha]
    simp only [bind, Except.bind, hd', hc]
  · intro w hw0 hw
    have := hgain w hw0 hw
    rw [hag, one_mul, div_one, butter_MA n (by omega)] at this
    rw [pow_mul, neg_sq, ← pow_mul] at this
    exact this
  · rw [hag, hM0] at hpi
    simpa using hpi
  · rw [MI_allpole n (by omega), zero_div, mul_zero] at hz
    exact hz

example : ∃ c, Butterworth.highPass false 8 3 48000 1000 = .ok c ∧ c.num = 2 := by
  obtain ⟨c, h1, h2, -⟩ := C56_butterworth_highpass false (N := 8) (n := 3) (by norm_num) (by norm_num)
    (by norm_num) (fs := 48000) (fc := 1000) (by norm_num) (by norm_num)
  exact ⟨c, h1, h2⟩

/-- **C55/C56 are violated in debug builds for every odd order**: both designs stop at a failed
contract check, at every cutoff. -/
theorem C55_odd_debug_violates {N n : Nat} (hN : n ≤ N) (hodd : n % 2 = 1) {fs fc : ℝ}
    (h0 : 0 < fc) (h1 : fc < fs / 2) :
    Butterworth.lowPass true N n fs fc = .error .assertion ∧
      Butterworth.highPass true N n fs fc = .error .assertion := by
  obtain ⟨e, -, -⟩ := fdiv_cutoff h0 h1
  unfold Butterworth.lowPass Butterworth.highPass
  rw [e, C19_odd_debug_violates hN hodd]
  exact ⟨rfl, rfl⟩

example : Butterworth.lowPass true 8 3 48000 1000 = .error .assertion :=
  (C55_odd_debug_violates (by norm_num) (by norm_num) (by norm_num) (by norm_num)).1

end Edsp.Props
