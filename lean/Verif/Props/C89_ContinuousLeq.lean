import Verif.Spec.Leq
import Verif.Model.ContinuousLeq
import Verif.Props.C13_MovingFilters
import Verif.Props.C51_Temporal

/-!
# C89: continuous_leq returns the equivalent sound level of the last frames
-/

namespace Edsp.Feature

open Edsp Edsp.Spec

/-- A frame with a nonzero sample. -/
def Sounding (x : List ℝ) : Prop := ∃ v ∈ x, v ≠ 0

private theorem innerSelf_eq (l : List ℝ) (a : ℝ) : Seq.innerSelf a l = a + (l.map fun v => v ^ 2).sum := by
  unfold Seq.innerSelf
  induction l generalizing a with
  | nil => simp
  | cons v l ih => simp only [List.foldl_cons, ih, List.map_cons, List.sum_cons]; ring

private theorem energy_sum (l : List ℝ) : Seq.energy l = (l.map fun v => v ^ 2).sum := by
  unfold Seq.energy
  rw [innerSelf_eq, zero_add]

private theorem sum_sq_nonneg (l : List ℝ) : 0 ≤ (l.map fun v => v ^ 2).sum := by
  apply List.sum_nonneg
  intro x hx
  obtain ⟨v, _, rfl⟩ := List.mem_map.mp hx
  positivity

private theorem meanSquare_pos {x : List ℝ} (h : Sounding x) : 0 < meanSquare x := by
  obtain ⟨v, hv, hne⟩ := h
  have hl : 0 < x.length := List.length_pos_of_mem hv
  have hs : 0 < (x.map fun v => v ^ 2).sum := by
    clear hl
    induction x with
    | nil => cases hv
    | cons w x ih =>
      rw [List.map_cons, List.sum_cons]
      have h1 := sum_sq_nonneg x
      rcases List.mem_cons.mp hv with rfl | hv
      · have : 0 < v ^ 2 := by positivity
        linarith
      · have := ih hv
        have := sq_nonneg w
        linarith
  unfold meanSquare
  have : (0 : ℝ) < x.length := by exact_mod_cast hl
  positivity

private theorem leq_ok (dbg : Bool) {x : List ℝ} (h : Sounding x) : leq dbg x = .ok (decibel (meanSquare x)) := by
  have hp := meanSquare_pos h
  obtain ⟨v, hv, _⟩ := h
  have hn : (x.length : ℝ) ≠ 0 := by
    have := List.length_pos_of_mem hv
    positivity
  have e : Seq.energy x / x.length = meanSquare x := by rw [energy_sum]; rfl
  simp only [leq, Seq.power, if_neg hn, bind, Except.bind, Conv.pow2db, Conv.log10, e]
  rw [if_neg (by rintro ⟨_, h⟩; exact h hp), if_neg (not_le.mpr hp)]
  rfl

private theorem run_eq (dbg : Bool) {fs : List (List ℝ)} (h : ∀ f ∈ fs, Sounding f) (m : MovingAverage ℝ) :
    continuousRun dbg m fs = m.run ((fs.map fun f => decibel (meanSquare f)).map .tick) := by
  induction fs generalizing m with
  | nil => rfl
  | cons f fs ih =>
    simp only [continuousRun, continuousExtract, leq_ok dbg (h f List.mem_cons_self), List.map_cons,
      MovingAverage.run]
    cases hm : m.tick (decibel (meanSquare f)) with
    | error e => simp only [bind, Except.bind, hm]
    | ok r =>
      obtain ⟨m', y⟩ := r
      simp only [bind, Except.bind, hm]
      rw [ih (fun g hg => h g (List.mem_cons_of_mem _ hg))]

private theorem window_full {n : Nat} {l : List ℝ} (h : n ≤ l.length) : window n l = l.drop (l.length - n) := by
  rw [Moving.window_eq, List.drop_append, List.drop_eq_nil_of_le (by simpa using h)]
  simp

/-- The mean of the logarithms is at most the logarithm of the mean, with equality for equal numbers only. -/
private theorem log_mean {l : List ℝ} (hl : l ≠ []) (hp : ∀ p ∈ l, 0 < p) :
    (l.map Real.log).sum / l.length ≤ Real.log (l.sum / l.length) ∧
    ((l.map Real.log).sum / l.length = Real.log (l.sum / l.length) ↔ ∀ p ∈ l, p = l.sum / l.length) := by
  have hn : (0 : ℝ) < l.length := by exact_mod_cast List.length_pos_iff.mpr hl
  have hs : 0 < l.sum := List.sum_pos l hp hl
  generalize hm : l.sum / l.length = m
  have hm0 : 0 < m := by rw [← hm]; positivity
  have hsum : l.sum = m * l.length := by rw [← hm]; field_simp
  -- Σ (log p - log m) ≤ Σ (p/m - 1), strictly if some p ≠ m
  have key : ∀ k : List ℝ, (∀ p ∈ k, 0 < p) →
      (k.map Real.log).sum ≤ k.length * Real.log m + (k.sum / m - k.length) ∧
      ((k.map Real.log).sum = k.length * Real.log m + (k.sum / m - k.length) → ∀ p ∈ k, p = m) := by
    intro k hk
    induction k with
    | nil => simp
    | cons p k ih =>
      have hp0 := hk p List.mem_cons_self
      obtain ⟨i1, i2⟩ := ih (fun q hq => hk q (List.mem_cons_of_mem _ hq))
      have e : Real.log p = Real.log m + Real.log (p / m) := by
        rw [Real.log_div hp0.ne' hm0.ne']; ring
      have h1 := Real.log_le_sub_one_of_pos (div_pos hp0 hm0)
      simp only [List.map_cons, List.sum_cons, List.length_cons, Nat.cast_add, Nat.cast_one, add_div]
      constructor
      · rw [e]; linarith
      · intro h
        rw [e] at h
        have h2 : Real.log (p / m) = p / m - 1 := by linarith
        have h3 : (k.map Real.log).sum = k.length * Real.log m + (k.sum / m - k.length) := by linarith
        intro q hq
        rcases List.mem_cons.mp hq with rfl | hq
        · by_contra hne
          have : q / m ≠ 1 := fun h => hne (by field_simp at h; exact h)
          have := Real.log_lt_sub_one_of_pos (div_pos hp0 hm0) this
          linarith
        · exact i2 h3 q hq
  obtain ⟨k1, k2⟩ := key l hp
  have e0 : l.sum / m - l.length = 0 := by rw [hsum]; field_simp; ring
  rw [e0, add_zero] at k1 k2
  refine ⟨by rw [div_le_iff₀ hn]; linarith, ?_, ?_⟩
  · intro h
    apply k2
    rw [div_eq_iff hn.ne'] at h
    linarith
  · intro h
    rw [div_eq_iff hn.ne']
    have : ∀ k : List ℝ, (∀ p ∈ k, p = m) → (k.map Real.log).sum = Real.log m * k.length := by
      intro k hk
      induction k with
      | nil => simp
      | cons p k ih =>
        simp only [List.map_cons, List.sum_cons, List.length_cons, Nat.cast_add, Nat.cast_one,
          ih (fun q hq => hk q (List.mem_cons_of_mem _ hq)), hk p List.mem_cons_self]
        ring
    exact this l h

private theorem decibel_mean {fs : List (List ℝ)} (hl : fs ≠ []) (hp : ∀ f ∈ fs, Sounding f) :
    (fs.map fun f => decibel (meanSquare f)).sum / fs.length ≤ equivalentLevel fs ∧
    ((fs.map fun f => decibel (meanSquare f)).sum / fs.length = equivalentLevel fs ↔
      ∀ f ∈ fs, decibel (meanSquare f) = equivalentLevel fs) := by
  have hlm : fs.map meanSquare ≠ [] := by simpa using hl
  have hpm : ∀ p ∈ fs.map meanSquare, 0 < p := by
    intro p hpp
    obtain ⟨f, hf, rfl⟩ := List.mem_map.mp hpp
    exact meanSquare_pos (hp f hf)
  obtain ⟨h1, h2⟩ := log_mean hlm hpm
  have h10 : (0 : ℝ) < Real.log 10 := Real.log_pos (by norm_num)
  have e1 : (fs.map fun f => decibel (meanSquare f)).sum
      = 10 / Real.log 10 * ((fs.map meanSquare).map Real.log).sum := by
    clear h1 h2 hlm hpm hl hp
    induction fs with
    | nil => simp
    | cons f fs ih =>
      rw [List.map_cons, List.sum_cons, ih]
      simp only [List.map_cons, List.sum_cons, decibel, Real.logb]
      ring
  have e2 : equivalentLevel fs = 10 / Real.log 10 * Real.log ((fs.map meanSquare).sum / fs.length) := by
    simp only [equivalentLevel, decibel, Real.logb]; ring
  have hc : 0 < 10 / Real.log 10 := by positivity
  rw [List.length_map] at h1 h2
  have hpos : 0 < (fs.map meanSquare).sum / fs.length := by
    have : (0 : ℝ) < fs.length := by exact_mod_cast List.length_pos_iff.mpr hl
    have := List.sum_pos _ hpm hlm
    positivity
  rw [e1, e2, mul_div_assoc]
  refine ⟨mul_le_mul_of_nonneg_left h1 hc.le, ?_⟩
  rw [mul_right_inj' hc.ne', h2]
  constructor
  · intro h f hf
    rw [← h _ (List.mem_map_of_mem hf)]
    simp only [decibel, Real.logb]; ring
  · intro h p hpp
    obtain ⟨f, hf, rfl⟩ := List.mem_map.mp hpp
    have := h f hf
    simp only [decibel, Real.logb] at this
    have : Real.log (meanSquare f) = Real.log ((fs.map meanSquare).sum / fs.length) := by
      have h3 : 10 / Real.log 10 * Real.log (meanSquare f)
          = 10 / Real.log 10 * Real.log ((fs.map meanSquare).sum / fs.length) := by
        rw [← this]; ring
      exact mul_left_cancel₀ hc.ne' h3
    exact Real.log_injOn_pos (Set.mem_Ioi.mpr (meanSquare_pos (hp f hf))) (Set.mem_Ioi.mpr hpos) this

/-- **C89, the returned value**: for frames that are not silent the estimator never fails, and from frame `n` on
it returns at most the equivalent level of the last `n` frames; it returns that level exactly if these frames all
have the same level. Missing: equality for frames of different levels (`C89_levels_violates`), the first `n - 1`
frames (`C89_start_violates`), and silent frames (`C89_silent_violates`). -/
theorem C89_level_partial (dbg : Bool) {n : Nat} (h0 : 0 < n) (hn : n < 2 ^ 63) {fs : List (List ℝ)}
    (hfs : ∀ f ∈ fs, Sounding f) :
    ∃ m m' ys, continuousNew n = .ok m ∧ continuousRun dbg m fs = .ok (m', ys) ∧ ys.length = fs.length ∧
      ∀ k y, n ≤ k + 1 → ys[k]? = some y →
        y ≤ equivalentLevel ((fs.take (k + 1)).drop (k + 1 - n)) ∧
        (y = equivalentLevel ((fs.take (k + 1)).drop (k + 1 - n)) ↔
          ∀ f ∈ (fs.take (k + 1)).drop (k + 1 - n),
            decibel (meanSquare f) = equivalentLevel ((fs.take (k + 1)).drop (k + 1 - n))) := by
  obtain ⟨m, m', h1, h2⟩ := Props.C13_moving_average_partial n h0 hn (fs.map fun f => decibel (meanSquare f))
  rw [Props.C13_spec_unfolded] at h2
  refine ⟨m, m', _, h1, by rw [run_eq dbg hfs]; exact h2, by simp, ?_⟩
  intro k y hk hy
  rw [List.getElem?_map, List.length_map] at hy
  have hkl : k < fs.length := by
    by_contra hc
    rw [List.getElem?_eq_none (by simp; omega)] at hy
    simp at hy
  rw [List.getElem?_range hkl] at hy
  simp only [Option.map_some, Option.some.injEq] at hy
  rw [← List.map_take, window_full (by simp; omega), ← List.map_drop] at hy
  simp only [List.length_map, List.length_take] at hy
  rw [show min (k + 1) fs.length - n = k + 1 - n by omega] at hy
  have hw : ((fs.take (k + 1)).drop (k + 1 - n)).length = n := by simp; omega
  have := decibel_mean (fs := (fs.take (k + 1)).drop (k + 1 - n))
    (by intro e; rw [e] at hw; simp at hw; omega)
    (fun f hf => hfs f (List.mem_of_mem_take (List.mem_of_mem_drop hf)))
  rw [hw, hy] at this
  exact this

/-- **C89 is violated for changing levels**: two frames, with levels 0 dB and 20 dB, and a window of two frames:
the value returned is 10 dB; the equivalent level is more than 17 dB. -/
theorem C89_levels_violates (dbg : Bool) :
    ∃ m m' y0, continuousNew 2 = .ok m ∧ continuousRun dbg m [[1], [10]] = .ok (m', [y0, 10]) ∧
      17 < equivalentLevel [[1], [10]] := by
  have hs : ∀ f ∈ [[(1 : ℝ)], [10]], Sounding f := by
    intro f hf
    simp only [List.mem_cons, List.not_mem_nil, or_false] at hf
    rcases hf with rfl | rfl
    · exact ⟨1, by simp, by norm_num⟩
    · exact ⟨10, by simp, by norm_num⟩
  obtain ⟨m, m', h1, h2⟩ := Props.C13_moving_average_partial 2 (by decide) (by decide)
    ([[(1 : ℝ)], [10]].map fun f => decibel (meanSquare f))
  rw [← run_eq dbg hs] at h2
  have e1 : decibel (meanSquare [1]) = 0 := by simp [decibel, meanSquare]
  have e2 : decibel (meanSquare [10]) = 20 := by
    simp only [decibel, meanSquare, List.map_cons, List.map_nil, List.sum_cons, List.sum_nil, List.length_cons,
      List.length_nil]
    rw [show ((10 : ℝ) ^ 2 + 0) / ((0 + 1 : ℕ) : ℝ) = (10 : ℝ) ^ (2 : ℕ) by norm_num, Real.logb_pow,
      Real.logb_self_eq_one (by norm_num)]
    norm_num
  have e3 : moving mean 2 [] (([[(1 : ℝ)], [10]].map fun f => decibel (meanSquare f)).map .tick) = [0, 10] := by
    simp only [List.map_cons, List.map_nil, e1, e2]
    norm_num [moving, mean, window, lastOf]
  rw [e3] at h2
  refine ⟨m, m', 0, h1, h2, ?_⟩
  have e4 : equivalentLevel [[1], [10]] = 10 * Real.logb 10 (101 / 2) := by
    norm_num [equivalentLevel, decibel, meanSquare]
  rw [e4]
  have : (1.7 : ℝ) < Real.logb 10 (101 / 2) := by
    rw [Real.lt_logb_iff_rpow_lt (by norm_num) (by norm_num)]
    have h3 : ((10 : ℝ) ^ (1.7 : ℝ)) ^ (10 : ℕ) = 10 ^ (17 : ℕ) := by
      rw [← Real.rpow_natCast, ← Real.rpow_mul (by norm_num), ← Real.rpow_natCast]
      norm_num
    refine lt_of_pow_lt_pow_left₀ 10 (by norm_num) ?_
    rw [h3]
    norm_num
  linarith

/-- **C89 is violated at the start**: of one frame of level `L` (or the first of many) an estimator over `n`
frames returns `L / n`; for a level of 60 dB and 3 frames that is 20 dB. -/
theorem C89_start_violates (dbg : Bool) {n : Nat} (h0 : 0 < n) (hn : n < 2 ^ 63) {f : List ℝ} (hf : Sounding f) :
    ∃ m m', continuousNew n = .ok m ∧ continuousRun dbg m [f] = .ok (m', [equivalentLevel [f] / n]) := by
  obtain ⟨m, m', h1, h2⟩ := Props.C13_moving_average_partial n h0 hn ([f].map fun f => decibel (meanSquare f))
  rw [← run_eq dbg (by simpa using hf)] at h2
  refine ⟨m, m', h1, h2.trans ?_⟩
  have e : equivalentLevel [f] = decibel (meanSquare f) := by simp [equivalentLevel]
  simp only [List.map_cons, List.map_nil, moving, mean, Moving.window_length, e]
  rw [Moving.window_snoc h0, Moving.window_nil]
  simp

/-- **C89 is violated by silence**: a silent frame makes the estimator evaluate the logarithm of zero (a failed
assertion in a debug build), although the equivalent level of the last frames is defined. -/
theorem C89_silent_violates (dbg : Bool) (m : MovingAverage ℝ) {f : List ℝ} (hf : ¬ Sounding f) (hne : f ≠ []) :
    continuousExtract dbg m f = .error (if dbg then .assertion else .domain) := by
  have hz : (f.map fun v => v ^ 2).sum = 0 := by
    apply List.sum_eq_zero
    intro x hx
    obtain ⟨v, hv, rfl⟩ := List.mem_map.mp hx
    have : v = 0 := by
      by_contra h
      exact hf ⟨v, hv, h⟩
    rw [this]; norm_num
  have hn : (f.length : ℝ) ≠ 0 := by
    have := List.length_pos_iff.mpr hne
    positivity
  simp only [continuousExtract, leq, Seq.power, if_neg hn, bind, Except.bind, Conv.pow2db, Conv.log10, energy_sum, hz,
    zero_div]
  cases dbg <;> simp [throw, throwThe, MonadExceptOf.throw]

/-- Frames that are not silent. -/
example : ∀ f ∈ [[(1 : ℝ), 0], [3, 4]], Sounding f := by
  intro f hf
  simp only [List.mem_cons, List.not_mem_nil, or_false] at hf
  rcases hf with rfl | rfl
  · exact ⟨1, by simp, by norm_num⟩
  · exact ⟨3, by simp, by norm_num⟩

end Edsp.Feature
