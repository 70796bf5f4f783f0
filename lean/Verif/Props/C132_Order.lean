import Verif.Lemmas.Order
import Verif.Props.C94_RoundedSums

/-! # C132: the order of the samples -/

namespace Edsp.C132

open Edsp Edsp.Spec Edsp.Stat Edsp.OrderL

section
variable {K : Type} [LinearOrder K] [AddCommGroup K]

/-- **C132**, extrema, for every ordered type of samples (so in floating point arithmetic as well): the extreme values
and the value of the peak are those of the samples in any other order, empty ranges included. -/
theorem C132_extrema {l l' : List K} (h : l.Perm l') :
    Seq.max l = Seq.max l' ∧ Seq.min l = Seq.min l' ∧ Seq.maxabs l = Seq.maxabs l' ∧ Seq.minabs l = Seq.minabs l' ∧
      (Seq.peak l).map Prod.snd = (Seq.peak l').map Prod.snd := by
  refine ⟨max_perm h, min_perm h, maxabs_perm h, minabs_perm h, ?_⟩
  have e : ∀ l : List K, (Seq.peak l).map Prod.snd = Seq.max l := by
    intro l
    unfold Seq.peak Seq.max
    rcases Seq.maxElement Seq.less l <;> rfl
  rw [e, e, max_perm h]

/-- What does depend on the order: where the peak is, and which sign the peak of the absolute values has. -/
theorem C132_peak_violates :
    Seq.peak ([1, 5] : List ℤ) ≠ Seq.peak [5, 1] ∧
      (Seq.peakabs ([-5, 5] : List ℤ)).map Prod.snd ≠ (Seq.peakabs [5, -5]).map Prod.snd := by
  decide

end

/-- **C132**, statistics: means, moments, norms and the measures made of them. -/
theorem C132_statistics {l l' : List ℝ} (h : l.Perm l') :
    mean l = mean l' ∧ (∀ n, moment n l = moment n l') ∧ (∀ n m, momentAbout n l m = momentAbout n l' m) ∧
      variance l = variance l' ∧ standardDeviation l = standardDeviation l' ∧ skewness l = skewness l' ∧
      kurtosis l = kurtosis l' ∧ Stat.norm l = Stat.norm l' ∧ harmonicMean l = harmonicMean l' ∧
      geometricMean l = geometricMean l' ∧ (∀ b, generalizedMean l b = generalizedMean l' b) ∧
      peak2peak l = peak2peak l' ∧ peak2rms l = peak2rms l' := by
  have hl := h.length_eq
  have h1 : mean l = mean l' := by unfold mean; rw [accumulate_perm _ _ h, hl]
  have h2 : ∀ n m, momentAbout n l m = momentAbout n l' m := by
    intro n m
    unfold momentAbout nthMoment
    rw [accumulate_perm _ _ h, hl]
  have h3 : ∀ n, moment n l = moment n l' := by
    intro n
    unfold moment
    rw [h1]
    exact congrArg (fun k => mean l' >>= k) (funext fun m => h2 n m)
  have h4 : variance l = variance l' := h3 2
  refine ⟨h1, h3, h2, h4, ?_, ?_, ?_, ?_, ?_, ?_, ?_, ?_, ?_⟩
  · unfold standardDeviation; rw [h4]
  · unfold skewness; simp only [h1, h2]
  · unfold kurtosis; simp only [h1, h2]
  · unfold Stat.norm; rw [accumulate_perm _ _ h]
  · unfold harmonicMean; rw [accumulateM_perm _ (fun _ _ => fdiv_fault) h, hl]
  · unfold geometricMean; rw [accumulateM_perm _ (fun _ _ => flog_fault) h, hl]
  · intro b; unfold generalizedMean; rw [accumulateM_perm _ (fun _ _ => fpowi_fault) h, hl]
  · unfold peak2peak; rw [min_perm h, max_perm h]
  · unfold peak2rms Seq.rms; rw [min_perm h, max_perm h, innerSelf_perm _ h, hl]

/-- **C132**, features: energy, power, the levels and durations made of them, crest, flatness and the entropies. -/
theorem C132_features {l l' : List ℝ} (h : l.Perm l') :
    Seq.energy l = Seq.energy l' ∧ Seq.power l = Seq.power l' ∧ Seq.rms l = Seq.rms l' ∧ Seq.rssq l = Seq.rssq l' ∧
      (∀ t, Seq.silence l t = Seq.silence l' t) ∧ Feature.crest l = Feature.crest l' ∧
      Feature.flatness l = Feature.flatness l' ∧ Feature.entropy l = Feature.entropy l' ∧
      Feature.spectralEntropy l = Feature.spectralEntropy l' ∧ Feature.loudness l = Feature.loudness l' ∧
      (∀ d, Feature.leq d l = Feature.leq d l') ∧ (∀ r, Feature.duration l r = Feature.duration l' r) ∧
      ∀ r t, Feature.effectiveDuration l r t = Feature.effectiveDuration l' r t := by
  have hl := h.length_eq
  obtain ⟨hm, -, -, -, -, -, -, -, -, hg, -⟩ := C132_statistics h
  have h1 : Seq.energy l = Seq.energy l' := innerSelf_perm _ h
  have h2 : Seq.power l = Seq.power l' := by unfold Seq.power; rw [h1, hl]
  refine ⟨h1, h2, ?_, ?_, ?_, ?_, ?_, ?_, ?_, ?_, ?_, ?_, ?_⟩
  · unfold Seq.rms; rw [innerSelf_perm _ h, hl]
  · unfold Seq.rssq; rw [innerSelf_perm _ h]
  · intro t; unfold Seq.silence; rw [h2]
  · unfold Feature.crest; rw [accumulate_perm _ _ h, maxabs_perm h]
  · unfold Feature.flatness; rw [hg, hm]
  · unfold Feature.entropy
    rw [accumulateM_perm _ (e := .domain) ?_ h, hl]
    intro x e he
    rcases hf : Feature.flog2 x with e' | v
    · rw [hf] at he
      rw [← Except.error.inj he]
      exact flog2_fault hf
    · rw [hf] at he
      cases he
  · unfold Feature.spectralEntropy
    rw [accumulate_perm _ _ h]
    dsimp only
    rw [accumulateM_perm _ (e := if accumulate id 0 l' = 0 then .divByZero else .domain) ?_ h, hl]
    intro x e he
    by_cases h0 : accumulate id 0 l' = 0
    · rw [if_pos h0]
      rw [show fdiv x (accumulate id 0 l') = .error .divByZero by simp [fdiv, h0]] at he
      exact (Except.error.inj he).symm
    · rw [if_neg h0]
      rw [StatL.fdiv_ok h0] at he
      rcases hf : Feature.flog2 (x / accumulate id 0 l') with e' | v
      · simp only [bind, Except.bind, hf] at he
        rw [← Except.error.inj he]
        exact flog2_fault hf
      · simp only [bind, Except.bind, hf] at he
        cases he
  · unfold Feature.loudness; rw [h1]
  · intro d; unfold Feature.leq; rw [h2]
  · intro r; unfold Feature.duration; rw [hl]
  · intro r t
    unfold Feature.effectiveDuration
    rw [maxabs_perm h]
    refine congrArg (fun k => Seq.maxabs l' >>= k) (funext fun v => ?_)
    dsimp only
    rw [h.countP_eq]

example : mean ([3, 1, 2] : List ℝ) = mean [1, 2, 3] :=
  (C132_statistics ((List.perm_append_comm (l₁ := [3]) (l₂ := [1, 2])))).1

example : Feature.crest ([3, 1, 2] : List ℝ) = Feature.crest [1, 2, 3] :=
  (C132_features ((List.perm_append_comm (l₁ := [3]) (l₂ := [1, 2])))).2.2.2.2.2.1

/-! ### Floating point arithmetic -/

/-- **C132** in floating point arithmetic with `p` bits, for samples of `M` levels (16 bit PCM: `M = 2^15`) as long as
the exact sums have `p` bits: the mean and the energy do not depend on the order.
Missing: other samples (`C132_rounded_violates`). -/
theorem C132_rounded_levels_partial {p : ℕ} (hp : 1 ≤ p) {k : ℤ} {M : ℕ} (hM : 1 ≤ M) {xs ys : List ℝ}
    (h : xs.Perm ys) (hx : ∀ x ∈ xs, Grid k M x) :
    (xs.length * M ≤ 2 ^ p → Rounded.mean p xs = Rounded.mean p ys) ∧
      (xs.length * (M * M) ≤ 2 ^ p → Rounded.energy p xs = Rounded.energy p ys ∧
        Rounded.power p xs = Rounded.power p ys) := by
  have hy : ∀ y ∈ ys, Grid k M y := fun y hy => hx y (h.mem_iff.mpr hy)
  constructor
  · intro hn
    rcases nil_or h with ⟨rfl, rfl⟩ | ⟨h0, h1⟩
    · rfl
    · rw [Rounded.C94_exact_mean_partial hp hM h0 hx hn, Rounded.C94_exact_mean_partial hp hM h1 hy (h.length_eq ▸ hn),
        h.sum_eq, h.length_eq]
  · intro hn
    have : Rounded.energy p xs = Rounded.energy p ys := by
      rw [Rounded.C94_exact_energy_partial hp hx hn, Rounded.C94_exact_energy_partial hp hy (h.length_eq ▸ hn),
        (h.map _).sum_eq]
    exact ⟨this, by unfold Rounded.power; rw [this, h.length_eq]⟩

example : Rounded.mean 53 ([3, 1, 2] : List ℝ) = Rounded.mean 53 [1, 2, 3] :=
  (C132_rounded_levels_partial (k := 0) (M := 3) (by norm_num) (by norm_num)
    (List.perm_append_comm (l₁ := [3]) (l₂ := [1, 2])) (by
      intro x hx
      fin_cases hx
      · exact ⟨3, by norm_num, by norm_num⟩
      · exact ⟨1, by norm_num, by norm_num⟩
      · exact ⟨2, by norm_num, by norm_num⟩)).1 (by norm_num)

/-- **C132** in floating point arithmetic, any samples: two orders of at most `2^p` samples change the mean by at most
`2 ((1 + 2^-p)^(n + 1) - 1)` times the mean of the absolute values, and the energy by twice its relative error.
Missing: equality (`C132_rounded_violates`). -/
theorem C132_rounded_partial {p : ℕ} (hp : 1 ≤ p) {xs ys : List ℝ} (h : xs.Perm ys) :
    (xs ≠ [] → xs.length ≤ 2 ^ p → ∃ m m', Rounded.mean p xs = some m ∧ Rounded.mean p ys = some m' ∧
      |m - m'| ≤ 2 * ((1 + (2 : ℝ) ^ (-(p : ℤ))) ^ (xs.length + 1) - 1) * ((xs.map abs).sum / xs.length)) ∧
    |Rounded.energy p xs - Rounded.energy p ys| ≤
      2 * ((1 + (2 : ℝ) ^ (-(p : ℤ))) ^ (xs.length + 1) - 1) * (xs.map fun x => x ^ 2).sum := by
  constructor
  · intro h0 hn
    have h1 : ys ≠ [] := by rintro rfl; exact h0 h.eq_nil
    obtain ⟨m, e, b⟩ := Rounded.C94_mean_partial hp h0 hn
    obtain ⟨m', e', b'⟩ := Rounded.C94_mean_partial hp h1 (h.length_eq ▸ hn)
    refine ⟨m, m', e, e', ?_⟩
    rw [← h.sum_eq, ← h.length_eq, ← (h.map abs).sum_eq, abs_sub_comm] at b'
    have := abs_sub_le m (xs.sum / xs.length) m'
    linarith
  · have b := (Rounded.C94_energy hp xs).2
    have b' := (Rounded.C94_energy hp ys).2
    rw [← h.length_eq, ← (h.map fun x : ℝ => x ^ 2).sum_eq, abs_sub_comm] at b'
    have := abs_sub_le (Rounded.energy p xs) (xs.map fun x => x ^ 2).sum (Rounded.energy p ys)
    linarith

example : ∃ m m', Rounded.mean 53 ([3, 1, 0.1] : List ℝ) = some m ∧ Rounded.mean 53 [1, 0.1, 3] = some m' ∧
    |m - m'| ≤ 2 * ((1 + (2 : ℝ) ^ (-((53 : ℕ) : ℤ))) ^ (([3, 1, 0.1] : List ℝ).length + 1) - 1) *
      ((([3, 1, 0.1] : List ℝ).map abs).sum / ([3, 1, 0.1] : List ℝ).length) :=
  (C132_rounded_partial (by norm_num) (List.perm_append_comm (l₁ := [3]) (l₂ := [1, 0.1]))).1 (by simp)
    (by norm_num)

open Edsp.FloatL in
/-- **C132** is false in floating point arithmetic, whatever the precision: four samples have the mean 0 in one order
and 1/4 in another. -/
theorem C132_rounded_violates {p : ℕ} (hp : 2 ≤ p) :
    ∃ xs ys : List ℝ, xs.Perm ys ∧ (∀ x ∈ xs, IsFloat p x) ∧ Rounded.mean p xs = some 0 ∧
      Rounded.mean p ys = some (1 / 4) := by
  have h1 : 1 ≤ p := by omega
  have hB : IsFloat p ((2 : ℝ) ^ p) := by
    have := isFloat_int h1 (m := 2 ^ p) 0 (by simp)
    simpa using this
  have f1 : IsFloat p (1 : ℝ) := by
    have := isFloat_int h1 (m := 1) 0 (by simpa using one_le_pow₀ (by norm_num : (1 : ℤ) ≤ 2))
    simpa using this
  have f4 : IsFloat p (1 / 4 : ℝ) := by
    have := isFloat_int h1 (m := 1) (-2) (by simpa using one_le_pow₀ (by norm_num : (1 : ℤ) ≤ 2))
    norm_num at this ⊢
    exact this
  have hneg : IsFloat p (-(2 : ℝ) ^ p) := by
    have := isFloat_int h1 (m := -2 ^ p) 0 (by simp)
    simpa using this
  have r4 : rnd p (4 : ℝ) = 4 := by
    have : (4 : ℕ) ≤ 2 ^ p := by
      calc (4 : ℕ) = 2 ^ 2 := by norm_num
        _ ≤ 2 ^ p := Nat.pow_le_pow_right (by norm_num) hp
    exact_mod_cast Rounded.rnd_nat h1 this
  refine ⟨[2 ^ p, 1, -2 ^ p, 0], [2 ^ p, -2 ^ p, 1, 0], ?_, ?_, ?_, ?_⟩
  · exact (List.Perm.swap _ _ _).cons _
  · intro x hx
    simp only [List.mem_cons, List.not_mem_nil, or_false] at hx
    rcases hx with rfl | rfl | rfl | rfl
    · exact hB
    · exact f1
    · exact hneg
    · exact rnd_zero p ▸ isFloat_rnd h1 0
  · have e : Rounded.accumulate p 0 [2 ^ p, 1, -2 ^ p, 0] = 0 := by
      simp only [Rounded.accumulate, List.foldl_cons, List.foldl_nil, zero_add, add_zero]
      rw [rnd_float hB, rnd_succ hp, add_neg_cancel, rnd_zero, rnd_zero]
    simp only [Rounded.mean, e, List.length_cons, List.length_nil]
    norm_num [Rounded.quotient, r4, rnd_zero]
  · have e : Rounded.accumulate p 0 [2 ^ p, -2 ^ p, 1, 0] = 1 := by
      simp only [Rounded.accumulate, List.foldl_cons, List.foldl_nil, zero_add, add_zero]
      rw [rnd_float hB, add_neg_cancel, rnd_zero, zero_add, rnd_float f1, rnd_float f1]
    simp only [Rounded.mean, e, List.length_cons, List.length_nil]
    norm_num [Rounded.quotient, r4]
    have := rnd_float f4
    norm_num at this
    exact this

example : ∃ xs ys : List ℝ, xs.Perm ys ∧ (∀ x ∈ xs, IsFloat 53 x) ∧ Rounded.mean 53 xs = some 0 ∧
    Rounded.mean 53 ys = some (1 / 4) := C132_rounded_violates (by norm_num)

end Edsp.C132
