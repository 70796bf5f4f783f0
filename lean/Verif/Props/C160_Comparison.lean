import Verif.Lemmas.Compare
import Verif.Props.C13_MovingFilters
import Verif.Props.C156_Overshoot
import Mathlib.Tactic.NormNum

/-! # C160: larger samples, larger results -/

namespace Edsp.Props

open Edsp Edsp.Spec Edsp.CompareL Edsp.Stat

variable {x y : List ℝ}

/-- **C160, mean and extrema.** -/
theorem C160_samples (h : AtMost x y) (hx : x ≠ []) :
    ResultAtMost (Stat.mean x) (Stat.mean y) ∧ ResultAtMost (Seq.max x) (Seq.max y) ∧ ResultAtMost (Seq.min x) (Seq.min y) := by
  have hy := ne_nil h hx
  refine ⟨⟨_, _, StatL.mean_ok hx, StatL.mean_ok hy, mean_le h⟩, ?_, ?_⟩
  · obtain ⟨u, e1, m1, -⟩ := ExtremumL.max_ok hx
    obtain ⟨v, e2, -, b2⟩ := ExtremumL.max_ok hy
    obtain ⟨p, hp, h1⟩ := partner_up h m1
    exact ⟨u, v, e1, e2, h1.trans (b2 p hp)⟩
  · obtain ⟨u, e1, -, b1⟩ := ExtremumL.min_ok hx
    obtain ⟨v, e2, m2, -⟩ := ExtremumL.min_ok hy
    obtain ⟨p, hp, h1⟩ := partner_down h m2
    exact ⟨u, v, e1, e2, (b1 p hp).trans h1⟩

/-- **C160, levels**: what depends on the magnitudes. -/
theorem C160_levels (h : Quieter x y) (hx : x ≠ []) :
    ResultAtMost (Seq.maxabs x) (Seq.maxabs y) ∧ ResultAtMost (Seq.minabs x) (Seq.minabs y) ∧ ResultAtMost (Seq.rms x) (Seq.rms y) ∧
    ResultAtMost (Seq.power x) (Seq.power y) ∧ ResultAtMost (Stat.norm x) (Stat.norm y) ∧
    Seq.energy x ≤ Seq.energy y ∧ Seq.rssq x ≤ Seq.rssq y := by
  have hy := ne_nil h hx
  have hi := innerSelf_le h (le_refl 0)
  refine ⟨?_, ?_, ?_, ?_, ?_, hi, Real.sqrt_le_sqrt hi⟩
  · obtain ⟨u, e1, ⟨a, m1, rfl⟩, -⟩ := ExtremumL.maxabs_ok hx
    obtain ⟨v, e2, -, b2⟩ := ExtremumL.maxabs_ok hy
    obtain ⟨p, hp, h1⟩ := partner_up h m1
    exact ⟨_, v, e1, e2, h1.trans (b2 p hp)⟩
  · obtain ⟨u, e1, -, b1⟩ := ExtremumL.minabs_ok hx
    obtain ⟨v, e2, ⟨b, m2, rfl⟩, -⟩ := ExtremumL.minabs_ok hy
    obtain ⟨p, hp, h1⟩ := partner_down h m2
    exact ⟨u, _, e1, e2, (b1 p hp).trans h1⟩
  · refine ⟨_, _, ?_, ?_, root_mean_le h 1⟩
    · unfold Seq.rms; simp [hx]
    · unfold Seq.rms; simp [hy]
  · refine ⟨Seq.energy x / x.length, Seq.energy y / y.length, ?_, ?_, ?_⟩
    · unfold Seq.power; simp [hx]
    · unfold Seq.power; simp [hy]
    · rw [← List.Forall₂.length_eq h]
      exact div_le_div_of_nonneg_right hi (Nat.cast_nonneg _)
  · have e : ∀ l : List ℝ, Stat.norm l = .ok (Real.sqrt (Seq.innerSelf 0 l)) := by
      intro l
      have e2 : accumulate (fun x => |x| * |x|) 0 l = Seq.innerSelf 0 l := by
        rw [StatL.accumulate_eq, CloseL.sum_sq]
        congr 2
        refine List.map_congr_left fun a _ => ?_
        rw [abs_mul_abs_self, sq]
      unfold Stat.norm fsqrt
      rw [e2, if_neg (not_lt.mpr (CloseL.innerSelf_nonneg le_rfl l))]
    exact ⟨_, _, e x, e y, Real.sqrt_le_sqrt hi⟩

/-- **C160, not the spread**: larger samples can have a smaller variance and a smaller standard deviation. -/
theorem C160_spread_falls : AtMost [0, 1] [1, 1] ∧ Stat.variance [(0 : ℝ), 1] = .ok (1 / 4) ∧
    Stat.variance [(1 : ℝ), 1] = .ok 0 := by
  refine ⟨List.Forall₂.cons (by norm_num) (List.Forall₂.cons (by norm_num) List.Forall₂.nil), ?_, ?_⟩
  all_goals
    unfold variance
    rw [StatL.moment_ok (by simp)]
    norm_num [centralMoment, avgOf, avg]

/-- **C160, moving filters**: the average follows the samples, the root mean square their magnitudes. -/
theorem C160_moving {n : Nat} (h0 : 0 < n) (hn : n < 2 ^ 63) :
    (AtMost x y → ∃ m a b u v, MovingAverage.new n = .ok m ∧ m.run (x.map .tick) = .ok (a, u) ∧
      m.run (y.map .tick) = .ok (b, v) ∧ AtMost u v) ∧
    (Quieter x y → ∃ m a b u v, MovingRms.new n = .ok m ∧ m.run (x.map .tick) = .ok (a, u) ∧
      m.run (y.map .tick) = .ok (b, v) ∧ AtMost u v) := by
  constructor
  · intro h
    obtain ⟨m, a, e, h1⟩ := C13_moving_average_partial n h0 hn x
    obtain ⟨m2, b, e2, h2⟩ := C13_moving_average_partial n h0 hn y
    rw [e] at e2
    obtain rfl := Except.ok.inj e2
    exact ⟨m, a, b, _, _, e, h1, h2, moving_le le_rfl (fun u v huv => mean_le huv) h List.Forall₂.nil⟩
  · intro h
    obtain ⟨m, a, e, h1⟩ := C14_moving_rms_partial n h0 hn x
    obtain ⟨m2, b, e2, h2⟩ := C14_moving_rms_partial n h0 hn y
    rw [e] at e2
    obtain rfl := Except.ok.inj e2
    exact ⟨m, a, b, _, _, e, h1, h2, moving_le (R := fun a b => |a| ≤ |b|) le_rfl (fun u v huv => rms_le huv) h List.Forall₂.nil⟩

private theorem clip_mono {lo hi : ℝ} (h : lo ≤ hi) : Monotone (Seq.clip1 lo hi) := by
  intro p q hpq
  unfold Seq.clip1
  split_ifs <;> linarith

private theorem round_mono : Monotone (Seq.round1 : ℝ → ℝ) := by
  intro p q hpq
  unfold Seq.round1
  split_ifs with h1 h2 h2
  · exact_mod_cast Int.floor_le_floor (by linarith)
  · exact absurd (h1.trans hpq) h2
  · push Not at h1
    have a : ⌈p - 1 / 2⌉ ≤ 0 := Int.ceil_le.mpr (by push_cast; linarith)
    have b : 0 ≤ ⌊q + 1 / 2⌋ := Int.floor_nonneg.mpr (by linarith)
    exact_mod_cast a.trans b
  · exact_mod_cast Int.ceil_le_ceil (by linarith)

private theorem trunc_mono : Monotone (Seq.trunc1 : ℝ → ℝ) := by
  intro p q hpq
  unfold Seq.trunc1
  split_ifs with h1 h2 h2
  · exact_mod_cast Int.floor_le_floor hpq
  · exact absurd (h1.trans hpq) h2
  · push Not at h1
    have a : ⌈p⌉ ≤ 0 := Int.ceil_le.mpr (by push_cast; linarith)
    have b : 0 ≤ ⌊q⌋ := Int.floor_nonneg.mpr h2
    exact_mod_cast a.trans b
  · exact_mod_cast Int.ceil_le_ceil hpq

/-- **C160, elementwise operations**: after clipping, amplifying by a factor that is not negative, or rounding in any
of the four ways, no cell of the one memory exceeds that of the other. -/
theorem C160_elements (h : AtMost x y) {a b d : Nat} (hab : a ≤ b) (hb : b ≤ x.length)
    (hd : d + (b - a) ≤ x.length) (ho : d ≤ a ∨ b ≤ d) {lo hi c : ℝ} (hlh : lo ≤ hi) (hc : 0 ≤ c) :
    ∀ op ∈ [fun m => Seq.clipper m a b d lo hi, fun m => Seq.amplifier m a b d c,
        fun m => Seq.amplifierClip m a b d c lo hi, fun m => Seq.ceil m a b d, fun m => Seq.floor m a b d,
        fun m => Seq.round m a b d, fun m => Seq.fix m a b d],
      ∃ x' y', op x = .ok x' ∧ op y = .ok y' ∧ AtMost x' y' := by
  intro op hop
  simp only [List.mem_cons, List.not_mem_nil, or_false] at hop
  have hm : Monotone fun v : ℝ => c * v := fun p q hpq => mul_le_mul_of_nonneg_left hpq hc
  rcases hop with rfl | rfl | rfl | rfl | rfl | rfl | rfl
  · exact transform_le (clip_mono hlh) h hab hb hd ho
  · exact transform_le hm h hab hb hd ho
  · exact transform_le (f := Seq.ampClip1 c lo hi) (fun p q hpq => clip_mono hlh (hm hpq)) h hab hb hd ho
  · exact transform_le (fun p q hpq => by exact_mod_cast Int.ceil_le_ceil hpq) h hab hb hd ho
  · exact transform_le (fun p q hpq => by exact_mod_cast Int.floor_le_floor hpq) h hab hb hd ho
  · exact transform_le round_mono h hab hb hd ho
  · exact transform_le trunc_mono h hab hb hd ho

private theorem rest {a0 a1 a2 b0 b1 b2 : ℝ} {f : Biquad ℝ} (h : Biquad.ofCoeffs a0 a1 a2 b0 b1 b2 = .ok f) :
    f.w0 = 0 ∧ f.w1 = 0 := by
  unfold Biquad.ofCoeffs at h
  split at h
  · cases h
  · injection h with h; rw [← h]; exact ⟨rfl, rfl⟩

/-- **C160, second-order low-passes**: increasing exactly for qualities up to 1/2 and cutoffs up to a quarter of the
sample rate. -/
theorem C160_low_passes (fc fs Q : ℝ) (h0 : 0 < fc) (h1 : fc < fs / 2) (hQ : 0 < Q) :
    ∀ design ∈ [Rbj.lowPass, Zoelzer.lowPass], ∃ f, design fc fs Q = .ok f ∧
      (Increasing (fun xs => (f.filter xs).2) ↔ Q ≤ 1 / 2 ∧ fc ≤ fs / 4) := by
  intro design hd
  obtain ⟨f, hf, -, ho⟩ := C156_low_passes fc fs Q h0 h1 hQ design hd
  refine ⟨f, hf, ?_⟩
  have hr : f.w0 = 0 ∧ f.w1 = 0 := by
    simp only [List.mem_cons, List.not_mem_nil, or_false] at hd
    rcases hd with rfl | rfl
    · unfold Rbj.lowPass at hf
      simp only [bind, Except.bind] at hf
      split at hf
      · cases hf
      · split at hf
        · cases hf
        · exact rest hf
    · unfold Zoelzer.lowPass at hf
      simp only [bind, Except.bind] at hf
      repeat' (split at hf)
      all_goals first
        | cases hf
        | exact rest hf
  rw [increasing_order (section_lti hr)]
  exact ho

/-- **C160, Butterworth low-passes**: increasing exactly for order 1 and cutoffs up to a quarter of the sample rate. -/
theorem C160_butterworth {N n : Nat} (hn : 1 ≤ n) (hN : n ≤ N) {fs fc : ℝ} (h0 : 0 < fc) (h1 : fc < fs / 2) :
    ∃ c, Butterworth.lowPass false N n fs fc = .ok c ∧ (Increasing (fromCascade c) ↔ n = 1 ∧ fc ≤ fs / 4) := by
  obtain ⟨⟨c, hc, hp⟩, -⟩ := butter_parts false hn hN (fun _ => rfl) h0 h1
  refine ⟨c, hc, ?_⟩
  rw [increasing_order (cascade_lti (parts_rest hp))]
  by_cases h : n = 1
  · subst h
    obtain ⟨c', hc', -, ho⟩ := C156_butterworth_first hN h0 h1
    obtain rfl := same_ok hc hc'
    simpa using ho
  · obtain ⟨c', hc', -, ho⟩ := C156_butterworth_higher false (by omega) hN (fun _ => rfl) h0 h1
    obtain rfl := same_ok hc hc'
    simp [h, ho]

/-- The hypotheses can be met; neither signal is constant. -/
theorem C160_example : AtMost [1, -2, 3] [1, -1, 4] ∧ Quieter [1, -1, 3] [-1, 2, -4] := by
  constructor <;> refine List.Forall₂.cons ?_ (List.Forall₂.cons ?_ (List.Forall₂.cons ?_ List.Forall₂.nil)) <;> norm_num

end Edsp.Props
