import Verif.Lemmas.Close
import Verif.Lemmas.Memory
import Verif.Model.Features
import Verif.Props.C13_MovingFilters
import Mathlib.Tactic.NormNum

/-! # C159: small disturbances of the samples -/

namespace Edsp.Props

open Edsp Edsp.Spec Edsp.CloseL Edsp.Stat

variable {ε : ℝ} {x y : List ℝ}

/-- **C159, mean.** -/
theorem C159_mean (h : Close ε x y) (hx : x ≠ []) : Near ε (Stat.mean x) (Stat.mean y) :=
  ⟨_, _, StatL.mean_ok hx, StatL.mean_ok (ne_nil h hx), mean_close h hx⟩

/-- **C159, extrema**: largest and smallest sample, largest and smallest magnitude. -/
theorem C159_extrema (h : Close ε x y) (hx : x ≠ []) :
    Near ε (Seq.max x) (Seq.max y) ∧ Near ε (Seq.min x) (Seq.min y) ∧
    Near ε (Seq.maxabs x) (Seq.maxabs y) ∧ Near ε (Seq.minabs x) (Seq.minabs y) := by
  have hy := ne_nil h hx
  have hs := symm h
  refine ⟨?_, ?_, ?_, ?_⟩
  · obtain ⟨u, e1, m1, b1⟩ := ExtremumL.max_ok hx
    obtain ⟨v, e2, m2, b2⟩ := ExtremumL.max_ok hy
    refine ⟨u, v, e1, e2, ?_⟩
    obtain ⟨p, hp, h1⟩ := partner h m1
    obtain ⟨q, hq, h2⟩ := partner hs m2
    have := b2 p hp
    have := b1 q hq
    rw [abs_le] at *
    constructor <;> linarith
  · obtain ⟨u, e1, m1, b1⟩ := ExtremumL.min_ok hx
    obtain ⟨v, e2, m2, b2⟩ := ExtremumL.min_ok hy
    refine ⟨u, v, e1, e2, ?_⟩
    obtain ⟨p, hp, h1⟩ := partner h m1
    obtain ⟨q, hq, h2⟩ := partner hs m2
    have := b2 p hp
    have := b1 q hq
    rw [abs_le] at *
    constructor <;> linarith
  · obtain ⟨u, e1, ⟨a, m1, rfl⟩, b1⟩ := ExtremumL.maxabs_ok hx
    obtain ⟨v, e2, ⟨b, m2, rfl⟩, b2⟩ := ExtremumL.maxabs_ok hy
    refine ⟨_, _, e1, e2, ?_⟩
    obtain ⟨p, hp, h1⟩ := partner h m1
    obtain ⟨q, hq, h2⟩ := partner hs m2
    have := b2 p hp
    have := b1 q hq
    have := abs_sub_abs_le_abs_sub a p
    have := abs_sub_abs_le_abs_sub b q
    rw [abs_le (a := |a| - |b|)]
    constructor <;> linarith
  · obtain ⟨u, e1, ⟨a, m1, rfl⟩, b1⟩ := ExtremumL.minabs_ok hx
    obtain ⟨v, e2, ⟨b, m2, rfl⟩, b2⟩ := ExtremumL.minabs_ok hy
    refine ⟨_, _, e1, e2, ?_⟩
    obtain ⟨p, hp, h1⟩ := partner h m1
    obtain ⟨q, hq, h2⟩ := partner hs m2
    have := b2 p hp
    have := b1 q hq
    have := abs_sub_abs_le_abs_sub p a
    have := abs_sub_abs_le_abs_sub q b
    rw [abs_sub_comm] at h1 h2
    rw [abs_le (a := |a| - |b|)]
    constructor <;> linarith

/-- **C159, peak to peak**: at most twice the disturbance. -/
theorem C159_peak2peak (h : Close ε x y) (hx : x ≠ []) : Near (2 * ε) (peak2peak x) (peak2peak y) := by
  obtain ⟨⟨u, v, e1, e2, h1⟩, ⟨p, q, e3, e4, h2⟩, _⟩ := C159_extrema h hx
  refine ⟨|u| - |p|, |v| - |q|, ?_, ?_, ?_⟩
  · unfold peak2peak; rw [e1, e3]; rfl
  · unfold peak2peak; rw [e2, e4]; rfl
  · have a1 := abs_abs_sub_abs_le u v
    have a2 := abs_abs_sub_abs_le p q
    have a3 := abs_sub (|u| - |v|) (|p| - |q|)
    rw [show |u| - |p| - (|v| - |q|) = |u| - |v| - (|p| - |q|) by ring]
    linarith

/-- **C159, levels**: the root mean square and the standard deviation. -/
theorem C159_levels (h : Close ε x y) (hε : 0 ≤ ε) (hx : x ≠ []) :
    Near ε (Seq.rms x) (Seq.rms y) ∧ Near ε (standardDeviation x) (standardDeviation y) := by
  have hy := ne_nil h hx
  constructor
  · refine ⟨_, _, ?_, ?_, root_mean_close h hε hx zero_le_one⟩
    · unfold Seq.rms; simp [hx]
    · unfold Seq.rms; simp [hy]
  · have dev : ∀ l : List ℝ, l ≠ [] → standardDeviation l = .ok (Real.sqrt (centralMoment 2 l)) := by
      intro l hl
      unfold standardDeviation variance
      rw [StatL.moment_ok hl]
      simp [fsqrt, bind, Except.bind, StatL.centralMoment_two_nonneg]
    refine ⟨_, _, dev x hx, dev y hy, ?_⟩
    have h1 := deviation_le h hε hx
    have h2 := deviation_le (symm h) hε hy
    rw [abs_le]
    constructor <;> linarith

/-- **C159, norms**: the root of the sum of squares, by at most `√N` times the disturbance. -/
theorem C159_norms (h : Close ε x y) (hε : 0 ≤ ε) :
    |Seq.rssq x - Seq.rssq y| ≤ Real.sqrt x.length * ε ∧ Near (Real.sqrt x.length * ε) (Stat.norm x) (Stat.norm y) := by
  have h1 := root_close h hε le_rfl
  refine ⟨h1, _, _, ?_, ?_, h1⟩
  all_goals
    have e : ∀ l : List ℝ, Stat.norm l = .ok (Real.sqrt (Seq.innerSelf 0 l)) := by
      intro l
      have e2 : accumulate (fun x => |x| * |x|) 0 l = Seq.innerSelf 0 l := by
        rw [StatL.accumulate_eq, sum_sq]
        congr 2
        refine List.map_congr_left fun a _ => ?_
        rw [abs_mul_abs_self, sq]
      unfold Stat.norm fsqrt
      rw [e2, if_neg (not_lt.mpr (innerSelf_nonneg le_rfl l))]
    exact e _

/-- **C159, moving filters**: every value of the moving average and the moving root mean square. -/
theorem C159_moving (h : Close ε x y) (hε : 0 ≤ ε) {n : Nat} (h0 : 0 < n) (hn : n < 2 ^ 63) :
    (∃ m a b u v, MovingAverage.new n = .ok m ∧ m.run (x.map .tick) = .ok (a, u) ∧ m.run (y.map .tick) = .ok (b, v) ∧
      Close ε u v) ∧
    (∃ m a b u v, MovingRms.new n = .ok m ∧ m.run (x.map .tick) = .ok (a, u) ∧ m.run (y.map .tick) = .ok (b, v) ∧
      Close ε u v) := by
  have ne : ∀ u : List ℝ, u.length = n → u ≠ [] := by rintro u hu rfl; simp at hu; omega
  constructor
  · obtain ⟨m, a, e, h1⟩ := C13_moving_average_partial n h0 hn x
    obtain ⟨m2, b, e2, h2⟩ := C13_moving_average_partial n h0 hn y
    rw [e] at e2
    obtain rfl := Except.ok.inj e2
    exact ⟨m, a, b, _, _, e, h1, h2,
      moving_close (fun u v hu huv => mean_close huv (ne u hu)) hε h List.Forall₂.nil⟩
  · obtain ⟨m, a, e, h1⟩ := C14_moving_rms_partial n h0 hn x
    obtain ⟨m2, b, e2, h2⟩ := C14_moving_rms_partial n h0 hn y
    rw [e] at e2
    obtain rfl := Except.ok.inj e2
    exact ⟨m, a, b, _, _, e, h1, h2,
      moving_close (fun u v hu huv => rms_close huv hε (ne u hu)) hε h List.Forall₂.nil⟩

private theorem transform_close {δ : ℝ} {f : ℝ → ℝ} (hδ : ε ≤ δ) (hf : ∀ a b, |a - b| ≤ ε → |f a - f b| ≤ δ) (h : Close ε x y)
    {a b d : Nat} (hab : a ≤ b) (hb : b ≤ x.length) (hd : d + (b - a) ≤ x.length) (ho : d ≤ a ∨ b ≤ d) :
    ∃ x' y', Mem.transform f x a b d = .ok x' ∧ Mem.transform f y a b d = .ok y' ∧ Close δ x' y' := by
  have hl := length_eq h
  obtain ⟨x', e1, _, w1⟩ := Mem.transform_ok f hab hb hd ho
  obtain ⟨y', e2, _, w2⟩ := Mem.transform_ok f (m := y) hab (hl ▸ hb) (hl ▸ hd) ho
  refine ⟨x', y', e1, e2, ?_⟩
  have hw : Close δ x y := List.Forall₂.imp (fun _ _ h => h.trans hδ) h
  have hs : Close δ ((seg x a b).map f) ((seg y a b).map f) :=
    map hf (List.forall₂_take _ (List.forall₂_drop _ h))
  rw [w1, w2, ← length_eq hs]
  exact List.rel_append (List.rel_append (List.forall₂_take _ hw) hs) (List.forall₂_drop _ hw)

/-- **C159, elementwise operations**: after clipping, rectifying or amplifying the same segment of two
memories, every cell of one is as close to that of the other as before; amplifying by more than one
enlarges the distance by the factor. -/
theorem C159_elements (h : Close ε x y) {a b d : Nat} (hab : a ≤ b) (hb : b ≤ x.length)
    (hd : d + (b - a) ≤ x.length) (ho : d ≤ a ∨ b ≤ d) {lo hi : ℝ} (hlh : lo ≤ hi) (c : ℝ) (hε : 0 ≤ ε) :
    (∃ x' y', Seq.clipper x a b d lo hi = .ok x' ∧ Seq.clipper y a b d lo hi = .ok y' ∧ Close ε x' y') ∧
    (∃ x' y', Seq.rectify x a b d = .ok x' ∧ Seq.rectify y a b d = .ok y' ∧ Close ε x' y') ∧
    (∃ x' y', Seq.amplifier x a b d c = .ok x' ∧ Seq.amplifier y a b d c = .ok y' ∧ Close (max 1 |c| * ε) x' y') := by
  refine ⟨transform_close le_rfl ?_ h hab hb hd ho, transform_close le_rfl ?_ h hab hb hd ho,
    transform_close (le_mul_of_one_le_left hε (le_max_left _ _)) ?_ h hab hb hd ho⟩
  · intro p q hpq
    unfold Seq.clip1
    rw [abs_le] at hpq ⊢
    split_ifs <;> constructor <;> linarith
  · intro p q hpq
    exact (abs_abs_sub_abs_le p q).trans hpq
  · intro p q hpq
    rw [← mul_sub, abs_mul]
    exact mul_le_mul (le_max_right _ _) hpq (abs_nonneg _) (zero_le_one.trans (le_max_left _ _))

/-- **C159, not the zero crossing rate**: however small the disturbance, it can change the rate from 0 to 1. -/
theorem C159_crossings_jump (hε : 0 < ε) :
    ∃ x y, Close ε x y ∧ Feature.azcr x = .ok 0 ∧ Feature.azcr y = .ok 1 := by
  refine ⟨[0, 0], [0, -ε], ?_, ?_, ?_⟩
  · refine List.Forall₂.cons ?_ (List.Forall₂.cons ?_ List.Forall₂.nil)
    · simpa using hε.le
    · simp [abs_of_pos hε]
  · norm_num [Feature.azcr, Feature.azcrLoop, Feature.sign, fdiv]
  · norm_num [Feature.azcr, Feature.azcrLoop, Feature.sign, fdiv, hε]

/-- The hypotheses can be met, and the bound is attained: all samples larger by `1/8`. -/
theorem C159_example : Close (1 / 8) [1, -1 / 2] [9 / 8, -3 / 8] ∧
    ¬ Near (1 / 9) (Stat.mean [1, -1 / 2]) (Stat.mean [9 / 8, -3 / 8]) := by
  constructor
  · refine List.Forall₂.cons ?_ (List.Forall₂.cons ?_ List.Forall₂.nil) <;> rw [abs_le] <;> norm_num
  · rintro ⟨u, v, h1, h2, h⟩
    rw [StatL.mean_ok (by simp)] at h1 h2
    obtain rfl := Except.ok.inj h1
    obtain rfl := Except.ok.inj h2
    rw [abs_le] at h
    norm_num [avg] at h

end Edsp.Props
