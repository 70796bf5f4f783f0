import Verif.Lemmas.Memory
import Verif.Lemmas.Extremum
import Mathlib.Tactic.FieldSimp
import Mathlib.Tactic.Ring
import Mathlib.Tactic.Positivity
import Mathlib.Algebra.BigOperators.Group.List.Basic
import Mathlib.Algebra.Order.BigOperators.Group.List

/-! # C26: normalize and normalize_rms -/

namespace Edsp.Props

open Edsp Edsp.Spec

section
variable {K : Type} [Field K] [LinearOrder K] [IsStrictOrderedRing K]

omit [Field K] [LinearOrder K] [IsStrictOrderedRing K] in
theorem seg_ne_nil {m : List K} {a b : Nat} (hab : a < b) (hb : b ≤ m.length) : seg m a b ≠ [] := by
  intro h
  have := Mem.seg_length (m := m) (a := a) hb
  rw [h] at this
  simp at this
  omega

/-- **C26, normalize.** For every range that is not identically zero the call divides every sample by one
and the same positive number, the largest magnitude of the input, stores nothing else, and afterwards
the largest magnitude is exactly 1. -/
theorem C26_normalize {m : List K} {a b d : Nat} (hab : a ≤ b) (hb : b ≤ m.length)
    (hd : d + (b - a) ≤ m.length) (ho : d ≤ a ∨ b ≤ d) (hnz : ∃ x ∈ seg m a b, x ≠ 0) :
    ∃ m' P, Seq.normalize m a b d = .ok m' ∧ 0 < P ∧ (∃ x ∈ seg m a b, |x| = P) ∧
      Wrote m m' d ((seg m a b).map fun x => x / P) ∧
      (∃ y ∈ seg m' d (d + (b - a)), |y| = 1) ∧ ∀ y ∈ seg m' d (d + (b - a)), |y| ≤ 1 := by
  obtain ⟨x0, hx0, hx0n⟩ := hnz
  have hne : seg m a b ≠ [] := List.ne_nil_of_mem hx0
  obtain ⟨P, h1, ⟨x, hx, hxP⟩, h3⟩ := ExtremumL.maxabs_ok hne
  have hP : 0 < P := lt_of_lt_of_le (abs_pos.mpr hx0n) (h3 x0 hx0)
  obtain ⟨m', h4, h5⟩ := Mem.transform_ok (fun x => x / P) hab hb hd ho
  have hs := Mem.wrote_seg h5
  rw [List.length_map, Mem.seg_length hb] at hs
  refine ⟨m', P, ?_, hP, ⟨x, hx, hxP.symm⟩, h5, ?_, ?_⟩
  · unfold Seq.normalize
    rw [Mem.readRange_ok hab hb]
    simp only [bind, Except.bind, h1]
    rw [if_neg hP.ne']
    exact h4
  · refine ⟨x / P, ?_, ?_⟩
    · rw [hs]; exact List.mem_map_of_mem hx
    · rw [abs_div, ← hxP, abs_of_pos hP, div_self hP.ne']
  · intro y hy
    rw [hs, List.mem_map] at hy
    obtain ⟨z, hz, rfl⟩ := hy
    rw [abs_div, abs_of_pos hP, div_le_one hP]
    exact h3 z hz

/-- **C26, idempotence.** Normalising the result in place changes nothing. -/
theorem C26_normalize_again {m m' : List K} {a b d : Nat} (hab : a ≤ b) (hb : b ≤ m.length)
    (hd : d + (b - a) ≤ m.length) (ho : d ≤ a ∨ b ≤ d) (hnz : ∃ x ∈ seg m a b, x ≠ 0)
    (hr : Seq.normalize m a b d = .ok m') :
    Seq.normalize m' d (d + (b - a)) d = .ok m' := by
  obtain ⟨m1, P, h1, hP, -, h2, ⟨y, hy, hy1⟩, h4⟩ := C26_normalize hab hb hd ho hnz
  obtain rfl : m1 = m' := by rw [hr] at h1; injection h1 with h1; exact h1.symm
  have hl := Mem.wrote_length h2
  obtain ⟨m2, Q, g1, hQ, ⟨z, hz, hzQ⟩, g2, -, -⟩ := C26_normalize (m := m1) (a := d)
    (b := d + (b - a)) (d := d) (by omega) (by omega) (by omega) (by omega)
    ⟨y, hy, fun h => by rw [h, abs_zero] at hy1; exact zero_ne_one hy1⟩
  have hQ1 : Q = 1 := by
    refine le_antisymm (hzQ ▸ h4 z hz) ?_
    obtain ⟨P2, p1, -, p3⟩ := ExtremumL.maxabs_ok (List.ne_nil_of_mem hy)
    have hQy : |y / Q| ≤ 1 := by
      have hs := Mem.wrote_seg g2
      rw [List.length_map, Mem.seg_length (by omega)] at hs
      obtain ⟨m3, Q3, q1, -, -, q2, -, q3⟩ := C26_normalize (m := m1) (a := d)
        (b := d + (b - a)) (d := d) (by omega) (by omega) (by omega) (by omega)
        ⟨y, hy, fun h => by rw [h, abs_zero] at hy1; exact zero_ne_one hy1⟩
      have e : m3 = m2 := by rw [q1] at g1; injection g1
      rw [e] at q3
      rw [show d + (d + (b - a) - d) = d + (b - a) by omega] at hs q3
      exact q3 _ (by rw [hs]; exact List.mem_map_of_mem hy)
    rw [abs_div, hy1, abs_of_pos hQ] at hQy
    rwa [one_div, inv_le_one₀ hQ] at hQy
  rw [g1]
  congr 1
  rw [hQ1] at g2
  have e : ((seg m1 d (d + (b - a))).map fun x => x / 1) = seg m1 d (d + (b - a)) := by
    simp
  rw [e] at g2
  exact Mem.wrote_unique g2 (Mem.wrote_self (by omega) (by omega))

/-- **C26, boundary.** On an identically zero non-empty range the divisor is zero: the results are not
numbers.  (The claim excludes this case.) -/
theorem C26_normalize_zero {m : List K} {a b d : Nat} (hab : a < b) (hb : b ≤ m.length)
    (hz : ∀ x ∈ seg m a b, x = 0) : Seq.normalize m a b d = .error .divByZero := by
  have hne : seg m a b ≠ [] := seg_ne_nil hab hb
  obtain ⟨P, h1, ⟨x, hx, hxP⟩, -⟩ := ExtremumL.maxabs_ok hne
  rw [hz x hx, abs_zero] at hxP
  unfold Seq.normalize
  rw [Mem.readRange_ok hab.le hb]
  simp only [bind, Except.bind, h1]
  rw [if_pos hxP]
  rfl

end

example : ∃ m' P, Seq.normalize ([1, -4, 2, 0] : List ℚ) 0 3 0 = .ok m' ∧ 0 < P ∧
    Wrote [1, -4, 2, 0] m' 0 ((seg ([1, -4, 2, 0] : List ℚ) 0 3).map fun x => x / P) :=
  have ⟨m', P, h1, h2, _, h4, _⟩ := C26_normalize (m := ([1, -4, 2, 0] : List ℚ)) (a := 0) (b := 3)
    (d := 0) (by norm_num) (by norm_num) (by norm_num) (by norm_num) ⟨1, by simp [seg], by norm_num⟩
  ⟨m', P, h1, h2, h4⟩

example : Seq.normalize ([0, 0, 2, 0] : List ℚ) 0 2 0 = .error .divByZero :=
  C26_normalize_zero (by norm_num) (by norm_num) (by simp [seg])

/-- The mean of the squares of a sequence. -/
noncomputable def meanSquare (l : List ℝ) : ℝ := (l.map fun x => x ^ 2).sum / l.length

theorem innerSelf_eq {K : Type} [Field K] (c : K) (l : List K) :
    Seq.innerSelf c l = c + (l.map fun x => x ^ 2).sum := by
  unfold Seq.innerSelf
  induction l generalizing c with
  | nil => simp
  | cons x xs ih =>
    rw [List.foldl_cons, ih, List.map_cons, List.sum_cons]
    ring

theorem sumSq_nonneg (l : List ℝ) : 0 ≤ (l.map fun x => x ^ 2).sum := by
  apply List.sum_nonneg
  intro y hy
  rw [List.mem_map] at hy
  obtain ⟨x, -, rfl⟩ := hy
  exact sq_nonneg x

/-- **C26 is violated by normalize_rms on every input**: the RMS it divides by is computed from a sum that
starts at 1, so the mean square of the result is `E / (1 + E) < 1`, `E` the energy of the input. -/
theorem C26_normalize_rms_violates {m : List ℝ} {a b d : Nat} (hab : a < b) (hb : b ≤ m.length)
    (hd : d + (b - a) ≤ m.length) (ho : d ≤ a ∨ b ≤ d) :
    ∃ m', Seq.normalizeRms m a b d = .ok m' ∧
      meanSquare (seg m' d (d + (b - a))) =
        ((seg m a b).map fun x => x ^ 2).sum / (1 + ((seg m a b).map fun x => x ^ 2).sum) ∧
      meanSquare (seg m' d (d + (b - a))) < 1 := by
  have hE := sumSq_nonneg (seg m a b)
  have hl := Mem.seg_length (m := m) (a := a) hb
  have hn : (0 : ℝ) < ((seg m a b).length : ℝ) := by
    have : 0 < (seg m a b).length := by omega
    exact_mod_cast this
  set E := ((seg m a b).map fun x => x ^ 2).sum with hEd
  have hrms : Seq.rms (seg m a b) = .ok (Real.sqrt ((1 + E) / ((seg m a b).length : ℝ))) := by
    unfold Seq.rms
    simp only []
    rw [if_neg hn.ne', innerSelf_eq]
  have hpos : 0 < (1 + E) / ((seg m a b).length : ℝ) := by positivity
  have hf := Real.sqrt_pos.mpr hpos
  obtain ⟨m', h4, h5⟩ := Mem.transform_ok
    (fun x => x / Real.sqrt ((1 + E) / ((seg m a b).length : ℝ))) hab.le hb hd ho
  have hs := Mem.wrote_seg h5
  rw [List.length_map] at hs
  have hms : meanSquare (seg m' d (d + (b - a))) = E / (1 + E) := by
    rw [← hl, hs]
    unfold meanSquare
    rw [List.map_map, List.length_map]
    have e : ((fun x : ℝ => x ^ 2) ∘ fun x => x / Real.sqrt ((1 + E) / ((seg m a b).length : ℝ))) =
        fun x => (((seg m a b).length : ℝ) / (1 + E)) * x ^ 2 := by
      funext x
      simp only [Function.comp]
      rw [div_pow, Real.sq_sqrt hpos.le]
      field_simp
    rw [e, List.sum_map_mul_left, ← hEd]
    field_simp
  refine ⟨m', ?_, hms, ?_⟩
  · unfold Seq.normalizeRms
    rw [Mem.readRange_ok hab.le hb]
    simp only [bind, Except.bind, hrms]
    rw [if_neg hf.ne']
    exact h4
  · rw [hms, div_lt_one (by positivity)]
    linarith

example : ∃ m', Seq.normalizeRms [1, 1] 0 2 0 = .ok m' ∧ meanSquare (seg m' 0 2) < 1 :=
  have ⟨m', h1, _, h3⟩ := C26_normalize_rms_violates (m := [1, 1]) (a := 0) (b := 2) (d := 0)
    (by norm_num) (by norm_num) (by norm_num) (by norm_num)
  ⟨m', h1, h3⟩

end Edsp.Props
