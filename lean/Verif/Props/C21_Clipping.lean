import Verif.Lemmas.Memory
import Verif.Model.Sequences
import Mathlib.Order.MinMax
import Mathlib.Tactic.Linarith
import Mathlib.Tactic.NormNum
import Mathlib.Tactic.Ring

/-! # C21: clipping, and amplification with and without clipping

`max lo (min hi x)` is the specification of the clipped value. -/

namespace Edsp.Props

open Edsp Edsp.Spec

section
variable {K : Type} [LinearOrder K]

theorem clip1_eq {lo hi : K} (h : lo ≤ hi) (x : K) : Seq.clip1 lo hi x = max lo (min hi x) := by
  unfold Seq.clip1
  split
  · rename_i h1
    rw [max_eq_left (le_trans (min_le_right _ _) h1.le)]
  · rename_i h1
    split
    · rename_i h2
      rw [min_eq_left h2.le, max_eq_right h]
    · rename_i h2
      rw [min_eq_right (not_lt.mp h2), max_eq_right (not_lt.mp h1)]

/-- **C21, clipping.** With `lo ≤ hi`, for every memory block and every input range inside it, and every
output range inside it that starts at or before the input or lies behind it (in place included), the
call succeeds, stores the clipped values in order and changes nothing else; all stored values lie in
`[lo, hi]`. -/
theorem C21_clipper {lo hi : K} (h : lo ≤ hi) {m : List K} {a b d : Nat} (hab : a ≤ b)
    (hb : b ≤ m.length) (hd : d + (b - a) ≤ m.length) (ho : d ≤ a ∨ b ≤ d) :
    ∃ m', Seq.clipper m a b d lo hi = .ok m' ∧
      Wrote m m' d ((seg m a b).map fun x => max lo (min hi x)) ∧
      ∀ y ∈ seg m' d (d + (b - a)), lo ≤ y ∧ y ≤ hi := by
  obtain ⟨m', h1, h2⟩ := Mem.transform_ok (Seq.clip1 lo hi) hab hb hd ho
  have e : (seg m a b).map (Seq.clip1 lo hi) = (seg m a b).map fun x => max lo (min hi x) :=
    List.map_congr_left (fun x _ => clip1_eq h x)
  rw [e] at h2
  refine ⟨m', h1, h2, ?_⟩
  have hs := Mem.wrote_seg h2
  rw [List.length_map, Mem.seg_length hb] at hs
  intro y hy
  rw [hs, List.mem_map] at hy
  obtain ⟨x, -, rfl⟩ := hy
  exact ⟨le_max_left _ _, max_le h (min_le_left _ _)⟩

example : ∃ m', Seq.clipper ([5, -7, 2, 0, 0, 9] : List ℤ) 0 3 3 (-3) 3 = .ok m' ∧
    Wrote [5, -7, 2, 0, 0, 9] m' 3 [3, -3, 2] :=
  have ⟨m', h1, h2, _⟩ := C21_clipper (lo := (-3 : ℤ)) (hi := 3) (by norm_num)
    (m := [5, -7, 2, 0, 0, 9]) (a := 0) (b := 3) (d := 3) (by norm_num) (by norm_num)
    (by norm_num) (by norm_num)
  ⟨m', h1, h2⟩

/-- **C21, in-range values are kept.** If all inputs are in range the output is the input. -/
theorem C21_fixes_in_range {lo hi : K} (h : lo ≤ hi) {m : List K} {a b d : Nat} (hab : a ≤ b)
    (hb : b ≤ m.length) (hd : d + (b - a) ≤ m.length) (ho : d ≤ a ∨ b ≤ d)
    (hin : ∀ x ∈ seg m a b, lo ≤ x ∧ x ≤ hi) :
    ∃ m', Seq.clipper m a b d lo hi = .ok m' ∧ Wrote m m' d (seg m a b) := by
  obtain ⟨m', h1, h2, -⟩ := C21_clipper h hab hb hd ho
  refine ⟨m', h1, ?_⟩
  have e : ((seg m a b).map fun x => max lo (min hi x)) = seg m a b := by
    conv_rhs => rw [← List.map_id (seg m a b)]
    apply List.map_congr_left
    intro x hx
    obtain ⟨hx1, hx2⟩ := hin x hx
    rw [min_eq_right hx2, max_eq_right hx1]; rfl
  rwa [e] at h2

example : ∃ m', Seq.clipper ([1, -2, 2, 7] : List ℤ) 0 3 0 (-3) 3 = .ok m' ∧
    Wrote [1, -2, 2, 7] m' 0 [1, -2, 2] :=
  C21_fixes_in_range (lo := (-3 : ℤ)) (hi := 3) (by norm_num) (m := [1, -2, 2, 7]) (a := 0) (b := 3)
    (by norm_num) (by norm_num) (by norm_num) (by norm_num) (by decide)

/-- **C21, idempotence.** Clipping the result in place again leaves the whole block unchanged. -/
theorem C21_idempotent {lo hi : K} (h : lo ≤ hi) {m m' : List K} {a b d : Nat} (hab : a ≤ b)
    (hb : b ≤ m.length) (hd : d + (b - a) ≤ m.length) (ho : d ≤ a ∨ b ≤ d)
    (hr : Seq.clipper m a b d lo hi = .ok m') :
    Seq.clipper m' d (d + (b - a)) d lo hi = .ok m' := by
  obtain ⟨m1, h1, h2, h3⟩ := C21_clipper h hab hb hd ho
  obtain rfl : m1 = m' := by rw [hr] at h1; injection h1 with h1; exact h1.symm
  have hl := Mem.wrote_length h2
  obtain ⟨m2, h4, h5⟩ := C21_fixes_in_range h (m := m1) (a := d) (b := d + (b - a)) (d := d)
    (by omega) (by omega) (by omega) (by omega) h3
  rw [h4]
  congr 1
  exact Mem.wrote_unique h5 (Mem.wrote_self (by omega) (by omega))

example : Seq.clipper ([3, -3, 2] : List ℤ) 0 3 0 (-3) 3 = .ok [3, -3, 2] :=
  C21_idempotent (lo := (-3 : ℤ)) (hi := 3) (by norm_num) (m := [9, -5, 2]) (a := 0) (b := 3)
    (d := 0) (by norm_num) (by norm_num) (by norm_num) (by norm_num) rfl

/-- **C21, monotone.** If one input is pointwise at most another, so are the clipped outputs. -/
theorem C21_monotone {lo hi : K} (h : lo ≤ hi) {m n : List K} {a b d a' b' d' : Nat} (hab : a ≤ b)
    (hb : b ≤ m.length) (hd : d + (b - a) ≤ m.length) (ho : d ≤ a ∨ b ≤ d) (hab' : a' ≤ b')
    (hb' : b' ≤ n.length) (hd' : d' + (b' - a') ≤ n.length) (ho' : d' ≤ a' ∨ b' ≤ d')
    (hle : List.Forall₂ (· ≤ ·) (seg m a b) (seg n a' b')) :
    ∃ m' n', Seq.clipper m a b d lo hi = .ok m' ∧ Seq.clipper n a' b' d' lo hi = .ok n' ∧
      List.Forall₂ (· ≤ ·) (seg m' d (d + (b - a))) (seg n' d' (d' + (b' - a'))) := by
  obtain ⟨m', h1, h2, -⟩ := C21_clipper h hab hb hd ho
  obtain ⟨n', h3, h4, -⟩ := C21_clipper h hab' hb' hd' ho'
  refine ⟨m', n', h1, h3, ?_⟩
  have hs := Mem.wrote_seg h2
  have ht := Mem.wrote_seg h4
  rw [List.length_map, Mem.seg_length hb] at hs
  rw [List.length_map, Mem.seg_length hb'] at ht
  rw [hs, ht, List.forall₂_map_left_iff, List.forall₂_map_right_iff]
  exact hle.imp (fun x y hxy => max_le_max le_rfl (min_le_min le_rfl hxy))

example : ∃ m' n', Seq.clipper ([5, -9] : List ℤ) 0 2 0 (-3) 3 = .ok m' ∧
    Seq.clipper ([6, -1] : List ℤ) 0 2 0 (-3) 3 = .ok n' ∧
    List.Forall₂ (· ≤ ·) (seg m' 0 2) (seg n' 0 2) :=
  C21_monotone (lo := (-3 : ℤ)) (hi := 3) (by norm_num) (m := [5, -9]) (n := [6, -1]) (a := 0)
    (b := 2) (d := 0) (a' := 0) (b' := 2) (d' := 0) (by norm_num) (by norm_num) (by norm_num)
    (by norm_num) (by norm_num) (by norm_num) (by norm_num) (by norm_num) (by simp [seg])

end

section
variable {K : Type} [Field K] [LinearOrder K]

omit [LinearOrder K] in
/-- **C21, amplifier.** Stores the scaled samples and changes nothing else. -/
theorem C21_amplifier (factor : K) {m : List K} {a b d : Nat} (hab : a ≤ b)
    (hb : b ≤ m.length) (hd : d + (b - a) ≤ m.length) (ho : d ≤ a ∨ b ≤ d) :
    ∃ m', Seq.amplifier m a b d factor = .ok m' ∧ Wrote m m' d ((seg m a b).map fun x => factor * x) :=
  Mem.transform_ok _ hab hb hd ho

/-- **C21, amplifier with bounds.** The scaled samples, clipped. -/
theorem C21_amplifier_clip (factor : K) {lo hi : K} (h : lo ≤ hi) {m : List K} {a b d : Nat}
    (hab : a ≤ b) (hb : b ≤ m.length) (hd : d + (b - a) ≤ m.length) (ho : d ≤ a ∨ b ≤ d) :
    ∃ m', Seq.amplifierClip m a b d factor lo hi = .ok m' ∧
      Wrote m m' d ((seg m a b).map fun x => max lo (min hi (factor * x))) ∧
      ∀ y ∈ seg m' d (d + (b - a)), lo ≤ y ∧ y ≤ hi := by
  obtain ⟨m', h1, h2⟩ := Mem.transform_ok (Seq.ampClip1 factor lo hi) hab hb hd ho
  have e : (seg m a b).map (Seq.ampClip1 factor lo hi) =
      (seg m a b).map fun x => max lo (min hi (factor * x)) :=
    List.map_congr_left (fun x _ => clip1_eq h (factor * x))
  rw [e] at h2
  refine ⟨m', h1, h2, ?_⟩
  have hs := Mem.wrote_seg h2
  rw [List.length_map, Mem.seg_length hb] at hs
  intro y hy
  rw [hs, List.mem_map] at hy
  obtain ⟨x, -, rfl⟩ := hy
  exact ⟨le_max_left _ _, max_le h (min_le_left _ _)⟩

end

example : ∃ m', Seq.amplifierClip ([5, -7, 1, 0] : List ℚ) 0 3 0 2 (-3) 3 = .ok m' ∧
    Wrote [5, -7, 1, 0] m' 0 [3, -3, 2] := by
  obtain ⟨m', h1, h2, -⟩ := C21_amplifier_clip (2 : ℚ) (lo := -3) (hi := 3) (by norm_num)
    (m := [5, -7, 1, 0]) (a := 0) (b := 3) (d := 0) (by norm_num) (by norm_num) (by norm_num) (by norm_num)
  refine ⟨m', h1, ?_⟩
  have : ((seg ([5, -7, 1, 0] : List ℚ) 0 3).map fun x => max (-3) (min 3 (2 * x))) = [3, -3, 2] := by
    norm_num [seg]
  rwa [this] at h2

example : ∃ m', Seq.amplifier ([5, -7, 1, 0] : List ℚ) 1 3 0 2 = .ok m' ∧
    Wrote [5, -7, 1, 0] m' 0 ((seg ([5, -7, 1, 0] : List ℚ) 1 3).map fun x => 2 * x) :=
  C21_amplifier (2 : ℚ) (by norm_num) (by norm_num) (by norm_num) (by norm_num)

end Edsp.Props
