import Verif.Lemmas.Memory
import Verif.Model.Sequences
import Mathlib.Tactic.NormNum

/-! # C25: padder and concatenate -/

namespace Edsp.Props

open Edsp Edsp.Spec

variable {K : Type} [LinearOrder K] [AddCommGroup K]

omit [LinearOrder K] in
/-- **C25, padder.** If the output range is at least as long as the input (and does not start inside it),
both builds store the input followed by zeros in exactly the output range. -/
theorem C25_padder (dbg : Bool) {m : List K} {a b d e : Nat} (hab : a ≤ b) (hb : b ≤ m.length)
    (hlen : d + (b - a) ≤ e) (he : e ≤ m.length) (ho : d ≤ a ∨ b ≤ d) :
    ∃ m', Seq.padder dbg m a b d e = .ok m' ∧
      Wrote m m' d (seg m a b ++ List.replicate (e - d - (b - a)) 0) := by
  obtain ⟨m1, h1, h2⟩ := Mem.copy_ok (m := m) hab hb (d := d) (by omega) ho
  have hl := Mem.wrote_length h2
  obtain ⟨m2, h3, h4⟩ := Mem.fill_ok (0 : K) (m := m1) (a := d + (b - a)) (b := e) hlen (by omega)
  refine ⟨m2, ?_, ?_⟩
  · unfold Seq.padder
    rw [Mem.distance_ok hab, Mem.distance_ok (by omega : d ≤ e)]
    simp only [bind, Except.bind]
    rw [if_neg (by omega), h1]
    exact h3
  · refine Mem.wrote_append h2 ?_
    rw [Mem.seg_length hb]
    rwa [show e - d - (b - a) = e - (d + (b - a)) by omega]

omit [LinearOrder K] in
/-- **C25, too short an output** is outside the contract: a debug build stops at the check and a release
build runs past the end. -/
theorem C25_padder_short {m : List K} {a b d e : Nat} (hab : a ≤ b) (hb : b ≤ m.length)
    (hde : d ≤ e) (he : e ≤ m.length) (hlen : e < d + (b - a)) (ho : d ≤ a ∨ b ≤ d) :
    Seq.padder true m a b d e = .error .assertion ∧
      Seq.padder false m a b d e = .error .outOfBounds := by
  constructor
  · unfold Seq.padder
    rw [Mem.distance_ok hab, Mem.distance_ok hde]
    simp only [bind, Except.bind]
    rw [if_pos ⟨trivial, by omega⟩]
    rfl
  · unfold Seq.padder
    rw [Mem.distance_ok hab, Mem.distance_ok hde]
    simp only [bind, Except.bind, Bool.false_eq_true, false_and, if_false]
    by_cases hfit : d + (b - a) ≤ m.length
    · obtain ⟨m1, h1, h2⟩ := Mem.copy_ok (m := m) hab hb hfit ho
      rw [h1]
      simp only []
      unfold Mem.fill Mem.distance
      rw [if_neg (by omega)]
      rfl
    · unfold Mem.copy Mem.transform
      rw [Mem.distance_ok hab]
      simp only [bind, Except.bind]
      rw [Mem.transformN_fault _ _ _ _ _ (by omega) (by omega)]

example : ∃ m', Seq.padder true ([1, 2, 9, 9, 9, 9] : List ℤ) 0 2 2 5 = .ok m' ∧
    Wrote [1, 2, 9, 9, 9, 9] m' 2 [1, 2, 0] :=
  C25_padder true (m := ([1, 2, 9, 9, 9, 9] : List ℤ)) (a := 0) (b := 2) (d := 2) (e := 5)
    (by norm_num) (by norm_num) (by norm_num) (by norm_num) (by norm_num)

example : Seq.padder false ([1, 2, 9, 9, 9, 9] : List ℤ) 0 2 2 3 = .error .outOfBounds :=
  (C25_padder_short (m := ([1, 2, 9, 9, 9, 9] : List ℤ)) (a := 0) (b := 2) (d := 2) (e := 3)
    (by norm_num) (by norm_num) (by norm_num) (by norm_num) (by norm_num) (by norm_num)).2

omit [LinearOrder K] [AddCommGroup K] in
/-- **C25, concatenate.** If the output fits and overwrites no input cell before it is read, exactly the
values of the two inputs are stored one after the other. -/
theorem C25_concatenate {m : List K} {a1 b1 a2 b2 d : Nat} (h1 : a1 ≤ b1) (hb1 : b1 ≤ m.length)
    (h2 : a2 ≤ b2) (hb2 : b2 ≤ m.length) (hd : d + (b1 - a1) + (b2 - a2) ≤ m.length)
    (ho1 : d ≤ a1 ∨ b1 ≤ d) (ho2 : d + (b1 - a1) ≤ a2 ∨ b2 ≤ d) :
    ∃ m', Seq.concatenate m a1 b1 a2 b2 d = .ok m' ∧ Wrote m m' d (seg m a1 b1 ++ seg m a2 b2) := by
  obtain ⟨m1, e1, w1⟩ := Mem.copy_ok (m := m) h1 hb1 (d := d) (by omega) ho1
  have hl := Mem.wrote_length w1
  obtain ⟨m2, e2, w2⟩ := Mem.copy_ok (m := m1) h2 (by omega) (d := d + (b1 - a1)) (by omega) (by omega)
  have hs := Mem.seg_length (m := m) (a := a1) hb1
  refine ⟨m2, ?_, ?_⟩
  · unfold Seq.concatenate
    simp only [bind, Except.bind, e1]
    rw [Mem.distance_ok h1]
    exact e2
  · refine Mem.wrote_append w1 ?_
    rw [hs]
    rwa [Mem.wrote_seg_out w1 (by omega)] at w2

omit [LinearOrder K] [AddCommGroup K] in
/-- **C25, concatenate into too small a block** writes past its end. -/
theorem C25_concatenate_short {m : List K} {a1 b1 a2 b2 d : Nat} (h1 : a1 ≤ b1) (hb1 : b1 ≤ m.length)
    (h2 : a2 ≤ b2) (hdm : d ≤ m.length)
    (hd : m.length < d + (b1 - a1) + (b2 - a2)) (ho1 : d ≤ a1 ∨ b1 ≤ d) :
    Seq.concatenate m a1 b1 a2 b2 d = .error .outOfBounds := by
  unfold Seq.concatenate
  by_cases hfit : d + (b1 - a1) ≤ m.length
  · obtain ⟨m1, e1, w1⟩ := Mem.copy_ok (m := m) h1 hb1 hfit ho1
    have hl := Mem.wrote_length w1
    simp only [bind, Except.bind, e1]
    rw [Mem.distance_ok h1]
    simp only []
    unfold Mem.copy Mem.transform
    rw [Mem.distance_ok h2]
    simp only [bind, Except.bind]
    rw [Mem.transformN_fault _ _ _ _ _ (by omega) (by omega)]
  · unfold Mem.copy Mem.transform
    rw [Mem.distance_ok h1]
    simp only [bind, Except.bind]
    rw [Mem.transformN_fault _ _ _ _ _ (by omega) (by omega)]

example : ∃ m', Seq.concatenate ([1, 2, 3, 9, 9, 9, 9] : List ℤ) 0 2 2 3 4 = .ok m' ∧
    Wrote [1, 2, 3, 9, 9, 9, 9] m' 4 [1, 2, 3] :=
  C25_concatenate (m := ([1, 2, 3, 9, 9, 9, 9] : List ℤ)) (a1 := 0) (b1 := 2) (a2 := 2) (b2 := 3)
    (d := 4) (by norm_num) (by norm_num) (by norm_num) (by norm_num) (by norm_num) (by norm_num)
    (by norm_num)

example : Seq.concatenate ([1, 2, 3, 9, 9] : List ℤ) 0 2 2 3 3 = .error .outOfBounds :=
  C25_concatenate_short (m := ([1, 2, 3, 9, 9] : List ℤ)) (by norm_num) (by norm_num) (by norm_num)
    (by norm_num) (by norm_num) (by norm_num)

end Edsp.Props
