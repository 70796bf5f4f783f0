import Verif.Lemmas.Memory
import Verif.Model.Sequences
import Mathlib.Tactic.Linarith
import Mathlib.Tactic.NormNum
import Mathlib.Tactic.Ring
import Mathlib.Tactic.FieldSimp

/-! # C22: linspace and logspace -/

namespace Edsp.Props

open Edsp Edsp.Spec

/-- The `N` equally spaced values from `x1` to `x2`. -/
def spaced {K : Type} [Field K] (x1 x2 : K) (N : Nat) : List K :=
  (List.range N).map fun i : Nat => x1 + (i : K) * ((x2 - x1) / ((N : K) - 1))

section
variable {K : Type} [Field K]

theorem linspaceN_ok (inc : K) : ∀ (n : Nat) (m : List K) (d : Nat) (c : K), d + n ≤ m.length →
    ∃ m', Seq.linspaceN n m d (some c) (some inc) = .ok m' ∧
      Wrote m m' d ((List.range n).map fun i : Nat => c + (i : K) * inc)
  | 0, m, d, c, h => ⟨m, rfl, Mem.wrote_nil m (by omega)⟩
  | n + 1, m, d, c, h => by
    obtain ⟨m', h1, h2⟩ := linspaceN_ok inc n (m.set d c) (d + 1) (c + inc)
      (by rw [List.length_set]; omega)
    refine ⟨m', ?_, ?_⟩
    · simp only [Seq.linspaceN, bind, Except.bind, Option.map_some]
      rw [Mem.write_ok (by omega)]
      exact h1
    · have h3 := Mem.wrote_cons (by omega) h2
      rw [List.range_succ_eq_map, List.map_cons, List.map_map]
      convert h3 using 2
      · simp
      · apply List.map_congr_left
        intro i _
        simp only [Function.comp, Nat.succ_eq_add_one, Nat.cast_add, Nat.cast_one]
        ring

variable [LinearOrder K] [IsStrictOrderedRing K]

/-- **C22, linspace.** For every `N ≥ 2`, all end points and every output range inside the block the
call stores the `N` equally spaced values and changes nothing else. -/
theorem C22_linspace {m : List K} {d : Nat} (x1 x2 : K) {N : Nat} (hN : 2 ≤ N)
    (hd : d + N ≤ m.length) :
    ∃ m', Seq.linspace m d x1 x2 N = .ok m' ∧ Wrote m m' d (spaced x1 x2 N) := by
  have hne : ((N : ℤ) : K) - 1 ≠ 0 := by
    have : (2 : K) ≤ (N : K) := by exact_mod_cast hN
    rw [Int.cast_natCast]
    intro h; linarith
  obtain ⟨m', h1, h2⟩ := linspaceN_ok ((x2 - x1) / (((N : ℤ) : K) - 1)) N m d x1 hd
  refine ⟨m', ?_, ?_⟩
  · unfold Seq.linspace
    simp only []
    rw [if_neg hne]
    exact h1
  · unfold spaced
    simpa using h2

/-- The first and the last of the spaced values are the end points and there are `N` of them. -/
theorem C22_endpoints (x1 x2 : K) {N : Nat} (hN : 2 ≤ N) :
    (spaced x1 x2 N).length = N ∧ (spaced x1 x2 N)[0]? = some x1 ∧
      (spaced x1 x2 N)[N - 1]? = some x2 ∧
      ∀ i x y, (spaced x1 x2 N)[i]? = some x → (spaced x1 x2 N)[i + 1]? = some y →
        y - x = (x2 - x1) / ((N : K) - 1) := by
  have hne : (N : K) - 1 ≠ 0 := by
    have : (2 : K) ≤ (N : K) := by exact_mod_cast hN
    intro h; linarith
  have hget : ∀ i, i < N →
      (spaced x1 x2 N)[i]? = some (x1 + (i : K) * ((x2 - x1) / ((N : K) - 1))) := by
    intro i hi
    unfold spaced
    rw [List.getElem?_map, List.getElem?_range hi]
    rfl
  have hlen : (spaced x1 x2 N).length = N := by unfold spaced; simp
  refine ⟨hlen, ?_, ?_, ?_⟩
  · rw [hget 0 (by omega)]; simp
  · rw [hget (N - 1) (by omega), Nat.cast_sub (by omega), Nat.cast_one]
    congr 1
    field_simp
    ring
  · intro i x y hx hy
    have h2 : i + 1 < N := by
      by_contra hc
      rw [List.getElem?_eq_none (by omega)] at hy
      cases hy
    rw [hget i (by omega)] at hx
    rw [hget (i + 1) h2] at hy
    injection hx with hx
    injection hy with hy
    rw [← hx, ← hy, Nat.cast_add, Nat.cast_one]
    ring

omit [IsStrictOrderedRing K] in
/-- **C22, `N = 1`.** The increment is not finite but never stored: the single value `x1` is written. -/
theorem C22_one {m : List K} {d : Nat} (x1 x2 : K) (hd : d < m.length) :
    ∃ m', Seq.linspace m d x1 x2 1 = .ok m' ∧ Wrote m m' d [x1] := by
  refine ⟨m.set d x1, ?_, ?_⟩
  · unfold Seq.linspace
    simp only [Int.toNat_one, Int.cast_one, sub_self, if_true, Seq.linspaceN, bind, Except.bind]
    rw [Mem.write_ok hd]
  · exact Mem.wrote_cons hd (Mem.wrote_nil _ (by rw [List.length_set]; omega))

omit [IsStrictOrderedRing K] in
/-- **C22, `N ≤ 0`.** Nothing is written. -/
theorem C22_none (m : List K) (d : Nat) (x1 x2 : K) {N : Int} (hN : N ≤ 0) :
    Seq.linspace m d x1 x2 N = .ok m := by
  unfold Seq.linspace
  rw [Int.toNat_of_nonpos hN]
  rfl

omit [LinearOrder K] [IsStrictOrderedRing K] in
theorem linspaceN_fault (inc : Option K) : ∀ (n : Nat) (m : List K) (d : Nat) (c : Option K),
    m.length < d + n → d ≤ m.length → ∃ e, Seq.linspaceN n m d c inc = .error e
  | 0, m, d, c, h, h' => by omega
  | n + 1, m, d, none, h, h' => ⟨_, rfl⟩
  | n + 1, m, d, some c, h, h' => by
    simp only [Seq.linspaceN, bind, Except.bind]
    unfold Mem.write
    by_cases hd : d < m.length
    · rw [if_pos hd]
      exact linspaceN_fault inc n _ _ _ (by rw [List.length_set]; omega) (by rw [List.length_set]; omega)
    · rw [if_neg hd]
      exact ⟨_, rfl⟩

omit [IsStrictOrderedRing K] in
/-- **C22, exactly `N` cells.** An output range that does not fit in the block is never accepted. -/
theorem C22_out_of_range {m : List K} {d : Nat} (x1 x2 : K) {N : Nat} (hd : d ≤ m.length)
    (h : m.length < d + N) : ∃ e, Seq.linspace m d x1 x2 N = .error e := by
  unfold Seq.linspace
  exact linspaceN_fault _ _ _ _ _ (by simpa using h) hd

end

example : ∃ m', Seq.linspace (List.replicate 6 (0 : ℚ)) 1 2 4 (5 : Nat) = .ok m' ∧
    Wrote (List.replicate 6 (0 : ℚ)) m' 1 [2, 5/2, 3, 7/2, 4] := by
  obtain ⟨m', h1, h2⟩ := C22_linspace (m := List.replicate 6 (0 : ℚ)) (d := 1) 2 4 (N := 5)
    (by norm_num) (by norm_num)
  refine ⟨m', h1, ?_⟩
  have : spaced (2 : ℚ) 4 5 = [2, 5/2, 3, 7/2, 4] := by
    norm_num [spaced, List.range_succ]
  rwa [this] at h2

example : (spaced (2 : ℚ) 4 5)[4]? = some 4 := (C22_endpoints (2 : ℚ) 4 (N := 5) (by norm_num)).2.2.1
example : ∃ m', Seq.linspace [(7 : ℚ), 8] 1 2 4 1 = .ok m' ∧ Wrote [7, 8] m' 1 [2] :=
  C22_one 2 4 (by norm_num)
example : Seq.linspace [(7 : ℚ), 8] 1 2 4 (-3) = .ok [7, 8] := C22_none _ _ _ _ (by norm_num)
example : ∃ e, Seq.linspace [(7 : ℚ), 8] 1 2 4 (2 : Nat) = .error e :=
  C22_out_of_range 2 4 (by norm_num) (by norm_num)

/-- **C22 is violated for integral output types**: the increment is truncated, so the last value need
not be the end point, and `N = 1` divides by zero. -/
theorem C22_integer_output_violates :
    Seq.linspaceInt [9, 9, 9, 9] 0 0 10 4 = .ok [0, 3, 6, 9] ∧
      ∀ m d x1 x2, Seq.linspaceInt m d x1 x2 1 = .error .divByZero := by
  refine ⟨by decide, ?_⟩
  intro m d x1 x2
  rfl

theorem logspaceN_ok (inc : ℝ) : ∀ (n : Nat) (m : List ℝ) (d : Nat) (c : ℝ), d + n ≤ m.length →
    ∃ m', Seq.logspaceN n m d (some c) (some inc) = .ok m' ∧
      Wrote m m' d ((List.range n).map fun i : Nat => (10 : ℝ) ^ (c + (i : ℝ) * inc))
  | 0, m, d, c, h => ⟨m, rfl, Mem.wrote_nil m (by omega)⟩
  | n + 1, m, d, c, h => by
    obtain ⟨m', h1, h2⟩ := logspaceN_ok inc n (m.set d ((10 : ℝ) ^ c)) (d + 1) (c + inc)
      (by rw [List.length_set]; omega)
    refine ⟨m', ?_, ?_⟩
    · simp only [Seq.logspaceN, bind, Except.bind, Option.map_some]
      rw [Mem.write_ok (by omega)]
      exact h1
    · have h3 := Mem.wrote_cons (by omega) h2
      rw [List.range_succ_eq_map, List.map_cons, List.map_map]
      convert h3 using 2
      · simp
      · apply List.map_congr_left
        intro i _
        simp only [Function.comp, Nat.succ_eq_add_one, Nat.cast_add, Nat.cast_one]
        congr 1
        ring

/-- **C22, logspace.** Ten to the power of the equally spaced exponents. -/
theorem C22_logspace {m : List ℝ} {d : Nat} (x1 x2 : ℝ) {N : Nat} (hN : 2 ≤ N)
    (hd : d + N ≤ m.length) :
    ∃ m', Seq.logspace m d x1 x2 N = .ok m' ∧
      Wrote m m' d ((spaced x1 x2 N).map fun x => (10 : ℝ) ^ x) := by
  have hne : ((N : ℤ) : ℝ) - 1 ≠ 0 := by
    have : (2 : ℝ) ≤ (N : ℝ) := by exact_mod_cast hN
    rw [Int.cast_natCast]
    intro h; linarith
  obtain ⟨m', h1, h2⟩ := logspaceN_ok ((x2 - x1) / (((N : ℤ) : ℝ) - 1)) N m d x1 hd
  refine ⟨m', ?_, ?_⟩
  · unfold Seq.logspace
    simp only []
    rw [if_neg hne]
    exact h1
  · unfold spaced
    rw [List.map_map]
    simpa [Function.comp_def] using h2

example : ∃ m', Seq.logspace [0, 0, 0] 0 1 3 (3 : Nat) = .ok m' ∧
    Wrote [0, 0, 0] m' 0 ((spaced (1 : ℝ) 3 3).map fun x => (10 : ℝ) ^ x) :=
  C22_logspace 1 3 (by norm_num) (by norm_num)

end Edsp.Props
