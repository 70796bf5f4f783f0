import Verif.Lemmas.Memory
import Verif.Model.Windows
import Verif.Spec.Windows
import Mathlib.Tactic.Linarith
import Mathlib.Tactic.FieldSimp
import Mathlib.Tactic.NormNum

/-!
# C38: windows
-/

namespace Edsp.C38
open Edsp Edsp.Spec Edsp.Win

/-! ### The loops -/

theorem loop_ok {α : Type} (w : Nat → α) : ∀ (n i : Nat) (m : List α) (p : Nat), p + n ≤ m.length →
    ∃ m', loop w n i m p = .ok m' ∧ Wrote m m' p ((List.range' i n).map w)
  | 0, i, m, p, h => ⟨m, rfl, Mem.wrote_nil m (by omega)⟩
  | n + 1, i, m, p, h => by
    obtain ⟨m', h1, h2⟩ := loop_ok w n (i + 1) (m.set p (w i)) (p + 1) (by rw [List.length_set]; omega)
    refine ⟨m', ?_, ?_⟩
    · simp only [loop, Mem.write_ok (by omega : p < m.length), bind, Except.bind]
      exact h1
    · rw [List.range'_succ, List.map_cons]
      exact Mem.wrote_cons (by omega) h2

theorem size_ne {N : Nat} (hN : 2 ≤ N) : ((N : ℝ) - 1) ≠ 0 := by
  have : (2 : ℝ) ≤ N := by exact_mod_cast hN
  intro h; linarith

theorem size_pos {N : Nat} (hN : 2 ≤ N) : (0 : ℝ) < (N : ℝ) - 1 := by
  have : (2 : ℝ) ≤ N := by exact_mod_cast hN
  linarith

theorem map_congr_range {N : Nat} {w v : Nat → ℝ} (h : ∀ i < N, w i = v i) :
    (List.range' 0 N).map w = (List.range N).map v := by
  rw [← List.range_eq_range']
  exact List.map_congr_left fun i hi => h i (List.mem_range.1 hi)

theorem cosLoop_ok (w : ℝ → ℝ) {m : List ℝ} {a b : Nat} (hN : a + 2 ≤ b) (hb : b ≤ m.length) :
    ∃ m', cosLoop w m a b = .ok m' ∧ Wrote m m' a ((List.range (b - a)).map fun i => w (angle (b - a) i)) := by
  have hne := size_ne (by omega : 2 ≤ b - a)
  obtain ⟨m', h1, h2⟩ := loop_ok (fun i : Nat => w (2 * Real.pi / (((b - a : Nat) : ℝ) - 1) * i)) (b - a) 0 m a
    (by omega)
  refine ⟨m', ?_, ?_⟩
  · simp only [cosLoop, Mem.distance_ok (by omega : a ≤ b), bind, Except.bind, Win.div, hne, if_false]
    exact h1
  · rw [map_congr_range (v := fun i => w (angle (b - a) i))] at h2
    · exact h2
    · intro i _
      rw [angle, div_mul_eq_mul_div]

theorem cosLoop_one (w : ℝ → ℝ) (m : List ℝ) (a : Nat) : cosLoop w m a (a + 1) = .error .divByZero := by
  simp [cosLoop, Mem.distance, Win.div, bind, Except.bind]

theorem triLoop_ok {r : ℝ} (hr : r ≠ 0) : ∀ (n : Nat) (c : ℝ) (m : List ℝ) (p : Nat), p + n ≤ m.length →
    ∃ m', triLoop r n c m p = .ok m' ∧ Wrote m m' p ((List.range n).map fun i : Nat => 1 - |(c + 2 * i) / r|)
  | 0, c, m, p, h => ⟨m, rfl, Mem.wrote_nil m (by omega)⟩
  | n + 1, c, m, p, h => by
    obtain ⟨m', h1, h2⟩ := triLoop_ok hr n (c + 2) (m.set p (1 - |c / r|)) (p + 1) (by rw [List.length_set]; omega)
    refine ⟨m', ?_, ?_⟩
    · simp only [triLoop, Win.div, hr, if_false, Mem.write_ok (by omega : p < m.length), bind, Except.bind]
      exact h1
    · have h3 := Mem.wrote_cons (by omega) h2
      rw [List.range_succ_eq_map, List.map_cons, List.map_map]
      convert h3 using 2
      · simp
      · apply List.map_congr_left
        intro i _
        simp only [Function.comp, Nat.succ_eq_add_one, Nat.cast_add, Nat.cast_one]
        congr 2
        ring

theorem welchLoop_ok {L : ℝ} (hL : L ≠ 0) : ∀ (n i : Nat) (m : List ℝ) (p : Nat), p + n ≤ m.length →
    ∃ m', welchLoop L n i m p = .ok m' ∧
      Wrote m m' p ((List.range' i n).map fun i : Nat => 1 - (((i : ℝ) - L) / L) ^ 2)
  | 0, i, m, p, h => ⟨m, rfl, Mem.wrote_nil m (by omega)⟩
  | n + 1, i, m, p, h => by
    obtain ⟨m', h1, h2⟩ := welchLoop_ok hL n (i + 1) (m.set p (1 - Num.square (((i : ℝ) - L) / L))) (p + 1)
      (by rw [List.length_set]; omega)
    refine ⟨m', ?_, ?_⟩
    · simp only [welchLoop, Win.div, hL, if_false, Mem.write_ok (by omega : p < m.length), bind, Except.bind]
      exact h1
    · have h3 := Mem.wrote_cons (by omega) h2
      rw [Num.square, ← sq] at h3
      rw [List.range'_succ, List.map_cons]
      exact h3

/-! ### The functions of the library -/

/-- The function of the library for each window. -/
noncomputable def fn : Window → List ℝ → Nat → Nat → Except Fault (List ℝ)
  | .bartlett => bartlett
  | .blackman => blackman
  | .blackmanHarris => blackmanHarris
  | .blackmanNuttall => blackmanNuttall
  | .flattop => flattop
  | .hamming => hamming
  | .hanning => hanning
  | .boxcar => boxcar
  | .rectangular => rectangular
  | .triangular => triangular
  | .welch => welch

theorem remainder_base {N : Nat} (hN : 2 ≤ N) : (N : ℝ) + (remainder2 N : ℝ) = (triangularBase N : ℝ) := by
  unfold remainder2 triangularBase
  split
  · rw [if_neg (by omega), if_neg (by omega)]; simp
  · split
    · simp
    · rw [if_pos (by omega), Nat.cast_sub (by omega)]
      push_cast; ring

theorem base_pos {N : Nat} (hN : 2 ≤ N) : (0 : ℝ) < triangularBase N ∧ (N : ℝ) - 1 ≤ triangularBase N := by
  have h : 0 < triangularBase N ∧ N ≤ triangularBase N + 1 := by
    unfold triangularBase
    split
    · omega
    · split <;> omega
  refine ⟨by exact_mod_cast h.1, ?_⟩
  have : (N : ℝ) ≤ (triangularBase N : ℝ) + 1 := by exact_mod_cast h.2
  linarith

theorem isEven_nat (n : Nat) : Num.isEven (n : Int) = decide (n % 2 = 0) := by
  unfold Num.isEven Num.isOdd
  rw [show Int.tmod (n : Int) 2 = ((n % 2 : Nat) : Int) by rw [Int.ofNat_tmod]; rfl]
  rcases Nat.mod_two_eq_zero_or_one n with h | h <;> rw [h] <;> rfl

/-- **C38 (values).**  For every window except `welch` and every output range of N ≥ 2 cells, the function stores in
the i-th cell the published value of the window of length N at i, for every i < N, and changes nothing else.
Missing: `welch` with even N (`C38_welch_violates`; odd N: `C38_welch_odd_partial`). -/
theorem C38_values_partial (k : Window) (hk : k ≠ .welch) {m : List ℝ} {a b : Nat} (hN : a + 2 ≤ b)
    (hb : b ≤ m.length) :
    ∃ m', fn k m a b = .ok m' ∧ Wrote m m' a ((List.range (b - a)).map (k.value (b - a))) := by
  have h2 : 2 ≤ b - a := by omega
  have hd := Mem.distance_ok (by omega : a ≤ b)
  cases k with
  | welch => exact absurd rfl hk
  | blackman =>
    obtain ⟨m', e, w⟩ := cosLoop_ok (fun tmp => 0.42 - 0.50 * Real.cos tmp + 0.08 * Real.cos (2 * tmp)) hN hb
    refine ⟨m', e, ?_⟩
    convert w using 3 with i
    simp only [Window.value, cosineWindow]
    norm_num
    ring
  | blackmanHarris =>
    obtain ⟨m', e, w⟩ := cosLoop_ok (fun tmp =>
      0.35875 - 0.48829 * Real.cos tmp + 0.14128 * Real.cos (2 * tmp) - 0.01168 * Real.cos (3 * tmp)) hN hb
    refine ⟨m', e, ?_⟩
    convert w using 3 with i
    simp only [Window.value, cosineWindow]
    norm_num
    ring
  | blackmanNuttall =>
    obtain ⟨m', e, w⟩ := cosLoop_ok (fun tmp =>
      0.3635819 - 0.4891775 * Real.cos tmp + 0.1365995 * Real.cos (2 * tmp) - 0.0106411 * Real.cos (3 * tmp)) hN hb
    refine ⟨m', e, ?_⟩
    convert w using 3 with i
    simp only [Window.value, cosineWindow]
    norm_num
    ring
  | flattop =>
    obtain ⟨m', e, w⟩ := cosLoop_ok (fun tmp =>
      0.21557895 - 0.41663158 * Real.cos tmp + 0.277263158 * Real.cos (2 * tmp) - 0.083578947 * Real.cos (3 * tmp)
      + 0.006947368 * Real.cos (4 * tmp)) hN hb
    refine ⟨m', e, ?_⟩
    convert w using 3 with i
    simp only [Window.value, cosineWindow]
    norm_num
    ring
  | hamming =>
    obtain ⟨m', e, w⟩ := cosLoop_ok (fun tmp => 0.54 - 0.46 * Real.cos tmp) hN hb
    refine ⟨m', e, ?_⟩
    convert w using 3 with i
    simp only [Window.value, cosineWindow]
    norm_num
    ring
  | hanning =>
    obtain ⟨m', e, w⟩ := cosLoop_ok (fun tmp => 0.5 - 0.5 * Real.cos tmp) hN hb
    refine ⟨m', e, ?_⟩
    convert w using 3 with i
    simp only [Window.value]
    rw [Real.sin_sq_eq_half_sub, mul_div_cancel₀ _ (two_ne_zero)]
    norm_num
    ring
  | boxcar =>
    obtain ⟨m', e, w⟩ := loop_ok (fun _ => (1 : ℝ)) (b - a) 0 m a (by omega)
    refine ⟨m', ?_, ?_⟩
    · simp only [fn, boxcar, hd, bind, Except.bind]; exact e
    · rw [map_congr_range (w := fun _ => (1 : ℝ)) (v := Window.boxcar.value (b - a)) (fun _ _ => rfl)] at w
      exact w
  | rectangular =>
    obtain ⟨m', e, w⟩ := loop_ok (fun _ => (1 : ℝ)) (b - a) 0 m a (by omega)
    refine ⟨m', ?_, ?_⟩
    · simp only [fn, rectangular, hd, bind, Except.bind]; exact e
    · rw [map_congr_range (w := fun _ => (1 : ℝ)) (v := Window.rectangular.value (b - a)) (fun _ _ => rfl)] at w
      exact w
  | triangular =>
    have hp := (base_pos h2).1
    obtain ⟨m', e, w⟩ := triLoop_ok hp.ne' (b - a) (-(((b - a : Nat) : ℝ) - 1)) m a (by omega)
    refine ⟨m', ?_, ?_⟩
    · simp only [fn, triangular, hd, bind, Except.bind, remainder_base h2]; exact e
    · convert w using 3 with i
      simp only [Window.value]
      congr 2
      field_simp
      ring
  | bartlett =>
    set N := b - a with hNdef
    have hne := size_ne h2
    have hpos := size_pos h2
    set M := if Num.isEven (N : Int) = true then N / 2 else (N + 1) / 2 with hM
    have hM2 : M = (N + 1) / 2 := by
      rw [hM, isEven_nat]
      simp only [decide_eq_true_eq]
      split <;> omega
    obtain ⟨m1, e1, w1⟩ := loop_ok (fun i : Nat => 2 * (i : ℝ) * (1 / ((N : ℝ) - 1))) M 0 m a (by omega)
    obtain ⟨m2, e2, w2⟩ := loop_ok (fun i : Nat => 2 - 2 * (i : ℝ) * (1 / ((N : ℝ) - 1))) (N - M) M m1 (a + M)
      (by rw [Mem.wrote_length w1]; omega)
    refine ⟨m2, ?_, ?_⟩
    · simp only [fn, bartlett, hd, bind, Except.bind, Num.inv, ← hNdef, hne, if_false, ← hM, e1]
      exact e2
    · have w := Mem.wrote_append w1 (by rw [List.length_map, List.length_range']; exact w2)
      have : (List.range' 0 M).map (fun i : Nat => 2 * (i : ℝ) * (1 / ((N : ℝ) - 1))) ++
          (List.range' M (N - M)).map (fun i : Nat => 2 - 2 * (i : ℝ) * (1 / ((N : ℝ) - 1))) =
          (List.range N).map (Window.bartlett.value N) := by
        have hr : List.range N = List.range' 0 M ++ List.range' M (N - M) := by
          have := List.range'_append (s := 0) (m := M) (n := N - M) (step := 1)
          rw [Nat.zero_add, Nat.one_mul] at this
          rw [List.range_eq_range', this]
          congr 1; omega
        rw [hr, List.map_append]
        congr 1
        · apply List.map_congr_left
          intro i hi
          rw [List.mem_range'_1] at hi
          have h3 : 2 * (i : ℝ) ≤ (N : ℝ) - 1 := by
            have : ((2 * i + 1 : Nat) : ℝ) ≤ N := by exact_mod_cast (by omega : 2 * i + 1 ≤ N)
            push_cast at this; linarith
          have h4 : 2 * (i : ℝ) / ((N : ℝ) - 1) ≤ 1 := (div_le_one hpos).2 h3
          rw [Window.value, abs_of_nonpos (by linarith)]
          ring
        · apply List.map_congr_left
          intro i hi
          rw [List.mem_range'_1] at hi
          have h3 : (N : ℝ) - 1 ≤ 2 * (i : ℝ) := by
            have : (N : ℝ) ≤ ((2 * i + 1 : Nat) : ℝ) := by exact_mod_cast (by omega : N ≤ 2 * i + 1)
            push_cast at this; linarith
          have h4 : 1 ≤ 2 * (i : ℝ) / ((N : ℝ) - 1) := (one_le_div hpos).2 h3
          rw [Window.value, abs_of_nonneg (by linarith)]
          ring
      rwa [this] at w

example : ∃ m', fn .hamming [9, 9, 9, 9, 9] 1 4 = .ok m' ∧
    Wrote [9, 9, 9, 9, 9] m' 1 ((List.range 3).map (Window.hamming.value 3)) :=
  C38_values_partial .hamming (by decide) (by norm_num) (by norm_num)

/-- **C38 (welch, odd N).**  The published value is stored for every odd N ≥ 3.  Missing: even N. -/
theorem C38_welch_odd_partial {m : List ℝ} {a b : Nat} (hN : a + 2 ≤ b) (hb : b ≤ m.length)
    (hodd : (b - a) % 2 = 1) :
    ∃ m', fn .welch m a b = .ok m' ∧ Wrote m m' a ((List.range (b - a)).map (Window.welch.value (b - a))) := by
  set N := b - a with hNdef
  have hL : (((N / 2 : Nat) : ℝ)) = ((N : ℝ) - 1) / 2 := by
    have : ((2 * (N / 2) + 1 : Nat) : ℝ) = N := by exact_mod_cast (by omega : 2 * (N / 2) + 1 = N)
    push_cast at this ⊢
    linarith
  have hL0 : ((N / 2 : Nat) : ℝ) ≠ 0 := by exact_mod_cast (by omega : N / 2 ≠ 0)
  obtain ⟨m', e, w⟩ := welchLoop_ok hL0 N 0 m a (by omega)
  refine ⟨m', ?_, ?_⟩
  · simp only [fn, welch, Mem.distance_ok (by omega : a ≤ b), bind, Except.bind, ← hNdef]
    exact e
  · rw [map_congr_range (v := Window.welch.value N)] at w
    · exact w
    · intro i _
      rw [Window.value, hL]

example : 0 + 2 ≤ 5 ∧ 5 ≤ [0, 0, 0, 0, (0 : ℝ)].length ∧ (5 - 0) % 2 = 1 := by decide

/-- **C38 is violated by `welch` for every even N ≥ 2**: the first value stored is 0, the last one is not. -/
theorem C38_welch_violates {m : List ℝ} {a b : Nat} (hN : a + 2 ≤ b) (hb : b ≤ m.length) (hev : (b - a) % 2 = 0) :
    ∃ m' x y, fn .welch m a b = .ok m' ∧ m'[a]? = some x ∧ m'[b - 1]? = some y ∧ x = 0 ∧ 0 < y := by
  set N := b - a with hNdef
  have hL0 : ((N / 2 : Nat) : ℝ) ≠ 0 := by exact_mod_cast (by omega : N / 2 ≠ 0)
  have hLp : (0 : ℝ) < ((N / 2 : Nat) : ℝ) := by exact_mod_cast (by omega : 0 < N / 2)
  obtain ⟨m', e, w⟩ := welchLoop_ok hL0 N 0 m a (by omega)
  have w' := (Mem.wrote_iff.1 w).2.2.1
  simp only [List.length_map, List.length_range'] at w'
  refine ⟨m', _, _, ?_, by rw [show a = a + 0 from rfl, w' 0 (by omega), List.getElem?_map,
    List.getElem?_range' (by omega)]; rfl, by rw [show b - 1 = a + (N - 1) by omega, w' (N - 1) (by omega),
    List.getElem?_map, List.getElem?_range' (by omega)]; rfl, ?_, ?_⟩
  · simp only [fn, welch, Mem.distance_ok (by omega : a ≤ b), bind, Except.bind, ← hNdef]
    exact e
  · simp only [Nat.mul_zero, Nat.add_zero, Nat.cast_zero, zero_sub, neg_div, neg_sq, div_self hL0]
    norm_num
  · have hc : ((0 + 1 * (N - 1) : Nat) : ℝ) = 2 * ((N / 2 : Nat) : ℝ) - 1 := by
      have : ((0 + 1 * (N - 1) + 1 : Nat) : ℝ) = ((2 * (N / 2) : Nat) : ℝ) := by
        exact_mod_cast (by omega : 0 + 1 * (N - 1) + 1 = 2 * (N / 2))
      push_cast at this ⊢
      linarith
    beta_reduce
    rw [hc]
    have h1 : (1 : ℝ) ≤ ((N / 2 : Nat) : ℝ) := by exact_mod_cast (by omega : 1 ≤ N / 2)
    have e2 : (2 * ((N / 2 : Nat) : ℝ) - 1 - ((N / 2 : Nat) : ℝ)) / ((N / 2 : Nat) : ℝ) =
        1 - 1 / ((N / 2 : Nat) : ℝ) := by field_simp; ring
    rw [e2]
    have h3 : 0 < 1 / ((N / 2 : Nat) : ℝ) := by positivity
    have h4 : 1 / ((N / 2 : Nat) : ℝ) ≤ 1 := (div_le_one hLp).2 h1
    nlinarith

example : 0 + 2 ≤ 4 ∧ 4 ≤ [0, 0, 0, (0 : ℝ)].length ∧ (4 - 0) % 2 = 0 := by decide

/-- **C38 (one sample).**  With a range of a single cell every window but `boxcar`, `rectangular` and `triangular`
divides by zero; these three store 1. -/
theorem C38_one (k : Window) {m : List ℝ} {a : Nat} (ha : a < m.length) :
    (k ∈ [Window.boxcar, .rectangular, .triangular] → ∃ m', fn k m a (a + 1) = .ok m' ∧ Wrote m m' a [1]) ∧
    (k ∉ [Window.boxcar, .rectangular, .triangular] → fn k m a (a + 1) = .error .divByZero) := by
  have hw : Wrote m (m.set a 1) a [1] := Mem.wrote_cons ha (Mem.wrote_nil _ (by rw [List.length_set]; omega))
  constructor
  · intro hk
    refine ⟨m.set a 1, ?_, hw⟩
    simp only [List.mem_cons, List.not_mem_nil, or_false] at hk
    rcases hk with rfl | rfl | rfl
    · simp [fn, boxcar, loop, Mem.distance, Mem.write, ha, bind, Except.bind]
    · simp [fn, rectangular, loop, Mem.distance, Mem.write, ha, bind, Except.bind]
    · have h2 : (1 : ℝ) + 1 ≠ 0 := by norm_num
      simp [fn, triangular, triLoop, Mem.distance, Mem.write, ha, bind, Except.bind, remainder2, Win.div, h2]
  · intro hk
    cases k with
    | boxcar => simp at hk
    | rectangular => simp at hk
    | triangular => simp at hk
    | bartlett => simp [fn, bartlett, Mem.distance, Num.inv, bind, Except.bind]
    | welch => simp [fn, welch, welchLoop, Mem.distance, Win.div, bind, Except.bind]
    | _ => simp only [fn, blackman, blackmanHarris, blackmanNuttall, flattop, hamming, hanning, cosLoop_one]

example : 1 < [(0 : ℝ), 0].length := by decide

/-! ### Laws of the published values -/

theorem cos_reflect {N i : Nat} (hN : 2 ≤ N) (hi : i < N) (k : Nat) :
    Real.cos (k * angle N (N - 1 - i)) = Real.cos (k * angle N i) := by
  have hne := size_ne hN
  have : (k : ℝ) * angle N (N - 1 - i) = k * (2 * Real.pi) - k * angle N i := by
    rw [angle, angle, Nat.cast_sub (by omega), Nat.cast_sub (by omega)]
    field_simp
    push_cast
    ring
  rw [this, Real.cos_nat_mul_two_pi_sub]

theorem cosineWindow_reflect {N i : Nat} (hN : 2 ≤ N) (hi : i < N) (as : List ℝ) (k : Nat) :
    cosineWindow as k (angle N (N - 1 - i)) = cosineWindow as k (angle N i) := by
  induction as generalizing k with
  | nil => rfl
  | cons a as ih => rw [cosineWindow, cosineWindow, cos_reflect hN hi, ih]

/-- **C38 (symmetry).**  The published values are symmetric: w[i] = w[N-1-i]. -/
theorem C38_symmetric (k : Window) {N i : Nat} (hN : 2 ≤ N) (hi : i < N) :
    k.value N (N - 1 - i) = k.value N i := by
  have hne := size_ne hN
  have hc : ((N - 1 - i : Nat) : ℝ) = (N : ℝ) - 1 - i := by
    rw [Nat.cast_sub (by omega), Nat.cast_sub (by omega)]; norm_num
  cases k <;> simp only [Window.value, cosineWindow_reflect hN hi]
  · rw [hc, show 2 * ((N : ℝ) - 1 - i) / ((N : ℝ) - 1) - 1 = -(2 * (i : ℝ) / ((N : ℝ) - 1) - 1) by
      field_simp; ring, abs_neg]
  · rw [Real.sin_sq_eq_half_sub, Real.sin_sq_eq_half_sub, mul_div_cancel₀ _ two_ne_zero,
      mul_div_cancel₀ _ two_ne_zero]
    have := cos_reflect hN hi 1
    rw [Nat.cast_one, one_mul, one_mul] at this
    rw [this]
  · rw [hc, show (N : ℝ) - 1 - i - ((N : ℝ) - 1) / 2 = -((i : ℝ) - ((N : ℝ) - 1) / 2) by ring, neg_div, abs_neg]
  · rw [hc, show (N : ℝ) - 1 - i - ((N : ℝ) - 1) / 2 = -((i : ℝ) - ((N : ℝ) - 1) / 2) by ring, neg_div, neg_sq]

theorem cosineWindow_abs (as : List ℝ) (h : ∀ a ∈ as, 0 ≤ a) (k : Nat) (t : ℝ) : |cosineWindow as k t| ≤ as.sum := by
  induction as generalizing k with
  | nil => simp [cosineWindow]
  | cons a as ih =>
    have ha := h a List.mem_cons_self
    rw [cosineWindow, List.sum_cons]
    refine (abs_add_le _ _).trans (add_le_add ?_ (ih (fun x hx => h x (List.mem_cons_of_mem _ hx)) (k + 1)))
    rw [abs_mul, abs_mul, abs_pow, abs_neg, abs_one, one_pow, one_mul, abs_of_nonneg ha]
    exact mul_le_of_le_one_right ha (Real.abs_cos_le_one _)

theorem frac_bounds {N i : Nat} (hN : 2 ≤ N) (hi : i < N) :
    0 ≤ 2 * (i : ℝ) / ((N : ℝ) - 1) ∧ 2 * (i : ℝ) / ((N : ℝ) - 1) ≤ 2 := by
  have hp := size_pos hN
  have h1 : (i : ℝ) ≤ (N : ℝ) - 1 := by
    have : ((i + 1 : Nat) : ℝ) ≤ N := by exact_mod_cast hi
    push_cast at this; linarith
  have h0 : (0 : ℝ) ≤ i := Nat.cast_nonneg i
  exact ⟨by positivity, (div_le_iff₀ hp).2 (by linarith)⟩

theorem centred_abs {N i : Nat} (hN : 2 ≤ N) (hi : i < N) {L : ℝ} (hL : (N : ℝ) - 1 ≤ L) :
    |((i : ℝ) - ((N : ℝ) - 1) / 2) / (L / 2)| ≤ 1 := by
  have hp := size_pos hN
  have h1 : (i : ℝ) ≤ (N : ℝ) - 1 := by
    have : ((i + 1 : Nat) : ℝ) ≤ N := by exact_mod_cast hi
    push_cast at this; linarith
  have h0 : (0 : ℝ) ≤ i := Nat.cast_nonneg i
  rw [abs_div, div_le_one (by rw [abs_of_pos] <;> linarith), abs_of_pos (by linarith : 0 < L / 2), abs_le]
  constructor <;> linarith

/-- **C38 (bounds).**  Every window but `flattop` has values in [0, 1]; those of `flattop` are at most 1.000000003 in
absolute value. -/
theorem C38_bounded (k : Window) {N i : Nat} (hN : 2 ≤ N) (hi : i < N) :
    (k ≠ .flattop → 0 ≤ k.value N i ∧ k.value N i ≤ 1) ∧ |k.value N i| ≤ 1.000000003 := by
  suffices h : (k ≠ .flattop → 0 ≤ k.value N i ∧ k.value N i ≤ 1) by
    refine ⟨h, ?_⟩
    by_cases hk : k = .flattop
    · subst hk
      refine (cosineWindow_abs _ ?_ 0 _).trans ?_
      · intro a ha
        simp only [List.mem_cons, List.not_mem_nil, or_false] at ha
        rcases ha with rfl | rfl | rfl | rfl | rfl <;> norm_num
      · simp only [List.sum_cons, List.sum_nil]; norm_num
    · obtain ⟨h1, h2⟩ := h hk
      rw [abs_of_nonneg h1]
      norm_num
      linarith
  intro hk
  have hcl : ∀ t : ℝ, Real.cos t ≤ 1 := Real.cos_le_one
  have hcg : ∀ t : ℝ, -1 ≤ Real.cos t := Real.neg_one_le_cos
  have upper : ∀ as : List ℝ, (∀ a ∈ as, 0 ≤ a) → as.sum = 1 → cosineWindow as 0 (angle N i) ≤ 1 := by
    intro as h1 h2
    exact (le_abs_self _).trans ((cosineWindow_abs as h1 0 _).trans h2.le)
  cases k with
  | flattop => exact absurd rfl hk
  | bartlett =>
    obtain ⟨h1, h2⟩ := frac_bounds hN hi
    have : |2 * (i : ℝ) / ((N : ℝ) - 1) - 1| ≤ 1 := by rw [abs_le]; constructor <;> linarith
    simp only [Window.value]
    exact ⟨by linarith, by linarith [abs_nonneg (2 * (i : ℝ) / ((N : ℝ) - 1) - 1)]⟩
  | blackman =>
    refine ⟨?_, upper _ (by
      intro a ha
      simp only [List.mem_cons, List.not_mem_nil, or_false] at ha
      rcases ha with rfl | rfl | rfl <;> norm_num) (by simp only [List.sum_cons, List.sum_nil]; norm_num)⟩
    simp only [Window.value, cosineWindow]
    push_cast
    simp only [zero_mul, Real.cos_zero, zero_add, one_mul, one_add_one_eq_two, Real.cos_two_mul]
    have h1 := hcl (angle N i)
    nlinarith [mul_nonneg (sub_nonneg.2 h1) (sub_nonneg.2 h1)]
  | blackmanHarris =>
    refine ⟨?_, upper _ (by
      intro a ha
      simp only [List.mem_cons, List.not_mem_nil, or_false] at ha
      rcases ha with rfl | rfl | rfl | rfl <;> norm_num) (by simp only [List.sum_cons, List.sum_nil]; norm_num)⟩
    simp only [Window.value, cosineWindow]
    push_cast
    simp only [zero_mul, Real.cos_zero, zero_add, one_mul, one_add_one_eq_two, two_add_one_eq_three,
      Real.cos_two_mul, Real.cos_three_mul]
    set u := 1 - Real.cos (angle N i) with hu
    have h1 : 0 ≤ u := sub_nonneg.2 (hcl _)
    have hcu : Real.cos (angle N i) = 1 - u := by rw [hu]; ring
    rw [hcu]
    nlinarith [mul_nonneg h1 h1, mul_nonneg (mul_nonneg h1 h1) h1]
  | blackmanNuttall =>
    refine ⟨?_, upper _ (by
      intro a ha
      simp only [List.mem_cons, List.not_mem_nil, or_false] at ha
      rcases ha with rfl | rfl | rfl | rfl <;> norm_num) (by simp only [List.sum_cons, List.sum_nil]; norm_num)⟩
    simp only [Window.value, cosineWindow]
    push_cast
    simp only [zero_mul, Real.cos_zero, zero_add, one_mul, one_add_one_eq_two, two_add_one_eq_three,
      Real.cos_two_mul, Real.cos_three_mul]
    set u := 1 - Real.cos (angle N i) with hu
    have h1 : 0 ≤ u := sub_nonneg.2 (hcl _)
    have hcu : Real.cos (angle N i) = 1 - u := by rw [hu]; ring
    rw [hcu]
    nlinarith [mul_nonneg h1 h1, mul_nonneg (mul_nonneg h1 h1) h1]
  | hamming =>
    refine ⟨?_, upper _ (by
      intro a ha
      simp only [List.mem_cons, List.not_mem_nil, or_false] at ha
      rcases ha with rfl | rfl <;> norm_num) (by simp only [List.sum_cons, List.sum_nil]; norm_num)⟩
    simp only [Window.value, cosineWindow]
    push_cast
    simp only [zero_mul, Real.cos_zero, zero_add, one_mul]
    norm_num
    linarith [hcl (angle N i)]
  | hanning => exact ⟨sq_nonneg _, by
      simp only [Window.value]
      exact Real.sin_sq_le_one _⟩
  | boxcar => exact ⟨zero_le_one, le_rfl⟩
  | rectangular => exact ⟨zero_le_one, le_rfl⟩
  | triangular =>
    have := centred_abs hN hi (base_pos hN).2
    simp only [Window.value]
    exact ⟨by linarith, by linarith [abs_nonneg (((i : ℝ) - ((N : ℝ) - 1) / 2) / ((triangularBase N : ℝ) / 2))]⟩
  | welch =>
    have := centred_abs hN hi le_rfl
    simp only [Window.value]
    have h2 := sq_le_sq' (by linarith [(abs_le.1 this).1]) (abs_le.1 this).2
    exact ⟨by linarith, by linarith [sq_nonneg (((i : ℝ) - ((N : ℝ) - 1) / 2) / (((N : ℝ) - 1) / 2))]⟩

example : 2 ≤ 64 ∧ 17 < 64 := by decide

/-- **C38 (centre).**  For odd N every window but `flattop` is 1 in the middle; `flattop` has the value 1.000000003 there,
which exceeds 1, and is negative at both ends. -/
theorem C38_centre (k : Window) (n : Nat) (hn : 1 ≤ n) :
    (k ≠ .flattop → k.value (2 * n + 1) n = 1) ∧
    (k = .flattop → k.value (2 * n + 1) n = 1.000000003 ∧ k.value (2 * n + 1) 0 < 0 ∧
      k.value (2 * n + 1) (2 * n) < 0) := by
  have hn0 : (n : ℝ) ≠ 0 := by exact_mod_cast (by omega : n ≠ 0)
  have ha : angle (2 * n + 1) n = Real.pi := by
    rw [angle]; push_cast; field_simp; ring
  have ha0 : angle (2 * n + 1) 0 = 0 := by simp [angle]
  have c2 : Real.cos (2 * Real.pi) = 1 := Real.cos_two_pi
  have c3 : Real.cos (3 * Real.pi) = -1 := by
    rw [show 3 * Real.pi = Real.pi + 2 * Real.pi by ring, Real.cos_add_two_pi, Real.cos_pi]
  have c4 : Real.cos (4 * Real.pi) = 1 := by
    rw [show 4 * Real.pi = 2 * Real.pi + 2 * Real.pi by ring, Real.cos_add_two_pi, Real.cos_two_pi]
  have h4 : (3 : ℝ) + 1 = 4 := by norm_num
  constructor
  · intro hk
    cases k with
    | flattop => exact absurd rfl hk
    | bartlett =>
      have : 2 * (n : ℝ) / (((2 * n + 1 : Nat) : ℝ) - 1) - 1 = 0 := by push_cast; field_simp; ring
      rw [Window.value, this]; simp
    | hanning => rw [Window.value, ha, Real.sin_pi_div_two]; norm_num
    | boxcar => rfl
    | rectangular => rfl
    | triangular =>
      have : (n : ℝ) - (((2 * n + 1 : Nat) : ℝ) - 1) / 2 = 0 := by push_cast; ring
      rw [Window.value, this]; simp
    | welch =>
      have : (n : ℝ) - (((2 * n + 1 : Nat) : ℝ) - 1) / 2 = 0 := by push_cast; ring
      rw [Window.value, this]; simp
    | _ =>
      simp only [Window.value, cosineWindow, ha]
      push_cast
      simp only [zero_mul, Real.cos_zero, zero_add, one_mul, one_add_one_eq_two, two_add_one_eq_three, Real.cos_pi,
        c2, c3]
      norm_num
  · rintro rfl
    have hend : Window.flattop.value (2 * n + 1) 0 < 0 := by
      simp only [Window.value, cosineWindow, ha0, mul_zero, Real.cos_zero]
      norm_num
    refine ⟨?_, hend, ?_⟩
    · simp only [Window.value, cosineWindow, ha]
      push_cast
      simp only [zero_mul, Real.cos_zero, zero_add, one_mul, one_add_one_eq_two, two_add_one_eq_three, h4, Real.cos_pi,
        c2, c3, c4]
      norm_num
    · have := C38_symmetric .flattop (N := 2 * n + 1) (i := 0) (by omega) (by omega)
      rw [show 2 * n + 1 - 1 - 0 = 2 * n by omega] at this
      rw [this]
      exact hend

example : 1 ≤ 3 := by decide

end Edsp.C38
