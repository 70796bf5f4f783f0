import Verif.Lemmas.RoundedMoving
import Mathlib.Data.List.GetD
import Mathlib.Tactic.Linarith

/-!
# C92: the moving average and the moving root mean square in floating point arithmetic

`p` is the number of significant bits, `rnd p` rounds to nearest even (Spec/Float.lean).  The values a filter should
return are those of `window` and `mean` (Spec/Moving.lean).
-/

namespace Edsp.Rounded

open Edsp.Spec Edsp.FloatL

theorem new_ok {n : ℕ} (hn : n < 2 ^ 63) : ∃ w : RingBuffer ℝ, MovingAverage.new n = .ok ⟨w, 0⟩ ∧
    MovingRms.new n = .ok ⟨w, 0⟩ ∧ RingBuffer.Refines w { cap := n, items := window n [] } := by
  obtain ⟨w, hw, hr⟩ := RingBuffer.newFilled_refines (0 : ℝ) hn 0
  refine ⟨w, ?_, ?_, ?_⟩
  · simp [MovingAverage.new, hw, bind, Except.bind, pure, Except.pure]
  · simp [MovingRms.new, hw, bind, Except.bind, pure, Except.pure]
  · rw [Moving.window_nil]; exact hr

/-- **C92**, exact sums: samples that are integer multiples of a unit 2^k, of at most `M` units, in a window of `n` with
`n * M ≤ 2^p` (16 bit samples in `float`: windows up to 512), however long the signal: every value is the rounded mean of
the last `n` samples.
Missing: samples of different magnitudes, for which errors add up (`C92_average_violates`). -/
theorem C92_exact_partial {p n M : ℕ} (hp : 1 ≤ p) (h0 : 0 < n) (hn : n < 2 ^ 63) {k : ℤ} (hM : n * M ≤ 2 ^ p)
    (hM1 : 1 ≤ M) (xs : List ℝ) (hx : ∀ x ∈ xs, Grid k M x) :
    ∃ m m' ys, MovingAverage.new n = .ok m ∧ averageRun p m xs = .ok (m', ys) ∧ ys.length = xs.length ∧
      ∀ i < xs.length, ys.getD i 0 = rnd p (mean (window n (xs.take (i + 1)))) := by
  obtain ⟨w, hw, _, hr⟩ := new_ok hn
  obtain ⟨m', hm⟩ := averageRun_eq p h0 xs ⟨w, 0⟩ [] hr
  refine ⟨_, m', _, hw, hm, by simp [sums_length], fun i hi => ?_⟩
  have hl : i < (sums p n [] 0 xs).length := by rw [sums_length]; exact hi
  rw [List.getD_eq_getElem _ _ (by simpa using hl), List.getElem_map, sums_get]
  have hz : (window n ([] : List ℝ)).sum = 0 := by simp [Moving.window_nil]
  have e := accs_exact hp h0 hM (xs.take (i + 1)) [] (by simp) (fun x hx' => hx x (List.mem_of_mem_take hx'))
  rw [hz, List.nil_append] at e
  have hnp : rnd p (n : ℝ) = n := by
    have : (n : ℤ) ≤ 2 ^ p := by
      have : n ≤ n * M := Nat.le_mul_of_pos_right n hM1
      exact_mod_cast this.trans hM
    exact_mod_cast rnd_int hp (m := (n : ℤ)) (by simpa using this)
  rw [e, hnp, mean, Moving.window_length]

/-- **C92**, every sequence of samples of at most `B`: value number `i` differs from the mean of the last `n` samples by
at most `((1 + 2^-p)^(2 i + 3) - 1) B`.
Missing: a bound that does not grow with the length of the signal, which does not exist (`C92_average_violates`: a
deviation is never lost again). -/
theorem C92_error_partial {p n : ℕ} (hp : 1 ≤ p) (h0 : 0 < n) (hn : n < 2 ^ 63) (hnp : n ≤ 2 ^ p) {B : ℝ} (xs : List ℝ)
    (hx : ∀ x ∈ xs, |x| ≤ B) :
    ∃ m m' ys, MovingAverage.new n = .ok m ∧ averageRun p m xs = .ok (m', ys) ∧ ys.length = xs.length ∧
      ∀ i < xs.length, |ys.getD i 0 - mean (window n (xs.take (i + 1)))|
        ≤ ((1 + (2 : ℝ) ^ (-(p : ℤ))) ^ (2 * i + 3) - 1) * B := by
  obtain ⟨w, hw, _, hr⟩ := new_ok hn
  obtain ⟨m', hm⟩ := averageRun_eq p h0 xs ⟨w, 0⟩ [] hr
  refine ⟨_, m', _, hw, hm, by simp [sums_length], fun i hi => ?_⟩
  have hB : 0 ≤ B := (abs_nonneg _).trans (hx (xs[i]) (List.getElem_mem hi))
  have hl : i < (sums p n [] 0 xs).length := by rw [sums_length]; exact hi
  rw [List.getD_eq_getElem _ _ (by simpa using hl), List.getElem_map, sums_get]
  have hz : (window n ([] : List ℝ)).sum = 0 := by simp [Moving.window_nil]
  have hxt : ∀ x ∈ xs.take (i + 1), |x| ≤ B := fun x hx' => hx x (List.mem_of_mem_take hx')
  have e := accs_err (p := p) h0 hB (xs.take (i + 1)) [] 0 0 (by simp) hxt (by rw [hz]; simp)
  rw [List.nil_append, List.length_take, Nat.min_eq_left (by omega), zero_add] at e
  have hnp' : rnd p (n : ℝ) = n := by
    have : (n : ℤ) ≤ 2 ^ p := by exact_mod_cast hnp
    exact_mod_cast rnd_int hp (m := (n : ℤ)) (by simpa using this)
  have hn0 : (0 : ℝ) < n := by exact_mod_cast h0
  set a := accs p n [] 0 (xs.take (i + 1))
  set S := (window n (xs.take (i + 1))).sum with hS
  have hSB : |S / n| ≤ B := by
    have := abs_sum_le (B := B) _ (window_abs (n := n) hB hxt)
    rw [Moving.window_length] at this
    rw [abs_div, abs_of_pos hn0, div_le_iff₀ hn0, mul_comm]
    exact this
  have hd : |a / n - S / n| ≤ |a - S| / n := by
    rw [← sub_div, abs_div, abs_of_pos hn0]
  have s := rnd_near (p := p) hSB hd
  rw [hnp', mean, Moving.window_length, ← hS]
  have hu := two_zpow_pos (-(p : ℤ))
  have e' : |a - S| / n + B ≤ (1 + (2 : ℝ) ^ (-(p : ℤ))) ^ (2 * (i + 1)) * B := by
    have : |a - S| / n + B = (|a - S| + n * B) / n := by field_simp
    rw [this, div_le_iff₀ hn0]
    linarith
  have s' := mul_le_mul_of_nonneg_left e' (by positivity : (0 : ℝ) ≤ 1 + (2 : ℝ) ^ (-(p : ℤ)))
  have s'' : (1 + (2 : ℝ) ^ (-(p : ℤ))) * ((1 + (2 : ℝ) ^ (-(p : ℤ))) ^ (2 * (i + 1)) * B)
      = (1 + (2 : ℝ) ^ (-(p : ℤ))) ^ (2 * i + 3) * B := by
    rw [show 2 * i + 3 = 2 * (i + 1) + 1 by ring, pow_succ]
    ring
  linarith

/-- The running sum after 1, a small `s` and at least `n` zeros: it is `-s`. -/
theorem accs_lost {p n : ℕ} (hp : 1 ≤ p) (hn : 2 ≤ n) {s : ℝ} (hs : IsFloat p s) (h0 : 0 < s)
    (h1 : s < 2 ^ (-(p : ℤ))) (j : ℕ) : accs p n [] 0 (1 :: s :: List.replicate (n + j) 0) = -s := by
  have r1 : rnd p 1 = 1 := by
    have := rnd_int hp (m := 1) (by rw [abs_one]; exact one_le_pow₀ (by norm_num))
    simpa using this
  have f1 : IsFloat p 1 := by
    refine ⟨1, 0, ?_, by simp⟩
    rw [abs_one]
    exact one_lt_pow₀ (by norm_num) (by omega)
  have rs : rnd p (-s) = -s := by rw [rnd_neg, rnd_float hs]
  have g0 : (window n ([] : List ℝ)).headD 0 = 0 := by
    have := head_zeros (n := n) (j := 0) (l := []) (by simp; omega)
    simpa using this
  have g1 : (window n ([1] : List ℝ)).headD 0 = 0 := by
    have := head_zeros (n := n) (j := 0) (l := [1]) (by simp; omega)
    simpa using this
  have a1 : accStep p n [] 0 1 = 1 := by
    unfold accStep
    rw [g0, sub_zero, rnd_zero, zero_add, r1]
  have a2 : accStep p n [1] 1 s = 1 := by
    unfold accStep
    rw [g1, sub_zero, r1]
    exact rnd_absorb (e := 0) f1 (by simp) (by norm_num) h0.le (by simpa using h1)
  have hj : n + j = (n - 2) + (2 + j) := by omega
  rw [hj, ← List.replicate_append_replicate]
  show accs p n ([] ++ [1] ++ [s]) (accStep p n ([] ++ [1]) (accStep p n [] 0 1) s) _ = -s
  rw [a1, List.nil_append, a2, accs_append, accs_zeros r1]
  swap
  · intro i hi
    exact head_zeros (l := [1, s]) (by simp; omega)
  rw [show 2 + j = j + 1 + 1 by ring, List.replicate_succ, List.replicate_succ]
  simp only [accs]
  set h := [1] ++ [s] ++ List.replicate (n - 2) (0 : ℝ) with hh
  have hlen : h.length = n := by simp [hh]; omega
  have b1 : accStep p n h 1 0 = 0 := by
    unfold accStep
    rw [head_drop n h (by omega), hlen, Nat.sub_self]
    have : h.getD 0 0 = 1 := by simp [hh]
    rw [this, sub_self, rnd_zero, add_zero, rnd_zero]
  have b2 : accStep p n (h ++ [0]) 0 0 = -s := by
    unfold accStep
    rw [head_drop n _ (by simp [hlen]), List.length_append, hlen]
    have : (h ++ [0]).getD (n + [(0 : ℝ)].length - n) 0 = s := by simp [hh]
    rw [this, zero_sub, rs, add_zero, rs]
  rw [b1, b2]
  refine accs_zeros rs j _ fun i hi => ?_
  rw [head_drop n _ (by simp [hlen])]
  have e : h ++ [0] ++ [0] ++ List.replicate i (0 : ℝ) = 1 :: s :: List.replicate (n - 2 + 2 + i) 0 := by
    rw [hh]
    simp only [List.cons_append, List.nil_append, List.append_assoc, List.cons.injEq, true_and]
    rw [← List.replicate_succ, ← List.replicate_succ, List.replicate_append_replicate]
    congr 1
    omega
  rw [e]
  have e2 : (1 :: s :: List.replicate (n - 2 + 2 + i) (0 : ℝ)).length - n = i + 2 := by
    simp only [List.length_cons, List.length_replicate]
    omega
  rw [e2]
  simp only [List.getD_cons_succ]
  rw [List.getD_eq_getElem _ _ (by simp), List.getElem_replicate]

theorem take_tail {s : ℝ} {n k i : ℕ} (h1 : n + 1 ≤ i) (h2 : i < n + k + 2) :
    (1 :: s :: List.replicate (n + k) (0 : ℝ)).take (i + 1) = 1 :: s :: List.replicate (n + (i - n - 1)) 0 := by
  obtain ⟨c, rfl⟩ : ∃ c, i = n + 1 + c := ⟨i - n - 1, by omega⟩
  rw [show n + 1 + c + 1 = (n + c) + 1 + 1 by ring, List.take_succ_cons, List.take_succ_cons, List.take_replicate]
  congr 3
  omega

theorem rnd_size_pos {p n : ℕ} (hp : 1 ≤ p) (hn : 2 ≤ n) : 0 < rnd p (n : ℝ) :=
  rnd_pos hp (by have : (2 : ℝ) ≤ n := by exact_mod_cast hn
                 linarith)

theorem quotient_neg {p n : ℕ} (hp : 1 ≤ p) (hn : 2 ≤ n) {s : ℝ} (h0 : 0 < s) : rnd p (-s / rnd p (n : ℝ)) < 0 := by
  have h := rnd_pos hp (div_pos h0 (rnd_size_pos hp hn))
  rw [neg_div, rnd_neg]
  linarith

/-- **C92 is violated**: after the samples 1 and `s` (any number with less than half a unit in the last place of 1) and
at least `n` zeros, the moving average is negative, and stays so for ever, although no sample was: what is lost when
`s` is added to 1 is missing when `s` is subtracted. -/
theorem C92_average_violates {p n : ℕ} (hp : 1 ≤ p) (hn : 2 ≤ n) (h63 : n < 2 ^ 63) {s : ℝ} (hs : IsFloat p s)
    (h0 : 0 < s) (h1 : s < 2 ^ (-(p : ℤ))) (k : ℕ) :
    ∃ m m' ys, MovingAverage.new n = .ok m ∧
      averageRun p m (1 :: s :: List.replicate (n + k) 0) = .ok (m', ys) ∧ ys.length = n + k + 2 ∧
      ∀ i, n + 1 ≤ i → i < n + k + 2 → ys.getD i 0 = rnd p (-s / rnd p (n : ℝ)) ∧ ys.getD i 0 < 0 ∧
        mean (window n ((1 :: s :: List.replicate (n + k) 0).take (i + 1))) = 0 := by
  obtain ⟨w, hw, _, hr⟩ := new_ok h63
  obtain ⟨m', hm⟩ := averageRun_eq p (by omega : 0 < n) (1 :: s :: List.replicate (n + k) 0) ⟨w, 0⟩ [] hr
  refine ⟨_, m', _, hw, hm, by simp [sums_length], fun i hi hi2 => ?_⟩
  have hl : i < (sums p n [] 0 (1 :: s :: List.replicate (n + k) 0)).length := by
    rw [sums_length]; simp; omega
  have e : ((sums p n [] (⟨w, 0⟩ : MovingAverage ℝ).accumulated (1 :: s :: List.replicate (n + k) 0)).map
      fun a => rnd p (a / rnd p (n : ℝ))).getD i 0 = rnd p (-s / rnd p (n : ℝ)) := by
    rw [List.getD_eq_getElem _ _ (by simpa using hl), List.getElem_map, sums_get, take_tail hi hi2,
      accs_lost hp hn hs h0 h1]
  refine ⟨e, by rw [e]; exact quotient_neg hp hn h0, ?_⟩
  rw [take_tail hi hi2, mean]
  have : (window n (1 :: s :: List.replicate (n + (i - n - 1)) 0)).sum = 0 := by
    rw [Moving.window_eq, List.drop_append, List.length_replicate,
      List.drop_eq_nil_of_le (by simp; omega), List.nil_append]
    have e2 : (1 :: s :: List.replicate (n + (i - n - 1)) (0 : ℝ)).length - n = i - n + 1 := by
      simp only [List.length_cons, List.length_replicate]
      omega
    rw [e2]
    obtain ⟨c, hc⟩ : ∃ c, i - n = c + 1 := ⟨i - n - 1, by omega⟩
    rw [hc, List.drop_succ_cons, List.drop_succ_cons, List.drop_replicate, List.sum_replicate]
    simp
  rw [this, zero_div]

/-- **C92 is violated**: the moving root mean square of 1, a small `b` and at least `n` zeros is not a number, for ever. -/
theorem C92_rms_violates {p n : ℕ} (hp : 1 ≤ p) (hn : 2 ≤ n) (h63 : n < 2 ^ 63) {b : ℝ}
    (h0 : b ≠ 0) (h1 : rnd p (b * b) < 2 ^ (-(p : ℤ))) (k : ℕ) :
    ∃ m m' ys, MovingRms.new n = .ok m ∧
      rmsRun p m (1 :: b :: List.replicate (n + k) 0) = .ok (m', ys) ∧ ys.length = n + k + 2 ∧
      ∀ i, n + 1 ≤ i → i < n + k + 2 → ys.getD i (some 0) = none := by
  obtain ⟨w, _, hw, hr⟩ := new_ok h63
  obtain ⟨m', hm⟩ := rmsRun_eq p (by omega : 0 < n) (1 :: b :: List.replicate (n + k) 0) ⟨w, 0⟩ [] hr
  refine ⟨_, m', _, hw, hm, by simp [sums_length], fun i hi hi2 => ?_⟩
  have r1 : rnd p 1 = 1 := by
    have := rnd_int hp (m := 1) (by rw [abs_one]; exact one_le_pow₀ (by norm_num))
    simpa using this
  have hb : 0 < rnd p (b * b) := rnd_pos hp (mul_self_pos.mpr h0)
  have em : (1 :: b :: List.replicate (n + k) 0).map (fun x : ℝ => rnd p (x * x))
      = 1 :: rnd p (b * b) :: List.replicate (n + k) 0 := by
    simp [rnd_zero, r1]
  rw [em]
  have hl : i < (sums p n [] 0 (1 :: rnd p (b * b) :: List.replicate (n + k) 0)).length := by
    rw [sums_length]; simp; omega
  rw [List.getD_eq_getElem _ _ (by simpa using hl), List.getElem_map, sums_get, take_tail hi hi2,
    accs_lost hp hn (isFloat_rnd hp _) hb h1]
  unfold sqrt
  rw [if_pos (quotient_neg hp hn hb)]

/-- **C92**, the root mean square for samples of `M` levels with `n * M^2 ≤ 2^p`: the rounded root of the rounded mean of
the squares of the last `n` samples, never NaN.  Missing: other samples (`C92_rms_violates`). -/
theorem C92_rms_partial {p n M : ℕ} (hp : 1 ≤ p) (h0 : 0 < n) (hn : n < 2 ^ 63) {k : ℤ} (hM : n * (M * M) ≤ 2 ^ p)
    (hM1 : 1 ≤ M) (xs : List ℝ) (hx : ∀ x ∈ xs, Grid k M x) :
    ∃ m m' ys, MovingRms.new n = .ok m ∧ rmsRun p m xs = .ok (m', ys) ∧ ys.length = xs.length ∧
      ∀ i < xs.length, ys.getD i none
        = some (rnd p (Real.sqrt (rnd p (mean ((window n (xs.take (i + 1))).map fun x => x ^ 2))))) := by
  have hsq : ∀ x, Grid k M x → Grid (2 * k) (M * M) (x * x) := by
    rintro x ⟨z, hz, rfl⟩
    refine ⟨z * z, ?_, ?_⟩
    · rw [abs_mul]
      push_cast
      exact mul_le_mul hz hz (abs_nonneg _) (by positivity)
    · rw [two_mul, zpow_add₀ (by norm_num : (2 : ℝ) ≠ 0)]
      push_cast
      ring
  have hMM : M * M ≤ 2 ^ p := le_trans (Nat.le_mul_of_pos_left _ h0) hM
  have em : ∀ l : List ℝ, (∀ x ∈ l, Grid k M x) →
      l.map (fun x : ℝ => rnd p (x * x)) = l.map fun x => x * x := by
    intro l hl
    apply List.map_congr_left
    intro x hx'
    exact grid_rnd hp hMM (hsq x (hl x hx'))
  obtain ⟨w, _, hw, hr⟩ := new_ok hn
  obtain ⟨m', hm⟩ := rmsRun_eq p h0 xs ⟨w, 0⟩ [] hr
  rw [em xs hx] at hm
  refine ⟨_, m', _, hw, hm, by simp [sums_length], fun i hi => ?_⟩
  have hl : i < (sums p n [] 0 (xs.map fun x => x * x)).length := by rw [sums_length]; simpa using hi
  rw [List.getD_eq_getElem _ _ (by simpa using hl), List.getElem_map, sums_get]
  have hz : (window n ([] : List ℝ)).sum = 0 := by simp [Moving.window_nil]
  have hg : ∀ x ∈ (xs.map fun x => x * x).take (i + 1), Grid (2 * k) (M * M) x := by
    intro x hx'
    obtain ⟨y, hy, rfl⟩ := List.mem_map.mp (List.mem_of_mem_take hx')
    exact hsq y (hx y hy)
  have e := accs_exact hp h0 hM ((xs.map fun x => x * x).take (i + 1)) [] (by simp) hg
  rw [hz, List.nil_append] at e
  have hnp : rnd p (n : ℝ) = n := by
    have : (n : ℤ) ≤ 2 ^ p := by
      have : n ≤ n * (M * M) := Nat.le_mul_of_pos_right n (Nat.mul_pos hM1 hM1)
      exact_mod_cast this.trans hM
    exact_mod_cast rnd_int hp (m := (n : ℤ)) (by simpa using this)
  have ew : window n ((xs.map fun x => x * x).take (i + 1)) = (window n (xs.take (i + 1))).map fun x => x ^ 2 := by
    rw [← List.map_take, Moving.window_map (fun x => x * x) (by simp)]
    apply List.map_congr_left
    intro x _
    ring
  rw [e, ew, hnp, mean, List.length_map, Moving.window_length]
  have hnn : 0 ≤ ((window n (xs.take (i + 1))).map fun x => x ^ 2).sum := by
    apply List.sum_nonneg
    intro a ha
    obtain ⟨y, _, rfl⟩ := List.mem_map.mp ha
    positivity
  have : 0 ≤ rnd p (((window n (xs.take (i + 1))).map fun x => x ^ 2).sum / n) := by
    have := rnd_mono hp (div_nonneg hnn (Nat.cast_nonneg n))
    rwa [rnd_zero] at this
  unfold sqrt
  rw [if_neg (by linarith)]

/-- **C92**, when the root mean square is a number: samples of at most `B`, and the energy of the last `n` samples is not
less than the error that may have accumulated so far. -/
theorem C92_rms_number_partial {p n : ℕ} (hp : 1 ≤ p) (h0 : 0 < n) (hn : n < 2 ^ 63) {B : ℝ} (xs : List ℝ)
    (hx : ∀ x ∈ xs, |x| ≤ B) :
    ∃ m m' ys, MovingRms.new n = .ok m ∧ rmsRun p m xs = .ok (m', ys) ∧ ys.length = xs.length ∧
      ∀ i < xs.length, ((1 + (2 : ℝ) ^ (-(p : ℤ))) ^ (2 * i + 2) - 1) * (n * ((1 + (2 : ℝ) ^ (-(p : ℤ))) * B ^ 2))
          ≤ (1 - (2 : ℝ) ^ (-(p : ℤ))) * ((window n (xs.take (i + 1))).map fun x => x ^ 2).sum →
        ys.getD i none ≠ none := by
  obtain ⟨w, _, hw, hr⟩ := new_ok hn
  obtain ⟨m', hm⟩ := rmsRun_eq p h0 xs ⟨w, 0⟩ [] hr
  refine ⟨_, m', _, hw, hm, by simp [sums_length], fun i hi hE => ?_⟩
  have hu := two_zpow_pos (-(p : ℤ))
  have hl : i < (sums p n [] 0 (xs.map fun x => rnd p (x * x))).length := by rw [sums_length]; simpa using hi
  rw [List.getD_eq_getElem _ _ (by simpa using hl), List.getElem_map, sums_get]
  have hz : (window n ([] : List ℝ)).sum = 0 := by simp [Moving.window_nil]
  have hsq : ∀ x : ℝ, |x| ≤ B → |rnd p (x * x)| ≤ (1 + (2 : ℝ) ^ (-(p : ℤ))) * B ^ 2 := by
    intro x hxB
    have h1 := rnd_err p (x * x)
    have h2 : |x * x| ≤ B ^ 2 := by
      rw [abs_mul, pow_two]
      exact mul_le_mul hxB hxB (abs_nonneg _) ((abs_nonneg _).trans hxB)
    have h3 : |rnd p (x * x)| ≤ |rnd p (x * x) - x * x| + |x * x| := by
      have := abs_add_le (rnd p (x * x) - x * x) (x * x)
      rwa [sub_add_cancel] at this
    have h4 := mul_le_mul_of_nonneg_left h2 hu.le
    linarith
  have hxt : ∀ x ∈ (xs.map fun x => rnd p (x * x)).take (i + 1), |x| ≤ (1 + (2 : ℝ) ^ (-(p : ℤ))) * B ^ 2 := by
    intro x hx'
    obtain ⟨y, hy, rfl⟩ := List.mem_map.mp (List.mem_of_mem_take hx')
    exact hsq y (hx y hy)
  have e := accs_err (p := p) h0 (by positivity) ((xs.map fun x => rnd p (x * x)).take (i + 1)) [] 0 0 (by simp) hxt
    (by rw [hz]; simp)
  rw [List.nil_append, List.length_take, List.length_map, Nat.min_eq_left (by omega), zero_add,
    show 2 * (i + 1) = 2 * i + 2 by ring] at e
  have ew : window n ((xs.map fun x => rnd p (x * x)).take (i + 1))
      = (window n (xs.take (i + 1))).map fun x => rnd p (x * x) := by
    rw [← List.map_take, Moving.window_map (fun x => rnd p (x * x)) (by simp [rnd_zero])]
  have low : ∀ l : List ℝ, (1 - (2 : ℝ) ^ (-(p : ℤ))) * (l.map fun x => x ^ 2).sum
      ≤ (l.map fun x => rnd p (x * x)).sum := by
    intro l
    induction l with
    | nil => simp
    | cons x l ih =>
      have h1 := abs_le.mp (rnd_err p (x * x))
      rw [abs_mul_self] at h1
      rw [List.map_cons, List.map_cons, List.sum_cons, List.sum_cons]
      have : x ^ 2 = x * x := by ring
      rw [this]
      linarith
  have hlow := low (window n (xs.take (i + 1)))
  rw [ew] at e
  set a := accs p n [] 0 ((xs.map fun x => rnd p (x * x)).take (i + 1)) with ha
  have hge : 0 ≤ a := by
    have := neg_abs_le (a - ((window n (xs.take (i + 1))).map fun x => rnd p (x * x)).sum)
    linarith
  have hq : 0 ≤ rnd p (a / rnd p (n : ℝ)) := by
    have h1 := rnd_mono hp (Nat.cast_nonneg (α := ℝ) n)
    rw [rnd_zero] at h1
    have := rnd_mono hp (div_nonneg hge h1)
    rwa [rnd_zero] at this
  unfold sqrt
  rw [if_neg (by linarith)]
  simp

/-- Samples of 16 bits in `float`, window of 100: the hypotheses of `C92_exact_partial`. -/
example : ∃ m m' ys, MovingAverage.new 100 = .ok m ∧ averageRun 24 m [1 / 2, -1, 3 / 32768] = .ok (m', ys) ∧
    ys.length = 3 ∧ ∀ i < 3, ys.getD i 0 = rnd 24 (mean (window 100 ([1 / 2, -1, 3 / 32768].take (i + 1)))) :=
  C92_exact_partial (p := 24) (k := -15) (M := 32768) (by norm_num) (by norm_num) (by norm_num) (by norm_num)
    (by norm_num) [1 / 2, -1, 3 / 32768] (by
      intro x hx
      simp only [List.mem_cons, List.not_mem_nil, or_false] at hx
      rcases hx with rfl | rfl | rfl
      · exact ⟨16384, by norm_num, by norm_num⟩
      · exact ⟨-32768, by norm_num, by norm_num⟩
      · exact ⟨3, by norm_num, by norm_num⟩)

/-- A click of 1 followed by 2^-13 (-78 dB) and silence, in `float`: the root mean square over 2 samples is NaN from the
fourth value on. -/
example : ∃ m m' ys, MovingRms.new 2 = .ok m ∧
    rmsRun 24 m (1 :: 2 ^ (-13 : ℤ) :: List.replicate (2 + 1000) 0) = .ok (m', ys) ∧ ys.length = 2 + 1000 + 2 ∧
    ∀ i, 2 + 1 ≤ i → i < 2 + 1000 + 2 → ys.getD i (some 0) = none := by
  refine C92_rms_violates (by norm_num) le_rfl (by norm_num) (by norm_num) ?_ 1000
  have : IsFloat 24 ((2 : ℝ) ^ (-13 : ℤ) * 2 ^ (-13 : ℤ)) := ⟨1, -26, by norm_num, by norm_num⟩
  rw [rnd_float this]
  norm_num

/-- The hypotheses of `C92_average_violates` in `float`. -/
example : IsFloat 24 ((2 : ℝ) ^ (-25 : ℤ)) ∧ (0 : ℝ) < 2 ^ (-25 : ℤ) ∧ (2 : ℝ) ^ (-25 : ℤ) < 2 ^ (-((24 : ℕ) : ℤ)) :=
  ⟨⟨1, -25, by norm_num, by norm_num⟩, by norm_num, by norm_num⟩

end Edsp.Rounded
