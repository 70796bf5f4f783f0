import Verif.Model.RoundedMoments
import Verif.Lemmas.RoundedFeatures
import Verif.Props.C94_RoundedSums
import Mathlib.Algebra.Order.Chebyshev

/-!
# C123: moments, RMS and difference functions in floating point arithmetic
-/

namespace Edsp.Rounded

open Finset Edsp.Spec Edsp.FloatL Edsp.Feature Edsp.AgreeL

/-! ### Powers and moments -/

theorem nthPower_agree {p : ℕ} (hp : 1 ≤ p) (d : ℝ) : ∀ k,
    Agree p (2 * k + 1) |nthPower p (rnd p d) k| (|d| ^ (k + 1))
  | 0 => by simpa [nthPower] using abs_rnd hp d
  | k + 1 => by
    have h1 := abs_rnd hp (nthPower p (rnd p d) k * rnd p d)
    have h2 := AgreeL.mul (abs_nonneg _) (pow_nonneg (abs_nonneg d) _) (abs_nonneg _) (abs_nonneg d)
      (nthPower_agree hp d k) (abs_rnd hp d)
    rw [← abs_mul, ← pow_succ] at h2
    have := AgreeL.trans h1 h2
    rwa [show 1 + (2 * k + 1 + 1) = 2 * (k + 1) + 1 by ring] at this

theorem sign_rnd {p : ℕ} (hp : 1 ≤ p) {a x : ℝ} (ha : 0 ≤ a) : 0 ≤ rnd p (rnd p (a * x) * x) := by
  refine rnd_nonneg hp ?_
  rcases le_total 0 x with hx | hx
  · exact mul_nonneg (rnd_nonneg hp (mul_nonneg ha hx)) hx
  · have h := rnd_mono hp (mul_nonpos_of_nonneg_of_nonpos ha hx)
    rw [rnd_zero] at h
    exact mul_nonneg_of_nonpos_of_nonpos h hx

/-- An even power is not negative. -/
theorem nthPower_even {p : ℕ} (hp : 1 ≤ p) (x : ℝ) : ∀ j, 0 ≤ nthPower p x (2 * j + 1)
  | 0 => by
    simp only [nthPower]
    exact rnd_nonneg hp (mul_self_nonneg x)
  | j + 1 => by
    rw [show 2 * (j + 1) + 1 = 2 * j + 1 + 1 + 1 by ring, nthPower, nthPower]
    exact sign_rnd hp (nthPower_even hp x j)

theorem foldl_accumulate {ι : Type} (p : ℕ) (f : ι → ℝ) (xs : List ι) (a : ℝ) :
    xs.foldl (fun s x => rnd p (s + f x)) a = accumulate p a (xs.map f) := by
  unfold accumulate
  rw [List.foldl_map]

theorem moment_eq (p N : ℕ) (xs : List ℝ) (m : ℝ) : moment p N xs m =
    quotient p (accumulate p 0 (xs.map fun x => nthPower p (rnd p (x - m)) (N - 1))) (rnd p (xs.length : ℝ)) := by
  unfold moment
  rw [foldl_accumulate]

/-- **C123**, even moments about any centre: not negative, and exact up to `n + 2 N + 1` roundings. -/
theorem C123_even_moment {p : ℕ} (hp : 1 ≤ p) {xs : List ℝ} (hl : xs ≠ []) (m : ℝ) {N : ℕ} (hN : Even N) (hN0 : N ≠ 0) :
    ∃ v, moment p N xs m = some v ∧ 0 ≤ v ∧
      Agree p (xs.length + 2 * N + 1) v ((xs.map fun x => (x - m) ^ N).sum / xs.length) := by
  obtain ⟨j, rfl⟩ : ∃ j, N = 2 * j + 2 := by
    obtain ⟨i, rfl⟩ := hN
    exact ⟨i - 1, by omega⟩
  have hn : (0 : ℝ) < xs.length := by exact_mod_cast List.length_pos_of_ne_nil hl
  have hc := rnd_agree hp hn.le
  have hc0 := rnd_pos hp hn
  set f : ℝ → ℝ := fun x => nthPower p (rnd p (x - m)) (2 * j + 1) with hf
  have hz : ∀ y ∈ xs.map f, 0 ≤ y := fun y hy => by
    obtain ⟨z, -, rfl⟩ := List.mem_map.mp hy
    exact nthPower_even hp _ j
  have hT : Agree p (2 * (2 * j + 1) + 1) (xs.map f).sum (xs.map fun x => (x - m) ^ (2 * j + 2)).sum := by
    rw [sum_eq, sum_eq]
    refine sum_agree _ fun i _ => ?_
    have h1 := nthPower_agree hp (at0 xs i - m) (2 * j + 1)
    rw [abs_of_nonneg (nthPower_even hp _ j), ← abs_pow, abs_of_nonneg (Even.pow_nonneg ⟨j + 1, by ring⟩ _)] at h1
    exact h1
  have hA := accumulate_agree hp (xs.map f) 0 le_rfl hz
  have hA0 := accumulate_ge hp (xs.map f) 0 le_rfl hz
  rw [zero_add, List.length_map] at hA
  have hS : 0 ≤ (xs.map fun x => (x - m) ^ (2 * j + 2)).sum := List.sum_nonneg fun y hy => by
    obtain ⟨z, -, rfl⟩ := List.mem_map.mp hy
    exact Even.pow_nonneg ⟨j + 1, by ring⟩ _
  have hq := div_nonneg hA0 hc0.le
  refine ⟨rnd p (accumulate p 0 (xs.map f) / rnd p xs.length), ?_, rnd_nonneg hp hq, ?_⟩
  · rw [moment_eq]
    exact quotient_some p hc0.ne'
  · have := rnd_step hp hq (AgreeL.div hA0 hS hc0 hn (AgreeL.trans hA hT) hc)
    rwa [show xs.length + (2 * (2 * j + 1) + 1) + 1 + 1 = xs.length + 2 * (2 * j + 2) + 1 by ring] at this

example : ∃ v, moment 53 4 [1, 2] 0 = some v ∧ Agree 53 11 v (17 / 2) := by
  obtain ⟨v, h, -, h1⟩ := C123_even_moment (p := 53) (by norm_num) (xs := [1, 2]) (by simp) 0 (N := 4) ⟨2, rfl⟩ (by norm_num)
  refine ⟨v, h, ?_⟩
  convert h1 using 1 <;> norm_num

/-! ### Kurtosis -/

theorem deviations {xs : List ℝ} {m : ℝ} (h : ∃ v ∈ xs, v ≠ m) :
    0 < (xs.map fun x => (x - m) ^ 2).sum ∧ 0 < (xs.map fun x => (x - m) ^ 4).sum := by
  obtain ⟨v, hv, hm⟩ := h
  have hd : v - m ≠ 0 := sub_ne_zero.mpr hm
  have key : ∀ N, Even N → 0 < (xs.map fun x => (x - m) ^ N).sum := by
    intro N hN
    have h1 := List.single_le_sum (l := xs.map fun x => (x - m) ^ N)
      (fun y hy => by obtain ⟨z, -, rfl⟩ := List.mem_map.mp hy; exact hN.pow_nonneg _) _ (List.mem_map_of_mem hv)
    exact lt_of_lt_of_le (hN.pow_pos hd) h1
  exact ⟨key 2 ⟨1, rfl⟩, key 4 ⟨2, rfl⟩⟩

/-- **C123**, kurtosis, where some element differs from the mean `m` that was computed: up to `3 n + 21` roundings the
quotient of the fourth and the squared second moment about `m`; so it is at least 1 and at most `n` up to these
roundings. -/
theorem C123_kurtosis {p : ℕ} (hp : 1 ≤ p) {xs : List ℝ} {m : ℝ} (hm : mean p xs = some m) (h : ∃ v ∈ xs, v ≠ m) :
    ∃ k, kurtosis p xs = some k ∧ 0 < k ∧
      Agree p (3 * xs.length + 21) k ((xs.map fun x => (x - m) ^ 4).sum / xs.length /
        ((xs.map fun x => (x - m) ^ 2).sum / xs.length) ^ 2) ∧
      1 ≤ k * (1 + (2 : ℝ) ^ (-(p : ℤ))) ^ (3 * xs.length + 21) ∧
      k ≤ xs.length * (1 + (2 : ℝ) ^ (-(p : ℤ))) ^ (3 * xs.length + 21) := by
  obtain ⟨d2, d4⟩ := deviations h
  have hl : xs ≠ [] := by
    obtain ⟨v, hv, -⟩ := h
    exact List.ne_nil_of_mem hv
  have hn : (0 : ℝ) < xs.length := by exact_mod_cast List.length_pos_of_ne_nil hl
  obtain ⟨m4, e4, m40, a4⟩ := C123_even_moment hp hl m (N := 4) ⟨2, rfl⟩ (by norm_num)
  obtain ⟨m2, e2, m20, a2⟩ := C123_even_moment hp hl m (N := 2) ⟨1, rfl⟩ (by norm_num)
  set D4 := (xs.map fun x => (x - m) ^ 4).sum with hD4
  set D2 := (xs.map fun x => (x - m) ^ 2).sum with hD2
  have v4 := div_pos d4 hn
  have v2 := div_pos d2 hn
  have p4 := agree_pos a4 v4
  have p2 := agree_pos a2 v2
  have a22 := rnd_step hp (mul_pos p2 p2).le (AgreeL.mul m20 v2.le m20 v2.le a2 a2)
  have p22 := agree_pos a22 (mul_pos v2 v2)
  have hA : Agree p (3 * xs.length + 21) (rnd p (m4 / rnd p (m2 * m2))) (D4 / xs.length / (D2 / xs.length) ^ 2) := by
    have := rnd_step hp (div_pos p4 p22).le (AgreeL.div m40 v4.le p22 (mul_pos v2 v2) a4 a22)
    rw [← pow_two (D2 / (xs.length : ℝ))] at this
    rwa [show xs.length + 2 * 4 + 1 + (xs.length + 2 * 2 + 1 + (xs.length + 2 * 2 + 1) + 1) + 1 =
      3 * xs.length + 21 by ring] at this
  have hE : D4 / xs.length / (D2 / xs.length) ^ 2 = xs.length * D4 / D2 ^ 2 := by
    field_simp
  have l1 : 1 ≤ D4 / xs.length / (D2 / xs.length) ^ 2 := by
    rw [hE, le_div_iff₀ (by positivity), one_mul]
    have := sq_sum_le_card_mul_sum_sq (s := range xs.length) (f := fun i => (at0 xs i - m) ^ 2)
    rw [card_range] at this
    rw [hD2, hD4, sum_eq, sum_eq]
    refine this.trans (le_of_eq ?_)
    congr 1
    exact sum_congr rfl fun i _ => by ring
  have l2 : D4 / xs.length / (D2 / xs.length) ^ 2 ≤ xs.length := by
    rw [hE, div_le_iff₀ (by positivity)]
    refine mul_le_mul_of_nonneg_left ?_ hn.le
    have : ∀ ys : List ℝ, (ys.map fun x => (x - m) ^ 4).sum ≤ (ys.map fun x => (x - m) ^ 2).sum ^ 2 ∧
        0 ≤ (ys.map fun x => (x - m) ^ 2).sum := by
      intro ys
      induction ys with
      | nil => simp
      | cons y ys ih =>
        obtain ⟨i1, i2⟩ := ih
        simp only [List.map_cons, List.sum_cons]
        have h2 := sq_nonneg (y - m)
        refine ⟨?_, by linarith⟩
        have := mul_nonneg h2 i2
        nlinarith
    exact (this xs).1
  refine ⟨_, ?_, rnd_pos hp (div_pos p4 p22), hA, l1.trans hA.2, hA.1.trans ?_⟩
  · unfold kurtosis
    rw [hm, Option.bind_some, e4, Option.bind_some, e2, Option.bind_some]
    exact quotient_some p p22.ne'
  · exact mul_le_mul_of_nonneg_right l2 (pow_pos' p _).le

/-! ### Skewness -/

/-- One more relative error of at most `u`. -/
theorem err_more {a a' b K T u : ℝ} (hu : 0 ≤ u) (hb : |b| ≤ T) (h : |a - b| ≤ (K - 1) * T) (h' : |a' - a| ≤ u * |a|) :
    |a' - b| ≤ (K * (1 + u) - 1) * T := by
  have h1 : |a| ≤ K * T := by
    have := abs_add_le (a - b) b
    rw [sub_add_cancel] at this
    linarith
  have h2 := abs_add_le (a' - a) (a - b)
  rw [sub_add_sub_cancel] at h2
  have h3 := mul_le_mul_of_nonneg_left h1 hu
  linarith

/-- Division by a number that agrees with another. -/
theorem div_more {p k : ℕ} (a : ℝ) {c d : ℝ} (hc : 0 < c) (hd : 0 < d) (h : Agree p k c d) :
    |a / c - a / d| ≤ (g p ^ k - 1) * |a / d| := by
  rw [AgreeL.iff] at h
  have e1 : a / c - a / d = a / d * ((d - c) / c) := by field_simp
  rw [e1, abs_mul, mul_comm]
  refine mul_le_mul_of_nonneg_right ?_ (abs_nonneg _)
  rw [abs_div, abs_of_pos hc, div_le_iff₀ hc, abs_le]
  have h1 := pow_ge p k
  constructor
  · have h2 : (g p ^ k - 1) * d ≤ (g p ^ k - 1) * (c * g p ^ k) :=
      mul_le_mul_of_nonneg_left h.2 (by linarith)
    rcases le_total d c with hdc | hdc
    · have h3 : (g p ^ k - 1) * d ≤ (g p ^ k - 1) * c := mul_le_mul_of_nonneg_left hdc (by linarith)
      linarith
    · have h3 : 0 ≤ (g p ^ k - 1) * c := mul_nonneg (by linarith) hc.le
      linarith
  · linarith

theorem nthPower_err {p : ℕ} (d : ℝ) : ∀ k,
    |nthPower p (rnd p d) k - d ^ (k + 1)| ≤ (g p ^ (2 * k + 1) - 1) * |d| ^ (k + 1)
  | 0 => by
    have := rnd_err p d
    simp only [nthPower, g, Nat.mul_zero, zero_add, pow_one]
    linarith
  | k + 1 => by
    have hu := two_zpow_pos (-(p : ℤ))
    have ih := nthPower_err (p := p) d k
    set a := nthPower p (rnd p d) k with ha
    have h1 : |a * d - d ^ (k + 1 + 1)| ≤ (g p ^ (2 * k + 1) - 1) * |d| ^ (k + 1 + 1) := by
      rw [pow_succ d (k + 1), ← sub_mul, abs_mul, pow_succ |d| (k + 1), ← mul_assoc]
      exact mul_le_mul_of_nonneg_right ih (abs_nonneg d)
    have h2 : |a * rnd p d - a * d| ≤ (2 : ℝ) ^ (-(p : ℤ)) * |a * d| := by
      rw [← mul_sub, abs_mul, abs_mul]
      have := mul_le_mul_of_nonneg_left (rnd_err p d) (abs_nonneg a)
      linarith
    have hb : |d ^ (k + 1 + 1)| ≤ |d| ^ (k + 1 + 1) := (abs_pow d _).le
    have h3 := err_more hu.le hb (err_more hu.le hb h1 h2) (rnd_err p (a * rnd p d))
    rw [nthPower, ← ha]
    refine h3.trans (le_of_eq ?_)
    rw [g]
    ring

/-- **C123**, moments of any order about any centre: the error is at most `(1 + 2^-p)^(n + 2 N + 1) - 1` of the mean of the
magnitudes summed. -/
theorem C123_moment {p : ℕ} (hp : 1 ≤ p) {xs : List ℝ} (hl : xs ≠ []) (m : ℝ) {N : ℕ} (hN0 : N ≠ 0) :
    ∃ v, moment p N xs m = some v ∧ |v - (xs.map fun x => (x - m) ^ N).sum / xs.length| ≤
      ((1 + (2 : ℝ) ^ (-(p : ℤ))) ^ (xs.length + 2 * N + 1) - 1) * ((xs.map fun x => |x - m| ^ N).sum / xs.length) := by
  obtain ⟨k, rfl⟩ : ∃ k, N = k + 1 := ⟨N - 1, by omega⟩
  have hu := two_zpow_pos (-(p : ℤ))
  have hn : (0 : ℝ) < xs.length := by exact_mod_cast List.length_pos_of_ne_nil hl
  have hc := rnd_agree hp hn.le
  have hc0 := rnd_pos hp hn
  set f : ℝ → ℝ := fun x => nthPower p (rnd p (x - m)) k with hf
  have h1 := accumulate_err p (xs.map f) 0 0 0 (by simp)
  simp only [sub_self, abs_zero, zero_add, List.length_map, List.map_map] at h1
  have hT : ∀ ys : List ℝ, |(ys.map f).sum - (ys.map fun x => (x - m) ^ (k + 1)).sum| ≤
      (g p ^ (2 * k + 1) - 1) * (ys.map fun x => |x - m| ^ (k + 1)).sum ∧
      (ys.map (abs ∘ f)).sum ≤ g p ^ (2 * k + 1) * (ys.map fun x => |x - m| ^ (k + 1)).sum ∧
      |(ys.map fun x => (x - m) ^ (k + 1)).sum| ≤ (ys.map fun x => |x - m| ^ (k + 1)).sum := by
    intro ys
    induction ys with
    | nil => simp
    | cons y ys ih =>
      obtain ⟨i1, i2, i3⟩ := ih
      have hw := nthPower_err (p := p) (y - m) k
      change |f y - _| ≤ _ at hw
      have hab : |(y - m) ^ (k + 1)| = |y - m| ^ (k + 1) := abs_pow _ _
      simp only [List.map_cons, List.sum_cons, Function.comp_apply]
      refine ⟨?_, ?_, ?_⟩
      · have := abs_add_le (f y - (y - m) ^ (k + 1)) ((ys.map f).sum - (ys.map fun x => (x - m) ^ (k + 1)).sum)
        rw [show f y + (ys.map f).sum - ((y - m) ^ (k + 1) + (ys.map fun x => (x - m) ^ (k + 1)).sum) =
          f y - (y - m) ^ (k + 1) + ((ys.map f).sum - (ys.map fun x => (x - m) ^ (k + 1)).sum) by ring]
        linarith
      · have := abs_add_le (f y - (y - m) ^ (k + 1)) ((y - m) ^ (k + 1))
        rw [sub_add_cancel, hab] at this
        linarith
      · have := abs_add_le ((y - m) ^ (k + 1)) (ys.map fun x => (x - m) ^ (k + 1)).sum
        linarith
  obtain ⟨t1, t2, t3⟩ := hT xs
  set T := (xs.map fun x => |x - m| ^ (k + 1)).sum with hTd
  set S := (xs.map fun x => (x - m) ^ (k + 1)).sum
  have hT0 : 0 ≤ T := (abs_nonneg _).trans t3
  have hg := pow_ge p xs.length
  change _ ≤ g p ^ _ * _ at h1
  have hA : |accumulate p 0 (xs.map f) - S| ≤ (g p ^ (2 * k + 1) * g p ^ xs.length - 1) * T := by
    have h2 := abs_add_le (accumulate p 0 (xs.map f) - (xs.map f).sum) ((xs.map f).sum - S)
    rw [sub_add_sub_cancel] at h2
    have h3 := mul_le_mul_of_nonneg_left t2 (sub_nonneg.mpr hg)
    linarith
  have hA' : |accumulate p 0 (xs.map f) / xs.length - S / xs.length| ≤
      (g p ^ (2 * k + 1) * g p ^ xs.length - 1) * (T / xs.length) := by
    rw [← sub_div, abs_div, abs_of_pos hn, ← mul_div_assoc]
    gcongr
  have hS' : |S / xs.length| ≤ T / xs.length := by
    rw [abs_div, abs_of_pos hn]
    gcongr
  have hq := div_more (accumulate p 0 (xs.map f)) hc0 hn hc
  rw [pow_one] at hq
  have s1 := err_more (by have := g_ge p; linarith) hS' hA' hq
  have s2 := err_more hu.le hS' s1 (rnd_err p _)
  refine ⟨_, by rw [moment_eq]; exact quotient_some p hc0.ne', s2.trans (le_of_eq ?_)⟩
  congr 2
  rw [g]
  ring

example : ∃ v, moment 53 3 [1, -2] 0 = some v ∧ v < 0 := by
  obtain ⟨v, h, h1⟩ := C123_moment (p := 53) (by norm_num) (xs := [1, -2]) (by simp) 0 (N := 3) (by norm_num)
  refine ⟨v, h, ?_⟩
  have := (abs_le.mp h1).2
  norm_num at this
  linarith

/-- **C123**, skewness, where some element differs from the mean `m` that was computed: the error against the third moment
about `m` over the third power of the deviation is at most `(1 + 2^-p)^(2 n + n / 2 + 18) - 1` times the same quotient with
magnitudes. -/
theorem C123_skewness {p : ℕ} (hp : 1 ≤ p) {xs : List ℝ} {m : ℝ} (hm : mean p xs = some m) (h : ∃ v ∈ xs, v ≠ m)
    {V : ℝ} (hV : V = (xs.map fun x => (x - m) ^ 2).sum / xs.length) :
    ∃ s, skewness p xs = some s ∧
      |s - (xs.map fun x => (x - m) ^ 3).sum / xs.length / (V * Real.sqrt V)| ≤
        ((1 + (2 : ℝ) ^ (-(p : ℤ))) ^ (2 * xs.length + xs.length / 2 + 18) - 1) *
          ((xs.map fun x => |x - m| ^ 3).sum / xs.length / (V * Real.sqrt V)) := by
  obtain ⟨d2, -⟩ := deviations h
  have hu := two_zpow_pos (-(p : ℤ))
  have hl : xs ≠ [] := by
    obtain ⟨v, hv, -⟩ := h
    exact List.ne_nil_of_mem hv
  have hn : (0 : ℝ) < xs.length := by exact_mod_cast List.length_pos_of_ne_nil hl
  obtain ⟨m3, e3, a3⟩ := C123_moment hp hl m (N := 3) (by norm_num)
  obtain ⟨m2, e2, m20, a2⟩ := C123_even_moment hp hl m (N := 2) ⟨1, rfl⟩ (by norm_num)
  rw [← hV] at a2
  have v2 : 0 < V := by rw [hV]; exact div_pos d2 hn
  have p2 := agree_pos a2 v2
  set n := xs.length with hnd
  have ar : Agree p (n / 2 + 4) (rnd p (Real.sqrt m2)) (Real.sqrt V) :=
    rnd_step hp (Real.sqrt_nonneg _) (AgreeL.sqrt (AgreeL.mono m20 v2.le (show n + 2 * 2 + 1 ≤ 2 * (n / 2 + 3) by omega) a2))
  have vr := Real.sqrt_pos.mpr v2
  have pr := agree_pos ar vr
  have ad := rnd_step hp (mul_pos p2 pr).le (AgreeL.mul m20 v2.le pr.le vr.le a2 ar)
  have vd := mul_pos v2 vr
  have pd := agree_pos ad vd
  set W := V * Real.sqrt V
  set S := (xs.map fun x => (x - m) ^ 3).sum / (n : ℝ)
  set T := (xs.map fun x => |x - m| ^ 3).sum / (n : ℝ)
  have hST : |S| ≤ T := by
    have : ∀ ys : List ℝ, |(ys.map fun x => (x - m) ^ 3).sum| ≤ (ys.map fun x => |x - m| ^ 3).sum := by
      intro ys
      induction ys with
      | nil => simp
      | cons y ys ih =>
        simp only [List.map_cons, List.sum_cons]
        have := abs_add_le ((y - m) ^ 3) (ys.map fun x => (x - m) ^ 3).sum
        rw [abs_pow] at this
        linarith
    rw [abs_div, abs_of_pos hn]
    exact div_le_div_of_nonneg_right (this xs) hn.le
  have b1 : |S / W| ≤ T / W := by
    rw [abs_div, abs_of_pos vd]
    exact div_le_div_of_nonneg_right hST vd.le
  have b2 : |m3 / W - S / W| ≤ (g p ^ (n + 2 * 3 + 1) - 1) * (T / W) := by
    rw [← sub_div, abs_div, abs_of_pos vd, ← mul_div_assoc]
    exact div_le_div_of_nonneg_right a3 vd.le
  have hq := div_more m3 pd vd ad
  have s1 := err_more (by have := pow_ge p (n + 2 * 2 + 1 + (n / 2 + 4) + 1); linarith) b1 b2 hq
  have s2 := err_more hu.le b1 s1 (rnd_err p _)
  refine ⟨rnd p (m3 / rnd p (m2 * rnd p (Real.sqrt m2))), ?_, s2.trans (le_of_eq ?_)⟩
  · unfold skewness
    rw [hm, Option.bind_some, e3, Option.bind_some, e2, Option.bind_some, root, if_neg (not_lt.mpr m20),
      Option.bind_some]
    exact quotient_some p pd.ne'
  · congr 2
    rw [show g p ^ (n + 2 * 3 + 1) * (1 + (g p ^ (n + 2 * 2 + 1 + (n / 2 + 4) + 1) - 1)) *
      (1 + (2 : ℝ) ^ (-(p : ℤ))) = g p ^ (n + 2 * 3 + 1) * g p ^ (n + 2 * 2 + 1 + (n / 2 + 4) + 1) * g p by rw [g]; ring,
      ← pow_add, ← pow_succ]
    rw [g]
    congr 1
    ring

/-- **C123 is violated** by constant signals: three equal samples can have a skewness and a kurtosis of 1, because their
computed mean differs from them. -/
theorem C123_constant_violates {p : ℕ} (hp : 3 ≤ p) :
    ∃ x, IsFloat p x ∧ 0 < x ∧ skewness p [x, x, x] = some 1 ∧ kurtosis p [x, x, x] = some 1 := by
  have h8 : (8 : ℝ) ≤ 2 ^ p := by
    calc (8 : ℝ) = 2 ^ 3 := by norm_num
      _ ≤ 2 ^ p := pow_le_pow_right₀ (by norm_num) hp
  have h8n : 8 ≤ 2 ^ p := by exact_mod_cast h8
  have r1 : rnd p 1 = 1 := by simpa using nat_exact (n := 1) (by omega : 1 ≤ p) (by omega)
  have r2 : rnd p 2 = 2 := by simpa using nat_exact (n := 2) (by omega : 1 ≤ p) (by omega)
  have r3 : rnd p 3 = 3 := by simpa using nat_exact (n := 3) (by omega : 1 ≤ p) (by omega)
  have hd : rnd p ((2 : ℝ) ^ p - 2 - (2 ^ p - 3)) = 1 := by
    rw [show (2 : ℝ) ^ p - 2 - (2 ^ p - 3) = 1 by ring, r1]
  have hpow : ∀ k, nthPower p 1 k = 1 := by
    intro k
    induction k with
    | zero => rfl
    | succ k ih => rw [nthPower, ih, mul_one, r1]
  have hmom : ∀ N, moment p N [(2 : ℝ) ^ p - 2, 2 ^ p - 2, 2 ^ p - 2] (2 ^ p - 3) = some 1 := by
    intro N
    unfold moment
    simp only [List.foldl_cons, List.foldl_nil, hd, hpow, List.length_cons, List.length_nil]
    norm_num
    rw [r1, show (1 : ℝ) + 1 = 2 by norm_num, r2, show (2 : ℝ) + 1 = 3 by norm_num, r3, quotient_some p (by norm_num),
      div_self (by norm_num), r1]
  refine ⟨2 ^ p - 2, ?_, by linarith, ?_, ?_⟩
  · refine ⟨2 ^ p - 2, 0, ?_, by push_cast; simp⟩
    have : (8 : ℤ) ≤ 2 ^ p := by exact_mod_cast h8n
    rw [abs_of_pos (by linarith)]
    linarith
  · unfold skewness root
    rw [three_mean hp]
    simp only [Option.bind_some, hmom]
    rw [if_neg (by norm_num), Real.sqrt_one, r1, Option.bind_some, mul_one, r1, quotient_some p one_ne_zero, div_one, r1]
  · unfold kurtosis
    rw [three_mean hp]
    simp only [Option.bind_some, hmom]
    rw [mul_one, r1, quotient_some p one_ne_zero, div_one, r1]

example : ∃ k, kurtosis 53 [0, 0, 3] = some k ∧ 0 < k := by
  have h3 : rnd 53 3 = 3 := by simpa using nat_exact (p := 53) (n := 3) (by norm_num) (by norm_num)
  have h1 : rnd 53 1 = 1 := by simpa using nat_exact (p := 53) (n := 1) (by norm_num) (by norm_num)
  obtain ⟨k, e, h, -⟩ := C123_kurtosis (p := 53) (by norm_num) (xs := [0, 0, 3]) (m := 1)
    (by
      unfold mean accumulate
      simp only [List.foldl_cons, List.foldl_nil, List.length_cons, List.length_nil]
      norm_num
      rw [rnd_zero, rnd_zero, zero_add, h3, quotient_some 53 (by norm_num), div_self (by norm_num), h1])
    ⟨0, by simp, by norm_num⟩
  exact ⟨k, e, h⟩

example : ∃ s, skewness 53 [0, 0, 3] = some s := by
  have h3 : rnd 53 3 = 3 := by simpa using nat_exact (p := 53) (n := 3) (by norm_num) (by norm_num)
  have h1 : rnd 53 1 = 1 := by simpa using nat_exact (p := 53) (n := 1) (by norm_num) (by norm_num)
  obtain ⟨s, e, -⟩ := C123_skewness (p := 53) (by norm_num) (xs := [0, 0, 3]) (m := 1)
    (by
      unfold mean accumulate
      simp only [List.foldl_cons, List.foldl_nil, List.length_cons, List.length_nil]
      norm_num
      rw [rnd_zero, rnd_zero, zero_add, h3, quotient_some 53 (by norm_num), div_self (by norm_num), h1])
    ⟨0, by simp, by norm_num⟩ rfl
  exact ⟨s, e⟩

/-! ### Root mean square -/

/-- **C123**, RMS as it is computed, with 1 added to the sum of the squares: exact up to `n / 2 + 3` roundings. -/
theorem C123_rms_partial {p : ℕ} (hp : 1 ≤ p) {xs : List ℝ} (hl : xs ≠ []) :
    ∃ r, rms p xs = some r ∧ 0 < r ∧
      Agree p (xs.length / 2 + 3) r (Real.sqrt ((1 + (xs.map fun x => x ^ 2).sum) / xs.length)) := by
  have hn : (0 : ℝ) < xs.length := by exact_mod_cast List.length_pos_of_ne_nil hl
  have hc := rnd_agree hp hn.le
  have hc0 := rnd_pos hp hn
  have hz : ∀ y ∈ xs.map fun x => rnd p (x * x), 0 ≤ y := fun y hy => by
    obtain ⟨z, -, rfl⟩ := List.mem_map.mp hy
    exact rnd_nonneg hp (mul_self_nonneg z)
  have hT : Agree p 1 (1 + (xs.map fun x => rnd p (x * x)).sum) (1 + (xs.map fun x => x ^ 2).sum) := by
    refine AgreeL.add (AgreeL.mono zero_le_one zero_le_one (Nat.zero_le 1) (AgreeL.refl 1)) ?_
    rw [sum_eq, sum_eq]
    refine sum_agree _ fun i _ => ?_
    rw [pow_two]
    exact rnd_agree hp (mul_self_nonneg _)
  have hS : 0 < 1 + (xs.map fun x => x ^ 2).sum := by
    have : 0 ≤ (xs.map fun x => x ^ 2).sum := List.sum_nonneg fun y hy => by
      obtain ⟨z, -, rfl⟩ := List.mem_map.mp hy
      exact sq_nonneg z
    linarith
  have hA := accumulate_agree hp (xs.map fun x => rnd p (x * x)) 1 zero_le_one hz
  rw [List.length_map] at hA
  have hA := AgreeL.trans hA hT
  have hA0 := agree_pos hA hS
  have hq := rnd_step hp (div_pos hA0 hc0).le (AgreeL.div hA0.le hS.le hc0 hn hA hc)
  have hv := div_pos hS hn
  have hq0 := agree_pos hq hv
  have hr := rnd_step hp (Real.sqrt_nonneg _)
    (AgreeL.sqrt (AgreeL.mono hq0.le hv.le (show xs.length + 1 + 1 + 1 ≤ 2 * (xs.length / 2 + 2) by omega) hq))
  refine ⟨_, ?_, agree_pos hr (Real.sqrt_pos.mpr hv), hr⟩
  unfold rms
  rw [foldl_accumulate, quotient_some p hc0.ne', Option.bind_some, root, if_neg (not_lt.mpr hq0.le)]

/-- **C123 is violated** by the RMS: that of silence is never 0. -/
theorem C123_rms_violates {p : ℕ} (hp : 1 ≤ p) (n : ℕ) :
    ∃ r, rms p (List.replicate (n + 1) 0) = some r ∧ 0 < r := by
  obtain ⟨r, h1, h2, -⟩ := C123_rms_partial hp (xs := List.replicate (n + 1) 0) (by simp)
  exact ⟨r, h1, h2⟩

/-! ### Difference functions -/

/-- **C123**, difference functions: for every lag below the length the average magnitude difference is exact up to
`n - i + 3` roundings and the average squared difference up to `n - i + 5`; neither is negative. -/
theorem C123_differences {p : ℕ} (hp : 1 ≤ p) {xs : List ℝ} {i : ℕ} (hi : i < xs.length) :
    ∃ a s, amdf p xs i = some a ∧ asdf p xs i = some s ∧ 0 ≤ a ∧ 0 ≤ s ∧
      Agree p (xs.length - i + 3) a (magnitudeDifference xs i) ∧
      Agree p (xs.length - i + 5) s (squareDifference xs i) := by
  have hn : (0 : ℝ) < xs.length := by exact_mod_cast (show 0 < xs.length by omega)
  have hc := rnd_agree hp hn.le
  have hc0 := rnd_pos hp hn
  have main : ∀ (f t : ℕ → ℝ) (k : ℕ), (∀ j, 0 ≤ f j) → (∀ j, 0 ≤ t j) → (∀ j, Agree p k (f j) (t j)) →
      ∃ v, quotient p ((List.range (xs.length - i)).foldl (fun s j => rnd p (s + f j)) 0) (rnd p (xs.length : ℝ)) = some v ∧
        0 ≤ v ∧ Agree p (xs.length - i + k + 2) v ((∑ j ∈ range (xs.length - i), t j) / xs.length) := by
    intro f t k hf ht hk
    have hz : ∀ y ∈ (List.range (xs.length - i)).map f, 0 ≤ y := fun y hy => by
      obtain ⟨z, -, rfl⟩ := List.mem_map.mp hy
      exact hf z
    have hA := accumulate_agree hp _ 0 le_rfl hz
    have hA0 := accumulate_ge hp _ 0 le_rfl hz
    have e : ((List.range (xs.length - i)).map f).sum = ∑ j ∈ range (xs.length - i), f j := by
      induction xs.length - i with
      | zero => simp
      | succ n ih => rw [List.range_succ, List.map_append, List.sum_append, ih, sum_range_succ]; simp
    rw [zero_add, List.length_map, List.length_range, e] at hA
    have hT := AgreeL.trans hA (sum_agree (range (xs.length - i)) fun j _ => hk j)
    have hS : 0 ≤ ∑ j ∈ range (xs.length - i), t j := sum_nonneg fun j _ => ht j
    rw [foldl_accumulate]
    have hq := div_nonneg hA0 hc0.le
    exact ⟨_, quotient_some p hc0.ne', rnd_nonneg hp hq, rnd_step hp hq (AgreeL.div hA0 hS hc0 hn hT hc)⟩
  obtain ⟨a, a1, a2, a3⟩ := main (fun j => |rnd p (at0 xs j - at0 xs (j + i))|) (fun j => |at0 xs j - at0 xs (j + i)|) 1
    (fun j => abs_nonneg _) (fun j => abs_nonneg _) (fun j => abs_rnd hp _)
  obtain ⟨s, s1, s2, s3⟩ := main
    (fun j => rnd p (rnd p (at0 xs j - at0 xs (j + i)) * rnd p (at0 xs j - at0 xs (j + i))))
    (fun j => (at0 xs j - at0 xs (j + i)) ^ 2) 3
    (fun j => rnd_nonneg hp (mul_self_nonneg _)) (fun j => sq_nonneg _) (fun j => by
      have h := nthPower_agree hp (at0 xs j - at0 xs (j + i)) 1
      rw [abs_of_nonneg (nthPower_even hp _ 0)] at h
      simpa [nthPower] using h)
  exact ⟨a, s, a1, s1, a2, s2, a3, s3⟩

example : ∃ a s, amdf 53 [1, 2, 4] 1 = some a ∧ asdf 53 [1, 2, 4] 1 = some s ∧ Agree 53 5 a 1 ∧ Agree 53 7 s (5 / 3) := by
  obtain ⟨a, s, h1, h2, -, -, h3, h4⟩ := C123_differences (p := 53) (by norm_num) (xs := [1, 2, 4]) (i := 1) (by simp)
  refine ⟨a, s, h1, h2, ?_, ?_⟩
  · convert h3 using 1 <;>
    norm_num [magnitudeDifference, sum_range_succ, at0]
  · convert h4 using 1 <;>
    norm_num [squareDifference, sum_range_succ, at0]

end Edsp.Rounded
