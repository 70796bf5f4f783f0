import Verif.Lemmas.RoundedFeatures
import Verif.Spec.LibmExp
import Verif.Props.C94_RoundedSums
import Mathlib.Analysis.Complex.ExponentialBounds

/-!
# C122: means, norm, flatness and entropy in floating point arithmetic
-/

namespace Edsp.Rounded

open Finset Edsp.Spec Edsp.FloatL Edsp.Feature Edsp.AgreeL

/-! ### Harmonic mean and norm -/

theorem inverses_some {p : ℕ} : ∀ (xs : List ℝ) (a : ℝ), (∀ x ∈ xs, x ≠ 0) →
    inverses p (some a) xs = some (accumulate p a (xs.map fun x => rnd p (1 / x)))
  | [], a, _ => by simp [inverses, accumulate]
  | x :: xs, a, h => by
    rw [inverses, quotient_some p (h x List.mem_cons_self)]
    simp only [Option.bind_some, Option.map_some]
    rw [inverses_some xs _ fun y hy => h y (List.mem_cons_of_mem _ hy)]
    rfl

theorem inverses_none {p : ℕ} : ∀ xs : List ℝ, inverses p none xs = none
  | [] => rfl
  | x :: xs => by rw [inverses, Option.bind_none, inverses_none xs]

theorem inverses_zero {p : ℕ} : ∀ (xs : List ℝ) (s : Option ℝ), 0 ∈ xs → inverses p s xs = none
  | [], s, h => by simp at h
  | x :: xs, s, h => by
    rw [inverses]
    rcases List.mem_cons.mp h with h | h
    · rw [← h]
      have : (s.bind fun a => (quotient p 1 (0 : ℝ)).map fun y => rnd p (a + y)) = none := by
        cases s <;> simp [quotient]
      rw [this, inverses_none]
    · exact inverses_zero xs _ h

/-- **C122**, harmonic mean of positive numbers: the number of elements over the sum of the inverses, up to `n + 3`
roundings. -/
theorem C122_harmonic_mean {p : ℕ} (hp : 1 ≤ p) {xs : List ℝ} (hl : xs ≠ []) (h0 : ∀ v ∈ xs, 0 < v) :
    ∃ h, harmonicMean p xs = some h ∧ 0 < h ∧
      Agree p (xs.length + 3) h (xs.length / (xs.map fun x => 1 / x).sum) := by
  have hn : (0 : ℝ) < xs.length := by exact_mod_cast List.length_pos_of_ne_nil hl
  have hN := rnd_agree hp hn.le
  have hN0 := rnd_pos hp hn
  have hS : 0 < (xs.map fun x => 1 / x).sum := by
    obtain ⟨w, hw⟩ := List.exists_mem_of_ne_nil xs hl
    have h1 := List.single_le_sum (l := xs.map fun x => 1 / x)
      (fun y hy => by obtain ⟨z, hz, rfl⟩ := List.mem_map.mp hy; exact (one_div_pos.mpr (h0 z hz)).le) (1 / w)
      (List.mem_map_of_mem hw)
    exact lt_of_lt_of_le (one_div_pos.mpr (h0 w hw)) h1
  have hT : Agree p 1 (xs.map fun x => rnd p (1 / x)).sum (xs.map fun x => 1 / x).sum := by
    rw [sum_eq, sum_eq]
    exact sum_agree _ fun i hi => rnd_agree hp (one_div_pos.mpr (h0 _ (at0_mem (mem_range.mp hi)))).le
  have hA := accumulate_agree hp (xs.map fun x => rnd p (1 / x)) 0 le_rfl fun y hy => by
    obtain ⟨z, hz, rfl⟩ := List.mem_map.mp hy
    exact rnd_nonneg hp (one_div_pos.mpr (h0 z hz)).le
  rw [zero_add, List.length_map] at hA
  have hA := trans hA hT
  have hA0 := agree_pos hA hS
  refine ⟨rnd p (rnd p xs.length / accumulate p 0 (xs.map fun x => rnd p (1 / x))), ?_,
    rnd_pos hp (div_pos hN0 hA0), ?_⟩
  · unfold harmonicMean
    rw [inverses_some xs 0 fun x hx => (h0 x hx).ne']
    exact quotient_some p hA0.ne'
  · have := rnd_step hp (div_nonneg hN0.le hA0.le) (div hN0.le hn.le hA0 hS hN hA)
    rwa [show 1 + (xs.length + 1) + 1 = xs.length + 3 by ring] at this

/-- **C122**, harmonic mean: 0 as soon as an element is 0. -/
theorem C122_harmonic_zero (p : ℕ) {xs : List ℝ} (h : 0 ∈ xs) : harmonicMean p xs = some 0 := by
  unfold harmonicMean
  rw [inverses_zero xs _ h]

example : ∃ h, harmonicMean 53 [1, 2, 4] = some h ∧ Agree 53 6 h (12 / 7) := by
  obtain ⟨h, h1, -, h2⟩ := C122_harmonic_mean (p := 53) (by norm_num) (xs := [1, 2, 4]) (by simp)
    (by intro v hv; simp at hv; rcases hv with rfl | rfl | rfl <;> norm_num)
  refine ⟨h, h1, ?_⟩
  convert h2 using 1
  simp only [List.length_cons, List.length_nil]
  norm_num

theorem norm_eq (p : ℕ) (xs : List ℝ) :
    norm p xs = rnd p (Real.sqrt (accumulate p 0 (xs.map fun x => rnd p (x ^ 2)))) := by
  unfold norm accumulate
  rw [List.foldl_map]
  congr 3
  funext s x
  rw [abs_mul_abs_self, pow_two]

/-- **C122**, norm: the Euclidean norm up to `n / 2 + 2` roundings. -/
theorem C122_norm {p : ℕ} (hp : 1 ≤ p) (xs : List ℝ) :
    0 ≤ norm p xs ∧ Agree p (xs.length / 2 + 2) (norm p xs) (Real.sqrt (xs.map fun x => x ^ 2).sum) := by
  rw [norm_eq]
  refine ⟨rnd_nonneg hp (Real.sqrt_nonneg _), ?_⟩
  have hT : Agree p 1 (xs.map fun x => rnd p (x ^ 2)).sum (xs.map fun x => x ^ 2).sum := by
    rw [sum_eq, sum_eq]
    exact sum_agree _ fun i _ => rnd_agree hp (sq_nonneg _)
  have hz : ∀ y ∈ xs.map fun x => rnd p (x ^ 2), 0 ≤ y := fun y hy => by
    obtain ⟨z, hz, rfl⟩ := List.mem_map.mp hy
    exact rnd_nonneg hp (sq_nonneg z)
  have hA := accumulate_agree hp (xs.map fun x => rnd p (x ^ 2)) 0 le_rfl hz
  have hA0 := accumulate_ge hp (xs.map fun x => rnd p (x ^ 2)) 0 le_rfl hz
  rw [zero_add, List.length_map] at hA
  have hS : 0 ≤ (xs.map fun x => x ^ 2).sum := List.sum_nonneg fun y hy => by
    obtain ⟨z, hz, rfl⟩ := List.mem_map.mp hy
    exact sq_nonneg z
  have h2 := mono hA0 hS (show xs.length + 1 ≤ 2 * (xs.length / 2 + 1) by omega) (trans hA hT)
  exact rnd_step hp (Real.sqrt_nonneg _) (AgreeL.sqrt h2)

/-! ### Geometric mean and flatness -/

theorem logarithms_some {p : ℕ} {L : ℝ → ℝ} : ∀ (xs : List ℝ) (a : ℝ), (∀ x ∈ xs, 0 < x) →
    logarithms p L (some a) xs = some (some (accumulate p a (xs.map L)))
  | [], a, _ => by simp [logarithms, accumulate]
  | x :: xs, a, h => by
    have hx := h x List.mem_cons_self
    rw [logarithms, if_neg (not_lt.mpr hx.le), Option.bind_some, if_neg hx.ne',
      logarithms_some xs _ fun y hy => h y (List.mem_cons_of_mem _ hy)]
    rfl

theorem logarithms_none {p : ℕ} {L : ℝ → ℝ} : ∀ xs : List ℝ, (∀ x ∈ xs, 0 ≤ x) → logarithms p L none xs = some none
  | [], _ => rfl
  | x :: xs, h => by
    rw [logarithms, if_neg (not_lt.mpr (h x List.mem_cons_self)), Option.bind_none,
      logarithms_none xs fun y hy => h y (List.mem_cons_of_mem _ hy)]

theorem logarithms_zero {p : ℕ} {L : ℝ → ℝ} : ∀ (xs : List ℝ) (s : Option ℝ), (∀ x ∈ xs, 0 ≤ x) → 0 ∈ xs →
    logarithms p L s xs = some none
  | [], s, _, h => by simp at h
  | x :: xs, s, h0, h => by
    rw [logarithms, if_neg (not_lt.mpr (h0 x List.mem_cons_self))]
    have h0' : ∀ y ∈ xs, 0 ≤ y := fun y hy => h0 y (List.mem_cons_of_mem _ hy)
    rcases List.mem_cons.mp h with h | h
    · have : (s.bind fun a => if x = 0 then none else some (rnd p (a + L x))) = none := by
        rw [← h]
        cases s <;> simp
      rw [this, logarithms_none xs h0']
    · exact logarithms_zero xs _ h0' h

theorem logarithms_neg {p : ℕ} {L : ℝ → ℝ} : ∀ (xs : List ℝ) (s : Option ℝ), (∃ x ∈ xs, x < 0) →
    logarithms p L s xs = none
  | [], s, h => by simp at h
  | x :: xs, s, ⟨y, hy, h⟩ => by
    rw [logarithms]
    split
    · rfl
    · rename_i hx
      rcases List.mem_cons.mp hy with rfl | hy
      · exact absurd h hx
      · exact logarithms_neg xs _ ⟨y, hy, h⟩

/-- One more relative error of at most `u`. -/
theorem err_step {a a' b K T u : ℝ} (hu : 0 ≤ u) (hb : |b| ≤ T) (h : |a - b| ≤ (K - 1) * T) (h' : |a' - a| ≤ u * |a|) :
    |a' - b| ≤ (K * (1 + u) - 1) * T := by
  have h1 : |a| ≤ K * T := by
    have := abs_add_le (a - b) b
    rw [sub_add_cancel] at this
    linarith
  have h2 := abs_add_le (a' - a) (a - b)
  rw [sub_add_sub_cancel] at h2
  have h3 := mul_le_mul_of_nonneg_left h1 hu
  linarith

theorem log_prod : ∀ xs : List ℝ, (∀ x ∈ xs, 0 < x) → Real.log xs.prod = (xs.map Real.log).sum ∧ 0 < xs.prod
  | [], _ => by simp
  | x :: xs, h => by
    have hx := h x List.mem_cons_self
    obtain ⟨i1, i2⟩ := log_prod xs fun y hy => h y (List.mem_cons_of_mem _ hy)
    rw [List.prod_cons, List.map_cons, List.sum_cons, Real.log_mul hx.ne' i2.ne', i1]
    exact ⟨rfl, mul_pos hx i2⟩

/-- The mean of the logarithms, computed. -/
theorem logs_err {p : ℕ} (hp : 1 ≤ p) {e : ℝ} {L : ℝ → ℝ} (hL : LnLike e L) {xs : List ℝ} (hl : xs ≠ [])
    (h0 : ∀ v ∈ xs, 0 < v) :
    |rnd p (accumulate p 0 (xs.map L) / rnd p xs.length) - (xs.map Real.log).sum / xs.length|
      ≤ ((1 + e) * (1 + (2 : ℝ) ^ (-(p : ℤ))) ^ (xs.length + 2) - 1) *
        ((xs.map fun x => |Real.log x|).sum / xs.length) := by
  have hu := two_zpow_pos (-(p : ℤ))
  have hn : (0 : ℝ) < xs.length := by exact_mod_cast List.length_pos_of_ne_nil hl
  have h1 := accumulate_err p (xs.map L) 0 0 0 (by simp)
  simp only [sub_self, abs_zero, zero_add, List.length_map, List.map_map] at h1
  have hT : ∀ ys : List ℝ, (∀ v ∈ ys, 0 < v) → |(ys.map L).sum - (ys.map Real.log).sum| ≤
      e * (ys.map fun x => |Real.log x|).sum ∧
      (ys.map (abs ∘ L)).sum ≤ (1 + e) * (ys.map fun x => |Real.log x|).sum ∧
      |(ys.map Real.log).sum| ≤ (ys.map fun x => |Real.log x|).sum := by
    intro ys
    induction ys with
    | nil => simp
    | cons y ys ih =>
      intro hy
      obtain ⟨i1, i2, i3⟩ := ih fun v hv => hy v (List.mem_cons_of_mem _ hv)
      have hw : |L y - Real.log y| ≤ e * |Real.log y| := hL.near y (hy y List.mem_cons_self)
      simp only [List.map_cons, List.sum_cons, Function.comp]
      refine ⟨?_, ?_, ?_⟩
      · have := abs_add_le (L y - Real.log y) ((ys.map L).sum - (ys.map Real.log).sum)
        rw [show L y + (ys.map L).sum - (Real.log y + (ys.map Real.log).sum) =
          L y - Real.log y + ((ys.map L).sum - (ys.map Real.log).sum) by ring]
        linarith
      · have := abs_add_le (L y - Real.log y) (Real.log y)
        rw [sub_add_cancel] at this
        change (ys.map fun x => |L x|).sum ≤ _ at i2
        change |L y| + (ys.map fun x => |L x|).sum ≤ _
        linarith
      · have := abs_add_le (Real.log y) (ys.map Real.log).sum
        linarith
  obtain ⟨t1, t2, t3⟩ := hT xs h0
  set T := (xs.map fun x => |Real.log x|).sum with hTd
  set S := (xs.map Real.log).sum
  have hT0 : 0 ≤ T := (abs_nonneg _).trans t3
  have hg : (1 : ℝ) ≤ (1 + (2 : ℝ) ^ (-(p : ℤ))) ^ xs.length := one_le_pow₀ (by linarith)
  have hA : |accumulate p 0 (xs.map L) - S| ≤ ((1 + e) * (1 + (2 : ℝ) ^ (-(p : ℤ))) ^ xs.length - 1) * T := by
    have h2 := abs_add_le (accumulate p 0 (xs.map L) - (xs.map L).sum) ((xs.map L).sum - S)
    rw [sub_add_sub_cancel] at h2
    have h3 := mul_le_mul_of_nonneg_left t2 (sub_nonneg.mpr hg)
    nlinarith
  have hN := rnd_agree hp hn.le
  have hN0 := rnd_pos hp hn
  rw [AgreeL.iff, pow_one, g] at hN
  have hq : |accumulate p 0 (xs.map L) / rnd p xs.length - accumulate p 0 (xs.map L) / xs.length| ≤
      (2 : ℝ) ^ (-(p : ℤ)) * |accumulate p 0 (xs.map L) / xs.length| := by
    have e1 : accumulate p 0 (xs.map L) / rnd p xs.length - accumulate p 0 (xs.map L) / xs.length =
        accumulate p 0 (xs.map L) / xs.length * ((xs.length - rnd p xs.length) / rnd p xs.length) := by
      field_simp
    rw [e1, abs_mul, mul_comm]
    refine mul_le_mul_of_nonneg_right ?_ (abs_nonneg _)
    rw [abs_div, abs_of_pos hN0, div_le_iff₀ hN0, abs_le]
    have hr := abs_le.mp (rnd_err p (xs.length : ℝ))
    rw [abs_of_pos hn] at hr
    constructor
    · rcases le_total (rnd p (xs.length : ℝ)) xs.length with h | h
      · nlinarith
      · nlinarith
    · linarith
  have hA' : |accumulate p 0 (xs.map L) / xs.length - S / xs.length| ≤
      ((1 + e) * (1 + (2 : ℝ) ^ (-(p : ℤ))) ^ xs.length - 1) * (T / xs.length) := by
    rw [← sub_div, abs_div, abs_of_pos hn, ← mul_div_assoc]
    gcongr
  have hS' : |S / xs.length| ≤ T / xs.length := by
    rw [abs_div, abs_of_pos hn]
    gcongr
  have s1 := err_step hu.le hS' hA' hq
  have s2 := err_step hu.le hS' s1 (rnd_err p _)
  refine s2.trans (le_of_eq ?_)
  ring

/-- **C122**, geometric mean of positive numbers, with a logarithm and an exponential function of relative error `e`: the
`n`-th root of the product, up to the factor `1 ± e` and a change of its logarithm by the mean magnitude of the logarithms
times `(1 + e) (1 + 2^-p)^(n + 2) - 1`. -/
theorem C122_geometric_mean {p : ℕ} (hp : 1 ≤ p) {e : ℝ} {L E : ℝ → ℝ} (hL : LnLike e L) (hE : ExpLike e E)
    {xs : List ℝ} (hl : xs ≠ []) (h0 : ∀ v ∈ xs, 0 < v) :
    ∃ m d, geometricMean p L E xs = some m ∧
      |d| ≤ ((1 + e) * (1 + (2 : ℝ) ^ (-(p : ℤ))) ^ (xs.length + 2) - 1) *
        ((xs.map fun x => |Real.log x|).sum / xs.length) ∧
      Within e m (xs.prod ^ (1 / (xs.length : ℝ)) * Real.exp d) := by
  have hn : (0 : ℝ) < xs.length := by exact_mod_cast List.length_pos_of_ne_nil hl
  have hN0 := rnd_pos hp hn
  obtain ⟨hlog, hprod⟩ := log_prod xs h0
  refine ⟨E (rnd p (accumulate p 0 (xs.map L) / rnd p xs.length)), _, ?_, logs_err hp hL hl h0, ?_⟩
  · unfold geometricMean
    rw [logarithms_some xs 0 h0]
    simp only
    rw [quotient_some p hN0.ne', Option.map_some]
  · have := hE.near (rnd p (accumulate p 0 (xs.map L) / rnd p xs.length))
    rw [Real.rpow_def_of_pos hprod, hlog, ← Real.exp_add]
    rwa [show (xs.map Real.log).sum * (1 / (xs.length : ℝ)) + (rnd p (accumulate p 0 (xs.map L) / rnd p xs.length) -
      (xs.map Real.log).sum / xs.length) = rnd p (accumulate p 0 (xs.map L) / rnd p xs.length) by ring]

/-- **C122**, geometric mean: 0 if an element is 0 and none negative; not a number if one is negative. -/
theorem C122_geometric_zero (p : ℕ) (L E : ℝ → ℝ) {xs : List ℝ} :
    ((∀ v ∈ xs, 0 ≤ v) → 0 ∈ xs → geometricMean p L E xs = some 0) ∧
    ((∃ v ∈ xs, v < 0) → geometricMean p L E xs = none) := by
  constructor
  · intro h0 h
    unfold geometricMean
    rw [logarithms_zero xs _ h0 h]
  · intro h
    unfold geometricMean
    rw [logarithms_neg xs _ h]

theorem mean_agree {p : ℕ} (hp : 1 ≤ p) {xs : List ℝ} (hl : xs ≠ []) (h0 : ∀ v ∈ xs, 0 ≤ v) :
    ∃ m, mean p xs = some m ∧ 0 ≤ m ∧ Agree p (xs.length + 2) m (xs.sum / xs.length) := by
  have hn : (0 : ℝ) < xs.length := by exact_mod_cast List.length_pos_of_ne_nil hl
  have hN := rnd_agree hp hn.le
  have hN0 := rnd_pos hp hn
  have hA := accumulate_agree hp xs 0 le_rfl h0
  have hA0 := accumulate_ge hp xs 0 le_rfl h0
  rw [zero_add] at hA
  have hq := div_nonneg hA0 hN0.le
  exact ⟨_, quotient_some p hN0.ne', rnd_nonneg hp hq,
    rnd_step hp hq (div hA0 (List.sum_nonneg h0) hN0 hn hA hN)⟩

/-- **C122**, flatness of positive numbers: the quotient of the geometric and the arithmetic mean, up to `n + 3` roundings
and the errors of the geometric mean. -/
theorem C122_flatness {p : ℕ} (hp : 1 ≤ p) {e : ℝ} (he1 : e < 1) {L E : ℝ → ℝ} (hL : LnLike e L)
    (hE : ExpLike e E) {xs : List ℝ} (hl : xs ≠ []) (h0 : ∀ v ∈ xs, 0 < v) :
    ∃ f m d, flatness p L E xs = some f ∧ 0 < f ∧
      |d| ≤ ((1 + e) * (1 + (2 : ℝ) ^ (-(p : ℤ))) ^ (xs.length + 2) - 1) *
        ((xs.map fun x => |Real.log x|).sum / xs.length) ∧
      Within e m (xs.prod ^ (1 / (xs.length : ℝ)) * Real.exp d) ∧
      Agree p (xs.length + 3) f (m / (xs.sum / xs.length)) := by
  obtain ⟨m, d, h1, h2, h3⟩ := C122_geometric_mean hp hL hE hl h0
  obtain ⟨a, ha, ha0, ha1⟩ := mean_agree hp hl fun v hv => (h0 v hv).le
  have hn : (0 : ℝ) < xs.length := by exact_mod_cast List.length_pos_of_ne_nil hl
  have hs : 0 < xs.sum := by
    obtain ⟨w, hw⟩ := List.exists_mem_of_ne_nil xs hl
    exact lt_of_lt_of_le (h0 w hw) (List.single_le_sum (fun v hv => (h0 v hv).le) w hw)
  have hav := div_pos hs hn
  have ha2 := agree_pos ha1 hav
  have hm : 0 < m := by
    have hG : 0 < xs.prod ^ (1 / (xs.length : ℝ)) * Real.exp d :=
      mul_pos (Real.rpow_pos_of_pos (log_prod xs h0).2 _) (Real.exp_pos d)
    have := (abs_le.mp h3).1
    rw [abs_of_pos hG] at this
    nlinarith
  refine ⟨rnd p (m / a), m, d, ?_, rnd_pos hp (div_pos hm ha2), h2, h3, ?_⟩
  · unfold flatness
    rw [h1, ha]
    exact quotient_some p ha2.ne'
  · have := rnd_step hp (div_pos hm ha2).le (div hm.le hm.le ha2 hav (refl m) ha1)
    rwa [Nat.zero_add] at this

/-- **C122**, flatness: 0 if an element is 0, none negative and one positive. -/
theorem C122_flatness_zero {p : ℕ} (hp : 1 ≤ p) (L E : ℝ → ℝ) {xs : List ℝ} (h0 : ∀ v ∈ xs, 0 ≤ v) (h : 0 ∈ xs)
    (h1 : ∃ v ∈ xs, 0 < v) : flatness p L E xs = some 0 := by
  have hl : xs ≠ [] := List.ne_nil_of_mem h
  obtain ⟨a, ha, ha0, ha1⟩ := mean_agree hp hl h0
  have hn : (0 : ℝ) < xs.length := by exact_mod_cast List.length_pos_of_ne_nil hl
  have hs := total_pos' h0 h1
  rw [total_eq] at hs
  have ha2 := agree_pos ha1 (div_pos hs hn)
  unfold flatness
  rw [(C122_geometric_zero p L E).1 h0 h, ha]
  simp only [Option.bind_some]
  rw [quotient_some p ha2.ne', zero_div, rnd_zero]

example : ∃ f, flatness 53 Real.log Real.exp [1, 2, 4] = some f ∧ 0 < f := by
  obtain ⟨f, -, -, h, h', -⟩ := C122_flatness (p := 53) (by norm_num) (e := 0) one_pos (L := Real.log)
    (E := Real.exp) ⟨fun x _ => by simp [Within]⟩ ⟨fun x => by simp [Within]⟩ (xs := [1, 2, 4]) (by simp)
    (by intro v hv; simp at hv; rcases hv with rfl | rfl | rfl <;> norm_num)
  exact ⟨f, h, h'⟩

/-! ### Entropy -/

theorem entropyLoop_some {p : ℕ} {L : ℝ → ℝ} : ∀ (xs : List ℝ) (a : ℝ), (∀ x ∈ xs, 0 < x) →
    entropyLoop p L (-a) xs = some (-accumulate p a (xs.map fun x => rnd p (-L x * x)))
  | [], a, _ => by simp [entropyLoop, accumulate]
  | x :: xs, a, h => by
    have hx := h x List.mem_cons_self
    unfold entropyLoop logarithm
    rw [if_neg (not_le.mpr hx), Option.bind_some]
    have : rnd p (-a + rnd p (L x * x)) = -rnd p (a + rnd p (-L x * x)) := by
      rw [neg_mul, rnd_neg p (L x * x), ← rnd_neg]
      congr 1
      ring
    rw [this, entropyLoop_some xs _ fun y hy => h y (List.mem_cons_of_mem _ hy)]
    rfl

theorem entropyLoop_none {p : ℕ} {L : ℝ → ℝ} : ∀ (xs : List ℝ) (a : ℝ), (∃ x ∈ xs, x ≤ 0) → entropyLoop p L a xs = none
  | [], a, h => by simp at h
  | x :: xs, a, ⟨y, hy, h⟩ => by
    unfold entropyLoop logarithm
    split
    · rfl
    · rename_i hx
      rcases List.mem_cons.mp hy with rfl | hy
      · exact absurd h hx
      · exact entropyLoop_none xs _ ⟨y, hy, h⟩

/-- **C122**, entropy: not a number as soon as a probability is 0, though `0 log 0` is 0. -/
theorem C122_entropy_violates (p : ℕ) (L : ℝ → ℝ) {xs : List ℝ} (h : 0 ∈ xs) : entropy p L xs = none := by
  unfold entropy
  rw [entropyLoop_none xs 0 ⟨0, h, le_rfl⟩]
  rfl

/-- The logarithm of the rounded number of elements. -/
theorem log_count {p n : ℕ} (hp : 2 ≤ p) (hn : 2 ≤ n) :
    0 < Real.logb 2 (n : ℝ) ∧ Agree p 1 (Real.logb 2 (rnd p (n : ℝ))) (Real.logb 2 n) := by
  have hp1 : 1 ≤ p := by omega
  have hln2 : 0 < Real.log 2 := Real.log_pos (by norm_num)
  have hu := two_zpow_pos (-(p : ℤ))
  have hn2 : (2 : ℝ) ≤ n := by exact_mod_cast hn
  have hn0 : (0 : ℝ) < n := by linarith
  refine ⟨Real.logb_pos (by norm_num) (by linarith), ?_⟩
  rcases hn.eq_or_lt with rfl | hn3
  · have h2 : rnd p ((2 : ℕ) : ℝ) = (2 : ℕ) := nat_exact hp1 (by
      calc 2 = 2 ^ 1 := rfl
        _ ≤ 2 ^ p := Nat.pow_le_pow_right (by norm_num) hp1)
    rw [h2]
    refine mono ?_ ?_ (Nat.zero_le 1) (refl _) <;> exact Real.logb_nonneg (by norm_num) (by norm_num)
  have hn3' : (3 : ℝ) ≤ n := by exact_mod_cast hn3
  have h3 : rnd p ((3 : ℕ) : ℝ) = (3 : ℕ) := nat_exact hp1 (by
      calc 3 ≤ 2 ^ 2 := by norm_num
        _ ≤ 2 ^ p := Nat.pow_le_pow_right (by norm_num) hp)
  have hN3 : (3 : ℝ) ≤ rnd p n := by
    have := rnd_mono hp1 (show ((3 : ℕ) : ℝ) ≤ n by exact_mod_cast hn3)
    rw [h3] at this
    exact_mod_cast this
  have hN := rnd_agree hp1 hn0.le
  rw [AgreeL.iff, pow_one, g] at hN
  have key : ∀ {a b : ℝ}, 3 ≤ a → 3 ≤ b → a ≤ b * (1 + (2 : ℝ) ^ (-(p : ℤ))) →
      Real.logb 2 a ≤ Real.logb 2 b * (1 + (2 : ℝ) ^ (-(p : ℤ))) := by
    intro a b ha hb hab
    have l1 : Real.log a ≤ Real.log b + (2 : ℝ) ^ (-(p : ℤ)) := by
      have := Real.log_le_log (by linarith) hab
      rw [Real.log_mul (by linarith) (by linarith)] at this
      have := Real.log_le_sub_one_of_pos (show 0 < 1 + (2 : ℝ) ^ (-(p : ℤ)) by linarith)
      linarith
    have l2 : 1 ≤ Real.log b := by
      rw [Real.le_log_iff_exp_le (by linarith)]
      have := Real.exp_one_lt_d9
      linarith
    rw [Real.logb, Real.logb, div_mul_eq_mul_div]
    gcongr
    nlinarith
  rw [AgreeL.iff, pow_one, g]
  exact ⟨key hN3 hn3' hN.1, key hn3' hN3 hN.2⟩

/-- The values of the entropy: the same sum with the computed logarithms. -/
theorem entropy_sum {e : ℝ} (he1 : e < 1) {L : ℝ → ℝ} (hL : Log2Like e L) {xs : List ℝ}
    (h0 : ∀ v ∈ xs, 0 < v ∧ v ≤ 1) :
    (∀ v ∈ xs, 0 ≤ -L v * v) ∧ (1 - e) * bits xs ≤ (xs.map fun x => -L x * x).sum ∧
      (xs.map fun x => -L x * x).sum ≤ (1 + e) * bits xs ∧ 0 ≤ bits xs := by
  have hk : ∀ v ∈ xs, 0 ≤ -Real.logb 2 v ∧ (1 - e) * -Real.logb 2 v ≤ -L v ∧ -L v ≤ (1 + e) * -Real.logb 2 v := by
    intro v hv
    obtain ⟨h1, h2⟩ := h0 v hv
    have hl : Real.logb 2 v ≤ 0 := Real.logb_nonpos (by norm_num) h1.le h2
    have := abs_le.mp (hL.near v h1)
    rw [abs_of_nonpos hl] at this
    exact ⟨by linarith, by linarith, by linarith⟩
  have hb : bits xs = ∑ i ∈ range xs.length, -Real.logb 2 (at0 xs i) * at0 xs i := by
    unfold bits
    rw [← sum_neg_distrib]
    exact sum_congr rfl fun i _ => by ring
  rw [hb, sum_eq, mul_sum, mul_sum]
  refine ⟨?_, sum_le_sum ?_, sum_le_sum ?_, sum_nonneg ?_⟩
  · intro v hv
    obtain ⟨k1, k2, -⟩ := hk v hv
    have := mul_nonneg (sub_nonneg.mpr he1.le) k1
    exact mul_nonneg (this.trans k2) (h0 v hv).1.le
  · intro i hi
    have hm := at0_mem (mem_range.mp hi)
    have := mul_le_mul_of_nonneg_right (hk _ hm).2.1 (h0 _ hm).1.le
    linarith
  · intro i hi
    have hm := at0_mem (mem_range.mp hi)
    have := mul_le_mul_of_nonneg_right (hk _ hm).2.2 (h0 _ hm).1.le
    linarith
  · intro i hi
    have hm := at0_mem (mem_range.mp hi)
    exact mul_nonneg (hk _ hm).1 (h0 _ hm).1.le

/-- **C122**, entropy of at least two numbers above 0 and at most 1, with a binary logarithm of relative error `e`: never
negative, and the quotient of the entropy in bits and that of equal probabilities, up to the factor `(1 + e) / (1 - e)` and
`n + 3` roundings.  Missing: probabilities that are 0 (`C122_entropy_violates`). -/
theorem C122_entropy_partial {p : ℕ} (hp : 2 ≤ p) {e : ℝ} (he : 0 ≤ e) (he1 : e < 1) {L : ℝ → ℝ} (hL : Log2Like e L)
    {xs : List ℝ} (hn : 2 ≤ xs.length) (h0 : ∀ v ∈ xs, 0 < v ∧ v ≤ 1) :
    ∃ h, entropy p L xs = some h ∧ 0 ≤ h ∧
      h ≤ bits xs / Real.logb 2 xs.length * ((1 + e) / (1 - e)) * (1 + (2 : ℝ) ^ (-(p : ℤ))) ^ (xs.length + 3) ∧
      bits xs / Real.logb 2 xs.length * ((1 - e) / (1 + e)) ≤ h * (1 + (2 : ℝ) ^ (-(p : ℤ))) ^ (xs.length + 3) := by
  have hp1 : 1 ≤ p := by omega
  have hn0 : (0 : ℝ) < xs.length := by exact_mod_cast (show 0 < xs.length by omega)
  obtain ⟨hc0, hc⟩ := log_count hp hn
  obtain ⟨s0, s1, s2, s3⟩ := entropy_sum he1 hL h0
  have hN0 := rnd_pos hp1 hn0
  have hc1 := agree_pos hc hc0
  have hb := abs_le.mp (hL.near (rnd p (xs.length : ℝ)) hN0)
  rw [abs_of_pos hc1] at hb
  set b := L (rnd p (xs.length : ℝ)) with hbd
  set lN := Real.logb 2 (rnd p (xs.length : ℝ))
  set ln := Real.logb 2 (xs.length : ℝ)
  have hb0 : 0 < b := by
    have := mul_pos (sub_pos.mpr he1) hc1
    linarith
  set Y := (xs.map fun x => -L x * x).sum
  have hY0 : 0 ≤ Y := List.sum_nonneg fun y hy => by
    obtain ⟨z, hz, rfl⟩ := List.mem_map.mp hy
    exact s0 z hz
  have hT : Agree p 1 (xs.map fun x => rnd p (-L x * x)).sum Y := by
    change Agree p 1 _ (xs.map fun x => -L x * x).sum
    rw [sum_eq, sum_eq]
    exact sum_agree _ fun i hi => rnd_agree hp1 (s0 _ (at0_mem (mem_range.mp hi)))
  have hz : ∀ y ∈ xs.map fun x => rnd p (-L x * x), 0 ≤ y := fun y hy => by
    obtain ⟨z, hz, rfl⟩ := List.mem_map.mp hy
    exact rnd_nonneg hp1 (s0 z hz)
  have hA := accumulate_agree hp1 _ 0 le_rfl hz
  have hA0 := accumulate_ge hp1 _ 0 le_rfl hz
  rw [zero_add, List.length_map] at hA
  have hA := trans hA hT
  set A := accumulate p 0 (xs.map fun x => rnd p (-L x * x)) with hAd
  have hR := rnd_step hp1 (div_nonneg hA0 hb0.le) (div hA0 hY0 hb0 hb0 hA (refl b))
  have h1e : 0 < 1 - e := by linarith
  have h1e' : 0 < 1 + e := by linarith
  rw [AgreeL.iff] at hc
  rw [pow_one] at hc
  have hgp := g_pos p
  refine ⟨rnd p (A / b), ?_, rnd_nonneg hp1 (div_nonneg hA0 hb0.le), ?_, ?_⟩
  · unfold entropy
    have := entropyLoop_some (p := p) (L := L) xs 0 fun x hx => (h0 x hx).1
    rw [neg_zero, ← hAd] at this
    rw [this]
    unfold logarithm
    rw [Option.bind_some, if_neg (not_le.mpr hN0), Option.bind_some, neg_neg]
    exact quotient_some p hb0.ne'
  · have h1 := hR.1
    change _ ≤ _ * g p ^ _ at h1
    change _ ≤ _ * g p ^ _
    rw [Nat.add_zero] at h1
    have hk : Y / b ≤ bits xs / ln * ((1 + e) / (1 - e)) * g p := by
      rw [div_le_iff₀ hb0]
      have k1 : (1 - e) * ln ≤ b * g p := by
        have k2 := mul_le_mul_of_nonneg_left hc.2 h1e.le
        have k3 : (1 - e) * lN ≤ b := by linarith
        have := mul_le_mul_of_nonneg_right k3 hgp.le
        linarith
      have k2 : 1 ≤ b * g p / ((1 - e) * ln) := by
        rw [le_div_iff₀ (mul_pos h1e hc0)]
        linarith
      calc Y ≤ (1 + e) * bits xs := s2
        _ ≤ (1 + e) * bits xs * (b * g p / ((1 - e) * ln)) :=
          le_mul_of_one_le_right (mul_nonneg h1e'.le s3) k2
        _ = bits xs / ln * ((1 + e) / (1 - e)) * g p * b := by field_simp
    calc rnd p (A / b) ≤ Y / b * g p ^ (xs.length + 1 + 1) := h1
      _ ≤ bits xs / ln * ((1 + e) / (1 - e)) * g p * g p ^ (xs.length + 1 + 1) :=
        mul_le_mul_of_nonneg_right hk (pow_pos' p _).le
      _ = bits xs / ln * ((1 + e) / (1 - e)) * g p ^ (xs.length + 3) := by ring
  · have h1 := hR.2
    change _ ≤ _ * g p ^ _ at h1
    change _ ≤ _ * g p ^ _
    rw [Nat.add_zero] at h1
    have hk : bits xs / ln * ((1 - e) / (1 + e)) ≤ Y / b * g p := by
      rw [div_mul_eq_mul_div Y, le_div_iff₀ hb0]
      have k1 : b ≤ (1 + e) * ln * g p := by
        have k2 := mul_le_mul_of_nonneg_left hc.1 h1e'.le
        linarith
      have k2 : b / ((1 + e) * ln) ≤ g p := by
        rw [div_le_iff₀ (mul_pos h1e' hc0)]
        linarith
      calc bits xs / ln * ((1 - e) / (1 + e)) * b = (1 - e) * bits xs * (b / ((1 + e) * ln)) := by field_simp
        _ ≤ (1 - e) * bits xs * g p := mul_le_mul_of_nonneg_left k2 (mul_nonneg h1e.le s3)
        _ ≤ Y * g p := mul_le_mul_of_nonneg_right s1 hgp.le
    calc bits xs / ln * ((1 - e) / (1 + e)) ≤ Y / b * g p := hk
      _ ≤ rnd p (A / b) * g p ^ (xs.length + 1 + 1) * g p := mul_le_mul_of_nonneg_right h1 hgp.le
      _ = rnd p (A / b) * g p ^ (xs.length + 3) := by ring

example : ∃ h, entropy 53 (Real.logb 2) [1 / 2, 1 / 4, 1 / 4] = some h ∧ 0 ≤ h := by
  obtain ⟨h, h1, h2, -⟩ := C122_entropy_partial (p := 53) (by norm_num) (e := 0) le_rfl one_pos (L := Real.logb 2)
    ⟨fun x _ => by simp [Within]⟩ (xs := [1 / 2, 1 / 4, 1 / 4]) (by simp)
    (by intro v hv; simp at hv; rcases hv with rfl | rfl <;> norm_num)
  exact ⟨h, h1, h2⟩

/-! ### Spectral entropy -/

theorem spectralEntropyLoop_eq {p : ℕ} {L : ℝ → ℝ} {s : ℝ} (hs : s ≠ 0) : ∀ (xs : List ℝ) (a : ℝ),
    spectralEntropyLoop p L s a xs = entropyLoop p L a (xs.map fun x => rnd p (x / s))
  | [], a => rfl
  | x :: xs, a => by
    rw [spectralEntropyLoop, List.map_cons, entropyLoop, quotient_some p hs, Option.bind_some]
    congr 1
    funext y
    exact spectralEntropyLoop_eq hs xs _

theorem bits_map (f : ℝ → ℝ) (xs : List ℝ) : bits (xs.map f) = (xs.map fun x => -Real.logb 2 (f x) * f x).sum := by
  unfold bits
  rw [← sum_neg_distrib, sum_eq, List.length_map]
  refine sum_congr rfl fun i hi => ?_
  rw [at0_map f (mem_range.mp hi)]
  ring

/-- **C122**, spectral entropy of at least two positive numbers: never negative, and the entropy of the spectrum divided by
its sum in bits over that of equal lines, where the rounding of the normalized lines adds `log2 K` bits and a factor `K`,
`K = (1 + 2^-p)^(n + 1)`, before the errors of the entropy.  Missing: lines that are 0 (`C122_spectral_entropy_violates`). -/
theorem C122_spectral_entropy_partial {p : ℕ} (hp : 2 ≤ p) {e : ℝ} (he : 0 ≤ e) (he1 : e < 1) {L : ℝ → ℝ}
    (hL : Log2Like e L) {xs : List ℝ} (hn : 2 ≤ xs.length) (h0 : ∀ v ∈ xs, 0 < v ∧ IsFloat p v) {K H : ℝ}
    (hK : K = (1 + (2 : ℝ) ^ (-(p : ℤ))) ^ (xs.length + 1)) (hH : H = bits (xs.map fun x => x / total xs)) :
    ∃ h, spectralEntropy p L xs = some h ∧ 0 ≤ h ∧
      h ≤ K * (H + Real.logb 2 K) / Real.logb 2 xs.length * ((1 + e) / (1 - e)) *
        (1 + (2 : ℝ) ^ (-(p : ℤ))) ^ (xs.length + 3) ∧
      (H - Real.logb 2 K) / K / Real.logb 2 xs.length * ((1 - e) / (1 + e)) ≤
        h * (1 + (2 : ℝ) ^ (-(p : ℤ))) ^ (xs.length + 3) := by
  have hp1 : 1 ≤ p := by omega
  have hl : xs ≠ [] := by rintro rfl; simp at hn
  have hnn : ∀ v ∈ xs, 0 ≤ v := fun v hv => (h0 v hv).1.le
  have hs : 0 < total xs := by
    obtain ⟨w, hw⟩ := List.exists_mem_of_ne_nil xs hl
    exact total_pos' hnn ⟨w, hw, (h0 w hw).1⟩
  have hD := total_agree hp1 hnn
  have hD0 := agree_pos hD hs
  have hle := (accumulate_above hp1 xs 0 le_rfl ⟨0, 0, by simp, by simp⟩ fun v hv => ⟨hnn v hv, (h0 v hv).2⟩).2
  set s := accumulate p 0 xs with hsd
  have hK1 : 1 ≤ K := by rw [hK]; exact pow_ge p _
  have hK0 : 0 < K := by linarith
  have hq : ∀ v ∈ xs, 0 < rnd p (v / s) ∧ rnd p (v / s) ≤ 1 ∧ rnd p (v / s) ≤ v / total xs * K ∧
      v / total xs ≤ rnd p (v / s) * K := by
    intro v hv
    have hv0 := (h0 v hv).1
    have hA := rnd_step hp1 (div_pos hv0 hD0).le (div hv0.le hv0.le hD0 hs (refl v) hD)
    rw [Nat.zero_add] at hA
    refine ⟨rnd_pos hp1 (div_pos hv0 hD0), ?_, by rw [hK]; exact hA.1, by rw [hK]; exact hA.2⟩
    have := rnd_mono hp1 ((div_le_one hD0).mpr (hle v hv))
    have h1 : rnd p 1 = 1 := by simpa using nat_exact hp1 (n := 1) Nat.one_le_two_pow
    rwa [h1] at this
  set qs := xs.map fun x => rnd p (x / s) with hqs
  have hqn : qs.length = xs.length := by rw [hqs, List.length_map]
  obtain ⟨h, e1, e2, e3, e4⟩ := C122_entropy_partial hp he he1 hL (xs := qs) (by rw [hqn]; exact hn) (by
    intro v hv
    obtain ⟨w, hw, rfl⟩ := List.mem_map.mp hv
    exact ⟨(hq w hw).1, (hq w hw).2.1⟩)
  rw [hqn] at e3 e4
  have hc0 := (log_count hp hn).1
  have hsum : (xs.map fun x => x / total xs).sum = 1 := by
    rw [sum_eq, ← sum_div]
    exact div_self hs.ne'
  have hpt : ∀ v ∈ xs, (-Real.logb 2 (v / total xs) - Real.logb 2 K) * (v / total xs) / K ≤
      -Real.logb 2 (rnd p (v / s)) * rnd p (v / s) ∧
      -Real.logb 2 (rnd p (v / s)) * rnd p (v / s) ≤
        K * ((-Real.logb 2 (v / total xs) + Real.logb 2 K) * (v / total xs)) := by
    intro v hv
    obtain ⟨q1, q2, q3, q4⟩ := hq v hv
    have hr : 0 < v / total xs := div_pos (h0 v hv).1 hs
    set q := rnd p (v / s)
    set r := v / total xs
    have l0 : Real.logb 2 q ≤ 0 := Real.logb_nonpos (by norm_num) q1.le q2
    have l1 : Real.logb 2 q ≤ Real.logb 2 r + Real.logb 2 K := by
      have := Real.logb_le_logb_of_le (b := 2) (by norm_num) q1 q3
      rwa [Real.logb_mul hr.ne' hK0.ne'] at this
    have l2 : Real.logb 2 r ≤ Real.logb 2 q + Real.logb 2 K := by
      have := Real.logb_le_logb_of_le (b := 2) (by norm_num) hr q4
      rwa [Real.logb_mul q1.ne' hK0.ne'] at this
    constructor
    · rw [div_le_iff₀ hK0]
      calc (-Real.logb 2 r - Real.logb 2 K) * r ≤ -Real.logb 2 q * r :=
            mul_le_mul_of_nonneg_right (by linarith) hr.le
        _ ≤ -Real.logb 2 q * (q * K) := mul_le_mul_of_nonneg_left q4 (by linarith)
        _ = -Real.logb 2 q * q * K := by ring
    · calc -Real.logb 2 q * q ≤ -Real.logb 2 q * (r * K) := mul_le_mul_of_nonneg_left q3 (by linarith)
        _ ≤ (-Real.logb 2 r + Real.logb 2 K) * (r * K) :=
          mul_le_mul_of_nonneg_right (by linarith) (mul_nonneg hr.le hK0.le)
        _ = K * ((-Real.logb 2 r + Real.logb 2 K) * r) := by ring
  have hHs : H = ∑ i ∈ range xs.length, -Real.logb 2 (at0 xs i / total xs) * (at0 xs i / total xs) := by
    rw [hH, bits_map, sum_eq]
  rw [sum_eq] at hsum
  have hB : bits qs = ∑ i ∈ range xs.length, -Real.logb 2 (rnd p (at0 xs i / s)) * rnd p (at0 xs i / s) := by
    rw [hqs, bits_map, sum_eq]
  have hlo : (H - Real.logb 2 K) / K ≤ bits qs := by
    calc (H - Real.logb 2 K) / K = ∑ i ∈ range xs.length,
          (-Real.logb 2 (at0 xs i / total xs) - Real.logb 2 K) * (at0 xs i / total xs) / K := by
          rw [← sum_div]
          simp only [sub_mul, sum_sub_distrib, ← mul_sum]
          rw [hsum, mul_one, ← hHs]
      _ ≤ bits qs := by
          rw [hB]
          exact sum_le_sum fun i hi => (hpt _ (at0_mem (mem_range.mp hi))).1
  have hhi : bits qs ≤ K * (H + Real.logb 2 K) := by
    calc bits qs ≤ ∑ i ∈ range xs.length,
          K * ((-Real.logb 2 (at0 xs i / total xs) + Real.logb 2 K) * (at0 xs i / total xs)) := by
          rw [hB]
          exact sum_le_sum fun i hi => (hpt _ (at0_mem (mem_range.mp hi))).2
      _ = K * (H + Real.logb 2 K) := by
          rw [← mul_sum]
          simp only [add_mul, sum_add_distrib, ← mul_sum]
          rw [hsum, mul_one, ← hHs]
  have h1e : 0 < 1 - e := by linarith
  have h1e' : 0 < 1 + e := by linarith
  refine ⟨h, ?_, e2, e3.trans ?_, le_trans ?_ e4⟩
  · unfold spectralEntropy
    rw [spectralEntropyLoop_eq hD0.ne']
    unfold entropy at e1
    rwa [hqn] at e1
  · refine mul_le_mul_of_nonneg_right ?_ (pow_pos' p _).le
    refine mul_le_mul_of_nonneg_right ?_ (div_pos h1e' h1e).le
    exact div_le_div_of_nonneg_right hhi hc0.le
  · refine mul_le_mul_of_nonneg_right ?_ (div_pos h1e h1e').le
    exact div_le_div_of_nonneg_right hlo hc0.le

/-- **C122**, spectral entropy: not a number as soon as a line is 0. -/
theorem C122_spectral_entropy_violates (p : ℕ) (L : ℝ → ℝ) {xs : List ℝ} (h : 0 ∈ xs) :
    spectralEntropy p L xs = none := by
  unfold spectralEntropy
  by_cases hs : accumulate p 0 xs = 0
  · rw [hs]
    cases xs with
    | nil => simp at h
    | cons x xs => simp [spectralEntropyLoop, quotient]
  · rw [spectralEntropyLoop_eq hs, entropyLoop_none _ 0 ⟨0, ?_, le_rfl⟩]
    · rfl
    · refine List.mem_map.mpr ⟨0, h, ?_⟩
      rw [zero_div, rnd_zero]

example : ∃ h, spectralEntropy 53 (Real.logb 2) [1, 2, 3] = some h ∧ 0 ≤ h := by
  obtain ⟨h, h1, h2, -⟩ := C122_spectral_entropy_partial (p := 53) (by norm_num) (e := 0) le_rfl one_pos
    (L := Real.logb 2) ⟨fun x _ => by simp [Within]⟩ (xs := [1, 2, 3]) (by simp)
    (by
      intro v hv
      simp only [List.mem_cons, List.not_mem_nil, or_false] at hv
      rcases hv with rfl | rfl | rfl
      · exact ⟨by norm_num, 1, 0, by norm_num, by norm_num⟩
      · exact ⟨by norm_num, 2, 0, by norm_num, by norm_num⟩
      · exact ⟨by norm_num, 3, 0, by norm_num, by norm_num⟩) rfl rfl
  exact ⟨h, h1, h2⟩

end Edsp.Rounded
