import Verif.Model.RoundedCounts
import Verif.Lemmas.RoundedFeatures
import Verif.Props.C117_RoundedConverters
import Mathlib.Analysis.SpecialFunctions.Log.Base
import Mathlib.Analysis.Complex.ExponentialBounds

/-!
# C124: roll-off, zero crossings, durations and levels in floating point arithmetic
-/

namespace Edsp.Rounded

open Finset Edsp.Spec Edsp.FloatL Edsp.Feature Edsp.AgreeL

/-! ### Roll-off -/

/-- The accumulated energy after `k` steps. -/
noncomputable def reached (p : ℕ) (acc : ℝ) (xs : List ℝ) (k : ℕ) : ℝ :=
  (xs.take k).foldl (fun s x => rnd p (s + rnd p (x * x))) acc

theorem steps_spec (p : ℕ) (limit : ℝ) : ∀ (xs : List ℝ) (acc : ℝ),
    rolloffSteps p limit acc xs ≤ xs.length ∧
    (∀ k, k < rolloffSteps p limit acc xs → reached p acc xs k ≤ limit) ∧
    (rolloffSteps p limit acc xs < xs.length → limit < reached p acc xs (rolloffSteps p limit acc xs))
  | [], acc => by simp [rolloffSteps]
  | x :: xs, acc => by
    obtain ⟨h1, h2, h3⟩ := steps_spec p limit xs (rnd p (acc + rnd p (x * x)))
    unfold rolloffSteps
    split
    · rename_i hle
      refine ⟨by simpa using h1, ?_, fun hlt => h3 (by simpa using hlt)⟩
      intro k hk
      cases k with
      | zero => simpa [reached] using hle
      | succ k => exact h2 k (by omega)
    · rename_i hgt
      exact ⟨by simp, fun k hk => absurd hk (by omega), fun _ => by simpa [reached] using hgt⟩

theorem steps_mono (p : ℕ) {l l' : ℝ} (h : l ≤ l') : ∀ (xs : List ℝ) (acc : ℝ),
    rolloffSteps p l acc xs ≤ rolloffSteps p l' acc xs
  | [], acc => le_rfl
  | x :: xs, acc => by
    unfold rolloffSteps
    have := steps_mono p h xs (rnd p (acc + rnd p (x * x)))
    by_cases h1 : acc ≤ l
    · rw [if_pos h1, if_pos (h1.trans h)]
      omega
    · rw [if_neg h1]
      omega

theorem reached_eq (p : ℕ) (xs : List ℝ) (k : ℕ) :
    reached p 0 xs k = accumulate p 0 ((xs.take k).map fun x => rnd p (x * x)) := by
  unfold reached accumulate
  rw [List.foldl_map]

theorem energy_reached (p : ℕ) (xs : List ℝ) : energy p xs = reached p 0 xs xs.length := by
  rw [reached, List.take_length, energy]

theorem squares_nonneg {p : ℕ} (hp : 1 ≤ p) (xs : List ℝ) : ∀ y ∈ xs.map fun x => rnd p (x * x), 0 ≤ y := fun y hy => by
  obtain ⟨z, -, rfl⟩ := List.mem_map.mp hy
  exact rnd_nonneg hp (mul_self_nonneg z)

theorem reached_agree {p : ℕ} (hp : 1 ≤ p) (xs : List ℝ) {k : ℕ} (hk : k ≤ xs.length) :
    0 ≤ reached p 0 xs k ∧ Agree p (k + 1) (reached p 0 xs k) (energyUpTo xs k) := by
  have hz := squares_nonneg hp (xs.take k)
  have hA := accumulate_agree hp _ 0 le_rfl hz
  rw [← reached_eq, zero_add, List.length_map, List.length_take, min_eq_left hk] at hA
  refine ⟨by rw [reached_eq]; exact accumulate_ge hp _ 0 le_rfl hz, AgreeL.trans hA ?_⟩
  rw [sum_eq, List.length_take, min_eq_left hk]
  refine sum_agree _ fun i hi => ?_
  have : at0 (xs.take k) i = at0 xs i := by
    have hi := mem_range.mp hi
    simp only [at0, List.getD_eq_getElem?_getD, List.getElem?_take, hi, if_true]
  rw [this, pow_two]
  exact rnd_agree hp (mul_self_nonneg _)

theorem energyUpTo_nonneg (xs : List ℝ) (k : ℕ) : 0 ≤ energyUpTo xs k := sum_nonneg fun _ _ => sq_nonneg _

theorem reached_le {p : ℕ} (hp : 1 ≤ p) (xs : List ℝ) {k : ℕ} (hk : k ≤ xs.length) :
    reached p 0 xs k ≤ energy p xs := by
  have h : energy p xs = accumulate p (reached p 0 xs k) ((xs.drop k).map fun x => rnd p (x * x)) := by
    rw [energy, accumulate, List.foldl_map, reached, ← List.foldl_append, List.take_append_drop]
  have hf : IsFloat p (reached p 0 xs k) := by
    cases k with
    | zero => simpa [reached] using (rnd_zero p ▸ isFloat_rnd hp 0 : IsFloat p 0)
    | succ k =>
      rw [reached_eq]
      have hne : (xs.take (k + 1)).map (fun x => rnd p (x * x)) ≠ [] := by
        simp; intro h0; simp [h0] at hk
      obtain ⟨ys, y, e⟩ : ∃ ys y, (xs.take (k + 1)).map (fun x => rnd p (x * x)) = ys ++ [y] :=
        ⟨_, _, (List.dropLast_append_getLast hne).symm⟩
      rw [e, accumulate, List.foldl_append]
      exact isFloat_rnd hp _
  rw [h]
  exact (accumulate_above hp _ _ (reached_agree hp xs hk).1 hf fun y hy => ⟨squares_nonneg hp _ y hy, by
    obtain ⟨z, -, rfl⟩ := List.mem_map.mp hy
    exact isFloat_rnd hp _⟩).1

theorem isFloat_more {p q : ℕ} (h : p ≤ q) {x : ℝ} (hx : IsFloat p x) : IsFloat q x := by
  obtain ⟨m, k, hm, e⟩ := hx
  exact ⟨m, k, hm.trans_le (pow_le_pow_right₀ (by norm_num) h), e⟩

theorem agree_more {p q k : ℕ} (h : p ≤ q) {a b : ℝ} (ha : 0 ≤ a) (hb : 0 ≤ b) (hA : Agree q k a b) : Agree p k a b := by
  have hg : (1 + (2 : ℝ) ^ (-(q : ℤ))) ^ k ≤ (1 + (2 : ℝ) ^ (-(p : ℤ))) ^ k := by
    have := two_zpow_pos (-(q : ℤ))
    gcongr
    norm_num
  exact ⟨hA.1.trans (mul_le_mul_of_nonneg_left hg hb), hA.2.trans (mul_le_mul_of_nonneg_left hg ha)⟩

theorem below_one {p : ℕ} (hp : 1 ≤ p) {n : ℕ} (hn : 0 < n) (h : n ≤ 2 ^ p) {a : ℝ} (ha : a ≤ (n : ℝ) - 1) :
    rnd p (a / n) < 1 := by
  have hn' : (0 : ℝ) < n := by exact_mod_cast hn
  have h2 : (n : ℝ) ≤ 2 ^ p := by exact_mod_cast h
  have hf : IsFloat p (((2 ^ p - 1 : ℤ) : ℝ) * 2 ^ (-(p : ℤ))) := by
    refine ⟨2 ^ p - 1, -(p : ℤ), ?_, rfl⟩
    have : (1 : ℤ) ≤ 2 ^ p := one_le_pow₀ (by norm_num)
    rw [abs_of_nonneg (by linarith)]
    linarith
  have hz : (2 : ℝ) ^ p * 2 ^ (-(p : ℤ)) = 1 := by
    rw [zpow_neg, zpow_natCast]
    exact mul_inv_cancel₀ (by positivity)
  have hle : a / n ≤ ((2 ^ p - 1 : ℤ) : ℝ) * 2 ^ (-(p : ℤ)) := by
    rw [div_le_iff₀ hn']
    push_cast
    have h1 : (n : ℝ) * 2 ^ (-(p : ℤ)) ≤ 1 := by
      rw [← hz]
      exact mul_le_mul_of_nonneg_right h2 (two_zpow_pos _).le
    have : ((2 : ℝ) ^ p - 1) * 2 ^ (-(p : ℤ)) * n = n - n * 2 ^ (-(p : ℤ)) := by
      linear_combination (n : ℝ) * hz
    linarith
  have := rnd_mono hp hle
  rw [rnd_float hf] at this
  refine lt_of_le_of_lt this ?_
  push_cast
  have := two_zpow_pos (-(p : ℤ))
  linarith

/-- **C124**, roll-off: the result is the share `(k - 1) / n` of a position whose predecessors hold at most the given
share of the energy and which, with its predecessors, holds at least this share, both up to `2 n + 2` roundings; up to
`2^p` elements the share is correctly rounded and less than 1; percentages of 1 and more give the last element, and a larger
percentage never gives an earlier one. -/
theorem C124_rolloff {p q : ℕ} (hp : 1 ≤ p) (hpq : p ≤ q) {xs : List ℝ} (hl : xs ≠ []) {c : ℝ} (hc : 0 ≤ c) :
    ∃ k v, 1 ≤ k ∧ k ≤ xs.length ∧ rolloff p q xs c = some v ∧ 0 ≤ v ∧ v ≤ 1 ∧
      (xs.length ≤ 2 ^ p → v = rnd p (((k : ℝ) - 1) / xs.length) ∧ v < 1) ∧
      energyUpTo xs (k - 1) ≤ c * energyUpTo xs xs.length * (1 + (2 : ℝ) ^ (-(p : ℤ))) ^ (2 * xs.length + 2) ∧
      (k < xs.length →
        c * energyUpTo xs xs.length ≤ energyUpTo xs k * (1 + (2 : ℝ) ^ (-(p : ℤ))) ^ (2 * xs.length + 2)) ∧
      (1 ≤ c → k = xs.length) ∧
      ∀ c', c ≤ c' → ∃ v', rolloff p q xs c' = some v' ∧ v ≤ v' := by
  have hq : 1 ≤ q := hp.trans hpq
  have hn0 : 0 < xs.length := List.length_pos_of_ne_nil hl
  have hn : (0 : ℝ) < xs.length := by exact_mod_cast hn0
  have hn1 := rnd_pos hp hn
  set n := xs.length with hnd
  set limit := rnd q (c * energy p xs) with hlim
  obtain ⟨s1, s2, s3⟩ := steps_spec p limit xs 0
  obtain ⟨e0, eA⟩ := reached_agree hp xs (le_refl n)
  rw [hnd, ← energy_reached] at e0 eA
  rw [← hnd] at eA
  have hlim0 : 0 ≤ limit := rnd_nonneg hq (mul_nonneg hc e0)
  set k := rolloffSteps p limit 0 xs with hk
  have hk1 : 1 ≤ k := by
    by_contra h0
    have h0 : k = 0 := by omega
    have := s3 (by omega)
    rw [h0] at this
    simp [reached] at this
    linarith
  have hE0 := energyUpTo_nonneg xs n
  have hlA : Agree p (n + 2) limit (c * energyUpTo xs n) := by
    have h1 := agree_more hpq hlim0 (mul_nonneg hc e0) (rnd_agree hq (mul_nonneg hc e0))
    have h2 := AgreeL.mul hc hc e0 hE0 (AgreeL.refl (p := p) c) eA
    have := AgreeL.trans h1 h2
    rwa [show 1 + (0 + (n + 1)) = n + 2 by ring] at this
  have hkc : rnd p (((k : ℤ) - 1 : ℤ) : ℝ) ≤ rnd p (n : ℝ) := by
    refine rnd_mono hp ?_
    have : (k : ℝ) ≤ n := by exact_mod_cast s1
    push_cast
    linarith
  have hk0 : 0 ≤ rnd p (((k : ℤ) - 1 : ℤ) : ℝ) := by
    refine rnd_nonneg hp ?_
    have : (1 : ℝ) ≤ k := by exact_mod_cast hk1
    push_cast
    linarith
  have r1 : rnd p 1 = 1 := by simpa using nat_exact (n := 1) hp Nat.one_le_two_pow
  refine ⟨k, rnd p (rnd p (((k : ℤ) - 1 : ℤ) : ℝ) / rnd p (n : ℝ)), hk1, s1, ?_, rnd_nonneg hp (div_nonneg hk0 hn1.le), ?_,
    ?_, ?_, ?_, ?_, ?_⟩
  · unfold rolloff
    exact quotient_some p hn1.ne'
  · rw [← r1]
    refine rnd_mono hp ?_
    rw [div_le_one hn1]
    exact hkc
  · intro h2
    have e1 : rnd p (((k : ℤ) - 1 : ℤ) : ℝ) = (k : ℝ) - 1 := by
      have := nat_exact (n := k - 1) hp (by omega)
      rw [Nat.cast_sub hk1, Nat.cast_one] at this
      push_cast
      exact this
    rw [e1, nat_exact hp h2]
    refine ⟨rfl, below_one hp hn0 h2 ?_⟩
    have : (k : ℝ) ≤ n := by exact_mod_cast s1
    linarith
  · have h1 := s2 (k - 1) (by omega)
    obtain ⟨a0, aA⟩ := reached_agree hp xs (show k - 1 ≤ xs.length by omega)
    have h2 := mul_le_mul_of_nonneg_right (h1.trans hlA.1) (pow_pos' p (k - 1 + 1)).le
    refine aA.2.trans (h2.trans ?_)
    rw [mul_assoc]
    refine mul_le_mul_of_nonneg_left ?_ (mul_nonneg hc hE0)
    change g p ^ (n + 2) * g p ^ (k - 1 + 1) ≤ g p ^ (2 * n + 2)
    rw [← pow_add]
    exact pow_le_pow_right₀ (g_ge p) (by omega)
  · intro hkn
    have h1 := (s3 hkn).le
    obtain ⟨a0, aA⟩ := reached_agree hp xs (show k ≤ xs.length by omega)
    have h2 := mul_le_mul_of_nonneg_right (h1.trans aA.1) (pow_pos' p (n + 2)).le
    refine hlA.2.trans (h2.trans ?_)
    rw [mul_assoc]
    refine mul_le_mul_of_nonneg_left ?_ (energyUpTo_nonneg xs k)
    change g p ^ (k + 1) * g p ^ (n + 2) ≤ g p ^ (2 * n + 2)
    rw [← pow_add]
    exact pow_le_pow_right₀ (g_ge p) (by omega)
  · intro h1
    by_contra hkn
    have h2 := s3 (lt_of_le_of_ne s1 hkn)
    have h3 := reached_le hp xs s1
    have hf : IsFloat q (energy p xs) := by
      refine isFloat_more hpq ?_
      obtain ⟨ys, y, e⟩ : ∃ ys y, xs = ys ++ [y] := ⟨_, _, (List.dropLast_append_getLast hl).symm⟩
      rw [e, energy, List.foldl_append]
      exact isFloat_rnd hp _
    have h4 := rnd_mono hq (le_mul_of_one_le_left e0 h1)
    rw [rnd_float hf] at h4
    linarith
  · intro c' hcc
    have hlm : limit ≤ rnd q (c' * energy p xs) := rnd_mono hq (mul_le_mul_of_nonneg_right hcc e0)
    have hs := steps_mono p hlm xs 0
    refine ⟨_, by unfold rolloff; exact quotient_some p hn1.ne', rnd_mono hp ?_⟩
    refine div_le_div_of_nonneg_right (rnd_mono hp ?_) hn1.le
    have : (k : ℤ) ≤ rolloffSteps p (rnd q (c' * energy p xs)) 0 xs := by exact_mod_cast hs
    exact_mod_cast (sub_le_sub_right this 1)

example : ∃ v, rolloff 24 53 [3, 4] (9 / 10) = some v ∧ v < 1 := by
  obtain ⟨k, v, -, -, h, -, -, h1, -⟩ := C124_rolloff (p := 24) (q := 53) (by norm_num) (by norm_num) (xs := [3, 4]) (by simp)
    (c := 9 / 10) (by norm_num)
  exact ⟨v, h, (h1 (by norm_num)).2⟩

/-! ### Zero crossings -/

/-- Adjacent pairs with exactly one negative element. -/
noncomputable def changes (xs : List ℝ) : ℕ :=
  ((range (xs.length - 1)).filter fun t => ¬ (at0 xs t < 0 ↔ at0 xs (t + 1) < 0)).card

theorem sign_ne (x y : ℝ) : sign x ≠ sign y ↔ ¬ (y < 0 ↔ x < 0) := by
  unfold sign
  by_cases hx : x < 0 <;> by_cases hy : y < 0 <;> simp [hx, hy] <;> norm_num

open Classical in
theorem changes_cons (x y : ℝ) (xs : List ℝ) :
    changes (x :: y :: xs) = (if ¬ (x < 0 ↔ y < 0) then 1 else 0) + changes (y :: xs) := by
  unfold changes
  rw [card_filter, card_filter]
  simp only [List.length_cons, Nat.add_sub_cancel]
  rw [sum_range_succ', add_comm]
  congr 1

theorem crossings_eq {p : ℕ} (hp : 1 ≤ p) : ∀ (xs : List ℝ) (prev : ℝ) (a : ℕ), a + xs.length ≤ 2 ^ p →
    crossings p a prev xs = ((a + changes (prev :: xs) : ℕ) : ℝ)
  | [], prev, a, _ => by simp [crossings, changes]
  | x :: xs, prev, a, h => by
    rw [List.length_cons] at h
    rw [crossings, changes_cons]
    by_cases hs : prev < 0 ↔ x < 0
    · rw [if_neg (by rw [sign_ne]; simpa using hs), add_zero, nat_exact hp (by omega), crossings_eq hp xs x a (by omega),
        if_neg (by simpa using hs), zero_add]
    · rw [if_pos (by rw [sign_ne]; exact hs), if_pos hs, ← Nat.cast_succ, nat_exact hp (by omega),
        crossings_eq hp xs x (a + 1) (by omega), add_assoc]

theorem changes_le (xs : List ℝ) : changes xs ≤ xs.length - 1 := by
  unfold changes
  exact (card_filter_le _ _).trans (by simp)

/-- **C124**, zero crossings of `n` samples, `2 ≤ n ≤ 2^p + 1`: the correctly rounded share of adjacent pairs with exactly
one negative element (C124_azcr_violates has longer signals). -/
theorem C124_azcr_partial {p : ℕ} (hp : 1 ≤ p) {xs : List ℝ} (h2 : 2 ≤ xs.length) (hn : xs.length ≤ 2 ^ p + 1) :
    ∃ v, azcr p xs = some v ∧ v = rnd p ((changes xs : ℝ) / ((xs.length : ℝ) - 1)) ∧ 0 ≤ v ∧ v ≤ 1 ∧
      ((∀ x ∈ xs, x ≠ 0) → v = rnd p (crossingRate xs)) := by
  match xs, h2, hn with
  | x :: ys, h2, hn =>
    rw [List.length_cons] at h2 hn
    have hy : (0 : ℝ) < ys.length := by exact_mod_cast (show 0 < ys.length by omega)
    have hc := changes_le (x :: ys)
    rw [List.length_cons, Nat.add_sub_cancel] at hc
    have hc' : (changes (x :: ys) : ℝ) ≤ ys.length := by exact_mod_cast hc
    have he := crossings_eq hp ys x 0 (by omega)
    rw [Nat.cast_zero, zero_add] at he
    have r1 : rnd p 1 = 1 := by simpa using nat_exact (n := 1) hp Nat.one_le_two_pow
    have el : (((x :: ys).length : ℕ) : ℝ) - 1 = ys.length := by simp
    refine ⟨rnd p ((changes (x :: ys) : ℝ) / ys.length), ?_, by rw [el], rnd_nonneg hp (by positivity), ?_, ?_⟩
    · rw [azcr, he, nat_exact hp (by omega)]
      exact quotient_some p hy.ne'
    · rw [← r1]
      refine rnd_mono hp ?_
      exact (div_le_one hy).mpr hc'
    · intro h0
      rw [crossingRate, el]
      congr 2
      rw [changes, card_filter, Nat.cast_sum]
      refine sum_congr rfl fun t ht => ?_
      have ht := mem_range.mp ht
      rw [List.length_cons, Nat.add_sub_cancel] at ht
      have a := h0 _ (at0_mem (x := x :: ys) (i := t) (by simp; omega))
      have b := h0 _ (at0_mem (x := x :: ys) (i := t + 1) (by simp; omega))
      push_cast
      refine if_congr ?_ rfl rfl
      rw [mul_neg_iff]
      rcases lt_or_gt_of_ne a with a | a <;> rcases lt_or_gt_of_ne b with b | b <;> simp [a, b, a.le, b.le, not_lt.mpr]

example : azcr 24 [1, -1, 1, 1] = some (rnd 24 (2 / 3)) := by
  obtain ⟨v, h, -, -, -, h1⟩ := C124_azcr_partial (p := 24) (by norm_num) (xs := [1, -1, 1, 1]) (by simp) (by norm_num)
  rw [h, h1 (by norm_num)]
  have e : crossingRate [1, -1, 1, 1] = 2 / 3 := by
    unfold crossingRate
    simp only [List.length_cons, List.length_nil, sum_range_succ, at0]
    norm_num
  rw [e]

/-- `n` samples that alternate between `x` and `-x`. -/
def alternating (x : ℝ) : ℕ → List ℝ
  | 0 => []
  | n + 1 => x :: alternating (-x) n

theorem alternating_length : ∀ (n : ℕ) (x : ℝ), (alternating x n).length = n
  | 0, _ => rfl
  | n + 1, x => by rw [alternating, List.length_cons, alternating_length n]

theorem flips {x : ℝ} (hx : x ≠ 0) : sign (-x) ≠ sign x := by
  unfold sign
  rcases lt_or_gt_of_ne hx with h | h
  · rw [if_neg (by linarith), if_pos h]; norm_num
  · rw [if_pos (by linarith), if_neg (by linarith)]; norm_num

theorem crossings_full {p : ℕ} (hp : 2 ≤ p) : ∀ (n : ℕ) {x : ℝ}, x ≠ 0 → crossings p (2 ^ p) x (alternating (-x) n) = 2 ^ p
  | 0, _, _ => rfl
  | n + 1, x, hx => by
    rw [alternating, crossings, if_pos (flips hx), rnd_succ hp]
    exact crossings_full hp n (neg_ne_zero.mpr hx)

theorem crossings_up {p : ℕ} (hp : 2 ≤ p) (m : ℕ) : ∀ (n a : ℕ) {x : ℝ}, x ≠ 0 → a + n = 2 ^ p →
    crossings p a x (alternating (-x) (n + m)) = 2 ^ p
  | 0, a, x, hx, h => by
    have : (a : ℝ) = 2 ^ p := by rw [add_zero] at h; exact_mod_cast h
    rw [this, zero_add]
    exact crossings_full hp m hx
  | n + 1, a, x, hx, h => by
    rw [show n + 1 + m = n + m + 1 by ring, alternating, crossings, if_pos (flips hx), ← Nat.cast_succ,
      nat_exact (by omega) (by omega)]
    exact crossings_up hp m n (a + 1) (neg_ne_zero.mpr hx) (by omega)

/-- **C124 is violated** by signals with more than `2^p + 1` samples: a signal that changes its sign at every one of
`2^(p+1)` steps (12 minutes of CD audio in single precision) gets the rate 1/2. -/
theorem C124_azcr_violates {p : ℕ} (hp : 2 ≤ p) {x : ℝ} (hx : x ≠ 0) :
    azcr p (alternating x (2 ^ (p + 1) + 1)) = some (1 / 2) := by
  have h2 : (0 : ℝ) < 2 ^ p := by positivity
  have hc := crossings_up hp (2 ^ p) (2 ^ p) 0 hx (by omega)
  rw [Nat.cast_zero, ← two_mul, ← pow_succ'] at hc
  have hr : rnd p (((2 ^ (p + 1) : ℕ)) : ℝ) = 2 * 2 ^ p := by
    have hf : IsFloat p (((1 : ℤ) : ℝ) * 2 ^ ((p : ℤ) + 1)) :=
      isFloat_int (by omega) _ (by rw [abs_one]; exact one_le_pow₀ (by norm_num))
    have e : ((1 : ℤ) : ℝ) * 2 ^ ((p : ℤ) + 1) = 2 * 2 ^ p := by
      rw [zpow_add₀ (by norm_num), zpow_natCast]; push_cast; ring
    have e' : (((2 ^ (p + 1) : ℕ)) : ℝ) = 2 * 2 ^ p := by push_cast; ring
    rw [e', ← e]
    exact rnd_float hf
  have hh : rnd p (1 / 2) = 1 / 2 := by
    have hf : IsFloat p (((1 : ℤ) : ℝ) * 2 ^ (-1 : ℤ)) :=
      isFloat_int (by omega) _ (by rw [abs_one]; exact one_le_pow₀ (by norm_num))
    have e : ((1 : ℤ) : ℝ) * 2 ^ (-1 : ℤ) = 1 / 2 := by norm_num
    rw [← e]
    exact rnd_float hf
  rw [alternating, azcr, alternating_length, hc, hr, quotient_some p (by positivity)]
  congr 1
  rw [← hh]
  congr 1
  field_simp

/-! ### Durations -/

/-- **C124**, duration of at most `2^p` samples: the correctly rounded quotient. -/
theorem C124_duration_partial {p q : ℕ} (hp : 1 ≤ p) {xs : List ℝ} (hn : xs.length ≤ 2 ^ p) {rate : ℝ} (hr : rate ≠ 0) :
    duration p q xs rate = some (rnd q (xs.length / rate)) := by
  unfold duration
  rw [nat_exact hp hn]
  exact quotient_some q hr

example : duration 24 53 [1, 2, 3] 44100 = some (rnd 53 (3 / 44100)) := by
  simpa using C124_duration_partial (p := 24) (q := 53) (by norm_num) (xs := [1, 2, 3]) (by norm_num) (rate := 44100)
    (by norm_num)

/-- **C124 is violated** by longer signals: with `2^p + 1` samples of `p` bits one sample is lost, even if the quotient has
more bits. -/
theorem C124_duration_violates {p q : ℕ} (hp : 2 ≤ p) (hq : p < q) {xs : List ℝ} (hn : xs.length = 2 ^ p + 1) :
    duration p q xs 1 = some (2 ^ p) ∧ rnd q (xs.length / 1) = 2 ^ p + 1 := by
  have hle : 2 ^ p + 1 ≤ 2 ^ q := by
    have h1 : 2 ^ (p + 1) ≤ 2 ^ q := Nat.pow_le_pow_right (by norm_num) hq
    have h2 : 1 ≤ 2 ^ p := Nat.one_le_two_pow
    rw [pow_succ] at h1
    omega
  constructor
  · unfold duration
    rw [quotient_some q one_ne_zero, hn, div_one]
    push_cast
    rw [rnd_succ hp]
    have := nat_exact (p := q) (n := 2 ^ p) (by omega) (by omega)
    push_cast at this
    rw [this]
  · rw [div_one, nat_exact (by omega) (by omega), hn]
    push_cast
    rfl

theorem largest_spec : ∀ (xs : List ℝ) (a : ℝ),
    a ≤ xs.foldl (fun a x => if a < |x| then |x| else a) a ∧
    (∀ x ∈ xs, |x| ≤ xs.foldl (fun a x => if a < |x| then |x| else a) a) ∧
    (xs.foldl (fun a x => if a < |x| then |x| else a) a = a ∨
      ∃ x ∈ xs, |x| = xs.foldl (fun a x => if a < |x| then |x| else a) a)
  | [], a => by simp
  | y :: xs, a => by
    obtain ⟨h1, h2, h3⟩ := largest_spec xs (if a < |y| then |y| else a)
    simp only [List.foldl_cons]
    refine ⟨le_trans (by split <;> linarith) h1, ?_, ?_⟩
    · intro x hx
      rcases List.mem_cons.mp hx with rfl | hx
      · exact le_trans (by split <;> linarith) h1
      · exact h2 x hx
    · rcases h3 with h3 | ⟨x, hx, h3⟩
      · by_cases h : a < |y|
        · right
          exact ⟨y, by simp, by rw [h3, if_pos h]⟩
        · left
          rw [h3, if_neg h]
      · right
        exact ⟨x, by simp [hx], h3⟩

/-- **C124**, effective duration, for a threshold `t ≥ 0` and at most `2^p` samples `xs` whose largest magnitude is `M`:
the correctly rounded quotient of a number `m` of samples and the sample rate (as the sample type holds it); samples above
`t M` are counted and samples below are not, except that those within one rounding of `t M` may go either way.  A threshold
of 1 or more counts none. -/
theorem C124_effective_duration {p q : ℕ} (hp : 1 ≤ p) (hpq : p ≤ q) {xs : List ℝ} (hf : ∀ x ∈ xs, IsFloat p x)
    (hn : xs.length ≤ 2 ^ p) {rate t M : ℝ} (hr : 0 < rate) (ht : 0 ≤ t) (hM : ∀ x ∈ xs, |x| ≤ M) (hx : ∃ x ∈ xs, |x| = M) :
    ∃ (counted : ℝ → Bool), effectiveDuration p q xs rate t = some (rnd p ((xs.countP counted : ℕ) / rnd p rate)) ∧
      (∀ x, t * M * (1 + (2 : ℝ) ^ (-(q : ℤ))) < |x| → counted x) ∧
      (∀ x, |x| * (1 + (2 : ℝ) ^ (-(q : ℤ))) < t * M → ¬ counted x) ∧
      (t = 0 → ∀ x, counted x ↔ x ≠ 0) ∧
      (1 ≤ t → effectiveDuration p q xs rate t = some 0) := by
  have hq : 1 ≤ q := hp.trans hpq
  obtain ⟨z, hz, ez⟩ := hx
  have hM0 : 0 ≤ M := ez ▸ abs_nonneg z
  have eM : largest xs = M := by
    obtain ⟨h1, h2, h3⟩ := largest_spec xs 0
    change 0 ≤ largest xs at h1
    change ∀ x ∈ xs, |x| ≤ largest xs at h2
    change largest xs = 0 ∨ ∃ x ∈ xs, |x| = largest xs at h3
    refine le_antisymm ?_ (ez ▸ h2 z hz)
    rcases h3 with h3 | ⟨x, hx, h3⟩
    · rw [h3]; exact hM0
    · rw [← h3]; exact hM x hx
  have hr1 := rnd_pos hp hr
  have hA := rnd_agree hq (mul_nonneg ht hM0)
  have hgq := two_zpow_pos (-(q : ℤ))
  unfold Agree at hA
  rw [pow_one] at hA
  have e : ∀ counted : ℝ → Bool, (counted = fun x => decide (rnd q (t * M) < |x|)) →
      effectiveDuration p q xs rate t = some (rnd p ((xs.countP counted : ℕ) / rnd p rate)) := by
    rintro counted rfl
    unfold effectiveDuration
    rw [eM]
    simp only
    rw [nat_exact hp ((List.countP_le_length).trans hn)]
    exact quotient_some p hr1.ne'
  refine ⟨_, e _ rfl, fun x h => ?_, fun x h => ?_, fun h0 x => ?_, fun h1 => ?_⟩
  · exact decide_eq_true (lt_of_le_of_lt hA.1 h)
  · have := lt_of_lt_of_le h hA.2
    simp only [decide_eq_true_eq, not_lt]
    exact (lt_of_mul_lt_mul_right this (by linarith)).le
  · rw [h0, zero_mul, rnd_zero]
    simp
  · rw [e _ rfl, List.countP_eq_zero.mpr, Nat.cast_zero, zero_div, rnd_zero]
    intro x hx
    simp only [decide_eq_true_eq, not_lt]
    have hfz : IsFloat q M := by
      refine isFloat_more hpq ?_
      rw [← ez]
      obtain ⟨m, k, hm, e⟩ := hf z hz
      exact ⟨|m|, k, by rwa [abs_abs], by rw [e, abs_mul, abs_of_pos (two_zpow_pos k)]; push_cast; rfl⟩
    have := rnd_mono hq (le_mul_of_one_le_left hM0 h1)
    rw [rnd_float hfz] at this
    exact (hM x hx).trans this

example : effectiveDuration 24 53 [1, -4, 3] 2 (1 / 2) = some 1 := by
  have f : ∀ m : ℤ, |m| ≤ 2 ^ 24 → IsFloat 24 (m : ℝ) := fun m hm => by
    simpa using isFloat_int (p := 24) (by norm_num) 0 hm
  obtain ⟨c, e, h1, h2, -⟩ := C124_effective_duration (p := 24) (q := 53) (by norm_num) (by norm_num) (xs := [1, -4, 3])
    (by
      intro x hx
      simp only [List.mem_cons, List.not_mem_nil, or_false] at hx
      rcases hx with rfl | rfl | rfl
      · exact_mod_cast f 1 (by norm_num)
      · exact_mod_cast f (-4) (by norm_num)
      · exact_mod_cast f 3 (by norm_num))
    (by norm_num) (rate := 2) (t := 1 / 2) (M := 4) (by norm_num) (by norm_num)
    (by norm_num) ⟨-4, by simp, by norm_num⟩
  have c1 : c 1 = false := by simpa using h2 1 (by norm_num)
  have c2 : c (-4) = true := h1 _ (by norm_num)
  have c3 : c 3 = true := h1 _ (by norm_num)
  have r2 : rnd 24 2 = 2 := by simpa using nat_exact (p := 24) (n := 2) (by norm_num) (by norm_num)
  have r1 : rnd 24 1 = 1 := by simpa using nat_exact (p := 24) (n := 1) (by norm_num) (by norm_num)
  rw [e, r2]
  simp [c1, c2, c3, r1]

/-! ### Equivalent level -/

/-- **C124**, equivalent level of a signal that is not silent: off by at most `5 (n + 3) 2^-p` decibels and the relative
error of the conversion to decibels. -/
theorem C124_leq {p : ℕ} (hp : 24 ≤ p) {e : ℝ} (he : 0 ≤ e) (hl : e ≤ 1 / 1000) {L : ℝ → ℝ} (hL : LogLike e L) (dbg : Bool)
    {xs : List ℝ} (hx : ∃ x ∈ xs, x ≠ 0) {level : ℝ}
    (hlev : level = 10 * Real.logb 10 ((xs.map fun x => x ^ 2).sum / xs.length)) :
    ∃ v, leq p L dbg xs = some v ∧ |v - level| ≤ 5 * (xs.length + 3) * (2 : ℝ) ^ (-(p : ℤ)) +
      1.01 * ((2 : ℝ) ^ (-(p : ℤ)) + e) * (|level| + 5 * (xs.length + 3) * (2 : ℝ) ^ (-(p : ℤ))) := by
  have hp1 : 1 ≤ p := by omega
  obtain ⟨z, hz, hz0⟩ := hx
  have hl0 : xs ≠ [] := List.ne_nil_of_mem hz
  have hn : (0 : ℝ) < xs.length := by exact_mod_cast List.length_pos_of_ne_nil hl0
  have hn1 := rnd_pos hp1 hn
  obtain ⟨e0, eA⟩ := reached_agree hp1 xs (le_refl xs.length)
  rw [← energy_reached] at e0 eA
  have hE : energyUpTo xs xs.length = (xs.map fun x => x ^ 2).sum := by rw [sum_eq, energyUpTo]
  rw [hE] at eA
  have hS : 0 < (xs.map fun x => x ^ 2).sum :=
    lt_of_lt_of_le (by positivity : 0 < z ^ 2) (List.single_le_sum (l := xs.map fun x => x ^ 2)
      (fun y hy => by obtain ⟨w, -, rfl⟩ := List.mem_map.mp hy; exact sq_nonneg w) _ (List.mem_map_of_mem hz))
  have hE0 := agree_pos eA hS
  set P := (xs.map fun x => x ^ 2).sum / (xs.length : ℝ) with hP
  have hP0 : 0 < P := div_pos hS hn
  have hQ : Agree p (xs.length + 3) (rnd p (energy p xs / rnd p xs.length)) P :=
    by
    simpa [add_assoc] using rnd_step hp1 (div_pos hE0 hn1).le (AgreeL.div e0 hS.le hn1 hn eA (rnd_agree hp1 hn.le))
  set Q := rnd p (energy p xs / rnd p xs.length) with hQd
  have hQ0 := agree_pos hQ hP0
  set u : ℝ := (2 : ℝ) ^ (-(p : ℤ)) with hu
  have hu0 : 0 < u := two_zpow_pos _
  have key : ∀ a b : ℝ, 0 < a → 0 < b → a ≤ b * (1 + u) ^ (xs.length + 3) →
      10 * Real.logb 10 a ≤ 10 * Real.logb 10 b + 5 * (xs.length + 3) * u := by
    intro a b ha hb h
    have l10 : 2 ≤ Real.log 10 := by
      have h1 : Real.log (2 ^ 3) ≤ Real.log 10 := Real.log_le_log (by norm_num) (by norm_num)
      rw [Real.log_pow] at h1
      have := Real.log_two_gt_d9
      push_cast at h1
      linarith
    have h1 := Real.log_le_log ha h
    rw [Real.log_mul hb.ne' (by positivity), Real.log_pow] at h1
    have h2 : Real.log (1 + u) ≤ u := by
      have := Real.log_le_sub_one_of_pos (show 0 < 1 + u by linarith)
      linarith
    have h3 : ((xs.length + 3 : ℕ) : ℝ) * Real.log (1 + u) ≤ (xs.length + 3) * u := by
      push_cast
      exact mul_le_mul_of_nonneg_left h2 (by linarith)
    have h4 : 0 ≤ (xs.length + 3) * u := by positivity
    unfold Real.logb
    have h5 : 10 * (Real.log a / Real.log 10) - 10 * (Real.log b / Real.log 10) =
        10 * (Real.log a - Real.log b) / Real.log 10 := by ring
    have h6 : 10 * (Real.log a - Real.log b) / Real.log 10 ≤ 5 * (xs.length + 3) * u := by
      rw [div_le_iff₀ (by linarith)]
      have : 5 * (xs.length + 3) * u * 2 ≤ 5 * (xs.length + 3) * u * Real.log 10 :=
        mul_le_mul_of_nonneg_left l10 (by positivity)
      linarith
    linarith
  have k1 := key Q P hQ0 hP0 hQ.1
  have k2 := key P Q hP0 hQ0 hQ.2
  rw [← hlev] at k1 k2
  obtain ⟨-, b, -, hb, -, hw⟩ := (C117.C117_levels hp he hl hL (P := fun x => (10 : ℝ) ^ x)
    ⟨fun x => by unfold Within; rw [sub_self, abs_zero]; positivity⟩ dbg).1 Q hQ0
  set δ : ℝ := 5 * (xs.length + 3) * u with hδ
  refine ⟨b, ?_, ?_⟩
  · unfold leq power
    rw [quotient_some p hn1.ne', Option.bind_some, hb]
    rfl
  · have h1 : |10 * Real.logb 10 Q - level| ≤ δ := by
      rw [abs_le]
      constructor <;> linarith
    have h2 : |10 * Real.logb 10 Q| ≤ |level| + δ := by
      have := abs_add_le (10 * Real.logb 10 Q - level) level
      rw [sub_add_cancel] at this
      linarith
    have h3 := abs_add_le (b - 10 * Real.logb 10 Q) (10 * Real.logb 10 Q - level)
    rw [sub_add_sub_cancel] at h3
    unfold Within at hw
    have h4 := mul_le_mul_of_nonneg_left h2 (show 0 ≤ 1.01 * (u + e) by positivity)
    linarith

example : ∃ v, leq 24 (Real.logb 10) true [3, 4, 0] = some v := by
  obtain ⟨v, h, -⟩ := C124_leq (p := 24) le_rfl (e := 0) le_rfl (by norm_num) (L := Real.logb 10)
    ⟨fun x _ => by unfold Within; simp⟩ true (xs := [3, 4, 0]) ⟨3, by simp, by norm_num⟩ rfl
  exact ⟨v, h⟩

/-- **C124**: silence has no level. -/
theorem C124_leq_silence (p : ℕ) (L : ℝ → ℝ) (dbg : Bool) (n : ℕ) : leq p L dbg (List.replicate n 0) = none := by
  have h : energy p (List.replicate n 0) = 0 := by
    unfold energy
    induction n with
    | zero => rfl
    | succ n ih => rw [List.replicate_succ, List.foldl_cons, mul_zero, rnd_zero, add_zero, rnd_zero, ih]
  unfold leq power
  rw [h, quotient]
  split
  · rfl
  · rw [zero_div, rnd_zero, Option.bind_some]
    cases dbg <;> simp [RndConv.pow2db, RndConv.log10, bind, Except.bind, throw, throwThe, MonadExceptOf.throw, Except.toOption]

end Edsp.Rounded
