import Verif.Lemmas.Features
import Mathlib.Tactic.IntervalCases

/-!
# C50: roll-off
-/

namespace Edsp.Feature

open Finset Edsp.Mem Edsp.Spec Edsp.Stat Edsp.StatL

theorem energy_eq (x : List ℝ) : Seq.energy x = energyUpTo x x.length := by
  have : Seq.energy x = accumulate (fun v => v * v) 0 x := rfl
  rw [this, accumulate_eq, zero_add, sum_eq (fun v => v * v)]
  unfold energyUpTo
  exact sum_congr rfl fun i _ => by ring

theorem energyUpTo_mono {x : List ℝ} {i j : ℕ} (h : i ≤ j) : energyUpTo x i ≤ energyUpTo x j :=
  sum_le_sum_of_subset_of_nonneg (range_mono h) fun _ _ _ => sq_nonneg _

theorem energyUpTo_cons (v : ℝ) (x : List ℝ) (k : ℕ) : energyUpTo (v :: x) (k + 1) = v ^ 2 + energyUpTo x k := by
  unfold energyUpTo
  rw [sum_range_succ']
  simp only [at0_cons_succ, at0_cons_zero]
  ring

/-- The loop stops at the first prefix whose energy exceeds the limit. -/
theorem rolloffLoop_spec (limit : ℝ) : ∀ (x : List ℝ) (acc : ℝ),
    rolloffLoop limit acc x ≤ x.length ∧
    (∀ k, k < rolloffLoop limit acc x → acc + energyUpTo x k ≤ limit) ∧
    (rolloffLoop limit acc x < x.length → limit < acc + energyUpTo x (rolloffLoop limit acc x))
  | [], acc => by simp [rolloffLoop]
  | v :: x, acc => by
    obtain ⟨h1, h2, h3⟩ := rolloffLoop_spec limit x (acc + v * v)
    unfold rolloffLoop
    split
    · rename_i hle
      refine ⟨by simpa using h1, ?_, ?_⟩
      · intro k hk
        cases k with
        | zero => simpa [energyUpTo] using hle
        | succ k =>
          have := h2 k (by omega)
          rw [energyUpTo_cons]
          linarith
      · intro hlt
        have := h3 (by simpa using hlt)
        rw [energyUpTo_cons]
        linarith
    · rename_i hgt
      refine ⟨by simp, fun k hk => absurd hk (by omega), fun _ => ?_⟩
      simpa [energyUpTo] using hgt

/-- The roll-off index of the code: with the percentage not negative, the least index whose cumulative energy exceeds
that share of the total energy, or the last index when there is none; the result is this index over N. -/
theorem C50_rolloff_partial {x : List ℝ} (hl : x ≠ []) {p : ℝ} (hp : 0 ≤ p) :
    ∃ i, i < x.length ∧ rolloff x p = .ok (i / x.length) ∧
      (∀ j, j < i → energyUpTo x (j + 1) ≤ p * energyUpTo x x.length) ∧
      (p * energyUpTo x x.length < energyUpTo x (i + 1) ∨ i + 1 = x.length) := by
  have hlen : 0 < x.length := List.length_pos_iff.mpr hl
  have he : 0 ≤ energyUpTo x x.length := sum_nonneg fun _ _ => sq_nonneg _
  obtain ⟨h1, h2, h3⟩ := rolloffLoop_spec (p * energyUpTo x x.length) x 0
  have hpos : rolloffLoop (p * energyUpTo x x.length) 0 x ≠ 0 := by
    obtain ⟨v, y, rfl⟩ := List.exists_cons_of_ne_nil hl
    unfold rolloffLoop
    rw [if_pos (mul_nonneg hp he)]
    omega
  obtain ⟨i, hi⟩ : ∃ i, rolloffLoop (p * energyUpTo x x.length) 0 x = i + 1 := ⟨_, (Nat.succ_pred_eq_of_ne_zero hpos).symm⟩
  rw [hi] at h1 h2 h3
  refine ⟨i, by omega, ?_, ?_, ?_⟩
  · unfold rolloff
    rw [energy_eq]
    dsimp only
    rw [hi, fdiv_ok (len_ne hl)]
    congr 2
    push_cast
    ring
  · intro j hj
    have := h2 (j + 1) (by omega)
    linarith
  · rcases Nat.lt_or_ge (i + 1) x.length with hlt | hge
    · left
      have := h3 hlt
      linarith
    · right; omega

example : ∃ i, i < ([3, 4, 0] : List ℝ).length ∧ rolloff [3, 4, 0] (1 / 2) = .ok (i / ([3, 4, 0] : List ℝ).length) ∧
    (∀ j, j < i → energyUpTo [3, 4, 0] (j + 1) ≤ 1 / 2 * energyUpTo [3, 4, 0] ([3, 4, 0] : List ℝ).length) ∧
    (1 / 2 * energyUpTo [3, 4, 0] ([3, 4, 0] : List ℝ).length < energyUpTo [3, 4, 0] (i + 1) ∨
      i + 1 = ([3, 4, 0] : List ℝ).length) := C50_rolloff_partial (by simp) (by norm_num)

/-- When no prefix has exactly the requested share, and the share is below 1, the index is the least one whose
cumulative energy reaches it. -/
theorem C50_least_partial {x : List ℝ} (hl : x ≠ []) {p : ℝ} (hp : 0 ≤ p) (hp1 : p < 1)
    (ht : ∀ k, 0 < k → k < x.length → energyUpTo x k ≠ p * energyUpTo x x.length) (h0 : 0 < energyUpTo x x.length) :
    ∃ i, i < x.length ∧ rolloff x p = .ok (i / x.length) ∧
      p * energyUpTo x x.length ≤ energyUpTo x (i + 1) ∧
      ∀ j, p * energyUpTo x x.length ≤ energyUpTo x (j + 1) → i ≤ j := by
  obtain ⟨i, h1, h2, h3, h4⟩ := C50_rolloff_partial hl hp
  refine ⟨i, h1, h2, ?_, ?_⟩
  · rcases h4 with h | h
    · exact h.le
    · rw [h]; nlinarith
  · intro j hj
    by_contra hlt
    have := h3 j (by omega)
    exact ht (j + 1) (by omega) (by omega) (le_antisymm this hj)

example : ∃ i, i < ([3, 4, 0] : List ℝ).length ∧ rolloff [3, 4, 0] (1 / 2) = .ok (i / ([3, 4, 0] : List ℝ).length) ∧
    1 / 2 * energyUpTo [3, 4, 0] ([3, 4, 0] : List ℝ).length ≤ energyUpTo [3, 4, 0] (i + 1) ∧
    ∀ j, 1 / 2 * energyUpTo [3, 4, 0] ([3, 4, 0] : List ℝ).length ≤ energyUpTo [3, 4, 0] (j + 1) → i ≤ j := by
  refine C50_least_partial (by simp) (by norm_num) (by norm_num) ?_ (by norm_num [energyUpTo, at0, sum_range_succ])
  intro k h0 h3
  have h3' : k < 3 := h3
  interval_cases k <;> norm_num [energyUpTo, at0, sum_range_succ]

/-- The result grows with the percentage, and lies in [0, 1). -/
theorem C50_monotone {x : List ℝ} (hl : x ≠ []) {p q : ℝ} (hp : 0 ≤ p) (hpq : p ≤ q) :
    ∃ r s, rolloff x p = .ok r ∧ rolloff x q = .ok s ∧ 0 ≤ r ∧ r ≤ s ∧ s < 1 := by
  have hlen : (0 : ℝ) < x.length := len_pos hl
  obtain ⟨i, h1, h2, h3, h4⟩ := C50_rolloff_partial hl hp
  obtain ⟨j, g1, g2, g3, g4⟩ := C50_rolloff_partial hl (hp.trans hpq)
  have he : 0 ≤ energyUpTo x x.length := sum_nonneg fun _ _ => sq_nonneg _
  refine ⟨_, _, h2, g2, by positivity, ?_, ?_⟩
  · apply div_le_div_of_nonneg_right _ hlen.le
    have : i ≤ j := by
      by_contra hlt
      have a := h3 j (by omega)
      rcases g4 with h | h
      · have := mul_le_mul_of_nonneg_right hpq he
        linarith
      · omega
    exact_mod_cast this
  · rw [div_lt_one hlen]
    exact_mod_cast g1

/-- The result does not depend on the scale of the data. -/
theorem C50_scale {x : List ℝ} (hl : x ≠ []) {p c : ℝ} (hp : 0 ≤ p) (hc : c ≠ 0) :
    rolloff (x.map fun v => c * v) p = rolloff x p := by
  have he : ∀ k, k ≤ x.length → energyUpTo (x.map fun v => c * v) k = c ^ 2 * energyUpTo x k := by
    intro k hk
    unfold energyUpTo
    rw [mul_sum]
    refine sum_congr rfl fun i hi => ?_
    rw [at0_map _ (by have := mem_range.mp hi; omega)]
    ring
  have hc2 : 0 < c ^ 2 := by positivity
  obtain ⟨i, h1, h2, h3, h4⟩ := C50_rolloff_partial hl hp
  obtain ⟨j, g1, g2, g3, g4⟩ := C50_rolloff_partial (x := x.map fun v => c * v) (by simpa using hl) hp
  rw [List.length_map] at g1 g2 g3 g4
  have hij : i = j := by
    rcases Nat.lt_trichotomy i j with h | h | h
    · exfalso
      have a := g3 i h
      rw [he _ (by omega), he _ (Nat.le_refl _)] at a
      rcases h4 with b | b
      · nlinarith
      · omega
    · exact h
    · exfalso
      have a := h3 j h
      rcases g4 with b | b
      · rw [he _ (Nat.le_refl _), he _ (by omega)] at b
        nlinarith
      · omega
  rw [h2, g2, hij]

/-- C50 is violated: where a prefix has exactly the requested share the code goes on (half of the energy of 1, 1 is
reached by the first sample; all of the energy of 1, 0, 0 too), and what it returns is not an index. -/
theorem C50_tie_violates : rolloff [1, 1] (1 / 2) = .ok (1 / 2) ∧
    1 / 2 * energyUpTo [1, 1] 2 = energyUpTo [1, 1] 1 ∧
    rolloff [1, 0, 0] 1 = .ok (2 / 3) ∧ 1 * energyUpTo [1, 0, 0] 3 = energyUpTo [1, 0, 0] 1 := by
  refine ⟨?_, ?_, ?_, ?_⟩
  · norm_num [rolloff, rolloffLoop, Seq.energy, Seq.innerSelf, fdiv]
  · norm_num [energyUpTo, at0, sum_range_succ]
  · norm_num [rolloff, rolloffLoop, Seq.energy, Seq.innerSelf, fdiv]
  · norm_num [energyUpTo, at0, sum_range_succ]

end Edsp.Feature
