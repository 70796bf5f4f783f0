import Verif.Model.Noise
import Mathlib.Algebra.BigOperators.Ring.Finset
import Mathlib.Algebra.Order.BigOperators.Group.Finset
import Mathlib.Tactic.Linarith
import Mathlib.Tactic.NormNum
import Mathlib.Tactic.FieldSimp
import Mathlib.Tactic.Ring
import Mathlib.Tactic.Positivity

/-!
# C53: noise generators
-/

namespace Edsp.Noise

open Finset

/-! ### Specification -/

/-- A conversion never grows a value. -/
def Shrinks (conv : ℝ → ℝ) : Prop := ∀ x, |conv x| ≤ |x|

/-- Response of a one-pole filter with pole `a` and gain `g` to the samples drawn up to and including number `n`. -/
noncomputable def onePole (a g : ℝ) (w : ℕ → ℝ) (n : ℕ) : ℝ := ∑ k ∈ range (n + 1), a ^ (n - k) * g * w k

/-! ### Helper lemmas -/

theorem shrinks_id : Shrinks id := fun _ => le_rfl

theorem shrinks_truncate : Shrinks truncate := by
  intro x
  unfold truncate
  split
  · rename_i h
    have : (0 : ℝ) ≤ (⌊x⌋ : ℝ) := by exact_mod_cast Int.floor_nonneg.mpr h
    rw [abs_of_nonneg this, abs_of_nonneg h]
    exact Int.floor_le x
  · rename_i h
    have h := (not_le.mp h).le
    have : ((⌈x⌉ : ℤ) : ℝ) ≤ 0 := by exact_mod_cast Int.ceil_le.mpr (by simpa using h)
    rw [abs_of_nonpos this, abs_of_nonpos h]
    exact neg_le_neg (Int.le_ceil x)

theorem truncate_small {x : ℝ} (h : |x| < 1) : truncate x = 0 := by
  obtain ⟨h1, h2⟩ := abs_lt.mp h
  unfold truncate
  split
  · rename_i h0
    rw [Int.floor_eq_zero_iff.mpr ⟨h0, h2⟩]
    simp
  · rename_i h0
    have : ⌈x⌉ = 0 := Int.ceil_eq_zero_iff.mpr ⟨h1, (not_le.mp h0).le⟩
    rw [this]
    simp

theorem onePole_rec {a g : ℝ} {w b : ℕ → ℝ} (h0 : b 0 = 0) (hs : ∀ n, b (n + 1) = a * b n + w n * g) :
    ∀ n, b (n + 1) = onePole a g w n
  | 0 => by rw [hs, h0]; simp [onePole]; ring
  | n + 1 => by
    rw [hs, onePole_rec h0 hs n]
    unfold onePole
    rw [sum_range_succ _ (n + 1), mul_sum, Nat.sub_self, pow_zero]
    have : ∑ k ∈ range (n + 1), a ^ (n + 1 - k) * g * w k = ∑ k ∈ range (n + 1), a * (a ^ (n - k) * g * w k) := by
      refine sum_congr rfl fun k hk => ?_
      have := mem_range.mp hk
      rw [show n + 1 - k = (n - k) + 1 by omega, pow_succ]
      ring
    rw [this]
    ring

/-- A memory that obeys `b := conv (a * b + g * white)` stays below `c * A` if `|a| c + |g| ≤ c`. -/
theorem bounded_step {conv : ℝ → ℝ} (hc : Shrinks conv) {a g c A b w : ℝ} (hA : 0 ≤ A) (hb : |b| ≤ c * A)
    (hw : |w| ≤ A) (h : |a| * c + |g| ≤ c) : |conv (a * b + w * g)| ≤ c * A := by
  refine (hc _).trans ((abs_add_le _ _).trans ?_)
  rw [abs_mul, abs_mul]
  have e1 : |a| * |b| ≤ |a| * (c * A) := mul_le_mul_of_nonneg_left hb (abs_nonneg a)
  have e2 : |w| * |g| ≤ A * |g| := mul_le_mul_of_nonneg_right hw (abs_nonneg g)
  have e3 : (|a| * c + |g|) * A ≤ c * A := mul_le_mul_of_nonneg_right h hA
  linarith

/-! ### Brown noise -/

theorem brownState_le {conv : ℝ → ℝ} (hc : Shrinks conv) {A : ℝ} {w : ℕ → ℝ} (hw : ∀ n, |w n| ≤ A) :
    ∀ n, |brownState conv w n| ≤ A
  | 0 => by simpa [brownState] using (abs_nonneg _).trans (hw 0)
  | n + 1 => by
    have ih := brownState_le hc hw n
    simp only [brownState, brownStep]
    refine (hc _).trans ?_
    rw [abs_div, div_le_iff₀ (by norm_num)]
    refine (hc _).trans ((abs_add_le _ _).trans ?_)
    rw [abs_mul, abs_of_pos (show (0 : ℝ) < 2 / 100 by norm_num), abs_of_pos (show (0 : ℝ) < 102 / 100 by norm_num)]
    have := hw n
    linarith

/-- Brown noise stays within 3.5 times the largest white sample, for ever and for floating and integer samples
alike. -/
theorem C53_brown {conv : ℝ → ℝ} (hc : Shrinks conv) {A : ℝ} {w : ℕ → ℝ} (hw : ∀ n, |w n| ≤ A) (n : ℕ) :
    |brown conv w n| ≤ 35 / 10 * A := by
  have := brownState_le hc hw (n + 1)
  have e : brown conv w n = conv (35 / 10 * brownState conv w (n + 1)) := rfl
  rw [e]
  refine (hc _).trans ?_
  rw [abs_mul, abs_of_pos (show (0 : ℝ) < 35 / 10 by norm_num)]
  linarith

example : ∀ n, |brown truncate (fun n => if n % 2 = 0 then 100 else -100) n| ≤ 35 / 10 * 100 :=
  C53_brown shrinks_truncate fun n => by split <;> norm_num

/-- In exact arithmetic brown noise is white noise through a one-pole low-pass filter with gain 3.5 at frequency 0:
sample `n` is a fixed combination of the samples drawn so far. -/
theorem C53_brown_filter (w : ℕ → ℝ) (n : ℕ) : brown id w n = 35 / 10 * onePole (50 / 51) (1 / 51) w n := by
  have e : brown id w n = 35 / 10 * brownState id w (n + 1) := rfl
  rw [e, onePole_rec (a := 50 / 51) (g := 1 / 51) (w := w) (b := brownState id w) rfl]
  intro n
  simp only [brownState, brownStep, id]
  ring

/-! ### Pink noise -/

/-- Each memory stays within its own multiple of the largest white sample. -/
structure PinkWithin (A : ℝ) (s : Pink) : Prop where
  h0 : |s.b0| ≤ 487 / 10 * A
  h1 : |s.b1| ≤ 1124 / 100 * A
  h2 : |s.b2| ≤ 497 / 100 * A
  h3 : |s.b3| ≤ 233 / 100 * A
  h4 : |s.b4| ≤ 119 / 100 * A
  h5 : |s.b5| ≤ 8 / 100 * A
  h6 : |s.b6| ≤ 12 / 100 * A

theorem pink_within {conv : ℝ → ℝ} (hc : Shrinks conv) {A w : ℝ} {s : Pink} (hs : PinkWithin A s) (hw : |w| ≤ A) :
    PinkWithin A (pinkStep conv s w).1 := by
  have hA : 0 ≤ A := (abs_nonneg _).trans hw
  have ab : ∀ x : ℝ, 0 ≤ x → |x| = x := fun x h => abs_of_nonneg h
  refine ⟨?_, ?_, ?_, ?_, ?_, ?_, ?_⟩
  · exact bounded_step hc hA hs.h0 hw (by rw [ab _ (by norm_num), ab _ (by norm_num)]; norm_num)
  · exact bounded_step hc hA hs.h1 hw (by rw [ab _ (by norm_num), ab _ (by norm_num)]; norm_num)
  · exact bounded_step hc hA hs.h2 hw (by rw [ab _ (by norm_num), ab _ (by norm_num)]; norm_num)
  · exact bounded_step hc hA hs.h3 hw (by rw [ab _ (by norm_num), ab _ (by norm_num)]; norm_num)
  · exact bounded_step hc hA hs.h4 hw (by rw [ab _ (by norm_num), ab _ (by norm_num)]; norm_num)
  · have := bounded_step hc (a := -(7616 / 10000)) (g := -(168980 / 10000000)) hA hs.h5 hw
      (by rw [abs_neg, abs_neg, ab _ (by norm_num), ab _ (by norm_num)]; norm_num)
    rwa [mul_neg, ← sub_eq_add_neg] at this
  · refine (hc _).trans ?_
    rw [abs_mul, ab (115926 / 1000000) (by norm_num)]
    linarith

theorem pinkState_within {conv : ℝ → ℝ} (hc : Shrinks conv) {A : ℝ} {w : ℕ → ℝ} (hw : ∀ n, |w n| ≤ A) :
    ∀ n, PinkWithin A (pinkState conv w n)
  | 0 => by
    have hA : 0 ≤ A := (abs_nonneg _).trans (hw 0)
    constructor <;> simp only [pinkState, abs_zero] <;> positivity
  | n + 1 => pink_within hc (pinkState_within hc hw n) (hw n)

/-- Pink noise stays within 7.62 times the largest white sample. -/
theorem C53_pink {conv : ℝ → ℝ} (hc : Shrinks conv) {A : ℝ} {w : ℕ → ℝ} (hw : ∀ n, |w n| ≤ A) (n : ℕ) :
    |pink conv w n| ≤ 762 / 100 * A := by
  have h' := pinkState_within hc hw (n + 1)
  have h6 := (pinkState_within hc hw n).h6
  have e : pink conv w n = conv (((pinkState conv w (n + 1)).b0 + (pinkState conv w (n + 1)).b1 +
    (pinkState conv w (n + 1)).b2 + (pinkState conv w (n + 1)).b3 + (pinkState conv w (n + 1)).b4 +
    (pinkState conv w (n + 1)).b5 + (pinkState conv w n).b6 + w n * (5362 / 10000)) * (11 / 100)) := rfl
  rw [e]
  refine (hc _).trans ?_
  have hw := abs_le.mp (hw n)
  have := abs_le.mp h'.h0
  have := abs_le.mp h'.h1
  have := abs_le.mp h'.h2
  have := abs_le.mp h'.h3
  have := abs_le.mp h'.h4
  have := abs_le.mp h'.h5
  have := abs_le.mp h6
  rw [abs_le]
  constructor <;> linarith

example : ∀ n, |pink id (fun n => if n % 3 = 0 then 1 else -1) n| ≤ 762 / 100 * 1 :=
  C53_pink shrinks_id fun n => by split <;> norm_num

/-- In exact arithmetic pink noise is white noise through a bank of six one-pole filters, plus the current and the
previous white sample. -/
theorem C53_pink_filter (w : ℕ → ℝ) (n : ℕ) : pink id w n = (onePole 0.99886 0.0555179 w n +
    onePole 0.99332 0.0750759 w n + onePole 0.96900 0.1538520 w n + onePole 0.86650 0.3104856 w n +
    onePole 0.55000 0.5329522 w n + onePole (-0.7616) (-0.0168980) w n +
    (if n = 0 then 0 else w (n - 1)) * 0.115926 + w n * 0.5362) * 0.11 := by
  have e : pink id w n = (((pinkState id w (n + 1)).b0 + (pinkState id w (n + 1)).b1 +
    (pinkState id w (n + 1)).b2 + (pinkState id w (n + 1)).b3 + (pinkState id w (n + 1)).b4 +
    (pinkState id w (n + 1)).b5 + (pinkState id w n).b6 + w n * (5362 / 10000)) * (11 / 100)) := rfl
  have h6 : (pinkState id w n).b6 = (if n = 0 then 0 else w (n - 1)) * 0.115926 := by
    cases n with
    | zero => simp [pinkState]
    | succ n => simp [pinkState, pinkStep]; norm_num
  rw [e, h6, onePole_rec (a := 0.99886) (g := 0.0555179) (w := w) (b := fun n => (pinkState id w n).b0) rfl,
    onePole_rec (a := 0.99332) (g := 0.0750759) (w := w) (b := fun n => (pinkState id w n).b1) rfl,
    onePole_rec (a := 0.96900) (g := 0.1538520) (w := w) (b := fun n => (pinkState id w n).b2) rfl,
    onePole_rec (a := 0.86650) (g := 0.3104856) (w := w) (b := fun n => (pinkState id w n).b3) rfl,
    onePole_rec (a := 0.55000) (g := 0.5329522) (w := w) (b := fun n => (pinkState id w n).b4) rfl,
    onePole_rec (a := -0.7616) (g := -0.0168980) (w := w) (b := fun n => (pinkState id w n).b5) rfl]
  · norm_num
  all_goals
    intro n
    simp only [pinkState, pinkStep, id]
    norm_num
  ring

/-! ### Violations -/

/-- Brown noise leaves the interval given to the constructor: with white samples of 1 the limit is 3.5, and every
value below is passed. -/
theorem C53_range_violates : |brown id (fun _ => 1) 17| > 1 := by
  have hs : ∀ n, brownState id (fun _ => 1) n = 1 - (50 / 51) ^ n := by
    intro n
    induction n with
    | zero => simp [brownState]
    | succ n ih =>
      simp only [brownState, brownStep, id] at ih ⊢
      rw [ih, pow_succ]
      ring
  have e : brown id (fun _ => 1) 17 = 35 / 10 * brownState id (fun _ => 1) 18 := rfl
  rw [e, hs]
  norm_num

/-- C53 is violated for integer samples (the only ones `std::uniform_int_distribution` admits): brown noise of white
samples within ±49 is silence for ever. -/
theorem C53_brown_silent_violates {w : ℕ → ℝ} (hw : ∀ n, |w n| ≤ 49) (n : ℕ) : brown truncate w n = 0 := by
  have h0 : truncate 0 = 0 := truncate_small (by simp)
  have hs : ∀ n, brownState truncate w n = 0 := by
    intro n
    induction n with
    | zero => rfl
    | succ n ih =>
      simp only [brownState, brownStep, ih, zero_add]
      have h : truncate (2 / 100 * w n) = 0 := truncate_small (by
        rw [abs_mul, abs_of_pos (by norm_num)]
        have := hw n
        linarith)
      rw [h, zero_div, h0]
  have e : brown truncate w n = truncate (35 / 10 * brownState truncate w (n + 1)) := rfl
  rw [e, hs, mul_zero, h0]

/-- And pink noise of white samples within ±1 is silence for ever. -/
theorem C53_pink_silent_violates {w : ℕ → ℝ} (hw : ∀ n, |w n| ≤ 1) (n : ℕ) : pink truncate w n = 0 := by
  have small : ∀ n (c : ℝ), 0 ≤ c → c < 1 → truncate (w n * c) = 0 := by
    intro n c h0 h1
    apply truncate_small
    rw [abs_mul, abs_of_nonneg h0]
    nlinarith [hw n, abs_nonneg (w n)]
  have neg : ∀ n (c : ℝ), 0 ≤ c → c < 1 → truncate (-(w n * c)) = 0 := by
    intro n c h0 h1
    apply truncate_small
    rw [abs_neg, abs_mul, abs_of_nonneg h0]
    nlinarith [hw n, abs_nonneg (w n)]
  have hs : ∀ n, pinkState truncate w n = ⟨0, 0, 0, 0, 0, 0, 0⟩ := by
    intro n
    induction n with
    | zero => rfl
    | succ n ih =>
      simp only [pinkState, pinkStep, ih, mul_zero, zero_add, zero_sub]
      rw [small, small, small, small, small, neg, small] <;> norm_num
  have e : pink truncate w n = truncate (((pinkState truncate w (n + 1)).b0 + (pinkState truncate w (n + 1)).b1 +
    (pinkState truncate w (n + 1)).b2 + (pinkState truncate w (n + 1)).b3 + (pinkState truncate w (n + 1)).b4 +
    (pinkState truncate w (n + 1)).b5 + (pinkState truncate w n).b6 + w n * (5362 / 10000)) * (11 / 100)) := rfl
  rw [e, hs, hs]
  simp only [add_zero, zero_add, mul_assoc]
  rw [small] <;> norm_num

end Edsp.Noise
