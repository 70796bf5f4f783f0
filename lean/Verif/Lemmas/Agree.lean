import Verif.Spec.Agree
import Verif.Lemmas.Float
import Verif.Model.RoundedSums
import Mathlib.Analysis.SpecialFunctions.Pow.Real

/-!
# Calculus of `Agree`
-/

namespace Edsp.AgreeL

open Edsp.Spec Edsp.FloatL

/-- `1 + 2^-p`. -/
noncomputable def g (p : ℕ) : ℝ := 1 + (2 : ℝ) ^ (-(p : ℤ))

theorem g_ge (p : ℕ) : 1 ≤ g p := by
  have := two_zpow_pos (-(p : ℤ))
  unfold g
  linarith

theorem g_pos (p : ℕ) : 0 < g p := lt_of_lt_of_le one_pos (g_ge p)

theorem pow_ge (p k : ℕ) : 1 ≤ g p ^ k := one_le_pow₀ (g_ge p)

theorem pow_pos' (p k : ℕ) : 0 < g p ^ k := pow_pos (g_pos p) k

variable {p k l : ℕ} {a b c d : ℝ}

theorem iff : Agree p k a b ↔ a ≤ b * g p ^ k ∧ b ≤ a * g p ^ k := Iff.rfl

theorem refl (a : ℝ) : Agree p 0 a a := by rw [iff]; simp

theorem symm (h : Agree p k a b) : Agree p k b a := ⟨h.2, h.1⟩

theorem mono (ha : 0 ≤ a) (hb : 0 ≤ b) (hkl : k ≤ l) (h : Agree p k a b) : Agree p l a b := by
  have := pow_le_pow_right₀ (g_ge p) hkl
  exact ⟨h.1.trans (mul_le_mul_of_nonneg_left this hb), h.2.trans (mul_le_mul_of_nonneg_left this ha)⟩

theorem trans (h1 : Agree p k a b) (h2 : Agree p l b c) : Agree p (k + l) a c := by
  rw [iff] at *
  have hk := (pow_pos' p k).le
  have hl := (pow_pos' p l).le
  constructor
  · have := mul_le_mul_of_nonneg_right h2.1 hk
    rw [pow_add]
    linarith [h1.1]
  · have := mul_le_mul_of_nonneg_right h1.2 hl
    rw [pow_add]
    linarith [h2.2]

theorem mul (ha : 0 ≤ a) (hb : 0 ≤ b) (hc : 0 ≤ c) (hd : 0 ≤ d) (h1 : Agree p k a b) (h2 : Agree p l c d) :
    Agree p (k + l) (a * c) (b * d) := by
  rw [iff] at *
  constructor
  · have := mul_le_mul h1.1 h2.1 hc (mul_nonneg hb (pow_pos' p k).le)
    rw [pow_add]
    linarith
  · have := mul_le_mul h1.2 h2.2 hd (mul_nonneg ha (pow_pos' p k).le)
    rw [pow_add]
    linarith

theorem inv (ha : 0 < a) (hb : 0 < b) (h : Agree p k a b) : Agree p k a⁻¹ b⁻¹ := by
  rw [iff] at *
  have key : ∀ {x y : ℝ}, 0 < x → 0 < y → x ≤ y * g p ^ k → y⁻¹ ≤ x⁻¹ * g p ^ k := by
    intro x y hx hy hxy
    rw [inv_mul_eq_div, le_div_iff₀ hx, inv_mul_eq_div, div_le_iff₀ hy]
    linarith
  exact ⟨key hb ha h.2, key ha hb h.1⟩

theorem div (ha : 0 ≤ a) (hb : 0 ≤ b) (hc : 0 < c) (hd : 0 < d) (h1 : Agree p k a b) (h2 : Agree p l c d) :
    Agree p (k + l) (a / c) (b / d) := by
  rw [div_eq_mul_inv, div_eq_mul_inv]
  exact mul ha hb (inv_nonneg.mpr hc.le) (inv_nonneg.mpr hd.le) h1 (inv hc hd h2)

theorem add (h1 : Agree p k a b) (h2 : Agree p k c d) : Agree p k (a + c) (b + d) := by
  rw [iff] at *
  constructor
  · rw [add_mul]; exact add_le_add h1.1 h2.1
  · rw [add_mul]; exact add_le_add h1.2 h2.2

theorem sqrt (h : Agree p (2 * k) a b) : Agree p k (Real.sqrt a) (Real.sqrt b) := by
  rw [iff] at *
  have key : ∀ {x y : ℝ}, x ≤ y * g p ^ (2 * k) → Real.sqrt x ≤ Real.sqrt y * g p ^ k := by
    intro x y hxy
    have e : Real.sqrt (y * g p ^ (2 * k)) = Real.sqrt y * g p ^ k := by
      rw [mul_comm 2 k, pow_mul, Real.sqrt_mul' _ (sq_nonneg _), Real.sqrt_sq (pow_pos' p k).le]
    rw [← e]
    exact Real.sqrt_le_sqrt hxy
  exact ⟨key h.1, key h.2⟩

/-- One rounding. -/
theorem rnd_agree (hp : 1 ≤ p) {x : ℝ} (hx : 0 ≤ x) : Agree p 1 (rnd p x) x := by
  rcases hx.eq_or_lt with rfl | hx
  · rw [rnd_zero, iff]; simp
  have hu := two_zpow_pos (-(p : ℤ))
  rw [iff, pow_one, g]
  have h1 := (abs_le.mp (rnd_err p x))
  rw [abs_of_pos hx] at h1
  refine ⟨by linarith [h1.2], ?_⟩
  obtain ⟨k, k1, k2, k3⟩ := rnd_spec (p := p) hx.ne'
  rw [abs_of_pos hx] at k1 k2
  have hk := two_zpow_pos k
  have s1 := (significand hp k1 k2).1
  have s2 := abs_le.mp (ne_abs (x / 2 ^ k))
  set N := nearestEven (x / 2 ^ k)
  have s3 : (2 : ℝ) ^ ((p : ℤ) - 1) ≤ (N : ℝ) := by
    rw [zpow_nat p hp]
    exact_mod_cast s1
  have s4 : x ≤ (N + 1 / 2) * 2 ^ k := by
    rw [← div_le_iff₀ hk]
    linarith [s2.1]
  have s5 : (1 : ℝ) / 2 ≤ N * 2 ^ (-(p : ℤ)) := by
    have := mul_le_mul_of_nonneg_right s3 hu.le
    rw [← zpow_add₀ (by norm_num), show (p : ℤ) - 1 + -(p : ℤ) = -1 by ring] at this
    norm_num at this ⊢
    linarith
  have s6 := mul_le_mul_of_nonneg_right s5 hk.le
  rw [k3]
  linarith

theorem rnd_nonneg (hp : 1 ≤ p) {x : ℝ} (hx : 0 ≤ x) : 0 ≤ rnd p x := by
  have := rnd_mono hp hx
  rwa [rnd_zero] at this

/-- A rounding after `k` others. -/
theorem rnd_step (hp : 1 ≤ p) (ha : 0 ≤ a) (h : Agree p k a b) : Agree p (k + 1) (rnd p a) b := by
  rw [add_comm]
  exact trans (rnd_agree hp ha) h

theorem abs_rnd (hp : 1 ≤ p) (x : ℝ) : Agree p 1 |rnd p x| |x| := by
  rcases le_total 0 x with hx | hx
  · rw [abs_of_nonneg hx, abs_of_nonneg (rnd_nonneg hp hx)]
    exact rnd_agree hp hx
  · have h := rnd_agree hp (x := -x) (by linarith)
    rw [rnd_neg] at h
    have h0 := rnd_nonneg hp (x := -x) (by linarith)
    rw [rnd_neg] at h0
    rw [abs_of_nonpos hx, abs_of_nonpos (by linarith)]
    exact h

/-- Sums of numbers that agree. -/
theorem sum_agree {ι : Type} (s : Finset ι) {t y : ι → ℝ} (h : ∀ i ∈ s, Agree p k (t i) (y i)) :
    Agree p k (∑ i ∈ s, t i) (∑ i ∈ s, y i) := by
  rw [iff, Finset.sum_mul, Finset.sum_mul]
  exact ⟨Finset.sum_le_sum fun i hi => (h i hi).1, Finset.sum_le_sum fun i hi => (h i hi).2⟩

theorem accumulate_ge (hp : 1 ≤ p) (xs : List ℝ) : ∀ a : ℝ, 0 ≤ a → (∀ x ∈ xs, 0 ≤ x) →
    0 ≤ Rounded.accumulate p a xs := by
  induction xs with
  | nil => intro a ha _; exact ha
  | cons x xs ih =>
    intro a ha hx
    exact ih _ (rnd_nonneg hp (add_nonneg ha (hx x List.mem_cons_self))) fun y hy => hx y (List.mem_cons_of_mem _ hy)

/-- A running sum of non-negative numbers: one rounding per number. -/
theorem accumulate_agree (hp : 1 ≤ p) (xs : List ℝ) : ∀ a : ℝ, 0 ≤ a → (∀ x ∈ xs, 0 ≤ x) →
    Agree p xs.length (Rounded.accumulate p a xs) (a + xs.sum) := by
  induction xs with
  | nil => intro a _ _; simpa [Rounded.accumulate] using refl a
  | cons x xs ih =>
    intro a ha hx
    have hx0 := hx x List.mem_cons_self
    have hxs : ∀ y ∈ xs, 0 ≤ y := fun y hy => hx y (List.mem_cons_of_mem _ hy)
    have h1 := ih (rnd p (a + x)) (rnd_nonneg hp (add_nonneg ha hx0)) hxs
    have h2 : Agree p 1 (rnd p (a + x) + xs.sum) (a + (x :: xs).sum) := by
      rw [List.sum_cons, ← add_assoc]
      exact add (rnd_agree hp (add_nonneg ha hx0)) (mono (List.sum_nonneg hxs) (List.sum_nonneg hxs) (Nat.zero_le 1) (refl _))
    exact trans h1 h2

end Edsp.AgreeL
