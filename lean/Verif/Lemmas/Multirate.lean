import Verif.Lemmas.Fourier
import Verif.Lemmas.Spectral

/-! # Fourier sums of repeated, spread, thinned out and modulated sequences -/

namespace Edsp.Multirate

open Complex Finset Edsp.Fourier Edsp.Spectral

theorem sum_blocks (n : ℕ) (g : ℕ → ℂ) : ∀ L : ℕ, ∑ j ∈ range (L * n), g j = ∑ a ∈ range L, ∑ b ∈ range n, g (a * n + b)
  | 0 => by simp
  | L + 1 => by rw [sum_range_succ, ← sum_blocks n g L, Nat.succ_mul, sum_range_add]

theorem turn_split {L n : ℕ} (hL : 0 < L) (hn : 0 < n) (a b k : ℕ) :
    exp (-(2 * Real.pi * I * ((a * n + b : ℕ) : ℂ) * k / ((L * n : ℕ) : ℂ))) =
      exp (-(2 * Real.pi * I * a * k / L)) * exp (-(2 * Real.pi * I * b * k / ((L * n : ℕ) : ℂ))) := by
  have h1 : (L : ℂ) ≠ 0 := Nat.cast_ne_zero.mpr hL.ne'
  have h2 : (n : ℂ) ≠ 0 := Nat.cast_ne_zero.mpr hn.ne'
  rw [← Complex.exp_add]
  congr 1
  push_cast
  field_simp
  ring

theorem turn_scale {L n : ℕ} (hL : 0 < L) (b k : ℕ) :
    exp (-(2 * Real.pi * I * b * ((L * k : ℕ) : ℂ) / ((L * n : ℕ) : ℂ))) = exp (-(2 * Real.pi * I * b * k / n)) := by
  have h1 : (L : ℂ) ≠ 0 := Nat.cast_ne_zero.mpr hL.ne'
  congr 1
  push_cast
  rcases Nat.eq_zero_or_pos n with rfl | hn
  · simp
  have h2 : (n : ℂ) ≠ 0 := Nat.cast_ne_zero.mpr hn.ne'
  field_simp

/-- A sequence of period `n`, seen over `L` periods. -/
theorem F_repeated {L n : ℕ} (hL : 0 < L) (hn : 0 < n) {f : ℕ → ℂ} (hf : ∀ a b, b < n → f (a * n + b) = f b) (k : ℕ) :
    F (L * n) f k = if L ∣ k then L * F n f (k / L) else 0 := by
  unfold F
  rw [sum_blocks]
  have e : ∀ a ∈ range L, ∑ b ∈ range n, f (a * n + b) *
      exp (-(2 * Real.pi * I * ((a * n + b : ℕ) : ℂ) * k / ((L * n : ℕ) : ℂ))) =
      om L ^ ((a : ℤ) * (-(k : ℤ))) * ∑ b ∈ range n, f b * exp (-(2 * Real.pi * I * b * k / ((L * n : ℕ) : ℂ))) := by
    intro a _
    rw [mul_sum]
    refine sum_congr rfl fun b hb => ?_
    rw [hf a b (mem_range.mp hb), turn_split hL hn, Fourier.exp_neg L a k, mul_neg]
    ring
  rw [sum_congr rfl e, ← sum_mul, orth hL.ne']
  have hd : ((L : ℤ) ∣ -(k : ℤ)) ↔ L ∣ k := by rw [dvd_neg, Int.natCast_dvd_natCast]
  simp only [hd]
  split
  · next h =>
    congr 1
    refine sum_congr rfl fun b _ => ?_
    conv_lhs => rw [show k = L * (k / L) from (Nat.mul_div_cancel' h).symm]
    rw [turn_scale hL]
  · rw [zero_mul]

/-- A sequence with `L - 1` zeros behind every element. -/
theorem F_spread {L n : ℕ} (hL : 0 < L) {f g : ℕ → ℂ} (h0 : ∀ a, g (a * L) = f a)
    (h1 : ∀ a b, 0 < b → b < L → g (a * L + b) = 0) (k : ℕ) : F (L * n) g k = F n f k := by
  unfold F
  rw [show range (L * n) = range (n * L) by rw [Nat.mul_comm], sum_blocks]
  refine sum_congr rfl fun a _ => ?_
  obtain ⟨M, rfl⟩ : ∃ M, L = M + 1 := ⟨L - 1, by omega⟩
  rw [sum_range_succ', sum_eq_zero, zero_add]
  · rw [add_zero, h0]
    congr 1
    have := turn_scale (L := M + 1) (n := n) hL k a
    rw [show 2 * ↑Real.pi * I * ((a * (M + 1) : ℕ) : ℂ) * k = 2 * ↑Real.pi * I * k * (((M + 1) * a : ℕ) : ℂ) by
      push_cast; ring, this]
    congr 1
    ring
  · intro b hb
    have hb := mem_range.mp hb
    rw [h1 a (b + 1) (by omega) (by omega), zero_mul]

/-- Every `L`-th element of a sequence. -/
theorem F_thinned {L n : ℕ} (hL : 0 < L) (hn : 0 < n) (f : ℕ → ℂ) (k : ℕ) :
    L * F n (fun j => f (L * j)) k = ∑ r ∈ range L, F (L * n) f (k + r * n) := by
  unfold F
  rw [sum_comm, show range (L * n) = range (n * L) by rw [Nat.mul_comm], sum_blocks, mul_sum]
  refine sum_congr rfl fun a _ => ?_
  have hLn : L * n ≠ 0 := (Nat.mul_pos hL hn).ne'
  have e : ∀ b ∈ range L, ∑ r ∈ range L, f (a * L + b) *
      exp (-(2 * Real.pi * I * ((a * L + b : ℕ) : ℂ) * ((k + r * n : ℕ) : ℂ) / ((L * n : ℕ) : ℂ))) =
      if b = 0 then L * (f (L * a) * exp (-(2 * Real.pi * I * a * k / n))) else 0 := by
    intro b hb
    have hb := mem_range.mp hb
    have e1 : ∀ r ∈ range L, f (a * L + b) *
        exp (-(2 * Real.pi * I * ((a * L + b : ℕ) : ℂ) * ((k + r * n : ℕ) : ℂ) / ((L * n : ℕ) : ℂ))) =
        f (a * L + b) * exp (-(2 * Real.pi * I * ((a * L + b : ℕ) : ℂ) * k / ((L * n : ℕ) : ℂ))) *
          om L ^ ((r : ℤ) * (-((a * L + b : ℕ) : ℤ))) := by
      intro r _
      rw [mul_assoc (f (a * L + b))]
      congr 1
      have h1 : (L : ℂ) ≠ 0 := Nat.cast_ne_zero.mpr hL.ne'
      have h2 : (n : ℂ) ≠ 0 := Nat.cast_ne_zero.mpr hn.ne'
      rw [mul_neg, mul_comm (r : ℤ), ← Fourier.exp_neg L (a * L + b) r, ← Complex.exp_add]
      congr 1
      push_cast
      field_simp
      ring
    rw [sum_congr rfl e1, ← mul_sum, orth hL.ne']
    have hd : ((L : ℤ) ∣ -((a * L + b : ℕ) : ℤ)) ↔ b = 0 := by
      rw [dvd_neg, Int.natCast_dvd_natCast]
      constructor
      · intro h
        have h' : L ∣ b := (Nat.dvd_add_right (Dvd.intro_left a rfl)).mp h
        exact Nat.eq_zero_of_dvd_of_lt h' hb
      · rintro rfl; exact Dvd.intro_left a rfl
    simp only [hd]
    split
    · next h =>
      subst h
      rw [add_zero, mul_comm _ (L : ℂ)]
      congr 2
      · rw [mul_comm]
      · have := turn_scale (L := L) (n := n) hL k a
        rw [show 2 * ↑Real.pi * I * ((a * L : ℕ) : ℂ) * k = 2 * ↑Real.pi * I * k * ((L * a : ℕ) : ℂ) by
          push_cast; ring, this]
        congr 1
        ring
    · rw [mul_zero]
  rw [sum_congr rfl e, sum_ite_eq', if_pos (mem_range.mpr hL)]

/-- Multiplication by a complex oscillation moves the bins. -/
theorem F_modulated {n : ℕ} (f : ℕ → ℂ) (p k : ℕ) :
    F n (fun j => f j * om n ^ (-((j : ℤ) * p))) k = F n f (k + p) := by
  unfold F
  refine sum_congr rfl fun j _ => ?_
  rw [Fourier.exp_neg, Fourier.exp_neg, mul_assoc, ← zpow_add₀ (om_ne n)]
  congr 2
  push_cast
  ring

theorem F_period {n : ℕ} (h0 : 0 < n) (f : ℕ → ℂ) {k l : ℕ} (h : (n : ℤ) ∣ (k : ℤ) - l) : F n f k = F n f l := by
  unfold F
  refine sum_congr rfl fun j _ => ?_
  rw [Fourier.exp_neg, Fourier.exp_neg]
  congr 1
  refine om_zpow_congr h0.ne' ?_
  rw [show -((j : ℤ) * k) - -((j : ℤ) * l) = -(j * ((k : ℤ) - l)) by ring]
  exact (dvd_neg).mpr (Dvd.dvd.mul_left h _)

end Edsp.Multirate
