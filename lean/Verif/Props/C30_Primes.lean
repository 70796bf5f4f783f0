import Verif.Model.Numeric
import Mathlib.Data.Nat.Prime.Basic
import Mathlib.Algebra.Order.Floor.Ring
import Mathlib.Data.Rat.Floor

/-!
# C30: is_prime, is_odd, is_even; C62: the small numeric helpers
-/

namespace Edsp.C30
open Edsp.Num

/-- For n coprime to 6 the loop started at r = 5 (mod 6) below n ends with `false`. -/
theorem loop_false {n : Nat} (hn : n < 2 ^ 64) (h2 : n % 2 ≠ 0) (h3 : n % 3 ≠ 0) (k r : Nat) (hr : r % 6 = 5)
    (hk : n ≤ r + 6 * k + 2) (hrn : r ≤ n) (fuel : Nat) (hf : k < fuel) :
    isPrimeLoop n fuel r = some (.ok false) := by
  induction k generalizing r fuel with
  | zero =>
    obtain ⟨f, rfl⟩ : ∃ f, fuel = f + 1 := ⟨fuel - 1, by omega⟩
    rw [isPrimeLoop]
    split
    · have hr0 : r ≠ 0 := by omega
      simp only [umod, hr0, if_false]
      split
      · rfl
      · rename_i ha
        have hne : r ≠ n := by rintro rfl; simp at ha
        have : n = r + 2 := by omega
        have e : (r + 2) % 2 ^ 64 = n := by rw [← this]; exact Nat.mod_eq_of_lt hn
        have hn0 : n ≠ 0 := by omega
        simp only [e, hn0, if_false, Nat.mod_self, if_true]
    · rfl
  | succ k ih =>
    obtain ⟨f, rfl⟩ : ∃ f, fuel = f + 1 := ⟨fuel - 1, by omega⟩
    rw [isPrimeLoop]
    split
    · have hr0 : r ≠ 0 := by omega
      simp only [umod, hr0, if_false]
      split
      · rfl
      · rename_i ha
        have hne : r ≠ n := by rintro rfl; simp at ha
        have hle : r + 2 ≤ n := by omega
        have e : (r + 2) % 2 ^ 64 = r + 2 := Nat.mod_eq_of_lt (by omega)
        have h0 : r + 2 ≠ 0 := by omega
        simp only [e, h0, if_false]
        split
        · rfl
        · rename_i hb
          have hne2 : n ≠ r + 2 := by intro h; rw [h] at hb; simp at hb
          have hle6 : r + 6 ≤ n := by omega
          have e6 : (r + 6) % 2 ^ 64 = r + 6 := Nat.mod_eq_of_lt (by omega)
          rw [e6]
          exact ih (r + 6) (by omega) (by omega) hle6 f (by omega)
    · rfl

/-- **C30 (is_prime, what it computes).**  For every argument representable in 64 bits `is_prime`
terminates and is true exactly for 2 and 3. -/
theorem C30_is_prime_value (x : Int) (h1 : -2 ^ 63 ≤ x) (h2 : x < 2 ^ 64) (fuel : Nat) (hf : 2 ^ 64 ≤ fuel) :
    isPrime fuel x = some (.ok (decide (x = 2 ∨ x = 3))) := by
  have hn : (x % 2 ^ 64).toNat < 2 ^ 64 := by omega
  have key : (x % 2 ^ 64).toNat = 2 ∨ (x % 2 ^ 64).toNat = 3 ↔ x = 2 ∨ x = 3 := by omega
  suffices h : ∀ n : Nat, n < 2 ^ 64 → (n = 2 ∨ n = 3 ↔ x = 2 ∨ x = 3) →
      (if n ≤ 1 then some (Except.ok false) else if n ≤ 3 then some (.ok true)
        else if n % 2 = 0 then some (.ok false) else if n % 3 = 0 then some (.ok false)
        else isPrimeLoop n fuel 5) = some (.ok (decide (x = 2 ∨ x = 3))) from h _ hn key
  clear hn key
  intro n hn key
  rw [show decide (x = 2 ∨ x = 3) = decide (n = 2 ∨ n = 3) from decide_eq_decide.2 key.symm]
  split
  · have : ¬ (n = 2 ∨ n = 3) := by omega
    simp [this]
  split
  · have : n = 2 ∨ n = 3 := by omega
    simp [this]
  have h : ¬ (n = 2 ∨ n = 3) := by omega
  simp only [h, decide_false]
  split
  · rfl
  split
  · rfl
  exact loop_false hn (by assumption) (by assumption) n 5 (by norm_num) (by omega) (by omega) fuel (by omega)

/-- **C30 (no false positives).**  `is_prime` never calls a number prime that is not.  Missing for the full
claim: it also rejects every prime above 3 (`C30_is_prime_violates`). -/
theorem C30_is_prime_partial (x : Int) (h1 : -2 ^ 63 ≤ x) (h2 : x < 2 ^ 64) (fuel : Nat) (hf : 2 ^ 64 ≤ fuel) :
    ∃ b, isPrime fuel x = some (.ok b) ∧ (b = true → ∃ p : Nat, x = p ∧ p.Prime) := by
  refine ⟨_, C30_is_prime_value x h1 h2 fuel hf, ?_⟩
  intro h
  rcases of_decide_eq_true h with rfl | rfl
  · exact ⟨2, rfl, Nat.prime_two⟩
  · exact ⟨3, rfl, Nat.prime_three⟩

example : -2 ^ 63 ≤ (91 : Int) ∧ (91 : Int) < 2 ^ 64 := by norm_num

/-- **C30 (violated).**  `is_prime` is false for every prime above 3. -/
theorem C30_is_prime_violates (p : Nat) (_hp : p.Prime) (h3 : 3 < p) (hb : p < 2 ^ 64) (fuel : Nat)
    (hf : 2 ^ 64 ≤ fuel) : isPrime fuel p = some (.ok false) := by
  rw [C30_is_prime_value p (by omega) (by omega) fuel hf]
  have : ¬ ((p : Int) = 2 ∨ (p : Int) = 3) := by omega
  simp [this]

example : Nat.Prime 5 ∧ 3 < 5 := ⟨by decide, by norm_num⟩

/-- **C30 (parity of non-negative integers).**  Missing: negative odd integers
(`C30_parity_violates`). -/
theorem C30_parity_partial (x : Int) (h : 0 ≤ x ∨ Even x) :
    (isOdd x = true ↔ Odd x) ∧ (isEven x = true ↔ Even x) := by
  have key : isOdd x = true ↔ Odd x := by
    rw [isOdd, beq_iff_eq, Int.odd_iff]
    rcases h with h | h
    · rw [Int.tmod_eq_emod_of_nonneg h]
    · obtain ⟨k, rfl⟩ := h
      have h1 : Int.tmod (k + k) 2 = 0 := Int.tmod_eq_zero_of_dvd ⟨k, by ring⟩
      rw [h1]
      omega
  refine ⟨key, ?_⟩
  rw [isEven, Bool.not_eq_true', ← Bool.not_eq_true, key, Int.not_odd_iff_even]

example : (0 : Int) ≤ 7 ∧ Even (-4 : Int) := ⟨by norm_num, ⟨-2, by norm_num⟩⟩

/-- **C30 (parity violated).**  Every negative odd integer is reported as even. -/
theorem C30_parity_violates (x : Int) (hx : x < 0) (ho : Odd x) : isOdd x = false ∧ isEven x = true := by
  have : isOdd x = false := by
    rw [isOdd, beq_eq_false_iff_ne]
    obtain ⟨k, rfl⟩ := ho
    intro h
    have h1 : Int.tmod (-(2 * k + 1)) 2 = -1 := by rw [Int.neg_tmod, h]
    have h2 : 0 ≤ Int.tmod (-(2 * k + 1)) 2 := Int.tmod_nonneg _ (by omega)
    omega
  exact ⟨this, by simp [isEven, this]⟩

example : (-3 : Int) < 0 ∧ Odd (-3 : Int) := ⟨by norm_num, ⟨-2, by norm_num⟩⟩

section C62
variable {K : Type} [Field K] [LinearOrder K] [IsStrictOrderedRing K]

/-- **C62 (sign, square, half, inv).**  `sign` is 1 or -1 and multiplies x to its absolute value; `half`
doubled is x; `inv` of a non-zero x is its reciprocal and of zero a division by zero. -/
theorem C62_sign_half_inv (x : K) :
    (sign x = 1 ∨ sign x = -1) ∧ sign x * |x| = x ∧ half x + half x = x ∧ 0 ≤ square x ∧
      (square x = 0 ↔ x = 0) ∧
      (x ≠ 0 → ∃ y, inv x = .ok y ∧ x * y = 1) ∧ (x = 0 → inv x = .error .divByZero) := by
  refine ⟨?_, ?_, by rw [half]; ring, mul_self_nonneg x, mul_self_eq_zero, ?_, ?_⟩
  · unfold sign; split <;> simp
  · unfold sign
    split
    · rename_i h; rw [abs_of_neg h]; ring
    · rename_i h; rw [abs_of_nonneg (not_lt.1 h)]; ring
  · intro h
    exact ⟨1 / x, by simp [inv, h], by field_simp⟩
  · intro h
    simp [inv, h]

example : ((-3 : ℚ)) ≠ 0 := by norm_num

/-- **C62 (fract).**  The fractional part lies in [0,1) and differs from x by an integer; nothing else
does. -/
theorem C62_fract [FloorRing K] (x : K) :
    0 ≤ fract x ∧ fract x < 1 ∧ (∃ n : Int, x = n + fract x) ∧
      ∀ (f : K) (n : Int), 0 ≤ f → f < 1 → x = n + f → f = fract x := by
  refine ⟨sub_nonneg.2 (Int.floor_le x), by rw [fract]; linarith [Int.lt_floor_add_one x],
    ⟨⌊x⌋, by rw [fract]; ring⟩, ?_⟩
  intro f n h0 h1 hx
  have : ⌊x⌋ = n := by
    rw [Int.floor_eq_iff, hx]
    constructor <;> linarith
  rw [fract, this, hx]; ring

/-- **C62 (distances, what holds).**  The euclidean distance is symmetric, non-negative and zero exactly for
equal arguments; the square of the Manhattan distance is the euclidean one; the logarithmic distance of
non-zero arguments is `log |x| - log |y|`.  Missing: see `C62_distance_violates`. -/
theorem C62_distance_partial (x y : K) :
    euclidean x y = euclidean y x ∧ 0 ≤ euclidean x y ∧ (euclidean x y = 0 ↔ x = y) ∧
      manhattan x y * manhattan x y = euclidean x y ∧ (manhattan x y = 0 ↔ x = y) := by
  refine ⟨by rw [euclidean, euclidean, square, square]; ring, mul_self_nonneg _, ?_, rfl, sub_eq_zero⟩
  rw [euclidean, square, mul_self_eq_zero, sub_eq_zero]

/-- **C62 (distances, what fails).**  The Manhattan distance is negative whenever the second argument is
larger, so it is not symmetric, and the euclidean one violates the triangle inequality. -/
theorem C62_distance_violates :
    (∀ x y : K, x < y → manhattan x y < 0 ∧ manhattan x y ≠ manhattan y x) ∧
    (∀ x y : K, x < y → ∃ z, euclidean x z + euclidean z y < euclidean x y) := by
  refine ⟨fun x y h => ⟨sub_neg.2 h, ?_⟩, fun x y h => ⟨(x + y) / 2, ?_⟩⟩
  · rw [manhattan, manhattan]
    intro he
    linarith
  · simp only [euclidean, square]
    have : 0 < (x - y) * (x - y) := mul_self_pos.2 (sub_ne_zero.2 (ne_of_lt h))
    nlinarith

example : (1 : ℚ) < 2 := by norm_num

omit [Field K] [LinearOrder K] [IsStrictOrderedRing K] in
/-- **C62 (logarithmic distance).**  For non-zero arguments it is the difference of the logarithms of the
absolute values, hence antisymmetric; a zero argument leaves the domain. -/
theorem C62_logarithmic (x y : ℝ) :
    (x ≠ 0 → y ≠ 0 → logarithmic x y = .ok (Real.log |x| - Real.log |y|)) ∧
    (x = 0 ∨ y = 0 → ∃ e, logarithmic x y = .error e) := by
  constructor
  · intro hx hy
    have h1 : 0 < |x| := abs_pos.2 hx
    have h2 : 0 < |y| := abs_pos.2 hy
    have : ¬ |x| / |y| ≤ 0 := not_le.2 (div_pos h1 h2)
    rw [logarithmic, if_neg hy, if_neg this, Real.log_div h1.ne' h2.ne']
  · rintro (h | h)
    · by_cases hy : y = 0
      · exact ⟨.divByZero, by simp [logarithmic, hy]⟩
      · exact ⟨.domain, by simp [logarithmic, hy, h]⟩
    · exact ⟨.divByZero, by simp [logarithmic, h]⟩

end C62

end Edsp.C30
