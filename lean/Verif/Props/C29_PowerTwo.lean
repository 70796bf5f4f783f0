import Verif.Model.Numeric

/-!
# C29: powers of two on 32-bit integers
-/

namespace Edsp.C29
open Edsp.Num

theorem nat_and_pred {n : Nat} (hn : 0 < n) : n &&& (n - 1) = 0 ↔ ∃ k, n = 2 ^ k := by
  constructor
  · intro h
    refine ⟨n.log2, ?_⟩
    have h1 : 2 ^ n.log2 ≤ n := Nat.log2_self_le (by omega)
    have h2 : n < 2 ^ (n.log2 + 1) := Nat.lt_log2_self
    by_contra hne
    have bit : ∀ m, 2 ^ n.log2 ≤ m → m < 2 ^ (n.log2 + 1) → m.testBit n.log2 = true := by
      intro m h3 h4
      rw [Nat.testBit_eq_decide_div_mod_eq]
      have : m / 2 ^ n.log2 = 1 := by
        apply Nat.div_eq_of_lt_le <;> rw [pow_succ] at * <;> omega
      simp [this]
    have hb := Nat.testBit_and n (n - 1) n.log2
    rw [h, bit n h1 h2, bit (n - 1) (by omega) (by omega)] at hb
    simp at hb
  · rintro ⟨k, rfl⟩
    rw [Nat.and_two_pow_sub_one_eq_mod, Nat.mod_self]

/-- All bits from `k - w + 1` to `k` are set and none above `k`. -/
def Smeared (y k w : Nat) : Prop :=
  (∀ i, k < i → y.testBit i = false) ∧ ∀ i, i ≤ k → k < i + w → y.testBit i = true

theorem smeared_start {y : Nat} (hy : 0 < y) : Smeared y y.log2 1 := by
  have h1 : 2 ^ y.log2 ≤ y := Nat.log2_self_le (by omega)
  have h2 : y < 2 ^ (y.log2 + 1) := Nat.lt_log2_self
  refine ⟨fun i hi => Nat.testBit_lt_two_pow (lt_of_lt_of_le h2 (Nat.pow_le_pow_right (by norm_num) hi)), ?_⟩
  intro i hi hw
  have : i = y.log2 := by omega
  subst this
  rw [Nat.testBit_eq_decide_div_mod_eq]
  have : y / 2 ^ y.log2 = 1 := by
    apply Nat.div_eq_of_lt_le <;> rw [pow_succ] at * <;> omega
  simp [this]

theorem smeared_step {y k w : Nat} (h : Smeared y k w) : Smeared (y ||| y >>> w) k (2 * w) := by
  refine ⟨fun i hi => ?_, fun i hi hw => ?_⟩
  · rw [Nat.testBit_or, Nat.testBit_shiftRight, h.1 i hi, h.1 (w + i) (by omega)]; rfl
  · rw [Nat.testBit_or, Nat.testBit_shiftRight]
    by_cases hc : k < i + w
    · rw [h.2 i hi hc]; rfl
    · rw [h.2 (w + i) (by omega) (by omega)]; simp

theorem smeared_end {y k w : Nat} (h : Smeared y k w) (hw : k < w) : y = 2 ^ (k + 1) - 1 := by
  apply Nat.eq_of_testBit_eq
  intro i
  rw [Nat.testBit_two_pow_sub_one]
  by_cases hi : i ≤ k
  · rw [h.2 i hi (by omega)]; simp; omega
  · rw [h.1 i (by omega)]; simp; omega

theorem smear_toNat {x : BitVec 32} (hx : x.toNat < 2 ^ 31) (s : Nat) :
    (smear x s).toNat = x.toNat ||| x.toNat >>> s := by
  have hm : x.msb = false := by rw [BitVec.msb_eq_decide]; simpa using hx
  rw [smear, BitVec.sshiftRight_eq_of_msb_false hm, BitVec.toNat_or, BitVec.toNat_ushiftRight]

theorem smeared_lt {y k w : Nat} (h : Smeared y k w) (hk : k < 31) : y < 2 ^ 31 :=
  Nat.lt_pow_two_of_testBit _ fun i hi => h.1 i (by omega)

theorem smear_all {x : BitVec 32} (h0 : 0 < x.toNat) (hx : x.toNat < 2 ^ 31) :
    (smear (smear (smear (smear (smear x 1) 2) 4) 8) 16).toNat = 2 ^ (x.toNat.log2 + 1) - 1 := by
  have hk : x.toNat.log2 < 31 := (Nat.log2_lt (by omega)).2 hx
  have s0 := smeared_start h0
  have step : ∀ (y : BitVec 32) (w : Nat), Smeared y.toNat x.toNat.log2 w →
      Smeared (smear y w).toNat x.toNat.log2 (2 * w) := by
    intro y w h
    rw [smear_toNat (smeared_lt h hk)]
    exact smeared_step h
  have s5 := step _ _ (step _ _ (step _ _ (step _ _ (step _ _ s0))))
  exact smeared_end s5 (by omega)

theorem toInt_of_small {x : BitVec 32} (h : 0 ≤ x.toInt) : x.toInt = x.toNat ∧ x.toNat < 2 ^ 31 := by
  rw [BitVec.toInt_eq_toNat_cond] at *
  split at h
  · rename_i h'
    rw [if_pos h']
    exact ⟨rfl, by omega⟩
  · have := x.isLt; omega

theorem toInt_neg {x : BitVec 32} (h : x.toInt < 0) : 2 ^ 31 ≤ x.toNat := by
  rw [BitVec.toInt_eq_toNat_cond] at h
  split at h <;> omega

theorem sub_one_toNat {x : BitVec 32} (h : x ≠ 0#32) : (x - 1#32).toNat = x.toNat - 1 := by
  have h0 : x.toNat ≠ 0 := fun h' => h (BitVec.eq_of_toNat_eq (by simpa using h'))
  have := x.isLt
  rw [BitVec.toNat_sub]
  simp only [BitVec.toNat_ofNat]
  omega

/-- **C29 (is_power_two).**  For every 32-bit integer except the smallest the test is exact: true iff the
integer is 2^k for some k.  Missing: the smallest integer (`C29_is_power_two_violates`). -/
theorem C29_is_power_two_partial (x : BitVec 32) (hx : x.toInt ≠ -2 ^ 31) :
    ∃ b, isPowerTwo x = .ok b ∧ (b = true ↔ ∃ k : Nat, x.toInt = 2 ^ k) := by
  by_cases h0 : x = 0#32
  · subst h0
    refine ⟨false, by simp [isPowerTwo], ?_⟩
    simp only [Bool.false_eq_true, BitVec.toInt_zero, false_iff, not_exists]
    intro k hk
    have : (0 : Int) < 2 ^ k := by positivity
    omega
  · have hm : x ≠ BitVec.intMin 32 := by
      intro h
      apply hx
      rw [h]
      decide
    refine ⟨(x &&& (x - 1#32)) == 0#32, by simp [isPowerTwo, h0, dec32, hm, bind, Except.bind, pure, Except.pure], ?_⟩
    have hpos : 0 < x.toNat := by
      rcases Nat.eq_zero_or_pos x.toNat with h | h
      · exact absurd (BitVec.eq_of_toNat_eq (by simpa using h)) h0
      · exact h
    have e : ((x &&& (x - 1#32)) == 0#32) = true ↔ x.toNat &&& (x.toNat - 1) = 0 := by
      rw [beq_iff_eq, ← BitVec.toNat_inj, BitVec.toNat_and, sub_one_toNat h0]
      simp
    rw [e, nat_and_pred hpos]
    by_cases hn : 0 ≤ x.toInt
    · obtain ⟨h1, _⟩ := toInt_of_small hn
      rw [h1]
      exact exists_congr fun k => by norm_cast
    · have h2 := toInt_neg (x := x) (by omega)
      constructor
      · rintro ⟨k, hk⟩
        exfalso
        have h3 := x.isLt
        rw [hk] at h2 h3
        have h4 : 31 ≤ k := (Nat.pow_le_pow_iff_right (by norm_num)).1 h2
        have h5 : k < 32 := (Nat.pow_lt_pow_iff_right (by norm_num)).1 h3
        have : k = 31 := by omega
        subst this
        apply hx
        rw [BitVec.toInt_eq_toNat_cond, hk]
        norm_num
      · rintro ⟨k, hk⟩
        have : (0 : Int) < 2 ^ k := by positivity
        omega

example : (4096#32).toInt ≠ -2 ^ 31 ∧ (-4#32).toInt ≠ -2 ^ 31 := by decide

/-- **C29 (the smallest integer).**  `is_power_two` of -2^31 computes `tmp - 1` with signed overflow. -/
theorem C29_is_power_two_violates (x : BitVec 32) (hx : x.toInt = -2 ^ 31) :
    isPowerTwo x = .error .overflow := by
  have : x = BitVec.intMin 32 := BitVec.eq_of_toInt_eq (by rw [hx]; decide)
  subst this
  decide

/-- The integer `p` is the least power of two that is at least `x`. -/
def LeastPowGe (x p : Int) : Prop :=
  (∃ k : Nat, p = 2 ^ k) ∧ x ≤ p ∧ ∀ j : Nat, x ≤ 2 ^ j → p ≤ 2 ^ j

theorem nextPowerTwo_nonpow {x : BitVec 32} (h2 : 2 ≤ x.toInt) (hp : isPowerTwo x = .ok false) :
    nextPowerTwo x = inc32 (smear (smear (smear (smear (smear (x - 1#32) 1) 2) 4) 8) 16) := by
  have hn : x.slt 0#32 = false := by
    rw [BitVec.slt_eq_decide]; simp; omega
  have hm : x ≠ BitVec.intMin 32 := by
    intro h
    rw [h] at h2
    revert h2
    decide
  simp [nextPowerTwo, hn, hp, dec32, hm, bind, Except.bind]

theorem isPowerTwo_of_pos {x : BitVec 32} (h : 1 ≤ x.toInt) (hnp : ¬ ∃ k : Nat, x.toInt = 2 ^ k) :
    isPowerTwo x = .ok false ∧ 2 ≤ x.toInt := by
  obtain ⟨b, hb, hb'⟩ := C29_is_power_two_partial x (by omega)
  have : b = false := by
    cases b with
    | false => rfl
    | true => exact absurd (hb'.1 rfl) hnp
  refine ⟨this ▸ hb, ?_⟩
  by_contra hc
  exact hnp ⟨0, by simp; omega⟩

/-- **C29 (next_power_two).**  For 1 ≤ x ≤ 2^30 the result is the least power of two not below x and no
operation overflows; non-positive arguments give 0. -/
theorem C29_next_power_two (x : BitVec 32) :
    (1 ≤ x.toInt → x.toInt ≤ 2 ^ 30 → ∃ y, nextPowerTwo x = .ok y ∧ LeastPowGe x.toInt y.toInt) ∧
    (x.toInt ≤ 0 → nextPowerTwo x = .ok 0#32) := by
  constructor
  · intro h1 h2
    by_cases hpow : ∃ k : Nat, x.toInt = 2 ^ k
    · obtain ⟨b, hb, hb'⟩ := C29_is_power_two_partial x (by omega)
      have hbt : b = true := hb'.2 hpow
      have hn : x.slt 0#32 = false := by
        rw [BitVec.slt_eq_decide]; simp; omega
      refine ⟨x, by simp [nextPowerTwo, hn, hb, hbt, bind, Except.bind, pure, Except.pure], hpow, le_refl _, fun j hj => hj⟩
    · obtain ⟨hp, h2'⟩ := isPowerTwo_of_pos h1 hpow
      obtain ⟨e1, e2⟩ := toInt_of_small (x := x) (by omega)
      have h0 : x ≠ 0#32 := by rintro rfl; simp at h1
      have hs := sub_one_toNat h0
      have hsm := smear_all (x := x - 1#32) (by omega) (by omega)
      set y := smear (smear (smear (smear (smear (x - 1#32) 1) 2) 4) 8) 16 with hy
      set k := (x - 1#32).toNat.log2 with hk
      have l1 : 2 ^ k ≤ (x - 1#32).toNat := Nat.log2_self_le (by omega)
      have l2 : (x - 1#32).toNat < 2 ^ (k + 1) := Nat.lt_log2_self
      have hk30 : k < 30 := (Nat.pow_lt_pow_iff_right (a := 2) (by norm_num)).1 (by omega)
      have hle : 2 ^ (k + 1) ≤ 2 ^ 30 := Nat.pow_le_pow_right (by norm_num) hk30
      have hpos : 0 < 2 ^ (k + 1) := by positivity
      have hne : y ≠ BitVec.intMax 32 := by
        intro h
        have := congrArg BitVec.toNat h
        rw [hsm] at this
        have h' : (BitVec.intMax 32).toNat = 2 ^ 31 - 1 := by decide
        omega
      refine ⟨y + 1#32, by rw [nextPowerTwo_nonpow h2' hp, ← hy, inc32, if_neg hne], ?_⟩
      have hyn : (y + 1#32).toNat = 2 ^ (k + 1) := by
        rw [BitVec.toNat_add, hsm]
        simp only [BitVec.toNat_ofNat]
        omega
      have hyi : (y + 1#32).toInt = 2 ^ (k + 1) := by
        rw [BitVec.toInt_eq_toNat_cond, hyn, if_pos (by omega)]
        push_cast; rfl
      refine ⟨⟨k + 1, hyi⟩, ?_, fun j hj => ?_⟩
      · rw [hyi, e1]
        have : x.toNat ≤ 2 ^ (k + 1) := by omega
        exact_mod_cast this
      · rw [hyi]
        rw [e1] at hj
        have hj' : x.toNat ≤ 2 ^ j := by exact_mod_cast hj
        have hkj : k < j := (Nat.pow_lt_pow_iff_right (a := 2) (by norm_num)).1 (by omega)
        have : (2 : Nat) ^ (k + 1) ≤ 2 ^ j := Nat.pow_le_pow_right (by norm_num) hkj
        exact_mod_cast this
  · intro h
    by_cases h0 : x = 0#32
    · subst h0; decide
    · have hn : x.slt 0#32 = true := by
        rw [BitVec.slt_eq_decide]
        simp only [BitVec.toInt_zero, decide_eq_true_eq]
        have : x.toInt ≠ 0 := fun h' => h0 (BitVec.eq_of_toInt_eq (by simpa using h'))
        omega
      simp [nextPowerTwo, hn]

example : 1 ≤ (1000#32).toInt ∧ (1000#32).toInt ≤ 2 ^ 30 := by decide
example : nextPowerTwo 1000#32 = .ok 1024#32 := by decide

/-- **C29 (too large arguments).**  Above 2^30 there is no representable power of two and the final
increment overflows. -/
theorem C29_next_power_two_overflow (x : BitVec 32) (h : 2 ^ 30 < x.toInt) :
    nextPowerTwo x = .error .overflow := by
  obtain ⟨e1, e2⟩ := toInt_of_small (x := x) (by omega)
  have hnp : ¬ ∃ k : Nat, x.toInt = 2 ^ k := by
    rintro ⟨k, hk⟩
    rw [hk] at e1 h
    have h1 : x.toNat = 2 ^ k := by exact_mod_cast e1.symm
    have h2 : (2 : Nat) ^ 30 < 2 ^ k := by exact_mod_cast h
    rw [h1] at e2
    have := (Nat.pow_lt_pow_iff_right (a := 2) (by norm_num)).1 h2
    have := (Nat.pow_lt_pow_iff_right (a := 2) (by norm_num)).1 e2
    omega
  obtain ⟨hp, h2'⟩ := isPowerTwo_of_pos (x := x) (by omega) hnp
  have h0 : x ≠ 0#32 := by rintro rfl; simp at h
  have hs := sub_one_toNat h0
  have hsm := smear_all (x := x - 1#32) (by omega) (by omega)
  have hk : (x - 1#32).toNat.log2 = 30 := by
    rw [Nat.log2_eq_iff (by omega)]
    omega
  rw [hk] at hsm
  rw [nextPowerTwo_nonpow h2' hp, inc32, if_pos]
  apply BitVec.eq_of_toNat_eq
  rw [hsm]
  decide

example : 2 ^ 30 < (2000000000#32).toInt := by decide

end Edsp.C29
