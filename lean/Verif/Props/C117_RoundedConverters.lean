import Verif.Lemmas.RoundedConverters

/-!
# C117: the converters of angles and levels in floating point arithmetic
-/

namespace Edsp.C117
open Edsp Edsp.Spec Edsp.RndConv Edsp.FloatL Edsp.RndWinL Edsp.RndConvL

/-- **C117 (angles).**  In `float` and `double` the converted angle has a relative error of at most eight roundings for
every angle; an angle converted there and back has lost at most five roundings; the order of angles is kept, a negative
angle gives the negative result, and the π of the library is 180 degrees exactly. -/
theorem C117_angles {p : ℕ} (hp : 24 ≤ p) (hq : p ≤ 53) :
    (∀ x, Within (8 * 2 ^ (-(p : ℤ))) (deg2rad p x) (x * Real.pi / 180) ∧
      Within (8 * 2 ^ (-(p : ℤ))) (rad2deg p x) (x * 180 / Real.pi) ∧
      Within (5 * 2 ^ (-(p : ℤ))) (rad2deg p (deg2rad p x)) x ∧ Within (5 * 2 ^ (-(p : ℤ))) (deg2rad p (rad2deg p x)) x ∧
      deg2rad p (-x) = -deg2rad p x ∧ rad2deg p (-x) = -rad2deg p x) ∧
    (∀ x y, x ≤ y → deg2rad p x ≤ deg2rad p y ∧ rad2deg p x ≤ rad2deg p y) ∧
    rad2deg p (RndRbj.pi p) = 180 := by
  have hu := u_pos p
  have hs := u_small hp
  have hP := pi_pos hp hq
  have h1 : 1 ≤ p := by omega
  have c0 := chain3 hu hs (k := 0) le_rfl (by norm_num)
  have c5 := chain3 hu hs (k := 5) (by norm_num) (by norm_num)
  have c6 := chain3 hu hs (k := 5.1) (by norm_num) (by norm_num)
  have c2 := chain3 hu hs (k := 2.1) (by norm_num) (by norm_num)
  rw [zero_mul, mul_zero, add_zero, add_zero] at c0
  -- one conversion, relative to the π of the library
  have d0 : ∀ x, Within (2.1 * u p) (deg2rad p x) (x * RndRbj.pi p / 180) := fun x =>
    within_mono (within_rnd_of (within_div 180 (within_rnd p (x * RndRbj.pi p)))) (by linarith)
  have r0 : ∀ x, Within (2.1 * u p) (rad2deg p x) (x / RndRbj.pi p * 180) := fun x =>
    within_mono (within_rnd_of (within_mul 180 (within_rnd p (x / RndRbj.pi p)))) (by linarith)
  refine ⟨fun x => ⟨?_, ?_, ?_, ?_, ?_, ?_⟩, fun x y h => ⟨?_, ?_⟩, ?_⟩
  · have := within_rnd_of (p := p) (within_div 180 (within_rnd_of (p := p) (within_mul' x (within_pi hp hq))))
    exact within_mono this (c5.trans (by linarith))
  · have := within_rnd_of (p := p) (within_mul 180 (within_rnd_of (p := p) (within_mul' x (within_inv_pi hp hq))))
    rw [← div_eq_mul_inv, ← div_eq_mul_inv, div_mul_eq_mul_div x Real.pi] at this
    exact within_mono this (c6.trans (by linarith))
  · have := within_rnd_of (p := p) (within_mul 180 (within_rnd_of (p := p) (within_div (RndRbj.pi p) (d0 x))))
    rw [show x * RndRbj.pi p / 180 / RndRbj.pi p * 180 = x by field_simp] at this
    exact within_mono this (c2.trans (by linarith))
  · have := within_rnd_of (p := p) (within_div 180 (within_rnd_of (p := p) (within_mul (RndRbj.pi p) (r0 x))))
    rw [show x / RndRbj.pi p * 180 * RndRbj.pi p / 180 = x by field_simp] at this
    exact within_mono this (c2.trans (by linarith))
  · simp only [deg2rad, neg_mul, rnd_neg, neg_div]
  · simp only [rad2deg, neg_mul, rnd_neg, neg_div]
  · exact rnd_mono h1 (div_le_div_of_nonneg_right (rnd_mono h1 (mul_le_mul_of_nonneg_right h hP.le)) (by norm_num))
  · exact rnd_mono h1 (mul_le_mul_of_nonneg_right (rnd_mono h1 (div_le_div_of_nonneg_right h hP.le)) (by norm_num))
  · have a : (180 : ℤ) ≤ 2 ^ p := le_trans (by norm_num) (pow_le_pow_right₀ (by norm_num) hp : (2 : ℤ) ^ 24 ≤ 2 ^ p)
    have b := rnd_int h1 (m := 180) (by rw [abs_of_pos (by norm_num)]; exact a)
    rw [rad2deg, div_self hP.ne', rnd_one h1, one_mul]
    exact_mod_cast b

/-- **C117 (angles, not exact).**  The way back is not exact, not even for whole degrees: one degree in `float` comes
back as 1 - 2^-24, whose whole part is zero, and 59 degrees in `double` come back as 59 - 2^-47, whose whole part is
58. -/
theorem C117_angles_not_exact :
    rad2deg 24 (deg2rad 24 1) = 1 - 2 ^ (-24 : ℤ) ∧ ⌊rad2deg 24 (deg2rad 24 1)⌋ = 0 ∧
    rad2deg 53 (deg2rad 53 59) = 59 - 2 ^ (-47 : ℤ) ∧ ⌊rad2deg 53 (deg2rad 53 59)⌋ = 58 := by
  have p53 : rnd 53 (3.141592653589793238462643383279502884 : ℝ) = ((7074237752028440 : ℤ) : ℝ) / 2 ^ 51 :=
    rnd_near (by norm_num) _ 51 (by norm_num) (by norm_num) (by norm_num) (by norm_num)
  have e24 : rad2deg 24 (deg2rad 24 1) = 1 - 2 ^ (-24 : ℤ) := by
    have q : RndRbj.pi 24 = ((13176795 : ℤ) : ℝ) / 2 ^ 22 := by
      unfold RndRbj.pi RndWin.lit
      rw [p53]
      exact rnd_near (by norm_num) _ 22 (by norm_num) (by norm_num) (by norm_num) (by norm_num)
    have a : rnd 24 (1 * RndRbj.pi 24) = ((13176795 : ℤ) : ℝ) / 2 ^ 22 := by
      rw [q]
      exact rnd_near (by norm_num) _ 22 (by norm_num) (by norm_num) (by norm_num) (by norm_num)
    have b : deg2rad 24 1 = ((9370165 : ℤ) : ℝ) / 2 ^ 29 := by
      unfold deg2rad
      rw [a]
      exact rnd_near (by norm_num) _ 29 (by norm_num) (by norm_num) (by norm_num) (by norm_num)
    have c : rnd 24 (deg2rad 24 1 / RndRbj.pi 24) = ((11930464 : ℤ) : ℝ) / 2 ^ 31 := by
      rw [b, q]
      exact rnd_near (by norm_num) _ 31 (by norm_num) (by norm_num) (by norm_num) (by norm_num)
    unfold rad2deg
    rw [c, rnd_near (m := 16777215) (by norm_num) 24 (by norm_num) (by norm_num) (by norm_num) (by norm_num)]
    norm_num
  have e53 : rad2deg 53 (deg2rad 53 59) = 59 - 2 ^ (-47 : ℤ) := by
    have q : RndRbj.pi 53 = ((7074237752028440 : ℤ) : ℝ) / 2 ^ 51 := by
      unfold RndRbj.pi RndWin.lit
      rw [rnd_rnd (by norm_num), p53]
    have a : rnd 53 (59 * RndRbj.pi 53) = ((6521562927651218 : ℤ) : ℝ) / 2 ^ 45 := by
      rw [q]
      exact rnd_near (by norm_num) _ 45 (by norm_num) (by norm_num) (by norm_num) (by norm_num)
    have b : deg2rad 53 59 = ((4637555859663088 : ℤ) : ℝ) / 2 ^ 52 := by
      unfold deg2rad
      rw [a]
      exact rnd_near (by norm_num) _ 52 (by norm_num) (by norm_num) (by norm_num) (by norm_num)
    have c : rnd 53 (deg2rad 53 59 / RndRbj.pi 53) = ((5904719511441316 : ℤ) : ℝ) / 2 ^ 54 := by
      rw [b, q]
      exact rnd_near (by norm_num) _ 54 (by norm_num) (by norm_num) (by norm_num) (by norm_num)
    unfold rad2deg
    rw [c, rnd_near (m := 8303511812964351) (by norm_num) 47 (by norm_num) (by norm_num) (by norm_num) (by norm_num)]
    norm_num
  refine ⟨e24, ?_, e53, ?_⟩
  · rw [e24, Int.floor_eq_iff]
    norm_num
  · rw [e53, Int.floor_eq_iff]
    norm_num

theorem mag2db_ok (p : ℕ) (L : ℝ → ℝ) (dbg : Bool) {x : ℝ} (hx : 0 < x) : mag2db p L dbg x = .ok (rnd p (20 * L x)) := by
  simp [mag2db, log10, hx, not_le.2 hx, bind, Except.bind, pure, Except.pure]

theorem pow2db_ok (p : ℕ) (L : ℝ → ℝ) (dbg : Bool) {x : ℝ} (hx : 0 < x) : pow2db p L dbg x = .ok (rnd p (10 * L x)) := by
  simp [pow2db, log10, hx, not_le.2 hx, bind, Except.bind, pure, Except.pure]

/-- **C117 (levels).**  Let the logarithm and the power of the mathematical library have relative errors of at most `e`.
Then for every positive magnitude and power the level has a relative error of little more than `e` plus a rounding, in
debug and release builds; a level of 0 dB stands for 1 exactly; and the magnitude or power of a level `x` has a relative
error that grows with `|x|`. -/
theorem C117_levels {p : ℕ} (hp : 24 ≤ p) {e : ℝ} (he : 0 ≤ e) (hl : e ≤ 1 / 1000) {L P : ℝ → ℝ}
    (hL : LogLike e L) (hP : PowLike e P) (dbg : Bool) :
    (∀ x, 0 < x → ∃ a b, mag2db p L dbg x = .ok a ∧ pow2db p L dbg x = .ok b ∧
      Within (1.01 * (2 ^ (-(p : ℤ)) + e)) a (20 * Real.logb 10 x) ∧
      Within (1.01 * (2 ^ (-(p : ℤ)) + e)) b (10 * Real.logb 10 x)) ∧
    mag2db p L dbg 1 = .ok 0 ∧ pow2db p L dbg 1 = .ok 0 ∧
    (∀ x, 2 ^ (-(p : ℤ)) * |x| ≤ 2 →
      Within ((2 ^ (-(p : ℤ)) + e) * (|x| + 2)) (db2mag p P x) ((10 : ℝ) ^ (x / 20)) ∧
      Within ((2 ^ (-(p : ℤ)) + e) * (|x| + 2)) (db2pow p P x) ((10 : ℝ) ^ (x / 10))) := by
  have hu := u_pos p
  have hs : u p ≤ 1 / 1000 := (u_small hp).trans (by norm_num)
  have hm := small_sum hu hs he hl
  have l1 : L 1 = 0 := by
    have h : |L 1 - Real.logb 10 1| ≤ e * |Real.logb 10 1| := hL.near 1 one_pos
    rw [Real.logb_one, abs_zero, mul_zero, sub_zero] at h
    exact abs_eq_zero.mp (le_antisymm h (abs_nonneg _))
  refine ⟨fun x hx => ⟨_, _, mag2db_ok p L dbg hx, pow2db_ok p L dbg hx, within_mono (level_err hL 20 hx) hm,
    within_mono (level_err hL 10 hx) hm⟩, ?_, ?_, fun x hx => ?_⟩
  · rw [mag2db_ok p L dbg one_pos, l1, mul_zero, rnd_zero]
  · rw [pow2db_ok p L dbg one_pos, l1, mul_zero, rnd_zero]
  · have key : ∀ k : ℝ, 10 ≤ k → Within ((u p + e) * (|x| + 2)) (rnd p (P (rnd p (x / k)))) ((10 : ℝ) ^ (x / k)) := by
      intro k hk
      have hx' : u p * |x| ≤ 2 := hx
      have hX := abs_nonneg x
      have hk0 : 0 < k := by linarith
      have ht : Within (u p) (rnd p (x / k)) (x / k) := within_rnd p _
      set t := rnd p (x / k)
      have ht : |t - x / k| ≤ u p * |x / k| := ht
      rw [abs_div, abs_of_pos hk0] at ht
      have h10 : |x| / k ≤ |x| / 10 := div_le_div_of_nonneg_left hX (by norm_num) hk
      have ht : |t - x / k| ≤ u p * |x| / 10 := by
        refine ht.trans ?_
        rw [mul_div_assoc]
        exact mul_le_mul_of_nonneg_left h10 hu.le
      have h2 : |(10 : ℝ) ^ (t - x / k) - 1| ≤ 5 * |t - x / k| := pow_near (by linarith)
      have h3 : Within (u p * |x| / 2) ((10 : ℝ) ^ t) ((10 : ℝ) ^ (x / k)) := by
        have h : (10 : ℝ) ^ t = (10 : ℝ) ^ (t - x / k) * (10 : ℝ) ^ (x / k) := by
          rw [← Real.rpow_add (by norm_num), sub_add_cancel]
        have hr : (10 : ℝ) ^ (t - x / k) * (10 : ℝ) ^ (x / k) - (10 : ℝ) ^ (x / k) =
          ((10 : ℝ) ^ (t - x / k) - 1) * (10 : ℝ) ^ (x / k) := by ring
        unfold Within
        rw [h, hr, abs_mul]
        exact mul_le_mul_of_nonneg_right (by linarith) (abs_nonneg _)
      refine within_mono (within_trans (by positivity) (power_err (p := p) hP t) h3) ?_
      have h4 : 0 ≤ u p * |x| := by positivity
      have h5 : (u p + e + u p * e) * (u p * |x| / 2) ≤ 0.01 * (u p * |x| / 2) :=
        mul_le_mul_of_nonneg_right (by linarith) (by positivity)
      have h6 : 0 ≤ e * |x| := by positivity
      linarith
    exact ⟨key 20 (by norm_num), key 10 (by norm_num)⟩

/-- **C117 (levels, there and back).**  With the same library: a level converted to a magnitude or power and back is
off by at most (2^-p + e)(3|x| + 12) or (2^-p + e)(3|x| + 24) decibels; a positive magnitude or power converted to a
level and back has a relative error that grows with its logarithm. -/
theorem C117_levels_return {p : ℕ} (hp : 24 ≤ p) {e : ℝ} (he : 0 ≤ e) (hl : e ≤ 1 / 1000) {L P : ℝ → ℝ}
    (hL : LogLike e L) (hP : PowLike e P) (dbg : Bool) :
    (∀ x, (∃ y, mag2db p L dbg (db2mag p P x) = .ok y ∧ |y - x| ≤ (2 ^ (-(p : ℤ)) + e) * (3 * |x| + 24)) ∧
      ∃ y, pow2db p L dbg (db2pow p P x) = .ok y ∧ |y - x| ≤ (2 ^ (-(p : ℤ)) + e) * (3 * |x| + 12)) ∧
    (∀ x, 0 < x → (2 ^ (-(p : ℤ)) + e) * |Real.logb 10 x| ≤ 1 / 10 →
      ∃ a b, mag2db p L dbg x = .ok a ∧ pow2db p L dbg x = .ok b ∧
        Within ((2 ^ (-(p : ℤ)) + e) * (13 * |Real.logb 10 x| + 2)) (db2mag p P a) x ∧
        Within ((2 ^ (-(p : ℤ)) + e) * (13 * |Real.logb 10 x| + 2)) (db2pow p P b) x) := by
  refine ⟨fun x => ⟨?_, ?_⟩, fun x hx hr => ⟨_, _, mag2db_ok p L dbg hx, pow2db_ok p L dbg hx,
    back_and_there hp he hl hL hP (by norm_num) hx hr, back_and_there hp he hl hL hP (by norm_num) hx hr⟩⟩
  · obtain ⟨a, b⟩ := there_and_back hp he hl hL hP (by norm_num : (0 : ℝ) < 20) x
    refine ⟨_, mag2db_ok p L dbg a, b.trans_eq (by norm_num)⟩
  · obtain ⟨a, b⟩ := there_and_back hp he hl hL hP (by norm_num : (0 : ℝ) < 10) x
    refine ⟨_, pow2db_ok p L dbg a, b.trans_eq (by norm_num)⟩

/-- The exact logarithm and power meet the conditions, with any error allowed; 1000 is a power of 30 dB. -/
example : LogLike (2 ^ (-23 : ℤ)) (Real.logb 10) ∧ PowLike (2 ^ (-23 : ℤ)) (fun x => (10 : ℝ) ^ x) ∧
    (2 : ℝ) ^ (-23 : ℤ) ≤ 1 / 1000 ∧ (2 : ℝ) ^ (-(24 : ℤ)) * |30| ≤ 2 ∧
    ((2 : ℝ) ^ (-(24 : ℤ)) + 2 ^ (-23 : ℤ)) * |Real.logb 10 1000| ≤ 1 / 10 := by
  refine ⟨⟨fun x _ => ?_⟩, ⟨fun x => ?_⟩, by norm_num, by norm_num, ?_⟩
  · unfold Within; rw [sub_self, abs_zero]; positivity
  · unfold Within; rw [sub_self, abs_zero]; positivity
  · rw [show (1000 : ℝ) = 10 ^ (3 : ℝ) by norm_num, Real.logb_rpow (by norm_num) (by norm_num)]
    norm_num

end Edsp.C117
