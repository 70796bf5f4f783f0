import Verif.Lemmas.RoundedRamp
import Mathlib.Algebra.Ring.Int.Parity

/-!
# Which ramps in floating point arithmetic arrive

A ramp by less than half a unit in the last place stands still; one by exactly half a unit moves from an odd multiple of
the unit to an even one and stands still there.
-/

namespace Edsp.RampL
open Edsp.Spec Edsp.FloatL

theorem unit_half (k : ℤ) : (2 : ℝ) ^ k = 2 * 2 ^ (k - 1) := by
  conv_lhs => rw [show k = (k - 1) + 1 by ring, zpow_add_one₀ (by norm_num)]
  ring

theorem unit_top (p : ℕ) (k : ℤ) : (2 : ℝ) ^ (k + p) = ((2 ^ p : ℤ) : ℝ) * 2 ^ k := by
  rw [zpow_add₀ (by norm_num), zpow_natCast, mul_comm]
  push_cast
  rfl

theorem unit_bot {p : ℕ} (hp : 1 ≤ p) (k : ℤ) : (2 : ℝ) ^ (k + p - 1) = ((2 ^ (p - 1) : ℤ) : ℝ) * 2 ^ k := by
  rw [show k + (p : ℤ) - 1 = k + ((p - 1 : ℕ) : ℤ) by omega, unit_top]

/-- A number of `p` bits is a multiple of the unit of its binade. -/
theorem float_units {p : ℕ} (hp : 1 ≤ p) {x : ℝ} {k : ℤ} (hx : IsFloat p x) (h1 : (2 : ℝ) ^ (k + p - 1) ≤ x)
    (h2 : x ≤ 2 ^ (k + p)) : ∃ n : ℤ, x = n * 2 ^ k ∧ 2 ^ (p - 1) ≤ n ∧ n ≤ 2 ^ p := by
  rcases h2.lt_or_eq with h | h
  · have hpos : 0 < x := lt_of_lt_of_le (two_zpow_pos _) h1
    have := rnd_of (p := p) (k := k) (by rwa [abs_of_pos hpos]) (by rwa [abs_of_pos hpos])
    rw [rnd_float hx] at this
    exact ⟨_, this, significand hp h1 h⟩
  · exact ⟨2 ^ p, by rw [h, unit_top], pow_le_pow_right₀ (by norm_num) (by omega), le_rfl⟩

/-- What lies strictly inside of the binade is rounded to a multiple of its unit. -/
theorem rnd_units {p : ℕ} (hp : 1 ≤ p) {y : ℝ} {k : ℤ} (h1 : ((2 ^ (p - 1) : ℤ) : ℝ) ≤ y)
    (h2 : y < ((2 ^ p : ℤ) : ℝ)) : rnd p (y * 2 ^ k) = nearestEven y * 2 ^ k := by
  have hk := two_zpow_pos k
  have hy : 0 < y := lt_of_lt_of_le (by push_cast; positivity) h1
  have hpos : 0 < y * 2 ^ k := mul_pos hy hk
  rw [rnd_of (p := p) (k := k), mul_div_cancel_right₀ _ hk.ne']
  · rw [abs_of_pos hpos, unit_bot hp]
    exact mul_le_mul_of_nonneg_right h1 hk.le
  · rw [abs_of_pos hpos, unit_top]
    exact mul_lt_mul_of_pos_right h2 hk

/-- One step upwards by at most half a unit. -/
theorem up_unit {p : ℕ} (hp : 1 ≤ p) {n k : ℤ} {r : ℝ} (h1 : 2 ^ (p - 1) ≤ n) (h2 : n < 2 ^ p) (hr0 : 0 ≤ r)
    (hr : r ≤ 2 ^ (k - 1)) :
    up p r (n * 2 ^ k) = if r = 2 ^ (k - 1) ∧ Odd n then ((n + 1 : ℤ) : ℝ) * 2 ^ k else n * 2 ^ k := by
  have hk := two_zpow_pos k
  have hh := unit_half k
  have hh0 := two_zpow_pos (k - 1)
  have hn1 : ((2 ^ (p - 1) : ℤ) : ℝ) ≤ n := by exact_mod_cast h1
  have hn2 : (n : ℝ) + 1 ≤ ((2 ^ p : ℤ) : ℝ) := by exact_mod_cast h2
  have q0 : 0 ≤ r / 2 ^ k := by positivity
  have q1 : r / 2 ^ k ≤ 1 / 2 := by
    rw [div_le_iff₀ hk]; linarith
  have e : (n : ℝ) * 2 ^ k + r = (n + r / 2 ^ k) * 2 ^ k := by
    rw [add_mul, div_mul_cancel₀ _ hk.ne']
  unfold up
  rw [e, rnd_units hp (by linarith) (by linarith)]
  by_cases ht : r = 2 ^ (k - 1)
  · have q : r / 2 ^ k = 1 / 2 := by
      rw [div_eq_iff hk.ne', ht, hh]; ring
    by_cases ho : Odd n
    · rw [if_pos ⟨ht, ho⟩, ne_tie_down (n := n + 1) ho.add_one (by rw [q]; push_cast; ring)]
    · rw [if_neg (fun g => ho g.2), ne_tie_up (n := n) (Int.not_odd_iff_even.mp ho) (by rw [q])]
  · rw [if_neg (fun g => ht g.1)]
    have q2 : r / 2 ^ k < 1 / 2 := by
      rw [div_lt_iff₀ hk]
      have := lt_of_le_of_ne hr ht
      linarith
    rw [FloatL.ne_of_lt (n := n) (by linarith) (by linarith)]

/-- One step downwards by at most half a unit. -/
theorem down_unit {p : ℕ} (hp : 1 ≤ p) {n k : ℤ} {r : ℝ} (h1 : 2 ^ (p - 1) < n) (h2 : n ≤ 2 ^ p) (hr0 : 0 ≤ r)
    (hr : r ≤ 2 ^ (k - 1)) :
    down p r (n * 2 ^ k) = if r = 2 ^ (k - 1) ∧ Odd n then ((n - 1 : ℤ) : ℝ) * 2 ^ k else n * 2 ^ k := by
  have hk := two_zpow_pos k
  have hh := unit_half k
  have hh0 := two_zpow_pos (k - 1)
  have hn1 : ((2 ^ (p - 1) : ℤ) : ℝ) + 1 ≤ n := by exact_mod_cast h1
  have hn2 : (n : ℝ) ≤ ((2 ^ p : ℤ) : ℝ) := by exact_mod_cast h2
  unfold down
  rcases hr0.lt_or_eq with hr1 | hr1
  · have q0 : 0 < r / 2 ^ k := by positivity
    have q1 : r / 2 ^ k ≤ 1 / 2 := by
      rw [div_le_iff₀ hk]; linarith
    have e : (n : ℝ) * 2 ^ k - r = (n - r / 2 ^ k) * 2 ^ k := by
      rw [sub_mul, div_mul_cancel₀ _ hk.ne']
    rw [e, rnd_units hp (by linarith) (by linarith)]
    by_cases ht : r = 2 ^ (k - 1)
    · have q : r / 2 ^ k = 1 / 2 := by
        rw [div_eq_iff hk.ne', ht, hh]; ring
      by_cases ho : Odd n
      · rw [if_pos ⟨ht, ho⟩, ne_tie_up (n := n - 1) (by
          obtain ⟨m, rfl⟩ := ho
          exact ⟨m, by ring⟩) (by rw [q]; push_cast; ring)]
      · rw [if_neg (fun g => ho g.2), ne_tie_down (n := n) (Int.not_odd_iff_even.mp ho) (by rw [q])]
    · rw [if_neg (fun g => ht g.1)]
      have q2 : r / 2 ^ k < 1 / 2 := by
        rw [div_lt_iff₀ hk]
        have := lt_of_le_of_ne hr ht
        linarith
      rw [FloatL.ne_of_lt (n := n) (by linarith) (by linarith)]
  · rw [if_neg (fun g => by rw [← hr1] at g; linarith [g.1]), ← hr1, sub_zero]
    refine rnd_float (isFloat_int hp k ?_)
    have : (0 : ℤ) < 2 ^ (p - 1) := by positivity
    rw [abs_of_pos (by omega)]
    exact h2

theorem up_mono {p : ℕ} (hp : 1 ≤ p) {r x y : ℝ} (h : x ≤ y) : up p r x ≤ up p r y :=
  rnd_mono hp (by linarith)

/-- A ramp upwards that starts at or below a level it stands still at never gets above it. -/
theorem up_below {p : ℕ} (hp : 1 ≤ p) {r x y : ℝ} (h : x ≤ y) (hy : up p r y = y) (n : ℕ) : (up p r)^[n] x ≤ y := by
  induction n with
  | zero => exact h
  | succ n ih =>
    rw [Function.iterate_succ_apply']
    have := up_mono hp (r := r) ih
    rwa [hy] at this

theorem even_bot {p : ℕ} (hp : 2 ≤ p) : Even ((2 : ℤ) ^ (p - 1)) := even_two.pow_of_ne_zero (by omega)

/-- Which ramps upwards arrive: the unit below the target `t` is `2^k`. -/
theorem up_decided {p : ℕ} (hp : 2 ≤ p) {r x t : ℝ} {k : ℤ} (hx : IsFloat p x) (ht : IsFloat p t) (hx0 : 0 ≤ x)
    (hxt : x < t) (h1 : (2 : ℝ) ^ (k + p - 1) < t) (h2 : t ≤ 2 ^ (k + p)) (hr0 : 0 ≤ r) :
    (∃ n, t ≤ (up p r)^[n] x) ↔
      2 ^ (k - 1) < r ∨ (r = 2 ^ (k - 1) ∧ t = x + 2 ^ k ∧ ∃ m : ℤ, Odd m ∧ x = m * 2 ^ k) := by
  have hp1 : 1 ≤ p := by omega
  have hk := two_zpow_pos k
  constructor
  · rintro ⟨n, hn⟩
    by_contra hc
    push Not at hc
    obtain ⟨hr, hc⟩ := hc
    -- a level at or above `x` and below `t` at which the ramp stands still
    suffices ∃ y, x ≤ y ∧ y < t ∧ up p r y = y by
      obtain ⟨y, y1, y2, y3⟩ := this
      linarith [up_below hp1 y1 y3 n]
    rcases lt_or_ge x (2 ^ (k + p - 1)) with hb | hb
    · refine ⟨2 ^ (k + p - 1), hb.le, h1, ?_⟩
      rw [unit_bot hp1, up_unit hp1 le_rfl (pow_lt_pow_right₀ (by norm_num) (by omega)) hr0 hr,
        if_neg (fun g => Int.not_odd_iff_even.mpr (even_bot hp) g.2)]
    · obtain ⟨m, rfl, m1, m2⟩ := float_units hp1 hx hb (by linarith)
      have m3 : m < 2 ^ p := by
        have : (m : ℝ) * 2 ^ k < ((2 ^ p : ℤ) : ℝ) * 2 ^ k := by rw [← unit_top]; linarith
        exact_mod_cast lt_of_mul_lt_mul_right this hk.le
      by_cases g : r = 2 ^ (k - 1) ∧ Odd m
      · obtain ⟨l, rfl, l1, l2⟩ := float_units hp1 ht h1.le h2
        have hml : m < l := by exact_mod_cast lt_of_mul_lt_mul_right hxt hk.le
        have hne : l ≠ m + 1 := by
          intro e
          refine hc g.1 ?_ m g.2 rfl
          rw [e]; push_cast; ring
        have hml' : m + 1 < l := by omega
        refine ⟨((m + 1 : ℤ) : ℝ) * 2 ^ k, ?_, ?_, ?_⟩
        · push_cast; nlinarith
        · refine mul_lt_mul_of_pos_right ?_ hk
          exact_mod_cast hml'
        · rw [up_unit hp1 (by omega) (by omega) hr0 hr, if_neg (fun g' => Int.not_odd_iff_even.mpr g.2.add_one g'.2)]
      · exact ⟨_, le_rfl, hxt, by rw [up_unit hp1 m1 m3 hr0 hr, if_neg g]⟩
  · rintro (hr | ⟨hr, ht', m, hm, rfl⟩)
    · obtain ⟨n, -, h, -⟩ := up_arrives (e := k + p) hp1 hx0 hxt h2
        (by rwa [show k + (p : ℤ) - p - 1 = k - 1 by ring])
      exact ⟨n, h⟩
    · refine ⟨1, ?_⟩
      rw [Function.iterate_one]
      have hm2 : m < 2 ^ p := by
        have : ((m + 1 : ℤ) : ℝ) * 2 ^ k ≤ ((2 ^ p : ℤ) : ℝ) * 2 ^ k := by
          rw [← unit_top]; push_cast; linarith
        have : m + 1 ≤ 2 ^ p := by exact_mod_cast le_of_mul_le_mul_right this hk
        omega
      have hm1 : 2 ^ (p - 1) ≤ m := by
        have : ((2 ^ (p - 1) : ℤ) : ℝ) * 2 ^ k < ((m + 1 : ℤ) : ℝ) * 2 ^ k := by
          rw [← unit_bot hp1]; push_cast; linarith
        have : 2 ^ (p - 1) < m + 1 := by exact_mod_cast lt_of_mul_lt_mul_right this hk.le
        omega
      rw [up_unit hp1 hm1 hm2 hr0 hr.le, if_pos ⟨hr, hm⟩, ht']
      push_cast
      linarith

/-- Which ramps downwards arrive: the unit below the start `x` is `2^k`. -/
theorem down_decided {p : ℕ} (hp : 2 ≤ p) {d x s : ℝ} {k : ℤ} (hx : IsFloat p x) (hs : 0 ≤ s)
    (hxs : s < x) (h1 : (2 : ℝ) ^ (k + p - 1) < x) (h2 : x ≤ 2 ^ (k + p)) (hd0 : 0 ≤ d) :
    (∃ n, (down p d)^[n] x ≤ s) ↔
      2 ^ (k - 1) < d ∨ (d = 2 ^ (k - 1) ∧ (∃ m : ℤ, Odd m ∧ x = m * 2 ^ k) ∧
        (x ≤ s + 2 ^ k ∨ x = 2 ^ (k + p - 1) + 2 ^ k)) := by
  have hp1 : 1 ≤ p := by omega
  have hk := two_zpow_pos k
  have hh := unit_half k
  have hh0 := two_zpow_pos (k - 1)
  obtain ⟨m, rfl, m1, m2⟩ := float_units hp1 hx h1.le h2
  have m3 : 2 ^ (p - 1) < m := by
    rw [unit_bot hp1] at h1
    exact_mod_cast lt_of_mul_lt_mul_right h1 hk.le
  constructor
  · rintro ⟨n, hn⟩
    by_contra hc
    push Not at hc
    obtain ⟨hr, hc⟩ := hc
    by_cases g : d = 2 ^ (k - 1) ∧ Odd m
    · obtain ⟨c1, c2⟩ := hc g.1 ⟨m, g.2, rfl⟩
      have m4 : 2 ^ (p - 1) < m - 1 := by
        have : m ≠ 2 ^ (p - 1) + 1 := by
          intro e
          apply c2
          rw [unit_bot hp1, e]; push_cast; ring
        omega
      have f1 : down p d (m * 2 ^ k) = ((m - 1 : ℤ) : ℝ) * 2 ^ k := by
        rw [down_unit hp1 m3 m2 hd0 hr, if_pos g]
      have f2 : down p d (((m - 1 : ℤ) : ℝ) * 2 ^ k) = ((m - 1 : ℤ) : ℝ) * 2 ^ k := by
        rw [down_unit hp1 m4 (by omega) hd0 hr, if_neg]
        intro g'
        obtain ⟨a, ha⟩ := g.2
        obtain ⟨b, hb⟩ := g'.2
        omega
      cases n with
      | zero => exact absurd hn (not_le.mpr hxs)
      | succ n =>
        rw [Function.iterate_succ_apply, f1, Function.iterate_fixed f2] at hn
        push_cast at hn
        linarith
    · have f : down p d (m * 2 ^ k) = m * 2 ^ k := by rw [down_unit hp1 m3 m2 hd0 hr, if_neg g]
      rw [Function.iterate_fixed f] at hn
      linarith
  · rintro (hr | ⟨hr, ⟨m', hm, e⟩, hc⟩)
    · obtain ⟨n, -, h, -⟩ := down_arrives (e := k + p) hp1 hs hxs h2
        (by rwa [show k + (p : ℤ) - p - 1 = k - 1 by ring])
      exact ⟨n, h⟩
    · have : m = m' := by exact_mod_cast mul_right_cancel₀ hk.ne' e
      subst this
      have f1 : down p d (m * 2 ^ k) = ((m - 1 : ℤ) : ℝ) * 2 ^ k := by
        rw [down_unit hp1 m3 m2 hd0 hr.le, if_pos ⟨hr, hm⟩]
      by_cases hc' : (m : ℝ) * 2 ^ k ≤ s + 2 ^ k
      · refine ⟨1, ?_⟩
        rw [Function.iterate_one, f1]
        push_cast
        linarith
      · rcases hc with hc | hc
        · exact absurd hc hc'
        · have f3 : ((m - 1 : ℤ) : ℝ) * 2 ^ k = 2 ^ (k + p - 1) := by push_cast; linarith
          obtain ⟨n, -, h, -⟩ := down_arrives (p := p) (d := d) (e := k + p - 1) hp1 hs
            (x := 2 ^ (k + p - 1)) (by linarith) le_rfl (by
              rw [show k + (p : ℤ) - 1 - p - 1 = k - 1 - 1 by ring, hr]
              linarith [unit_half (k - 1), two_zpow_pos (k - 1 - 1)])
          refine ⟨n + 1, ?_⟩
          rw [Function.iterate_succ_apply, f1, f3]
          exact h

end Edsp.RampL
