import Verif.Model.RoundedElements
import Verif.Model.Sequences
import Verif.Lemmas.FloatExact
import Mathlib.Tactic.NormNum

/-!
# C153: element-wise functions in floating point arithmetic
-/

namespace Edsp.C153

open Edsp.Spec Edsp.FloatL Edsp.RampL Edsp.FloatX

theorem transformN_all {P : ℝ → Prop} {f : ℝ → ℝ} (hf : ∀ x, P x → P (f x)) :
    ∀ (n : ℕ) (m : List ℝ) (s d : ℕ) (m' : List ℝ), (∀ x ∈ m, P x) → Mem.transformN f n m s d = .ok m' →
      ∀ x ∈ m', P x := by
  intro n
  induction n with
  | zero =>
      intro m s d m' h e
      simp only [Mem.transformN, Except.ok.injEq] at e
      exact e ▸ h
  | succ n ih =>
      intro m s d m' h e
      simp only [Mem.transformN, Mem.read, Mem.write] at e
      cases hv : m[s]? with
      | none => rw [hv] at e; cases e
      | some v =>
          rw [hv] at e
          by_cases hd : d < m.length
          · simp only [hd, if_true] at e
            refine ih _ _ _ _ ?_ e
            intro x hx
            rcases List.mem_or_eq_of_mem_set hx with hx | rfl
            · exact h x hx
            · exact hf v (h v (List.mem_of_getElem? hv))
          · simp only [hd, if_false] at e
            cases e

theorem transform_all {P : ℝ → Prop} {f : ℝ → ℝ} (hf : ∀ x, P x → P (f x)) {m m' : List ℝ} {a b d : ℕ}
    (h : ∀ x ∈ m, P x) (e : Mem.transform f m a b d = .ok m') : ∀ x ∈ m', P x := by
  unfold Mem.transform at e
  cases hd : Mem.distance a b with
  | error err => rw [hd] at e; cases e
  | ok n => rw [hd] at e; exact transformN_all hf n m a d m' h e

theorem isFloat_floor {p : ℕ} (hp : 1 ≤ p) {x : ℝ} (hx : IsFloat p x) : IsFloat p (⌊x⌋ : ℝ) := by
  refine isFloat_near hp hx ?_
  rw [abs_lt]
  constructor <;> linarith [Int.floor_le x, Int.lt_floor_add_one x]

theorem isFloat_ceil {p : ℕ} (hp : 1 ≤ p) {x : ℝ} (hx : IsFloat p x) : IsFloat p (⌈x⌉ : ℝ) := by
  refine isFloat_near hp hx ?_
  rw [abs_lt]
  constructor <;> linarith [Int.le_ceil x, Int.ceil_lt_add_one x]

theorem isFloat_round {p : ℕ} (hp : 1 ≤ p) {x : ℝ} (hx : IsFloat p x) : IsFloat p (Seq.round1 x) := by
  unfold Seq.round1
  split
  · refine isFloat_near hp hx ?_
    rw [abs_lt]
    constructor <;> linarith [Int.floor_le (x + 1 / 2), Int.lt_floor_add_one (x + 1 / 2)]
  · refine isFloat_near hp hx ?_
    rw [abs_lt]
    constructor <;> linarith [Int.le_ceil (x - 1 / 2), Int.ceil_lt_add_one (x - 1 / 2)]

theorem isFloat_trunc {p : ℕ} (hp : 1 ≤ p) {x : ℝ} (hx : IsFloat p x) : IsFloat p (Seq.trunc1 x) := by
  unfold Seq.trunc1
  split
  · exact isFloat_floor hp hx
  · exact isFloat_ceil hp hx

theorem derivative_get (p : ℕ) : ∀ (xs : List ℝ) (n : ℕ) (h : n + 1 < xs.length),
    (RndElem.derivative p xs)[n + 1]? = some (rnd p (xs[n + 1] - xs[n])) := by
  intro xs n h
  cases xs with
  | nil => simp at h
  | cons x xs =>
      simp only [List.length_cons, Nat.add_lt_add_iff_right] at h
      simp only [RndElem.derivative, List.getElem?_cons_succ, List.getElem?_zipWith,
        List.getElem_cons_succ]
      rw [List.getElem?_eq_getElem h, List.getElem?_eq_getElem (by simp; omega)]

theorem rnd_le_of {p : ℕ} (hp : 1 ≤ p) {x y : ℝ} (hy : IsFloat p y) (h : x ≤ y) : rnd p x ≤ y :=
  rnd_float hy ▸ rnd_mono hp h

theorem le_rnd_of {p : ℕ} (hp : 1 ≤ p) {x y : ℝ} (hx : IsFloat p x) (h : x ≤ y) : x ≤ rnd p y := by
  have := rnd_mono hp h
  rwa [rnd_float hx] at this

end Edsp.C153

namespace Edsp.Props

open Edsp.Spec Edsp.FloatL Edsp.RampL Edsp.FloatX Edsp.C153

/-- floor, ceil, round, fix and rectify are exact: with numbers of `p` bits in the memory, what they store are numbers of
`p` bits, at every place of the memory. -/
theorem C153_integers {p : ℕ} (hp : 1 ≤ p) {m m' : List ℝ} {a b d : ℕ} (hm : ∀ x ∈ m, IsFloat p x)
    (h : Seq.floor m a b d = .ok m' ∨ Seq.ceil m a b d = .ok m' ∨ Seq.round m a b d = .ok m' ∨
      Seq.fix m a b d = .ok m' ∨ Seq.rectify m a b d = .ok m') :
    ∀ x ∈ m', IsFloat p x := by
  rcases h with h | h | h | h | h
  · exact transform_all (fun x hx => isFloat_floor hp hx) hm h
  · exact transform_all (fun x hx => isFloat_ceil hp hx) hm h
  · exact transform_all (fun x hx => isFloat_round hp hx) hm h
  · exact transform_all (fun x hx => isFloat_trunc hp hx) hm h
  · exact transform_all (fun x hx => isFloat_abs hx) hm h

example : Seq.floor ([5 / 2, 0] : List ℝ) 0 1 1 = .ok [5 / 2, 2] ∧ IsFloat 24 (5 / 2 : ℝ) := by
  refine ⟨?_, 5, -1, by norm_num, by norm_num⟩
  have : ⌊(5 / 2 : ℝ)⌋ = 2 := by rw [Int.floor_eq_iff]; norm_num
  simp [Seq.floor, Mem.transform, Mem.distance, Mem.transformN, Mem.read, Mem.write, Bind.bind, Except.bind, this]

/-- The claim fract(x) ∈ [0, 1) for all numbers: false in every precision, for the negative numbers next to 0. -/
theorem C153_fract_violates {p : ℕ} (hp : 1 ≤ p) {x : ℝ} (h1 : -(2 : ℝ) ^ (-(p : ℤ) - 1) ≤ x) (h2 : x < 0) :
    RndElem.fract p x = 1 := by
  have hu := two_neg_le hp
  have hf : ⌊x⌋ = -1 := by
    rw [Int.floor_eq_iff]
    rw [two_neg_half] at h1
    push_cast
    constructor <;> linarith
  unfold RndElem.fract
  rw [hf]
  push_cast
  exact rnd_to_one hp (by linarith) (by linarith)

example : IsFloat 53 (-(2 : ℝ) ^ (-100 : ℤ)) ∧ -(2 : ℝ) ^ (-(53 : ℕ) - 1 : ℤ) ≤ -(2 : ℝ) ^ (-100 : ℤ) := by
  refine ⟨⟨-1, -100, by norm_num, by push_cast; ring⟩, ?_⟩
  have : (2 : ℝ) ^ (-100 : ℤ) ≤ 2 ^ (-(53 : ℕ) - 1 : ℤ) := zpow_le_zpow_right₀ (by norm_num) (by norm_num)
  linarith

/-- These are the only ones: of every other number fract is in [0, 1); it is exact unless the number is between -1 and
0, and then within half a unit in the last place of 1/2. -/
theorem C153_fract_partial {p : ℕ} (hp : 1 ≤ p) {x : ℝ} (hx : IsFloat p x) :
    (¬(-(2 : ℝ) ^ (-(p : ℤ) - 1) ≤ x ∧ x < 0) → 0 ≤ RndElem.fract p x ∧ RndElem.fract p x < 1) ∧
    (0 ≤ x ∨ x ≤ -1 → ∃ n : ℤ, x = n + RndElem.fract p x) ∧
    (∃ n : ℤ, |x - (n + RndElem.fract p x)| ≤ 2 ^ (-(p : ℤ) - 1)) := by
  have hf1 := Int.floor_le x
  have hf2 := Int.lt_floor_add_one x
  have hex : 0 ≤ x ∨ x ≤ -1 → RndElem.fract p x = x - ⌊x⌋ := fun h => rnd_float (isFloat_fract hx h)
  refine ⟨fun h => ?_, fun h => ⟨⌊x⌋, by rw [hex h]; ring⟩, ⌊x⌋, ?_⟩
  · by_cases hc : 0 ≤ x ∨ x ≤ -1
    · rw [hex hc]; constructor <;> linarith
    · push Not at hc
      have hlt : x < -(2 : ℝ) ^ (-(p : ℤ) - 1) := by
        by_contra hcc
        exact h ⟨not_lt.mp hcc, hc.1⟩
      have hf : ⌊x⌋ = -1 := by
        rw [Int.floor_eq_iff]; push_cast; constructor <;> linarith
      unfold RndElem.fract
      rw [hf]; push_cast
      refine ⟨?_, rnd_lt_one hp (by linarith)⟩
      have := rnd_mono hp (show (0 : ℝ) ≤ x - -1 by linarith)
      rwa [rnd_zero] at this
  · have := rnd_abs_err hp (x := x - ⌊x⌋) (e := 0) (by
      rw [abs_of_nonneg (by linarith), zpow_zero]; linarith)
    rw [show (0 : ℤ) - (p : ℤ) - 1 = -(p : ℤ) - 1 by ring] at this
    rw [abs_sub_comm] at this
    unfold RndElem.fract
    rwa [show x - ((⌊x⌋ : ℝ) + rnd p (x - ⌊x⌋)) = x - ⌊x⌋ - rnd p (x - ⌊x⌋) by ring]

example : RndElem.fract 24 (-0.25) = 0.75 := by
  unfold RndElem.fract
  have hf : ⌊(-0.25 : ℝ)⌋ = -1 := by rw [Int.floor_eq_iff]; norm_num
  rw [hf, show (-0.25 : ℝ) - ((-1 : ℤ) : ℝ) = 0.75 by norm_num]
  exact rnd_float ⟨3, -2, by norm_num, by norm_num⟩

/-- half is exact, whatever the type of the argument: twice the result is the argument. -/
theorem C153_half {p q : ℕ} (hpq : p ≤ q) {x : ℝ} (hx : IsFloat p x) : 2 * RndElem.half p q x = x := by
  have h : IsFloat p (1 / 2 * x) := by
    have := isFloat_scale hx (-1)
    rwa [zpow_neg_one, ← one_div] at this
  unfold RndElem.half
  rw [rnd_float (isFloat_more hpq h), rnd_float h]; ring

example : IsFloat 24 (7 : ℝ) ∧ RndElem.half 24 53 7 = 3.5 := by
  have h : IsFloat 24 (7 : ℝ) := ⟨7, 0, by norm_num, by norm_num⟩
  refine ⟨h, ?_⟩
  have := C153_half (q := 53) (by norm_num) h
  linarith

/-- square is not negative, 0 for 0 only, the same for x and -x, larger for larger arguments, and its relative error is
at most 2^-p. -/
theorem C153_square {p : ℕ} (hp : 1 ≤ p) (x y : ℝ) :
    0 ≤ RndElem.square p x ∧ (RndElem.square p x = 0 ↔ x = 0) ∧ RndElem.square p (-x) = RndElem.square p x ∧
    (|x| ≤ |y| → RndElem.square p x ≤ RndElem.square p y) ∧
    |RndElem.square p x - x ^ 2| ≤ 2 ^ (-(p : ℤ)) * x ^ 2 := by
  unfold RndElem.square
  refine ⟨?_, ?_, by rw [neg_mul_neg], fun h => ?_, ?_⟩
  · have := rnd_mono hp (mul_self_nonneg x)
    rwa [rnd_zero] at this
  · rw [rnd_eq_zero hp, mul_self_eq_zero]
  · exact rnd_mono hp (abs_le_iff_mul_self_le.mp h)
  · have := rnd_err p (x * x)
    rw [abs_of_nonneg (mul_self_nonneg x)] at this
    rwa [sq]

/-- inv of a number other than 0: the sign is kept, the relative error is at most 2^-p, larger numbers have smaller
inverses, powers of two are inverted exactly; the inverse of 0 is not finite. -/
theorem C153_inv {p : ℕ} (hp : 1 ≤ p) :
    RndElem.inv p 0 = none ∧
    (∀ x, x ≠ 0 → ∃ y, RndElem.inv p x = some y ∧ |x * y - 1| ≤ 2 ^ (-(p : ℤ)) ∧ (0 < y ↔ 0 < x) ∧ y ≠ 0) ∧
    (∀ x y a b, 0 < x → x ≤ y → RndElem.inv p x = some a → RndElem.inv p y = some b → b ≤ a) ∧
    ∀ e : ℤ, RndElem.inv p (2 ^ e) = some (2 ^ (-e)) := by
  unfold RndElem.inv
  refine ⟨if_pos rfl, fun x hx => ⟨_, if_neg hx, ?_, ?_, ?_⟩, fun x y a b hx hxy ha hb => ?_, fun e => ?_⟩
  · have h := rnd_err p (1 / x)
    have h0 : 0 < |x| := abs_pos.mpr hx
    have e : x * rnd p (1 / x) - 1 = x * (rnd p (1 / x) - 1 / x) := by field_simp
    rw [e, abs_mul]
    calc |x| * |rnd p (1 / x) - 1 / x| ≤ |x| * (2 ^ (-(p : ℤ)) * |1 / x|) := mul_le_mul_of_nonneg_left h h0.le
      _ = 2 ^ (-(p : ℤ)) := by rw [abs_div, abs_one]; field_simp
  · rw [rnd_pos_iff hp, one_div_pos]
  · rw [Ne, rnd_eq_zero hp]; exact one_div_ne_zero hx
  · rw [if_neg hx.ne', Option.some.injEq] at ha
    rw [if_neg (by linarith), Option.some.injEq] at hb
    rw [← ha, ← hb]
    exact rnd_mono hp (one_div_le_one_div_of_le hx hxy)
  · rw [if_neg (two_zpow_pos e).ne', one_div, ← zpow_neg, rnd_float (isFloat_two_zpow hp _)]

/-- The distances: the euclidean one is symmetric, never negative, 0 for equal numbers only; the manhattan one changes
its sign when the arguments are swapped and is 0 for equal numbers only; it is exact for numbers of the same sign within a
factor of two of each other. -/
theorem C153_distances {p : ℕ} (hp : 1 ≤ p) (x y : ℝ) :
    RndElem.euclidean p x y = RndElem.euclidean p y x ∧ 0 ≤ RndElem.euclidean p x y ∧
    (RndElem.euclidean p x y = 0 ↔ x = y) ∧
    RndElem.manhattan p x y = -RndElem.manhattan p y x ∧ (RndElem.manhattan p x y = 0 ↔ x = y) ∧
    (0 < RndElem.manhattan p x y ↔ y < x) ∧
    (IsFloat p x → IsFloat p y → y / 2 ≤ x → x ≤ 2 * y → RndElem.manhattan p x y = x - y) := by
  have hn : ∀ a b : ℝ, rnd p (a - b) = -rnd p (b - a) := fun a b => by rw [← rnd_neg, neg_sub]
  unfold RndElem.euclidean RndElem.manhattan
  refine ⟨?_, (C153_square hp _ 0).1, ?_, hn x y, ?_, ?_, fun hx hy h1 h2 => rnd_float (sterbenz hx hy h1 h2)⟩
  · rw [hn x y, (C153_square hp _ 0).2.2.1]
  · rw [(C153_square hp _ 0).2.1, rnd_eq_zero hp, sub_eq_zero]
  · rw [rnd_eq_zero hp, sub_eq_zero]
  · rw [rnd_pos_iff hp, sub_pos]

/-- amplifier: every sample of a `p`-bit signal comes out as `c` times the sample up to a relative error of
2^-p + 2^-q + 2^-(p+q); a factor of at most 1 makes no sample louder, a factor of at least 1 none quieter; the order of
the samples is kept by a positive factor; powers of two are exact. -/
theorem C153_amplifier {p q : ℕ} (hp : 1 ≤ p) (hpq : p ≤ q) (c : ℝ) (xs : List ℝ) (hxs : ∀ x ∈ xs, IsFloat p x) :
    (RndElem.amplify p q c xs).length = xs.length ∧
    ∀ (i : ℕ) (hi : i < xs.length), ∃ y, (RndElem.amplify p q c xs)[i]? = some y ∧ IsFloat p y ∧
      |y - c * xs[i]| ≤ (2 ^ (-(p : ℤ)) + 2 ^ (-(q : ℤ)) + 2 ^ (-(p : ℤ)) * 2 ^ (-(q : ℤ))) * |c * xs[i]| ∧
      (|c| ≤ 1 → |y| ≤ |xs[i]|) ∧ (1 ≤ |c| → |xs[i]| ≤ |y|) ∧ (∀ e : ℤ, c = 2 ^ e → y = c * xs[i]) ∧
      ∀ (j : ℕ) (hj : j < xs.length) (z : ℝ), (RndElem.amplify p q c xs)[j]? = some z → 0 ≤ c → xs[i] ≤ xs[j] →
        y ≤ z := by
  have hq : 1 ≤ q := le_trans hp hpq
  refine ⟨by simp [RndElem.amplify], fun i hi => ⟨rnd p (rnd q (c * xs[i])), ?_, isFloat_rnd hp _, ?_, fun hc => ?_,
    fun hc => ?_, fun e he => ?_, fun j hj z hz hc hij => ?_⟩⟩
  · simp [RndElem.amplify, List.getElem?_eq_getElem hi]
  · have h1 := rnd_err p (rnd q (c * xs[i]))
    have h2 := rnd_err q (c * xs[i])
    generalize c * xs[i] = t at *
    have hup := two_zpow_pos (-(p : ℤ))
    generalize (2 : ℝ) ^ (-(p : ℤ)) = u at *
    generalize (2 : ℝ) ^ (-(q : ℤ)) = v at *
    have h3 : |rnd q t| ≤ |t| + v * |t| := by
      have := abs_sub_abs_le_abs_sub (rnd q t) t
      linarith
    have h4 := abs_sub_le (rnd p (rnd q t)) (rnd q t) t
    have h5 := mul_le_mul_of_nonneg_left h3 hup.le
    nlinarith
  · rw [rnd_abs hp, rnd_abs hq]
    have hx := isFloat_abs (hxs _ (List.getElem_mem hi))
    refine rnd_le_of hp hx (rnd_le_of hq (isFloat_more hpq hx) ?_)
    rw [abs_mul]
    exact mul_le_of_le_one_left (abs_nonneg _) hc
  · rw [rnd_abs hp, rnd_abs hq]
    have hx := isFloat_abs (hxs _ (List.getElem_mem hi))
    refine le_rnd_of hp hx (le_rnd_of hq (isFloat_more hpq hx) ?_)
    rw [abs_mul]
    exact le_mul_of_one_le_left (abs_nonneg _) hc
  · have hx := isFloat_scale (hxs _ (List.getElem_mem hi)) e
    rw [he, rnd_float (isFloat_more hpq hx), rnd_float hx]
  · simp only [RndElem.amplify, List.getElem?_map, List.getElem?_eq_getElem hj, Option.map_some,
      Option.some.injEq] at hz
    rw [← hz]
    exact rnd_mono hp (rnd_mono hq (mul_le_mul_of_nonneg_left hij hc))

example : ∃ y, (RndElem.amplify 24 53 0.1 [0.5, -3])[1]? = some y ∧ |y| ≤ 3 := by
  have h : ∀ x ∈ ([0.5, -3] : List ℝ), IsFloat 24 x := by
    intro x hx
    simp only [List.mem_cons, List.not_mem_nil, or_false] at hx
    rcases hx with rfl | rfl
    · exact ⟨1, -1, by norm_num, by norm_num⟩
    · exact ⟨-3, 0, by norm_num, by norm_num⟩
  obtain ⟨y, h1, -, -, h2, -⟩ := (C153_amplifier (q := 53) (by norm_num) (by norm_num) 0.1 _ h).2 1 (by simp)
  refine ⟨y, h1, ?_⟩
  have := h2 (by rw [abs_of_pos] <;> norm_num)
  simpa using this

/-- amplifier and clipper with limits of `p` bits: every sample stays within the limits, and what is within the limits is
not changed by the clipping. -/
theorem C153_clip_partial {p q : ℕ} (hp : 1 ≤ p) (c : ℝ) {lo hi : ℝ} (hlo : IsFloat p lo) (hhi : IsFloat p hi)
    (hle : lo ≤ hi) (xs : List ℝ) (hxs : ∀ x ∈ xs, IsFloat p x) :
    (∀ y ∈ RndElem.amplifyClip p q c lo hi xs, lo ≤ y ∧ y ≤ hi) ∧ (∀ y ∈ RndElem.clip p lo hi xs, lo ≤ y ∧ y ≤ hi) ∧
    ((∀ x ∈ xs, lo ≤ rnd q (c * x) ∧ rnd q (c * x) ≤ hi) →
      RndElem.amplifyClip p q c lo hi xs = RndElem.amplify p q c xs) ∧
    ((∀ x ∈ xs, lo ≤ x ∧ x ≤ hi) → RndElem.clip p lo hi xs = xs) := by
  have key : ∀ t : ℝ, lo ≤ rnd p (if t < lo then lo else if hi < t then hi else t) ∧
      rnd p (if t < lo then lo else if hi < t then hi else t) ≤ hi := by
    intro t
    split
    · rw [rnd_float hlo]; exact ⟨le_rfl, hle⟩
    · split
      · rw [rnd_float hhi]; exact ⟨hle, le_rfl⟩
      · rename_i h1 h2
        exact ⟨le_rnd_of hp hlo (not_lt.mp h1), rnd_le_of hp hhi (not_lt.mp h2)⟩
  refine ⟨fun y hy => ?_, fun y hy => ?_, fun h => ?_, fun h => ?_⟩
  · obtain ⟨x, -, rfl⟩ := List.mem_map.mp hy
    exact key _
  · obtain ⟨x, -, rfl⟩ := List.mem_map.mp hy
    exact key _
  · refine List.map_congr_left fun x hx => ?_
    rw [if_neg (not_lt.mpr (h x hx).1), if_neg (not_lt.mpr (h x hx).2)]
  · have : RndElem.clip p lo hi xs = xs.map id := List.map_congr_left fun x hx => by
      rw [if_neg (not_lt.mpr (h x hx).1), if_neg (not_lt.mpr (h x hx).2), rnd_float (hxs x hx), id]
    rw [this, List.map_id]

example : RndElem.clip 24 (-1) 1 [3, 0.5] = [1, 0.5] := by
  have h1 : rnd 24 (1 : ℝ) = 1 := by simpa using rnd_float (isFloat_two_zpow (p := 24) (by norm_num) 0)
  have h2 : rnd 24 (0.5 : ℝ) = 0.5 := rnd_float ⟨1, -1, by norm_num, by norm_num⟩
  unfold RndElem.clip
  norm_num
  constructor
  · exact h1
  · norm_num at h2; exact h2

/-- The claim that the outputs stay within the limits: false for limits with more bits than the samples, as with
`double` limits and `float` samples. -/
theorem C153_clip_violates {p q : ℕ} (hp : 1 ≤ p) (hpq : p < q) :
    ∃ hi : ℝ, IsFloat q hi ∧ 0 < hi ∧ ∃ y ∈ RndElem.clip p (-hi) hi [2], hi < y ∧
      y ∈ RndElem.amplifyClip p q 2 (-hi) hi [1] := by
  have hq : 1 ≤ q := by omega
  have hu := two_neg_le hq
  have hu0 := two_zpow_pos (-(q : ℤ))
  have hr : rnd p (1 - 2 ^ (-(q : ℤ))) = 1 := by
    refine rnd_to_one hp ?_ (by linarith)
    have : (2 : ℝ) ^ (-(q : ℤ)) ≤ 2 ^ (-(p : ℤ) - 1) := zpow_le_zpow_right₀ (by norm_num) (by omega)
    linarith
  have h2 : rnd q (2 * 1) = 2 := by
    have := rnd_float (isFloat_two_zpow hq 1)
    norm_num at this ⊢
    exact this
  refine ⟨1 - 2 ^ (-(q : ℤ)), ⟨2 ^ q - 1, -(q : ℤ), ?_, ?_⟩, by linarith, 1, ?_, by linarith, ?_⟩
  · have : (1 : ℤ) ≤ 2 ^ q := one_le_pow₀ (by norm_num)
    rw [abs_of_nonneg (by omega)]; omega
  · have := pow_cancel q
    push_cast; linarith
  · rw [RndElem.clip, List.map_singleton, List.mem_singleton, if_neg (by linarith), if_pos (by linarith), hr]
  · rw [RndElem.amplifyClip, List.map_singleton, List.mem_singleton, h2, if_neg (by linarith), if_pos (by linarith), hr]

/-- derivative: one value for each sample; the first sample is kept; every other value has the sign of the change, is 0
where the signal does not change and only there, has a relative error of at most 2^-p, and is exact where neighbours are
within a factor of two of each other. -/
theorem C153_derivative {p : ℕ} (hp : 1 ≤ p) (xs : List ℝ) (hxs : ∀ x ∈ xs, IsFloat p x) :
    (RndElem.derivative p xs).length = xs.length ∧ (RndElem.derivative p xs)[0]? = xs[0]? ∧
    ∀ (n : ℕ) (h : n + 1 < xs.length), ∃ y, (RndElem.derivative p xs)[n + 1]? = some y ∧
      (0 < y ↔ xs[n] < xs[n + 1]) ∧ (y = 0 ↔ xs[n + 1] = xs[n]) ∧
      |y - (xs[n + 1] - xs[n])| ≤ 2 ^ (-(p : ℤ)) * |xs[n + 1] - xs[n]| ∧
      (xs[n] / 2 ≤ xs[n + 1] → xs[n + 1] ≤ 2 * xs[n] → y = xs[n + 1] - xs[n]) := by
  refine ⟨?_, ?_, fun n h => ⟨_, derivative_get p xs n h, ?_, ?_, rnd_err p _, fun h1 h2 => ?_⟩⟩
  · cases xs <;> simp [RndElem.derivative]
  · cases xs <;> simp [RndElem.derivative]
  · rw [rnd_pos_iff hp, sub_pos]
  · rw [rnd_eq_zero hp, sub_eq_zero]
  · exact rnd_float (sterbenz (hxs _ (List.getElem_mem _)) (hxs _ (List.getElem_mem _)) h1 h2)

example : (∀ x ∈ ([1, 1.5, 3] : List ℝ), IsFloat 24 x) := by
  intro x hx
  simp only [List.mem_cons, List.not_mem_nil, or_false] at hx
  rcases hx with rfl | rfl | rfl
  · exact ⟨1, 0, by norm_num, by norm_num⟩
  · exact ⟨3, -1, by norm_num, by norm_num⟩
  · exact ⟨3, 0, by norm_num, by norm_num⟩

/-- Samples of a sound file (integers of at most `M` units of 2^k, with 2 M ≤ 2^p: 16 bits in a `float`, 32 bits in a
`double`) are differentiated without any error, and the sum of the values gives the last sample back. -/
theorem C153_derivative_samples {p : ℕ} (hp : 1 ≤ p) {k : ℤ} {M : ℕ} (hM : 2 * M ≤ 2 ^ p) (xs : List ℝ)
    (hxs : ∀ x ∈ xs, Grid k M x) :
    (∀ (n : ℕ) (h : n + 1 < xs.length), (RndElem.derivative p xs)[n + 1]? = some (xs[n + 1] - xs[n])) ∧
    ∀ n, n < xs.length → xs[n]? = some ((RndElem.derivative p xs).take (n + 1)).sum := by
  have hd : ∀ (n : ℕ) (h : n + 1 < xs.length), (RndElem.derivative p xs)[n + 1]? = some (xs[n + 1] - xs[n]) := by
    intro n h
    rw [derivative_get p xs n h]
    congr 1
    obtain ⟨a, ha, ea⟩ := hxs _ (List.getElem_mem h)
    obtain ⟨b, hb, eb⟩ := hxs _ (List.getElem_mem (Nat.lt_of_succ_lt h))
    rw [ea, eb, ← sub_mul]
    have := isFloat_int hp (m := a - b) k (by
      have h1 := abs_sub a b
      have h2 : (2 * (M : ℤ)) ≤ 2 ^ p := by exact_mod_cast hM
      omega)
    push_cast at this
    exact rnd_float this
  refine ⟨hd, fun n => ?_⟩
  have hlen : (RndElem.derivative p xs).length = xs.length := by cases xs <;> simp [RndElem.derivative]
  induction n with
  | zero =>
      intro h
      cases xs with
      | nil => simp at h
      | cons x xs => simp [RndElem.derivative]
  | succ n ih =>
      intro h
      have h1 := ih (by omega)
      rw [List.getElem?_eq_getElem (by omega), Option.some.injEq] at h1
      have h2 := hd n h
      rw [List.getElem?_eq_getElem (by omega), Option.some.injEq] at h2
      rw [List.getElem?_eq_getElem h, Option.some.injEq, List.take_succ_eq_append_getElem (by omega), List.sum_append,
        ← h1, h2, List.sum_singleton]
      ring

example : Grid (-15) (2 ^ 15) (-1) ∧ 2 * 2 ^ 15 ≤ 2 ^ 24 :=
  ⟨⟨-2 ^ 15, by norm_num, by norm_num⟩, by norm_num⟩

end Edsp.Props
