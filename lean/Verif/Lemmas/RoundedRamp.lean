import Verif.Lemmas.Float
import Mathlib.Tactic.Linarith
import Mathlib.Tactic.Ring
import Mathlib.Tactic.Positivity
import Mathlib.Algebra.Order.Archimedean.Basic

/-!
# Ramps in floating point arithmetic

`x + r + r + …` and `x - d - d - …`, rounded after each step, up to a target.
-/

namespace Edsp.RampL
open Edsp.Spec Edsp.FloatL

theorem isFloat_two_zpow {p : ℕ} (hp : 1 ≤ p) (e : ℤ) : IsFloat p ((2 : ℝ) ^ e) := by
  have := isFloat_int hp (m := 1) e (by rw [abs_one]; exact one_le_pow₀ (by norm_num))
  simpa using this

/-- Rounding moves a number of at most `2^e` by at most half a unit of the binade below `2^e`. -/
theorem rnd_abs_err {p : ℕ} (hp : 1 ≤ p) {x : ℝ} {e : ℤ} (h : |x| ≤ 2 ^ e) : |rnd p x - x| ≤ 2 ^ (e - p - 1) := by
  have hpos := two_zpow_pos (e - p - 1)
  by_cases hx : x = 0
  · rw [hx, rnd_zero]; simpa using hpos.le
  rcases h.lt_or_eq with hlt | heq
  · obtain ⟨k, h1, h2, h3⟩ := rnd_spec (p := p) hx
    have hk := two_zpow_pos k
    have hke : k + p - 1 < e := by
      by_contra hc
      have := zpow_le_zpow_right₀ (by norm_num : (1 : ℝ) ≤ 2) (not_lt.mp hc)
      linarith
    have hle : (2 : ℝ) ^ k ≤ 2 ^ (e - p) := zpow_le_zpow_right₀ (by norm_num) (by omega)
    have hh : (2 : ℝ) ^ (e - p) = 2 * 2 ^ (e - p - 1) := by
      rw [show e - (p : ℤ) = (e - p - 1) + 1 by ring, zpow_add_one₀ (by norm_num)]; ring_nf
    have hr : rnd p x - x = ((nearestEven (x / 2 ^ k) : ℝ) - x / 2 ^ k) * 2 ^ k := by
      rw [h3, sub_mul, div_mul_cancel₀ _ hk.ne']
    rw [hr, abs_mul, abs_of_pos hk]
    have := ne_abs (x / 2 ^ k)
    nlinarith
  · have hf : rnd p x = x := by
      rcases abs_choice x with hc | hc
      · rw [hc] at heq
        rw [heq]; exact rnd_float (isFloat_two_zpow hp e)
      · have : x = -(2 : ℝ) ^ e := by rw [← heq, hc]; ring
        rw [this, rnd_neg, rnd_float (isFloat_two_zpow hp e)]
    rw [hf]; simpa using hpos.le

/-! ### Upwards -/

/-- One step upwards. -/
noncomputable def up (p : ℕ) (r x : ℝ) : ℝ := rnd p (x + r)

/-- One step downwards. -/
noncomputable def down (p : ℕ) (d x : ℝ) : ℝ := rnd p (x - d)

theorem up_err {p : ℕ} (hp : 1 ≤ p) {r x t : ℝ} {e : ℤ} (hr : 0 ≤ r) (hx : 0 ≤ x) (ht : t ≤ 2 ^ e) :
    ∀ k : ℕ, (∀ j ≤ k, (up p r)^[j] x < t) →
      |(up p r)^[k] x - (x + k * r)| ≤ k * 2 ^ (e - p - 1) ∧ 0 ≤ (up p r)^[k] x := by
  intro k
  induction k with
  | zero => intro _; simpa using hx
  | succ k ih =>
    intro h
    obtain ⟨h1, h2⟩ := ih (fun j hj => h j (by omega))
    have h3 := h (k + 1) le_rfl
    rw [Function.iterate_succ_apply'] at h3 ⊢
    set y := (up p r)^[k] x
    have hy0 : 0 ≤ y + r := by linarith
    have hy : y + r ≤ 2 ^ e := by
      by_contra hc
      have := rnd_mono hp (not_le.mp hc).le
      rw [rnd_float (isFloat_two_zpow hp e)] at this
      unfold up at h3
      linarith
    have he := rnd_abs_err hp (x := y + r) (e := e) (by rwa [abs_of_nonneg hy0])
    refine ⟨?_, ?_⟩
    · unfold up
      push_cast
      rw [abs_le] at h1 he ⊢
      constructor <;> nlinarith
    · have := rnd_mono hp hy0
      rw [rnd_zero] at this
      exact this

/-- A ramp upwards by more than half a unit per step arrives, after about the expected number of steps. -/
theorem up_arrives {p : ℕ} (hp : 1 ≤ p) {r x t : ℝ} {e : ℤ} (hx : 0 ≤ x) (hxt : x < t) (ht : t ≤ 2 ^ e)
    (hr : (2 : ℝ) ^ (e - p - 1) < r) :
    ∃ n : ℕ, 1 ≤ n ∧ t ≤ (up p r)^[n] x ∧ (∀ k < n, (up p r)^[k] x < t) ∧
      (∀ k < n, |(up p r)^[k] x - (x + k * r)| ≤ k * 2 ^ (e - p - 1)) ∧
      ((n : ℝ) - 1) * (r - 2 ^ (e - p - 1)) < t - x ∧ t - x ≤ n * (r + 2 ^ (e - p - 1)) := by
  have hu := two_zpow_pos (e - p - 1)
  have hr0 : 0 ≤ r := by linarith
  have hex : ∃ n : ℕ, t ≤ (up p r)^[n] x := by
    by_contra hc
    push Not at hc
    obtain ⟨n, hn⟩ := Archimedean.arch (t - x) (show 0 < r - 2 ^ (e - p - 1) by linarith)
    rw [nsmul_eq_mul] at hn
    have h1 := (up_err hp hr0 hx ht n (fun j _ => hc j)).1
    have h2 := hc n
    rw [abs_le] at h1
    nlinarith
  classical
  let n := Nat.find hex
  have hn : t ≤ (up p r)^[n] x := Nat.find_spec hex
  have hlt : ∀ k < n, (up p r)^[k] x < t := fun k hk => not_le.mp (Nat.find_min hex hk)
  have hn1 : 1 ≤ n := by
    by_contra hc
    have : n = 0 := by omega
    rw [this] at hn
    simp only [Function.iterate_zero, id_eq] at hn
    linarith
  obtain ⟨m, hm⟩ : ∃ m, n = m + 1 := ⟨n - 1, by omega⟩
  have herr : ∀ k < n, |(up p r)^[k] x - (x + k * r)| ≤ k * 2 ^ (e - p - 1) := fun k hk =>
    (up_err hp hr0 hx ht k (fun j hj => hlt j (by omega))).1
  have h1 := herr m (by omega)
  have h2 := hlt m (by omega)
  have h3 := (up_err hp hr0 hx ht m (fun j hj => hlt j (by omega))).2
  refine ⟨n, hn1, hn, hlt, herr, ?_, ?_⟩
  · rw [hm]
    push_cast
    rw [abs_le] at h1
    nlinarith
  · rw [hm] at hn ⊢
    rw [Function.iterate_succ_apply'] at hn
    set y := (up p r)^[m] x
    push_cast
    rw [abs_le] at h1
    rcases le_total (y + r) (2 ^ e) with hy | hy
    · have he := rnd_abs_err hp (x := y + r) (e := e) (by rwa [abs_of_nonneg (by linarith)])
      unfold up at hn
      rw [abs_le] at he
      nlinarith
    · nlinarith

/-- A ramp upwards by at most half a unit of the binade above `2^e` never gets past `2^e`. -/
theorem up_stuck {p : ℕ} (hp : 2 ≤ p) {r x : ℝ} {e : ℤ} (hx : x ≤ 2 ^ e) (hr : r ≤ 2 ^ (e - p)) :
    ∀ k, (up p r)^[k] x ≤ 2 ^ e := by
  have hp1 : 1 ≤ p := by omega
  have he := two_zpow_pos e
  have hk := two_zpow_pos (e + 1 - p)
  have hep := two_zpow_pos (e - p)
  have e1 : (2 : ℝ) ^ (e + 1 - p) = 2 * 2 ^ (e - p) := by
    rw [show e + 1 - (p : ℤ) = (e - p) + 1 by ring, zpow_add_one₀ (by norm_num)]; ring
  have e2 : (2 : ℝ) ^ e = 2 ^ (p - 1) * 2 ^ (e + 1 - p) := by
    rw [← zpow_natCast (2 : ℝ) (p - 1), ← zpow_add₀ (by norm_num)]
    congr 1
    push_cast [Nat.cast_sub hp1]
    ring
  have hlt : (2 : ℝ) ^ (e - p) < 2 ^ e := zpow_lt_zpow_right₀ (by norm_num) (by omega)
  have top : rnd p (2 ^ e + 2 ^ (e - p)) = 2 ^ e := by
    have hpos : (0 : ℝ) < 2 ^ e + 2 ^ (e - p) := by linarith
    rw [rnd_of (p := p) (k := e + 1 - p)]
    · have hdiv : ((2 : ℝ) ^ e + 2 ^ (e - p)) / 2 ^ (e + 1 - p) = ((2 ^ (p - 1) : ℤ) : ℝ) + 1 / 2 := by
        rw [div_eq_iff hk.ne', e2]
        push_cast
        linarith [e1]
      rw [ne_tie_up (n := 2 ^ (p - 1)) ((even_two).pow_of_ne_zero (by omega)) hdiv]
      push_cast
      exact e2.symm
    · rw [abs_of_pos hpos, show e + 1 - (p : ℤ) + p - 1 = e by ring]
      linarith
    · rw [abs_of_pos hpos, show e + 1 - (p : ℤ) + p = e + 1 by ring, zpow_add_one₀ (by norm_num)]
      linarith
  intro k
  induction k with
  | zero => simpa using hx
  | succ k ih =>
    rw [Function.iterate_succ_apply']
    show rnd p ((up p r)^[k] x + r) ≤ 2 ^ e
    have := rnd_mono hp1 (show (up p r)^[k] x + r ≤ 2 ^ e + 2 ^ (e - p) by linarith)
    rwa [top] at this

/-! ### Downwards -/

theorem down_err {p : ℕ} (hp : 1 ≤ p) {d x s : ℝ} {e : ℤ} (hd : 0 ≤ d) (hx : x ≤ 2 ^ e) (hs : 0 ≤ s) :
    ∀ k : ℕ, (∀ j ≤ k, s < (down p d)^[j] x) →
      |(down p d)^[k] x - (x - k * d)| ≤ k * 2 ^ (e - p - 1) ∧ (down p d)^[k] x ≤ 2 ^ e := by
  intro k
  induction k with
  | zero => intro _; simpa using hx
  | succ k ih =>
    intro h
    obtain ⟨h1, h2⟩ := ih (fun j hj => h j (by omega))
    have h3 := h (k + 1) le_rfl
    rw [Function.iterate_succ_apply'] at h3 ⊢
    set y := (down p d)^[k] x
    have hy : 0 ≤ y - d := by
      by_contra hc
      have := rnd_mono hp (not_le.mp hc).le
      rw [rnd_zero] at this
      unfold down at h3
      linarith
    have he := rnd_abs_err hp (x := y - d) (e := e) (by rw [abs_of_nonneg hy]; linarith)
    refine ⟨?_, ?_⟩
    · unfold down
      push_cast
      rw [abs_le] at h1 he ⊢
      constructor <;> nlinarith
    · have := rnd_mono hp (show y - d ≤ 2 ^ e by linarith)
      rw [rnd_float (isFloat_two_zpow hp e)] at this
      exact this

/-- A ramp downwards by more than half a unit per step arrives, after about the expected number of steps. -/
theorem down_arrives {p : ℕ} (hp : 1 ≤ p) {d x s : ℝ} {e : ℤ} (hs : 0 ≤ s) (hxs : s < x) (hx : x ≤ 2 ^ e)
    (hd : (2 : ℝ) ^ (e - p - 1) < d) :
    ∃ n : ℕ, 1 ≤ n ∧ (down p d)^[n] x ≤ s ∧ (∀ k < n, s < (down p d)^[k] x) ∧
      (∀ k < n, |(down p d)^[k] x - (x - k * d)| ≤ k * 2 ^ (e - p - 1)) ∧
      ((n : ℝ) - 1) * (d - 2 ^ (e - p - 1)) < x - s ∧ x - s ≤ n * (d + 2 ^ (e - p - 1)) := by
  have hu := two_zpow_pos (e - p - 1)
  have hd0 : 0 ≤ d := by linarith
  have hex : ∃ n : ℕ, (down p d)^[n] x ≤ s := by
    by_contra hc
    push Not at hc
    obtain ⟨n, hn⟩ := Archimedean.arch (x - s) (show 0 < d - 2 ^ (e - p - 1) by linarith)
    rw [nsmul_eq_mul] at hn
    have h1 := (down_err hp hd0 hx hs n (fun j _ => hc j)).1
    have h2 := hc n
    rw [abs_le] at h1
    nlinarith
  classical
  let n := Nat.find hex
  have hn : (down p d)^[n] x ≤ s := Nat.find_spec hex
  have hlt : ∀ k < n, s < (down p d)^[k] x := fun k hk => not_le.mp (Nat.find_min hex hk)
  have hn1 : 1 ≤ n := by
    by_contra hc
    have : n = 0 := by omega
    rw [this] at hn
    simp only [Function.iterate_zero, id_eq] at hn
    linarith
  obtain ⟨m, hm⟩ : ∃ m, n = m + 1 := ⟨n - 1, by omega⟩
  have herr : ∀ k < n, |(down p d)^[k] x - (x - k * d)| ≤ k * 2 ^ (e - p - 1) := fun k hk =>
    (down_err hp hd0 hx hs k (fun j hj => hlt j (by omega))).1
  have h1 := herr m (by omega)
  have h2 := hlt m (by omega)
  have h3 := (down_err hp hd0 hx hs m (fun j hj => hlt j (by omega))).2
  refine ⟨n, hn1, hn, hlt, herr, ?_, ?_⟩
  · rw [hm]
    push_cast
    rw [abs_le] at h1
    nlinarith
  · rw [hm] at hn ⊢
    rw [Function.iterate_succ_apply'] at hn
    set y := (down p d)^[m] x
    push_cast
    rw [abs_le] at h1
    rcases le_total 0 (y - d) with hy | hy
    · have he := rnd_abs_err hp (x := y - d) (e := e) (by rw [abs_of_nonneg hy]; linarith)
      unfold down at hn
      rw [abs_le] at he
      nlinarith
    · nlinarith

/-- A ramp downwards from `2^e` by at most half a unit of the binade below stays where it is. -/
theorem down_stuck {p : ℕ} (hp : 2 ≤ p) {d : ℝ} {e : ℤ} (hd0 : 0 ≤ d) (hd : d ≤ 2 ^ (e - p - 1)) :
    ∀ k, (down p d)^[k] (2 ^ e) = 2 ^ e := by
  have hp1 : 1 ≤ p := by omega
  have he := two_zpow_pos e
  have hk := two_zpow_pos (e - p)
  have hep := two_zpow_pos (e - p - 1)
  have e1 : (2 : ℝ) ^ (e - p) = 2 * 2 ^ (e - p - 1) := by
    rw [show e - (p : ℤ) = (e - p - 1) + 1 by ring, zpow_add_one₀ (by norm_num)]; ring_nf
  have e2 : (2 : ℝ) ^ e = 2 ^ p * 2 ^ (e - p) := by
    rw [← zpow_natCast (2 : ℝ) p, ← zpow_add₀ (by norm_num)]
    congr 1
    ring
  have e3 : (2 : ℝ) ^ e = 2 * 2 ^ (e - 1) := by
    rw [show e = (e - 1) + 1 by ring, zpow_add_one₀ (by norm_num)]; ring_nf
  have hlt : (2 : ℝ) ^ (e - p - 1) < 2 ^ (e - 1) := zpow_lt_zpow_right₀ (by norm_num) (by omega)
  have bot : rnd p (2 ^ e - 2 ^ (e - p - 1)) = 2 ^ e := by
    have hpos : (0 : ℝ) < 2 ^ e - 2 ^ (e - p - 1) := by linarith [two_zpow_pos (e - 1)]
    rw [rnd_of (p := p) (k := e - p)]
    · have hdiv : ((2 : ℝ) ^ e - 2 ^ (e - p - 1)) / 2 ^ (e - p) = ((2 ^ p : ℤ) : ℝ) - 1 / 2 := by
        rw [div_eq_iff hk.ne']
        push_cast
        linarith [e1, e2]
      rw [ne_tie_down (n := 2 ^ p) ((even_two).pow_of_ne_zero (by omega)) hdiv]
      push_cast
      exact e2.symm
    · rw [abs_of_pos hpos, show e - (p : ℤ) + p - 1 = e - 1 by ring]
      linarith
    · rw [abs_of_pos hpos, show e - (p : ℤ) + p = e by ring]
      linarith
  have one : down p d (2 ^ e) = 2 ^ e := by
    unfold down
    apply le_antisymm
    · have := rnd_mono hp1 (show (2 : ℝ) ^ e - d ≤ 2 ^ e by linarith)
      rwa [rnd_float (isFloat_two_zpow hp1 e)] at this
    · have := rnd_mono hp1 (show (2 : ℝ) ^ e - 2 ^ (e - p - 1) ≤ 2 ^ e - d by linarith)
      rwa [bot] at this
  intro k
  exact Function.iterate_fixed one k

/-! ### Exact ramps -/

theorem isFloat_grid {p : ℕ} (hp : 1 ≤ p) {z j : ℤ} (h : |(z : ℝ) * 2 ^ j| ≤ 2 ^ (j + p)) :
    IsFloat p ((z : ℝ) * 2 ^ j) := by
  apply isFloat_int hp
  have hj := two_zpow_pos j
  rw [abs_mul, abs_of_pos hj, add_comm j, zpow_add₀ (by norm_num), zpow_natCast] at h
  have := le_of_mul_le_mul_right h hj
  exact_mod_cast this

/-- Without rounding: the numbers are multiples of `2^j` of at most `2^p` units. -/
theorem up_exact {p : ℕ} (hp : 1 ≤ p) {a b j : ℤ} (ha : 0 ≤ a) (hb : 0 ≤ b) (k : ℕ)
    (h : ((a : ℝ) + k * b) * 2 ^ j ≤ 2 ^ (j + p)) :
    (up p (b * 2 ^ j))^[k] (a * 2 ^ j) = ((a : ℝ) + k * b) * 2 ^ j := by
  have hj := two_zpow_pos j
  have ha' : (0 : ℝ) ≤ a := by exact_mod_cast ha
  have hb' : (0 : ℝ) ≤ b := by exact_mod_cast hb
  induction k with
  | zero => simp
  | succ k ih =>
    push_cast at h
    have hk : ((a : ℝ) + k * b) * 2 ^ j ≤ 2 ^ (j + p) := by
      refine le_trans ?_ h
      apply mul_le_mul_of_nonneg_right _ hj.le
      nlinarith
    rw [Function.iterate_succ_apply', ih hk]
    unfold up
    have e : ((a : ℝ) + k * b) * 2 ^ j + b * 2 ^ j = ((a + (k + 1) * b : ℤ) : ℝ) * 2 ^ j := by push_cast; ring
    have hn : (0 : ℝ) ≤ (a : ℝ) + (k + 1) * b := by positivity
    rw [e, rnd_float (isFloat_grid hp _)]
    · push_cast; ring
    · push_cast
      rw [abs_of_nonneg (by positivity)]
      exact h

/-- Without rounding, downwards. -/
theorem down_exact {p : ℕ} (hp : 1 ≤ p) {a b j : ℤ} (ha : ((a : ℝ)) * 2 ^ j ≤ 2 ^ (j + p)) (hb : 0 ≤ b) (k : ℕ)
    (h : (0 : ℝ) ≤ a - k * b) :
    (down p (b * 2 ^ j))^[k] (a * 2 ^ j) = ((a : ℝ) - k * b) * 2 ^ j := by
  have hj := two_zpow_pos j
  have hb' : (0 : ℝ) ≤ b := by exact_mod_cast hb
  induction k with
  | zero => simp
  | succ k ih =>
    push_cast at h
    rw [Function.iterate_succ_apply', ih (by linarith)]
    unfold down
    have e : ((a : ℝ) - k * b) * 2 ^ j - b * 2 ^ j = ((a - (k + 1) * b : ℤ) : ℝ) * 2 ^ j := by push_cast; ring
    rw [e, rnd_float (isFloat_grid hp _)]
    · push_cast; ring
    · push_cast
      rw [abs_of_nonneg (by positivity)]
      refine le_trans (mul_le_mul_of_nonneg_right ?_ hj.le) ha
      have : (0 : ℝ) ≤ (k + 1) * b := by positivity
      linarith

end Edsp.RampL
