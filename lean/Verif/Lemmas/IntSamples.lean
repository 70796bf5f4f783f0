import Verif.Model.IntSamples
import Verif.Spec.IntTypes
import Mathlib.Tactic.Ring
import Mathlib.Tactic.Linarith
import Mathlib.Algebra.BigOperators.Group.List.Basic
import Mathlib.Algebra.Order.BigOperators.Group.List

/-! Helper lemmas: arithmetic on signed integer types. -/

namespace Edsp.IntSamples

open Edsp.Spec

theorem two_pow {w : Nat} (hw : 0 < w) : (2 : Int) ^ w = 2 * 2 ^ (w - 1) := by
  conv_lhs => rw [show w = w - 1 + 1 by omega]
  rw [pow_succ]; ring

theorem fits_iff {w : Nat} {x : Int} : fits w x = true ↔ Fits w x := by
  simp [fits, Fits]

theorem wrap_fits {w : Nat} (hw : 0 < w) (x : Int) : Fits w (wrap w x) := by
  have h := two_pow hw
  have hp : (0 : Int) < 2 ^ (w - 1) := by positivity
  have h1 := Int.emod_nonneg (x + 2 ^ (w - 1)) (show (2 : Int) ^ w ≠ 0 by positivity)
  have h2 := Int.emod_lt_of_pos (x + 2 ^ (w - 1)) (show (0 : Int) < 2 ^ w by positivity)
  unfold wrap Fits
  constructor <;> linarith

theorem wrap_dvd (w : Nat) (x : Int) : (2 : Int) ^ w ∣ wrap w x - x := by
  have h := Int.emod_add_mul_ediv (x + 2 ^ (w - 1)) (2 ^ w)
  refine ⟨-((x + 2 ^ (w - 1)) / 2 ^ w), ?_⟩
  unfold wrap
  linarith

theorem fits_unique {w : Nat} (hw : 0 < w) {x y : Int} (hx : Fits w x) (hy : Fits w y)
    (h : (2 : Int) ^ w ∣ x - y) : x = y := by
  have h2 := two_pow hw
  unfold Fits at hx hy
  have : x - y = 0 := Int.eq_zero_of_abs_lt_dvd h (by rw [abs_lt]; constructor <;> linarith)
  linarith

theorem wrap_eq {w : Nat} (hw : 0 < w) {x y : Int} (hy : Fits w y) (h : (2 : Int) ^ w ∣ y - x) :
    wrap w x = y := by
  refine fits_unique hw (wrap_fits hw x) hy ?_
  have := dvd_sub (wrap_dvd w x) h
  rwa [show wrap w x - x - (y - x) = wrap w x - y by ring] at this

theorem wrap_self {w : Nat} (hw : 0 < w) {x : Int} (hx : Fits w x) : wrap w x = x :=
  wrap_eq hw hx (by simp)

theorem wrap_congr {w : Nat} (hw : 0 < w) {x y : Int} (h : (2 : Int) ^ w ∣ x - y) : wrap w x = wrap w y := by
  refine wrap_eq hw (wrap_fits hw y) ?_
  have := dvd_sub (wrap_dvd w y) h
  rwa [show wrap w y - y - (x - y) = wrap w y - x by ring] at this

theorem wrap_wrap_add {w : Nat} (hw : 0 < w) (x y : Int) : wrap w (wrap w x + y) = wrap w (x + y) := by
  apply wrap_congr hw
  rw [show wrap w x + y - (x + y) = wrap w x - x by ring]
  exact wrap_dvd w x

theorem fits_mono {v w : Nat} (h : v ≤ w) {x : Int} (hx : Fits v x) : Fits w x := by
  have : (2 : Int) ^ (v - 1) ≤ 2 ^ (w - 1) := pow_le_pow_right₀ (by norm_num) (by omega)
  exact ⟨by have := hx.1; linarith, lt_of_lt_of_le hx.2 this⟩

theorem op_ok {w : Nat} {x : Int} (h : Fits (max w 32) x) : op w x = .ok x := by
  unfold op; rw [if_pos (fits_iff.mpr h)]

theorem op_err {w : Nat} {x : Int} (h : ¬ Fits (max w 32) x) : op w x = .error .overflow := by
  unfold op; rw [if_neg (fun hh => h (fits_iff.mp hh))]

/-- Values of a narrow type: sums of two fit in `int`. -/
theorem fits_add {w : Nat} (hw : w < 32) (h0 : 0 < w) {x y : Int} (hx : Fits w x) (hy : Fits w y) :
    Fits (max w 32) (x + y) := by
  have h2 := two_pow h0
  have : (2 : Int) ^ w ≤ 2 ^ 31 := pow_le_pow_right₀ (by norm_num) (by omega)
  rw [show max w 32 = 32 by omega]
  unfold Fits at *
  norm_num at *
  constructor <;> linarith

theorem fits_sub {w : Nat} (hw : w < 32) (h0 : 0 < w) {x y : Int} (hx : Fits w x) (hy : Fits w y) :
    Fits (max w 32) (x - y) := by
  have h2 := two_pow h0
  have : (2 : Int) ^ w ≤ 2 ^ 31 := pow_le_pow_right₀ (by norm_num) (by omega)
  rw [show max w 32 = 32 by omega]
  unfold Fits at *
  norm_num at *
  constructor <;> linarith

theorem tdiv_eq_cut (a : Int) {n : Nat} (_hn : 0 < n) : Int.tdiv a n = cut ((a : ℚ) / n) := by
  have key : ∀ b : Int, 0 ≤ b → Int.tdiv b n = ⌊(b : ℚ) / n⌋ := by
    intro b hb
    rw [Rat.floor_intCast_div_natCast, Int.tdiv_eq_ediv_of_nonneg hb]
  unfold cut
  rcases le_or_gt 0 a with h | h
  · rw [if_pos (by have : (0 : ℚ) ≤ a := by exact_mod_cast h
                   positivity), key a h]
  · have ha : (a : ℚ) < 0 := by exact_mod_cast h
    rw [if_neg (not_le.mpr (div_neg_of_neg_of_pos ha (by exact_mod_cast _hn)))]
    have := key (-a) (by omega)
    rw [Int.neg_tdiv] at this
    have e : ((-a : Int) : ℚ) / n = -((a : ℚ) / n) := by push_cast; ring
    rw [e, Int.floor_neg] at this
    omega

/-- A quotient of values of the type by a positive number stays in the type. -/
theorem tdiv_fits {w : Nat} {a : Int} (ha : Fits w a) {b : Int} (hb : 0 < b) : Fits w (Int.tdiv a b) := by
  have h : (Int.tdiv a b).natAbs ≤ a.natAbs := Int.natAbs_tdiv_le_natAbs a b
  unfold Fits at *
  rcases le_or_gt 0 a with h0 | h0
  · have := Int.tdiv_nonneg h0 hb.le
    constructor
    · have : (0 : Int) < 2 ^ (w - 1) := by positivity
      omega
    · omega
  · have : Int.tdiv a b ≤ 0 := by
      have := Int.tdiv_nonneg (show 0 ≤ -a by omega) hb.le
      rw [Int.neg_tdiv] at this; omega
    have : (0 : Int) < 2 ^ (w - 1) := by positivity
    constructor <;> omega

theorem accumulate_narrow {w : Nat} (hw : w < 32) (h0 : 0 < w) (l : List Int) (hl : ∀ x ∈ l, Fits w x) :
    ∀ a, Fits w a → accumulate w a l = .ok (wrap w (a + l.sum)) := by
  induction l with
  | nil => intro a ha; simp [accumulate, wrap_self h0 ha]
  | cons x xs ih =>
    intro a ha
    have hx := hl x (by simp)
    simp only [accumulate, op_ok (fits_add hw h0 ha hx), bind, Except.bind]
    rw [ih (fun y hy => hl y (by simp [hy])) _ (wrap_fits h0 _), wrap_wrap_add h0, List.sum_cons, add_assoc]

theorem accumulate_wide {w : Nat} (hw : 32 ≤ w) (l : List Int) :
    ∀ a, Fits w a → (∀ k, Fits w (a + (l.take k).sum)) → accumulate w a l = .ok (a + l.sum) := by
  induction l with
  | nil => intro a _ _; simp [accumulate]
  | cons x xs ih =>
    intro a _ hk
    have h1 : Fits w (a + x) := by simpa using hk 1
    simp only [accumulate, op_ok (fits_mono (le_max_left w 32) h1), bind, Except.bind, wrap_self (by omega) h1]
    rw [ih (a + x) h1 (fun k => by simpa [add_assoc] using hk (k + 1)), List.sum_cons, add_assoc]

theorem accumulate_overflow {w : Nat} (hw : 32 ≤ w) (l : List Int) :
    ∀ a, (∃ k, ¬ Fits w (a + (l.take k).sum)) → Fits w a → accumulate w a l = .error .overflow := by
  induction l with
  | nil => rintro a ⟨k, hk⟩ ha; simp at hk; exact absurd ha hk
  | cons x xs ih =>
    rintro a ⟨k, hk⟩ ha
    by_cases h1 : Fits w (a + x)
    · simp only [accumulate, op_ok (fits_mono (le_max_left w 32) h1), bind, Except.bind, wrap_self (by omega) h1]
      refine ih (a + x) ⟨k - 1, ?_⟩ h1
      cases k with
      | zero => simp at hk; exact absurd ha hk
      | succ k => simpa [add_assoc] using hk
    · simp only [accumulate, bind, Except.bind]
      rw [op_err (by rwa [max_eq_left hw])]

theorem square_fits {w : Nat} (hw : w ≤ 16) {x : Int} (hx : Fits w x) : 0 ≤ x * x ∧ x * x ≤ 2 ^ 30 := by
  have h := fits_mono hw hx
  unfold Fits at h
  norm_num at h ⊢
  constructor <;> nlinarith

theorem sum_square_fits {w : Nat} (hw : w ≤ 16) {a x : Int} (ha : Fits w a) (hx : Fits w x) :
    Fits (max w 32) (x * x) ∧ Fits (max w 32) (a + x * x) := by
  obtain ⟨h1, h2⟩ := square_fits hw hx
  have h := fits_mono hw ha
  rw [show max w 32 = 32 by omega]
  unfold Fits at *
  norm_num at *
  constructor <;> constructor <;> linarith

theorem innerSelf_narrow {w : Nat} (hw : w ≤ 16) (h0 : 0 < w) (l : List Int) (hl : ∀ x ∈ l, Fits w x) :
    ∀ a, Fits w a → innerSelf w a l = .ok (wrap w (a + sumSquares l)) := by
  induction l with
  | nil => intro a ha; simp [innerSelf, sumSquares, wrap_self h0 ha]
  | cons x xs ih =>
    intro a ha
    obtain ⟨h1, h2⟩ := sum_square_fits hw ha (hl x (by simp))
    simp only [innerSelf, op_ok h1, op_ok h2, bind, Except.bind]
    rw [ih (fun y hy => hl y (by simp [hy])) _ (wrap_fits h0 _), wrap_wrap_add h0]
    simp [sumSquares, add_assoc]

theorem sumSquares_nonneg (l : List Int) : 0 ≤ sumSquares l := by
  apply List.sum_nonneg
  intro y hy
  obtain ⟨z, _, rfl⟩ := List.mem_map.mp hy
  exact mul_self_nonneg z

theorem innerSelf_wide {w : Nat} (hw : 32 ≤ w) (l : List Int) :
    ∀ a, 0 ≤ a → Fits w a → innerSelf w a l
      = if Fits w (a + sumSquares l) then .ok (a + sumSquares l) else .error .overflow := by
  induction l with
  | nil => intro a _ ha; simp [innerSelf, sumSquares, ha]
  | cons x xs ih =>
    intro a h0 ha
    have hs := sumSquares_nonneg xs
    have hx := mul_self_nonneg x
    have e : a + sumSquares (x :: xs) = a + x * x + sumSquares xs := by simp [sumSquares, add_assoc]
    have hp : (0 : Int) < 2 ^ (w - 1) := by positivity
    rw [e]
    by_cases h2 : Fits w (a + x * x)
    · have h1 : Fits w (x * x) := ⟨by linarith, by have := h2.2; linarith⟩
      simp only [innerSelf, op_ok (fits_mono (le_max_left w 32) h1), op_ok (fits_mono (le_max_left w 32) h2), bind,
        Except.bind, wrap_self (by omega) h2]
      exact ih _ (by linarith) h2
    · rw [if_neg (fun h => h2 ⟨by linarith, by have := h.2; linarith⟩)]
      by_cases h1 : Fits w (x * x)
      · simp only [innerSelf, op_ok (fits_mono (le_max_left w 32) h1), bind, Except.bind]
        rw [op_err (by rwa [max_eq_left hw])]
      · simp only [innerSelf, bind, Except.bind]
        rw [op_err (by rwa [max_eq_left hw])]

theorem abs_fits_wide {w : Nat} {x : Int} (hx : Fits w x) (hne : x ≠ lowest w) : Fits w |x| := by
  unfold Fits lowest at *
  have : (0 : Int) < 2 ^ (w - 1) := by positivity
  have h1 : -2 ^ (w - 1) < x := lt_of_le_of_ne hx.1 (Ne.symm hne)
  exact ⟨by have := abs_nonneg x; linarith, by rw [abs_lt]; exact ⟨h1, hx.2⟩⟩

theorem abs_fits_narrow {w : Nat} (hw : w < 32) {x : Int} (hx : Fits w x) : Fits (max w 32) |x| := by
  have h := fits_mono (show w ≤ 31 by omega) hx
  rw [show max w 32 = 32 by omega]
  unfold Fits at *
  norm_num at *
  constructor
  · have := abs_nonneg x; linarith
  · rw [abs_lt]; constructor <;> linarith

theorem lowest_abs {w : Nat} : |lowest w| = 2 ^ (w - 1) := by
  unfold lowest; rw [abs_neg, abs_of_pos (by positivity)]

theorem lowest_not {w : Nat} : ¬ Fits w (2 ^ (w - 1)) := fun h => lt_irrefl _ h.2

theorem wrap_lowest {w : Nat} (hw : 0 < w) : wrap w (2 ^ (w - 1)) = lowest w := by
  refine wrap_eq hw ⟨le_rfl, ?_⟩ ⟨-1, ?_⟩
  · unfold lowest
    have : (0 : Int) < 2 ^ (w - 1) := by positivity
    linarith
  · rw [two_pow hw]; unfold lowest; ring

theorem maxAbsLoop_ok {w : Nat} (l : List Int) :
    ∀ b, (∀ x ∈ b :: l, Fits (max w 32) |x|) →
      ∃ m ∈ b :: l, maxAbsLoop w b l = .ok m ∧ ∀ x ∈ b :: l, |x| ≤ |m| := by
  induction l with
  | nil => intro b _; exact ⟨b, by simp, rfl, by simp⟩
  | cons y ys ih =>
    intro b hb
    simp only [maxAbsLoop, absI, op_ok (hb b (by simp)), op_ok (hb y (by simp)), bind, Except.bind]
    obtain ⟨m, h1, h2, h3⟩ := ih (if |b| < |y| then y else b) (by
      intro x hx
      rcases List.mem_cons.mp hx with rfl | hx
      · split
        · exact hb y (by simp)
        · exact hb b (by simp)
      · exact hb x (by simp [hx]))
    refine ⟨m, ?_, h2, ?_⟩
    · rcases List.mem_cons.mp h1 with rfl | h1
      · split <;> simp
      · simp [h1]
    · have hm := h3 _ List.mem_cons_self
      intro x hx
      rcases List.mem_cons.mp hx with rfl | hx
      · split at hm
        · exact (le_of_lt ‹_›).trans hm
        · exact hm
      · rcases List.mem_cons.mp hx with rfl | hx
        · split at hm
          · exact hm
          · exact (not_lt.mp ‹_›).trans hm
        · exact h3 x (by simp [hx])

theorem maxAbsLoop_lowest {w : Nat} (hw : 32 ≤ w) (l : List Int) :
    ∀ b, lowest w ∈ b :: l →
      maxAbsLoop w b l = .error .overflow ∨ maxAbsLoop w b l = .ok (lowest w) := by
  have hne : op w |lowest w| = .error .overflow := by
    apply op_err; rw [max_eq_left hw, lowest_abs]; exact lowest_not
  have herr : ∀ x : Int, absI w x = .ok |x| ∨ absI w x = .error .overflow := by
    intro x
    unfold absI op
    split
    · exact Or.inl rfl
    · exact Or.inr rfl
  induction l with
  | nil => intro b hb; simp at hb; right; rw [hb]; rfl
  | cons y ys ih =>
    intro b hb
    left
    simp only [maxAbsLoop]
    rcases herr b with h1 | h1
    · rcases herr y with h2 | h2
      · simp only [h1, h2, bind, Except.bind]
        have hb1 : b ≠ lowest w := by
          rintro rfl; unfold absI at h1; rw [hne] at h1; cases h1
        have hy1 : y ≠ lowest w := by
          rintro rfl; unfold absI at h2; rw [hne] at h2; cases h2
        have hm : lowest w ∈ ys := by
          rcases List.mem_cons.mp hb with h | h
          · exact absurd h.symm hb1
          · rcases List.mem_cons.mp h with h | h
            · exact absurd h.symm hy1
            · exact h
        rcases ih (if |b| < |y| then y else b) (by simp [hm]) with h | h
        · exact h
        · exfalso
          clear ih
          revert h
          generalize hc : (if |b| < |y| then y else b) = c
          have hcne : c ≠ lowest w := by rw [← hc]; split <;> assumption
          clear hc h1 h2 hb
          induction ys generalizing c with
          | nil => simp at hm
          | cons z zs ihz =>
            intro h
            simp only [maxAbsLoop] at h
            rcases herr c with e1 | e1
            · rcases herr z with e2 | e2
              · simp only [e1, e2, bind, Except.bind] at h
                have hz1 : z ≠ lowest w := by
                  rintro rfl; unfold absI at e2; rw [hne] at e2; cases e2
                have hmz : lowest w ∈ zs := by
                  rcases List.mem_cons.mp hm with h | h
                  · exact absurd h.symm hz1
                  · exact h
                exact ihz hmz _ (by split <;> assumption) h
              · simp only [e1, e2, bind, Except.bind] at h; cases h
            · simp only [e1, bind, Except.bind] at h; cases h
      · simp only [h1, h2, bind, Except.bind]
    · simp only [h1, bind, Except.bind]

theorem mapM_ok {α β : Type} {f : α → Except Fault β} {g : α → β} (l : List α) (h : ∀ x ∈ l, f x = .ok (g x)) :
    l.mapM f = .ok (l.map g) := by
  induction l with
  | nil => rfl
  | cons x xs ih =>
    rw [List.mapM_cons, h x (by simp), ih fun y hy => h y (by simp [hy])]; rfl

theorem mapM_exists {α β : Type} {f : α → Except Fault β} {P : α → β → Prop} (l : List α)
    (h : ∀ x ∈ l, ∃ y, f x = .ok y ∧ P x y) : ∃ ys, l.mapM f = .ok ys ∧ List.Forall₂ P l ys := by
  induction l with
  | nil => exact ⟨[], rfl, .nil⟩
  | cons x xs ih =>
    obtain ⟨y, h1, h2⟩ := h x (by simp)
    obtain ⟨ys, h3, h4⟩ := ih fun z hz => h z (by simp [hz])
    refine ⟨y :: ys, ?_, .cons h2 h4⟩
    rw [List.mapM_cons, h1, h3]; rfl

theorem mapM_error {α β : Type} {f : α → Except Fault β} {e : Fault} (l : List α)
    (h : ∀ x ∈ l, f x = .error e ∨ ∃ y, f x = .ok y) {x : α} (hx : x ∈ l) (he : f x = .error e) :
    l.mapM f = .error e := by
  induction l with
  | nil => simp at hx
  | cons z zs ih =>
    rw [List.mapM_cons]
    rcases h z (by simp) with h1 | ⟨y, h1⟩
    · rw [h1]; rfl
    · rcases List.mem_cons.mp hx with rfl | hx
      · rw [he] at h1; cases h1
      · rw [h1, ih (fun y hy => h y (by simp [hy])) hx]; rfl

/-- The integer part of a real number, as computed by the conversion. -/
noncomputable def part (r : ℝ) : Int := if 0 ≤ r then ⌊r⌋ else ⌈r⌉

theorem part_isCut (r : ℝ) : IsCut r (part r) := by
  unfold IsCut part
  split
  · next h =>
    have h1 := Int.floor_le r
    have h2 := Int.lt_floor_add_one r
    have h3 : (0 : ℝ) ≤ ⌊r⌋ := by exact_mod_cast Int.floor_nonneg.mpr h
    rw [abs_of_nonneg h, abs_of_nonneg h3, abs_lt]
    exact ⟨⟨by linarith, by linarith⟩, h1⟩
  · next h =>
    push Not at h
    have h1 := Int.le_ceil r
    have h2 := Int.ceil_lt_add_one r
    have h3 : (⌈r⌉ : ℝ) ≤ 0 := by exact_mod_cast Int.ceil_le.mpr (by simpa using h.le)
    rw [abs_of_neg h, abs_of_nonpos h3, abs_lt]
    exact ⟨⟨by linarith, by linarith⟩, by linarith⟩

theorem isCut_unique {r : ℝ} {i j : Int} (hi : IsCut r i) (hj : IsCut r j) : i = j := by
  have key : ∀ i : Int, IsCut r i → i = part r := by
    intro i hi
    obtain ⟨h1, h2⟩ := hi
    rw [abs_lt] at h1
    unfold part
    split
    · next h =>
      rw [abs_of_nonneg h, abs_le] at h2
      exact (Int.floor_eq_iff.mpr ⟨h2.2, by linarith⟩).symm
    · next h =>
      push Not at h
      rw [abs_of_neg h, abs_le] at h2
      exact (Int.ceil_eq_iff.mpr ⟨by linarith, by linarith⟩).symm
  rw [key i hi, key j hj]

theorem ofReal_ok {w : Nat} {r : ℝ} {i : Int} (h : IsCut r i) (hf : Fits w i) : ofReal w r = .ok i := by
  have e : i = part r := isCut_unique h (part_isCut r)
  unfold ofReal
  rw [show (if 0 ≤ r then ⌊r⌋ else ⌈r⌉ : Int) = i from e.symm, if_pos (fits_iff.mpr hf)]

theorem ofReal_err {w : Nat} {r : ℝ} {i : Int} (h : IsCut r i) (hf : ¬ Fits w i) : ofReal w r = .error .domain := by
  have e : i = part r := isCut_unique h (part_isCut r)
  unfold ofReal
  rw [show (if 0 ≤ r then ⌊r⌋ else ⌈r⌉ : Int) = i from e.symm, if_neg (fun hh => hf (fits_iff.mp hh))]

theorem ofReal_cases (w : Nat) (r : ℝ) : ofReal w r = .error .domain ∨ ∃ i, ofReal w r = .ok i := by
  by_cases h : Fits w (part r)
  · exact Or.inr ⟨_, ofReal_ok (part_isCut r) h⟩
  · exact Or.inl (ofReal_err (part_isCut r) h)

theorem isCut_int (i : Int) : IsCut (i : ℝ) i := by simp [IsCut]

theorem differences_narrow {w : Nat} (hw : w < 32) (h0 : 0 < w) (l : List Int) :
    ∀ v, (∀ x ∈ v :: l, Fits w x) →
      differences w v l = .ok ((neighbours (fun x y => y - x) (v :: l)).map (wrap w)) := by
  induction l with
  | nil => intro v _; rfl
  | cons x xs ih =>
    intro v hv
    simp only [differences, op_ok (fits_sub hw h0 (hv x (by simp)) (hv v (by simp))),
      ih x (fun y hy => hv y (by simp [hy])), bind, Except.bind, pure, Except.pure, neighbours, List.map_cons]

theorem differences_wide {w : Nat} (hw : 32 ≤ w) (l : List Int) :
    ∀ v, differences w v l = if ∀ d ∈ neighbours (fun x y => y - x) (v :: l), Fits w d then
      .ok (neighbours (fun x y => y - x) (v :: l)) else .error .overflow := by
  induction l with
  | nil => intro v; simp [differences, neighbours]
  | cons x xs ih =>
    intro v
    by_cases h1 : Fits w (x - v)
    · simp only [differences, op_ok (fits_mono (le_max_left w 32) h1), wrap_self (by omega) h1, bind, Except.bind, pure,
        Except.pure, ih x]
      by_cases h2 : ∀ d ∈ neighbours (fun x y => y - x) (x :: xs), Fits w d
      · rw [if_pos h2, if_pos (by simpa [neighbours] using ⟨h1, h2⟩)]; rfl
      · rw [if_neg h2, if_neg (fun h => h2 fun d hd => h d (by simp [neighbours, hd]))]
    · simp only [differences, bind, Except.bind]
      rw [op_err (by rwa [max_eq_left hw]), if_neg (fun h => h1 (h _ (by simp [neighbours])))]

theorem crossings_count {w : Nat} (h0 : 1 < w) (l : List Int) :
    ∀ a v : Int, 0 ≤ a → a + l.length < 2 ^ (w - 1) →
      crossings w a v l = .ok (a + (neighbours (fun x y => if sign y ≠ sign x then 1 else 0) (v :: l)).sum) := by
  induction l with
  | nil => intro a v _ _; simp [crossings, neighbours]
  | cons x xs ih =>
    intro a v ha hlt
    rw [List.length_cons] at hlt
    push_cast at hlt
    have hb : (0 : Int) ≤ (if sign x ≠ sign v then 1 else 0) ∧ (if sign x ≠ sign v then 1 else 0 : Int) ≤ 1 := by
      split <;> simp
    have hp : (0 : Int) < 2 ^ (w - 1) := by positivity
    have hf : Fits w (a + if sign x ≠ sign v then 1 else 0) := ⟨by omega, by omega⟩
    simp only [crossings, op_ok (fits_mono (le_max_left w 32) hf), wrap_self (by omega) hf, bind, Except.bind]
    rw [ih _ x (by omega) (by omega)]
    simp only [neighbours, List.sum_cons, add_assoc]

end Edsp.IntSamples
