import Verif.Model.Features
import Verif.Spec.Features
import Verif.Lemmas.Memory
import Verif.Lemmas.Statistics
import Mathlib.Algebra.BigOperators.Field
import Mathlib.Algebra.Order.BigOperators.Group.Finset
import Mathlib.Tactic.Linarith
import Mathlib.Tactic.Positivity

/-!
# Feature loops as sums
-/

namespace Edsp.Feature

open Finset Edsp.Mem Edsp.Spec Edsp.Stat Edsp.StatL

theorem at0_cons_zero (x : ℝ) (xs : List ℝ) : at0 (x :: xs) 0 = x := rfl

theorem at0_cons_succ (x : ℝ) (xs : List ℝ) (i : ℕ) : at0 (x :: xs) (i + 1) = at0 xs i := by
  simp [at0]

theorem at0_mem {x : List ℝ} {i : ℕ} (h : i < x.length) : at0 x i ∈ x := by
  unfold at0
  rw [List.getD, List.getElem?_eq_getElem h]
  exact List.getElem_mem h

theorem mem_at0 {x : List ℝ} {v : ℝ} (h : v ∈ x) : ∃ i < x.length, at0 x i = v := by
  obtain ⟨i, hi, rfl⟩ := List.getElem_of_mem h
  exact ⟨i, hi, by unfold at0; rw [List.getD, List.getElem?_eq_getElem hi]; rfl⟩

theorem at0_map (f : ℝ → ℝ) {x : List ℝ} {i : ℕ} (h : i < x.length) : at0 (x.map f) i = f (at0 x i) := by
  unfold at0
  rw [List.getD, List.getD, List.getElem?_map, List.getElem?_eq_getElem h]
  rfl

theorem sum_eq (f : ℝ → ℝ) : ∀ x : List ℝ, (x.map f).sum = ∑ i ∈ range x.length, f (at0 x i)
  | [] => by simp
  | x :: xs => by
    rw [List.map_cons, List.sum_cons, sum_eq f xs, List.length_cons, sum_range_succ']
    simp only [at0_cons_succ, at0_cons_zero]
    ring

theorem total_eq (x : List ℝ) : total x = x.sum := by
  have := sum_eq id x
  rw [List.map_id] at this
  rw [this]
  rfl

theorem loopI_pair (g h : ℝ → ℝ → ℝ) : ∀ (l : List ℝ) (i : ℝ) (s : ℝ × ℝ),
    loopI (fun (s : ℝ × ℝ) i x => (s.1 + g i x, s.2 + h i x)) i s l =
      (s.1 + ∑ k ∈ range l.length, g (i + k) (at0 l k), s.2 + ∑ k ∈ range l.length, h (i + k) (at0 l k))
  | [], i, s => by simp [loopI]
  | x :: xs, i, s => by
    rw [loopI, loopI_pair g h xs, List.length_cons, sum_range_succ', sum_range_succ']
    simp only [at0_cons_succ, at0_cons_zero]
    have e : ∀ k : ℕ, i + 1 + (k : ℝ) = i + ((k + 1 : ℕ) : ℝ) := fun k => by push_cast; ring
    simp only [e, Nat.cast_zero, add_zero]
    congr 1 <;> ring

theorem loop2_sum (g : ℝ → ℝ → ℝ) : ∀ (x y : List ℝ) (s : ℝ), x.length = y.length →
    loop2 (fun s x y => s + g x y) s x y = s + ∑ k ∈ range x.length, g (at0 x k) (at0 y k)
  | [], _, s, _ => by simp [loop2]
  | x :: xs, [], s, h => by simp at h
  | x :: xs, y :: ys, s, h => by
    rw [loop2, loop2_sum g xs ys _ (by simpa using h), List.length_cons, sum_range_succ']
    simp only [at0_cons_succ, at0_cons_zero]
    ring

theorem loop2_fst {S T : Type} (f : S → ℝ → ℝ → S) (g : T → ℝ → ℝ → T) (p : S → T)
    (h : ∀ s x y, p (f s x y) = g (p s) x y) : ∀ (x y : List ℝ) (s : S),
    p (loop2 f s x y) = loop2 g (p s) x y
  | [], _, s => by simp [loop2]
  | x :: xs, [], s => by simp [loop2]
  | x :: xs, y :: ys, s => by rw [loop2, loop2, loop2_fst f g p h xs ys, h]

theorem ranges_ok {m : List ℝ} {a n b : ℕ} (h1 : a + n ≤ m.length) (h2 : b + n ≤ m.length) :
    ranges m a (a + n) b = .ok (seg m a (a + n), seg m b (b + n)) := by
  have e : (seg m a (a + n)).length = n := by rw [seg_length h1]; omega
  simp only [ranges, readRange_ok (Nat.le_add_right a n) h1, bind, Except.bind, e,
    readRange_ok (Nat.le_add_right b n) h2]
  rfl

theorem fsqrt_ok {x : ℝ} (h : 0 ≤ x) : fsqrt x = .ok (Real.sqrt x) := by
  unfold fsqrt; rw [if_neg (not_lt.mpr h)]

/-! ### Weighted means -/

section
variable {n : ℕ} {f w : ℕ → ℝ}

theorem mean_between {lo hi : ℝ} (hw : ∀ i, i < n → 0 ≤ w i) (hs : 0 < ∑ i ∈ range n, w i)
    (hf : ∀ i, i < n → lo ≤ f i ∧ f i ≤ hi) :
    lo ≤ (∑ i ∈ range n, f i * w i) / ∑ i ∈ range n, w i ∧
      (∑ i ∈ range n, f i * w i) / ∑ i ∈ range n, w i ≤ hi := by
  constructor
  · rw [le_div_iff₀ hs, mul_sum]
    exact sum_le_sum fun i hi => mul_le_mul_of_nonneg_right (hf i (mem_range.mp hi)).1 (hw i (mem_range.mp hi))
  · rw [div_le_iff₀ hs, mul_sum]
    exact sum_le_sum fun i hi => mul_le_mul_of_nonneg_right (hf i (mem_range.mp hi)).2 (hw i (mem_range.mp hi))

theorem deviation_le {lo hi : ℝ} (hw : ∀ i, i < n → 0 ≤ w i) (hs : 0 < ∑ i ∈ range n, w i)
    (hf : ∀ i, i < n → lo ≤ f i ∧ f i ≤ hi) :
    (∑ i ∈ range n, (f i - (∑ i ∈ range n, f i * w i) / ∑ i ∈ range n, w i) ^ 2 * w i) / ∑ i ∈ range n, w i ≤
      ((hi - lo) / 2) ^ 2 := by
  have hc : (∑ i ∈ range n, f i * w i) = (∑ i ∈ range n, f i * w i) / (∑ i ∈ range n, w i) * ∑ i ∈ range n, w i := by
    field_simp
  revert hc
  generalize (∑ i ∈ range n, f i * w i) / ∑ i ∈ range n, w i = c
  intro hc
  rw [div_le_iff₀ hs]
  have e1 : ∑ i ∈ range n, (f i - c) ^ 2 * w i =
      ∑ i ∈ range n, (f i ^ 2 - (hi + lo) * f i + hi * lo) * w i +
        (c ^ 2 - hi * lo) * ∑ i ∈ range n, w i + (hi + lo - 2 * c) * ∑ i ∈ range n, f i * w i := by
    rw [mul_sum, mul_sum, ← sum_add_distrib, ← sum_add_distrib]
    exact sum_congr rfl fun i _ => by ring
  have e2 : ∑ i ∈ range n, (f i ^ 2 - (hi + lo) * f i + hi * lo) * w i ≤ 0 := by
    refine sum_nonpos fun i hi' => ?_
    have hi' := mem_range.mp hi'
    refine mul_nonpos_of_nonpos_of_nonneg ?_ (hw i hi')
    nlinarith [mul_nonneg (sub_nonneg.mpr (hf i hi').1) (sub_nonneg.mpr (hf i hi').2)]
  rw [e1, hc]
  nlinarith [mul_nonneg hs.le (sq_nonneg (c - (hi + lo) / 2))]

end

end Edsp.Feature
