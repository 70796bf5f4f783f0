import Verif.Model.RoundedFeatures
import Verif.Lemmas.Agree
import Verif.Lemmas.Features

/-!
# Lemmas on features in floating point arithmetic
-/

namespace Edsp.Rounded

open Finset Edsp.Spec Edsp.FloatL Edsp.Feature Edsp.AgreeL

theorem quotient_some (p : ℕ) {a b : ℝ} (hb : b ≠ 0) : quotient p a b = some (rnd p (a / b)) := by
  unfold quotient
  rw [if_neg hb]

theorem nat_exact {p n : ℕ} (hp : 1 ≤ p) (h : n ≤ 2 ^ p) : rnd p (n : ℝ) = n := by
  have : (n : ℤ) ≤ 2 ^ p := by exact_mod_cast h
  exact_mod_cast rnd_int hp (m := (n : ℤ)) (by simpa using this)

theorem zip_sum (h : ℝ → ℝ → ℝ) : ∀ xs fs : List ℝ, xs.length = fs.length →
    (List.zipWith h xs fs).sum = ∑ i ∈ range xs.length, h (at0 xs i) (at0 fs i)
  | [], [], _ => by simp
  | x :: xs, [], e => by simp at e
  | [], f :: fs, e => by simp at e
  | x :: xs, f :: fs, e => by
    rw [List.zipWith_cons_cons, List.sum_cons, zip_sum h xs fs (by simpa using e), List.length_cons, sum_range_succ',
      add_comm]
    simp only [at0_cons_succ, at0_cons_zero]

theorem zip_mem {h : ℝ → ℝ → ℝ} {P : ℝ → Prop} : ∀ xs fs : List ℝ, (∀ x ∈ xs, ∀ f ∈ fs, P (h x f)) →
    ∀ y ∈ List.zipWith h xs fs, P y
  | [], _, _, y, hy => by simp at hy
  | x :: xs, [], _, y, hy => by simp at hy
  | x :: xs, f :: fs, H, y, hy => by
    rw [List.zipWith_cons_cons, List.mem_cons] at hy
    rcases hy with rfl | hy
    · exact H x List.mem_cons_self f List.mem_cons_self
    · exact zip_mem xs fs (fun a ha b hb => H a (List.mem_cons_of_mem _ ha) b (List.mem_cons_of_mem _ hb)) y hy

theorem weightedLoop_eq (p : ℕ) : ∀ (xs fs : List ℝ) (s : ℝ × ℝ), xs.length = fs.length →
    weightedLoop p s xs fs =
      (accumulate p s.1 (List.zipWith (fun x f => rnd p (f * x)) xs fs), accumulate p s.2 xs)
  | [], [], s, _ => by simp [weightedLoop, accumulate]
  | x :: xs, [], s, e => by simp at e
  | [], f :: fs, s, e => by simp at e
  | x :: xs, f :: fs, s, e => by
    rw [weightedLoop, weightedLoop_eq p xs fs _ (by simpa using e)]
    rfl

theorem weightedSpreadLoop_eq (p : ℕ) (c : ℝ) : ∀ (xs fs : List ℝ) (s : ℝ × ℝ), xs.length = fs.length →
    weightedSpreadLoop p c s xs fs =
      (accumulate p s.1 (List.zipWith (fun x f => rnd p (rnd p (rnd p (f - c) * rnd p (f - c)) * x)) xs fs),
        accumulate p s.2 xs)
  | [], [], s, _ => by simp [weightedSpreadLoop, accumulate]
  | x :: xs, [], s, e => by simp at e
  | [], f :: fs, s, e => by simp at e
  | x :: xs, f :: fs, s, e => by
    rw [weightedSpreadLoop, weightedSpreadLoop_eq p c xs fs _ (by simpa using e)]
    rfl

/-- The axis 0, 1, ... -/
noncomputable def indices (i n : ℕ) : List ℝ := (List.range n).map fun k => ((i + k : ℕ) : ℝ)

theorem indices_length (i n : ℕ) : (indices i n).length = n := by simp [indices]

theorem indices_succ (i n : ℕ) : indices i (n + 1) = (i : ℝ) :: indices (i + 1) n := by
  unfold indices
  rw [List.range_succ_eq_map, List.map_cons, List.map_map]
  congr 1
  refine List.map_congr_left fun k _ => ?_
  simp only [Function.comp, Nat.succ_eq_add_one]
  congr 1
  omega

theorem at0_indices {i n k : ℕ} (h : k < n) : at0 (indices i n) k = ((i + k : ℕ) : ℝ) := by
  unfold at0 indices
  rw [List.getD, List.getElem?_map, List.getElem?_range h]
  rfl

theorem mem_indices {i n : ℕ} {v : ℝ} (h : v ∈ indices i n) : 0 ≤ v := by
  obtain ⟨k, _, rfl⟩ := List.mem_map.mp h
  positivity

theorem centroidLoop_eq {p : ℕ} (hp : 1 ≤ p) : ∀ (xs : List ℝ) (i : ℕ) (s : ℝ × ℝ), i + xs.length ≤ 2 ^ p + 1 →
    centroidLoop p (i : ℝ) s xs = weightedLoop p s xs (indices i xs.length)
  | [], i, s, _ => by simp [centroidLoop, weightedLoop]
  | x :: xs, i, s, h => by
    rw [List.length_cons, indices_succ, centroidLoop, weightedLoop]
    rw [List.length_cons] at h
    cases xs with
    | nil => simp [centroidLoop, weightedLoop]
    | cons y ys =>
      rw [List.length_cons] at h
      have e : rnd p ((i : ℝ) + 1) = ((i + 1 : ℕ) : ℝ) := by
        rw [← nat_exact hp (n := i + 1) (by omega)]
        push_cast
        rfl
      rw [e]
      exact centroidLoop_eq hp (y :: ys) (i + 1) _ (by rw [List.length_cons]; omega)

theorem spreadLoop_eq {p : ℕ} (hp : 1 ≤ p) (c : ℝ) : ∀ (xs : List ℝ) (i : ℕ) (s : ℝ × ℝ), i + xs.length ≤ 2 ^ p + 1 →
    spreadLoop p c (i : ℝ) s xs = weightedSpreadLoop p c s xs (indices i xs.length)
  | [], i, s, _ => by simp [spreadLoop, weightedSpreadLoop]
  | x :: xs, i, s, h => by
    rw [List.length_cons, indices_succ, spreadLoop, weightedSpreadLoop]
    rw [List.length_cons] at h
    cases xs with
    | nil => simp [spreadLoop, weightedSpreadLoop]
    | cons y ys =>
      rw [List.length_cons] at h
      have e : rnd p ((i : ℝ) + 1) = ((i + 1 : ℕ) : ℝ) := by
        rw [← nat_exact hp (n := i + 1) (by omega)]
        push_cast
        rfl
      rw [e]
      exact spreadLoop_eq hp c (y :: ys) (i + 1) _ (by rw [List.length_cons]; omega)

theorem centroid_eq {p : ℕ} (hp : 1 ≤ p) {xs : List ℝ} (h : xs.length ≤ 2 ^ p + 1) :
    centroid p xs = weightedCentroid p xs (indices 0 xs.length) := by
  have := centroidLoop_eq hp xs 0 (0, 0) (by omega)
  rw [Nat.cast_zero] at this
  unfold centroid weightedCentroid
  rw [this]

theorem spread_eq {p : ℕ} (hp : 1 ≤ p) {xs : List ℝ} (h : xs.length ≤ 2 ^ p + 1) :
    spread p xs = weightedSpread p xs (indices 0 xs.length) := by
  unfold spread weightedSpread
  rw [centroid_eq hp h]
  congr 1
  funext c
  have := spreadLoop_eq hp c xs 0 (0, 0) (by omega)
  rw [Nat.cast_zero] at this
  rw [this]

theorem gravity_indices (xs : List ℝ) : gravity (at0 (indices 0 xs.length)) xs = gravity (fun i => (i : ℝ)) xs := by
  unfold gravity
  congr 1
  refine sum_congr rfl fun i hi => ?_
  rw [at0_indices (mem_range.mp hi), Nat.zero_add]

theorem scatter_indices (xs : List ℝ) : scatter (at0 (indices 0 xs.length)) xs = scatter (fun i => (i : ℝ)) xs := by
  unfold scatter
  rw [gravity_indices]
  congr 1
  refine sum_congr rfl fun i hi => ?_
  rw [at0_indices (mem_range.mp hi), Nat.zero_add]

theorem total_pos' {x : List ℝ} (h0 : ∀ v ∈ x, 0 ≤ v) (h1 : ∃ v ∈ x, 0 < v) : 0 < total x := by
  obtain ⟨v, hv, hp⟩ := h1
  obtain ⟨i, hi, e⟩ := mem_at0 hv
  have := single_le_sum (f := fun i => at0 x i) (s := range x.length)
    (fun j hj => h0 _ (at0_mem (mem_range.mp hj))) (mem_range.mpr hi)
  unfold total
  linarith

/-- A running sum with a positive exact value is positive. -/
theorem agree_pos {p k : ℕ} {a b : ℝ} (h : Agree p k a b) (hb : 0 < b) : 0 < a := by
  have := h.2
  by_contra hn
  have h2 := mul_nonpos_of_nonpos_of_nonneg (not_lt.mp hn) (pow_pos' p k).le
  change b ≤ a * g p ^ k at this
  linarith

theorem total_agree {p : ℕ} (hp : 1 ≤ p) {xs : List ℝ} (h0 : ∀ v ∈ xs, 0 ≤ v) :
    Agree p xs.length (accumulate p 0 xs) (total xs) := by
  have := accumulate_agree hp xs 0 le_rfl h0
  rwa [zero_add, ← total_eq] at this

/-- The scatter about a point is that about the centre and the squared distance. -/
theorem scatter_about {f : ℕ → ℝ} {xs : List ℝ} (hs : total xs ≠ 0) (c : ℝ) :
    (∑ i ∈ range xs.length, (f i - c) ^ 2 * at0 xs i) / total xs = scatter f xs + (c - gravity f xs) ^ 2 := by
  have hg : ∑ i ∈ range xs.length, f i * at0 xs i = gravity f xs * total xs := by
    unfold gravity
    field_simp
  unfold scatter
  generalize gravity f xs = m at *
  rw [eq_comm, div_add' _ _ _ hs]
  congr 1
  have e : ∀ i, (f i - c) ^ 2 * at0 xs i = (f i - m) ^ 2 * at0 xs i + (2 * (m - c)) * (f i * at0 xs i) +
      (c ^ 2 - m ^ 2) * at0 xs i := fun i => by ring
  simp only [e, sum_add_distrib, ← mul_sum, hg]
  unfold total
  ring

/-- A running sum of non-negative numbers never falls below one of them. -/
theorem accumulate_above {p : ℕ} (hp : 1 ≤ p) (xs : List ℝ) : ∀ a : ℝ, 0 ≤ a → IsFloat p a →
    (∀ x ∈ xs, 0 ≤ x ∧ IsFloat p x) → a ≤ accumulate p a xs ∧ ∀ x ∈ xs, x ≤ accumulate p a xs := by
  induction xs with
  | nil => intro a _ _ _; exact ⟨le_rfl, by simp⟩
  | cons x xs ih =>
    intro a ha hfa hx
    obtain ⟨hx0, hxf⟩ := hx x List.mem_cons_self
    have h1 : a ≤ rnd p (a + x) := by
      have := rnd_mono hp (show a ≤ a + x by linarith)
      rwa [rnd_float hfa] at this
    have h2 : x ≤ rnd p (a + x) := by
      have := rnd_mono hp (show x ≤ a + x by linarith)
      rwa [rnd_float hxf] at this
    obtain ⟨i1, i2⟩ := ih (rnd p (a + x)) (ha.trans h1) (isFloat_rnd hp _) fun y hy => hx y (List.mem_cons_of_mem _ hy)
    refine ⟨h1.trans i1, ?_⟩
    intro y hy
    rcases List.mem_cons.mp hy with rfl | hy
    · exact h2.trans i1
    · exact i2 y hy

end Edsp.Rounded
