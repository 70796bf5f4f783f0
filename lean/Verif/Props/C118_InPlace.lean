import Verif.Lemmas.InPlace
import Verif.Spec.Features
import Verif.Model.Sequences

/-!
# C118: input and output in the same array
-/

namespace Edsp.C118
open Edsp Edsp.Spec Edsp.Mem Edsp.InPlace Edsp.InPlaceL

/-- **C118 (any object).**  An object called on the samples of a range, storing each result: if the destination does not
begin after the begin of the source and inside it, the results stored, the object afterwards and the failure, if a call
fails, are those of the samples that were in the source before; nothing else is changed. -/
theorem C118_stream_partial {σ α : Type} (f : σ → α → Except Fault (σ × α)) (s : σ) {m : List α} {first n d : ℕ}
    (hp : first + n ≤ m.length) (hd : d + n ≤ m.length) (ho : d ≤ first ∨ first + n ≤ d) :
    match stream f s (seg m first (first + n)) with
    | .ok (s', ys) => ∃ m', runN f n s m first d = .ok (s', m') ∧ Wrote m m' d ys
    | .error e => runN f n s m first d = .error e := by
  cases h : stream f s (seg m first (first + n)) with
  | error e => exact runN_error f n s m first d e hp hd ho h
  | ok r => exact runN_ok f n s r.1 m first d r.2 hp hd ho h

/-- **C118 (filters and envelopes).**  The filter functions of `biquad` and `biquad_cascade` and `apply` of the ADSR
envelope may overwrite their input: they store the response to the samples that were there, and nothing else changes. -/
theorem C118_filters_partial {m : List ℝ} {first n d : ℕ} (hp : first + n ≤ m.length) (hd : d + n ≤ m.length)
    (ho : d ≤ first ∨ first + n ≤ d) :
    (∀ F : Biquad ℝ, ∃ m', biquadFilter F m first (first + n) d = .ok ((F.filter (seg m first (first + n))).1, m') ∧
      Wrote m m' d (F.filter (seg m first (first + n))).2) ∧
    (∀ C : Cascade ℝ, ∃ m', cascadeFilter C m first (first + n) d = .ok ((C.filter (seg m first (first + n))).1, m') ∧
      Wrote m m' d (C.filter (seg m first (first + n))).2) ∧
    (∀ S : Env.Adsr.State, ∃ m', adsrApply S m first (first + n) d =
        .ok ((Env.Adsr.apply S (seg m first (first + n))).2, m') ∧
      Wrote m m' d (Env.Adsr.apply S (seg m first (first + n))).1) ∧
    (∀ (A A' : MovingAverage ℝ) ys, A.run ((seg m first (first + n)).map .tick) = .ok (A', ys) →
      ∃ m', averageFilter A m first (first + n) d = .ok (A', m') ∧ Wrote m m' d ys) ∧
    (∀ (A A' : MovingRms) ys, A.run ((seg m first (first + n)).map .tick) = .ok (A', ys) →
      ∃ m', rmsFilter A m first (first + n) d = .ok (A', m') ∧ Wrote m m' d ys) ∧
    ∀ tiny (S S' : Env.Ar.State) ys,
      stream (fun S x => .ok ((Env.Ar.call tiny S x).2, (Env.Ar.call tiny S x).1)) S (seg m first (first + n)) = .ok (S', ys) →
      ∃ m', arApply tiny S m first (first + n) d = .ok (S', m') ∧ Wrote m m' d ys := by
  have e : distance first (first + n) = .ok n := by
    rw [distance_ok (Nat.le_add_right _ _), Nat.add_sub_cancel_left]
  refine ⟨fun F => ?_, fun C => ?_, fun S => ?_, fun A A' ys h => ?_, fun A A' ys h => ?_, fun tiny S S' ys h => ?_⟩
  · obtain ⟨m', h1, h2⟩ := runN_ok _ n F _ m first d _ hp hd ho (biquad_stream _ F)
    exact ⟨m', by simp only [biquadFilter, e, bind, Except.bind]; exact h1, h2⟩
  · obtain ⟨m', h1, h2⟩ := runN_ok _ n C _ m first d _ hp hd ho (cascade_stream _ C)
    exact ⟨m', by simp only [cascadeFilter, e, bind, Except.bind]; exact h1, h2⟩
  · obtain ⟨m', h1, h2⟩ := runN_ok _ n S _ m first d _ hp hd ho (adsr_stream _ S)
    exact ⟨m', by simp only [adsrApply, e, bind, Except.bind]; exact h1, h2⟩
  · obtain ⟨m', h1, h2⟩ := runN_ok _ n A _ m first d _ hp hd ho ((average_stream _ A).trans h)
    exact ⟨m', by simp only [averageFilter, e, bind, Except.bind]; exact h1, h2⟩
  · obtain ⟨m', h1, h2⟩ := runN_ok _ n A _ m first d _ hp hd ho ((rms_stream _ A).trans h)
    exact ⟨m', by simp only [rmsFilter, e, bind, Except.bind]; exact h1, h2⟩
  · obtain ⟨m', h1, h2⟩ := runN_ok _ n S _ m first d _ hp hd ho h
    exact ⟨m', by simp only [arApply, e, bind, Except.bind]; exact h1, h2⟩

/-- Two samples in the middle of an array, filtered in place. -/
example : ∃ m', biquadFilter ({ b2 := 0, b1 := 1, b0 := 2, a2 := 0, a1 := 0, a0 := 1, w0 := 0, w1 := 0 } : Biquad ℝ)
    ([7, 1, 2, 9] : List ℝ) 1 3 1 = Except.ok (({ b2 := 0, b1 := 1, b0 := 2, a2 := 0, a1 := 0, a0 := 1, w0 := 2, w1 := 0 } : Biquad ℝ), m') ∧
      m' = [7, 2, 5, 9] := by
  refine ⟨_, ?_, rfl⟩
  simp only [biquadFilter, distance, bind, Except.bind]
  norm_num [runN, Mem.read, write, Biquad.tick, bind, Except.bind]

/-- **C118 (output that begins inside the input), violated.**  If the destination begins `k` cells after the source, a
function that works sample by sample uses its own results as samples from the `k`-th on: cell `i` of the result is the
function applied `i / k + 1` times to sample `i mod k`. -/
theorem C118_overlap_violates {α : Type} (f : α → α) {m m' : List α} {first n k : ℕ} (hk : 0 < k)
    (h : transform f m first (first + n) (first + k) = .ok m') (i : ℕ) (hi : i < n) :
    m'[first + k + i]? = (m[first + i % k]?).map (f^[i / k + 1]) := by
  have e : distance first (first + n) = .ok n := by
    rw [distance_ok (Nat.le_add_right _ _), Nat.add_sub_cancel_left]
  simp only [transform, e, bind, Except.bind] at h
  exact transformN_echo f hk n m m' first h i hi

/-- Doubling three samples into the cells one further on: not 2, 4, 6 but 2, 4, 8. -/
example : Seq.amplifier ([1, 2, 3, 0] : List ℚ) 0 3 1 2 = .ok [1, 2, 4, 8] := by
  simp only [Seq.amplifier, transform, distance, bind, Except.bind]
  norm_num [transformN, Mem.read, write, bind, Except.bind]

/-- **C118 (difference functions in place), violated.**  `amdf` and `asdf` with the destination equal to the source do not
depend on the first two samples: those are overwritten before they are used. -/
theorem C118_difference_violates {m m' : List ℝ} {first N : ℕ} (hN : 2 ≤ N) (hm : first + N ≤ m.length)
    (hl : m'.length = m.length) (h : ∀ j, j ≠ first → j ≠ first + 1 → m'[j]? = m[j]?) :
    Feature.amdf m' first (first + N) first = Feature.amdf m first (first + N) first ∧
    Feature.asdf m' first (first + N) first = Feature.asdf m first (first + N) first := by
  have e : distance first (first + N) = .ok N := by
    rw [distance_ok (Nat.le_add_right _ _), Nat.add_sub_cancel_left]
  have r : ∀ x : List ℝ, x.length = m.length → ∃ v, Mem.read x first = .ok v := fun x hx =>
    ⟨_, read_ok (List.getElem?_eq_getElem (by omega : first < x.length))⟩
  obtain ⟨v, hv⟩ := r m rfl
  obtain ⟨v', hv'⟩ := r m' hl
  have s : (m'.set first 0).set (first + 1) 0 = (m.set first 0).set (first + 1) 0 := by
    apply List.ext_getElem?
    intro j
    simp only [List.getElem?_set, List.length_set, hl]
    by_cases h1 : first + 1 = j
    · simp only [h1, if_true]
    · by_cases h2 : first = j
      · simp only [h2, if_true]
      · simp only [h1, h2, if_false]
        exact h j (Ne.symm h2) (Ne.symm h1)
  constructor
  · simp only [Feature.amdf, e, bind, Except.bind, hv, hv']
    rw [outer_start (by simp) hN (by omega), outer_start (by simp) hN hm, s]
  · simp only [Feature.asdf, e, bind, Except.bind, hv, hv']
    rw [outer_start (by simp) hN (by omega), outer_start (by simp) hN hm, s]

/-- **C118 (difference functions in place), violated: wrong values.**  On the signal x₀, x₁, 0, …, 0 of any length from 2
on, in place, both functions store zeros only; for x₀ ≠ x₁ the difference functions are positive at lag 1. -/
theorem C118_difference_zero_violates (x0 x1 : ℝ) (hx : x0 ≠ x1) (n : ℕ) :
    Feature.amdf (x0 :: x1 :: List.replicate n 0) 0 (n + 2) 0 = .ok (List.replicate (n + 2) 0) ∧
    Feature.asdf (x0 :: x1 :: List.replicate n 0) 0 (n + 2) 0 = .ok (List.replicate (n + 2) 0) ∧
    0 < magnitudeDifference (x0 :: x1 :: List.replicate n 0) 1 ∧
    0 < squareDifference (x0 :: x1 :: List.replicate n 0) 1 := by
  have hz : ∀ k < n + 2, (List.replicate (n + 2) (0 : ℝ))[0 + k]? = some 0 := fun k hk => by
    rw [Nat.zero_add, List.getElem?_replicate_of_lt hk]
  have h : ∀ j, j ≠ 0 → j ≠ 0 + 1 → (x0 :: x1 :: List.replicate n 0)[j]? = (List.replicate (n + 2) 0)[j]? := by
    intro j h0 h1
    obtain ⟨j, rfl⟩ : ∃ i, j = i + 2 := ⟨j - 2, by omega⟩
    rw [List.replicate_succ, List.replicate_succ]
    rfl
  have key := C118_difference_violates (m := List.replicate (n + 2) 0) (m' := x0 :: x1 :: List.replicate n 0) (first := 0)
    (N := n + 2) (by omega) (by simp) (by simp) h
  rw [Nat.zero_add] at key
  have e : distance 0 (n + 2) = .ok (n + 2) := by rw [distance_ok (Nat.zero_le _), Nat.sub_zero]
  have hr : Mem.read (List.replicate (n + 2) (0 : ℝ)) 0 = .ok 0 := read_ok (by simp)
  refine ⟨?_, ?_, ?_, ?_⟩
  · rw [key.1]
    simp only [Feature.amdf, e, bind, Except.bind, hr]
    exact outer_zeros (by simp) (by omega) (n + 2) 0 _ (by omega) hz
  · rw [key.2]
    simp only [Feature.asdf, e, bind, Except.bind, hr]
    exact outer_zeros (by simp) (by omega) (n + 2) 0 _ (by omega) hz
  · refine div_pos (Finset.sum_pos' (fun j _ => abs_nonneg _) ⟨0, by simp, ?_⟩) (by simp; positivity)
    simpa [at0] using sub_ne_zero.mpr hx
  · refine div_pos (Finset.sum_pos' (fun j _ => sq_nonneg _) ⟨0, by simp, ?_⟩) (by simp; positivity)
    have := sub_ne_zero.mpr hx
    simp only [at0, List.getD_cons_zero, Nat.zero_add, List.getD_cons_succ]
    positivity

/-- Two samples, 1 and 0: the right values are 0 and 1/2. -/
example : (1 : ℝ) ≠ 0 ∧ magnitudeDifference [1, 0] 1 = 1 / 2 := by
  refine ⟨one_ne_zero, ?_⟩
  simp [magnitudeDifference, at0]

end Edsp.C118
