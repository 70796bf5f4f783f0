import Verif.Lemmas.Extremum
import Verif.Props.C23_Search

/-! # C34: max, min, maxabs, minabs, peak, peakabs -/

namespace Edsp.Props

open Edsp Edsp.Spec

section
variable {K : Type} [LinearOrder K]

/-- **C34, max and min.** On every non-empty range they return an attained extreme value; on an empty range
the end iterator is dereferenced. -/
theorem C34_max_min {l : List K} (hl : l ≠ []) :
    (∃ v, Seq.max l = .ok v ∧ v ∈ l ∧ ∀ x ∈ l, x ≤ v) ∧
      (∃ v, Seq.min l = .ok v ∧ v ∈ l ∧ ∀ x ∈ l, v ≤ x) :=
  ⟨ExtremumL.max_ok hl, ExtremumL.min_ok hl⟩

theorem C34_empty [AddCommGroup K] : Seq.max ([] : List K) = .error .outOfBounds ∧ Seq.min ([] : List K) = .error .outOfBounds ∧
    Seq.maxabs ([] : List K) = .error .outOfBounds ∧ Seq.minabs ([] : List K) = .error .outOfBounds ∧
    Seq.peak ([] : List K) = .error .outOfBounds ∧ Seq.peakabs ([] : List K) = .error .outOfBounds :=
  ⟨rfl, rfl, rfl, rfl, rfl, rfl⟩

example : ∃ v, Seq.max ([3, 8, -9] : List ℤ) = .ok v ∧ v ∈ ([3, 8, -9] : List ℤ) ∧
    ∀ x ∈ ([3, 8, -9] : List ℤ), x ≤ v := (C34_max_min (by simp)).1

/-- **C34, peak.** The index and value of the first largest element. -/
theorem C34_peak {l : List K} (hl : l ≠ []) :
    ∃ i v, Seq.peak l = .ok (i, v) ∧ l[i]? = some v ∧ (∀ x ∈ l, x ≤ v) ∧
      ∀ j x, j < i → l[j]? = some x → x < v := by
  obtain ⟨i, v, h1, h2, h3, h4⟩ :=
    ExtremumL.maxElement_ok (fun x : K => x) Seq.less (fun _ _ => rfl) hl
  exact ⟨i, v, h1, h2, h3, h4⟩

example : ∃ i v, Seq.peak ([3, 8, -9, 8] : List ℤ) = .ok (i, v) ∧
    ([3, 8, -9, 8] : List ℤ)[i]? = some v :=
  have ⟨i, v, h1, h2, _⟩ := C34_peak (l := ([3, 8, -9, 8] : List ℤ)) (by simp)
  ⟨i, v, h1, h2⟩

variable [AddCommGroup K]

/-- **C34, maxabs and minabs.** -/
theorem C34_maxabs_minabs {l : List K} (hl : l ≠ []) :
    (∃ v, Seq.maxabs l = .ok v ∧ (∃ x ∈ l, v = |x|) ∧ ∀ x ∈ l, |x| ≤ v) ∧
      (∃ v, Seq.minabs l = .ok v ∧ (∃ x ∈ l, v = |x|) ∧ ∀ x ∈ l, v ≤ |x|) :=
  ⟨ExtremumL.maxabs_ok hl, ExtremumL.minabs_ok hl⟩

example : ∃ v, Seq.maxabs ([3, 8, -9] : List ℤ) = .ok v ∧ (∃ x ∈ ([3, 8, -9] : List ℤ), v = |x|) ∧
    ∀ x ∈ ([3, 8, -9] : List ℤ), |x| ≤ v := (C34_maxabs_minabs (by simp)).1

/-- **C34, peakabs.** The index and the (signed) value of the first element of largest absolute value. -/
theorem C34_peakabs {l : List K} (hl : l ≠ []) :
    ∃ i v, Seq.peakabs l = .ok (i, v) ∧ l[i]? = some v ∧ (∀ x ∈ l, |x| ≤ |v|) ∧
      ∀ j x, j < i → l[j]? = some x → |x| < |v| := by
  obtain ⟨i, v, h1, h2, h3, h4⟩ :=
    ExtremumL.maxElement_ok (fun x : K => |x|) Seq.lessAbs (fun _ _ => rfl) hl
  exact ⟨i, v, h1, h2, h3, h4⟩

example : ∃ i v, Seq.peakabs ([3, 8, -9, 8] : List ℤ) = .ok (i, v) ∧
    ([3, 8, -9, 8] : List ℤ)[i]? = some v :=
  have ⟨i, v, h1, h2, _⟩ := C34_peakabs (l := ([3, 8, -9, 8] : List ℤ)) (by simp)
  ⟨i, v, h1, h2⟩

omit [AddCommGroup K] in
/-- **C34, C interface of peak.** For every `int` size the C function returns the same index and value. -/
theorem C34_c_peak {l : List K} (hl : l ≠ []) (hsz : l.length < 2 ^ 31) :
    ∃ i v, Seq.peak l = .ok (i, v) ∧ Seq.cPeak l = .ok ((i : Int), v) := by
  obtain ⟨i, v, h1, h2, -⟩ := C34_peak hl
  refine ⟨i, v, h1, ?_⟩
  have hi : i < l.length := by
    by_contra hc
    rw [List.getElem?_eq_none (by omega)] at h2
    cases h2
  unfold Seq.cPeak
  simp only [bind, Except.bind, h1, pure, Except.pure]
  rw [toInt32_small (by omega) (by omega)]

example : ∃ i v, Seq.peak ([3, 8] : List ℤ) = .ok (i, v) ∧ Seq.cPeak ([3, 8] : List ℤ) = .ok ((i : Int), v) :=
  C34_c_peak (by simp) (by simp)

/-- The part of the claim about the C function `peak_abs` that holds: it agrees with `peakabs` on data
without negative values.  Missing: data with negative values, see `C34_c_peak_abs_violates`. -/
theorem C34_c_peak_abs_partial [IsOrderedAddMonoid K] {l : List K} (hl : l ≠ [])
    (hsz : l.length < 2 ^ 31) (hn : ∀ x ∈ l, 0 ≤ x) :
    ∃ i v, Seq.peakabs l = .ok (i, v) ∧ Seq.cPeakAbs l = .ok ((i : Int), v) := by
  obtain ⟨i, v, h1, h2, h3, h4⟩ := C34_peak hl
  obtain ⟨j, w, g1, g2, g3, g4⟩ := C34_peakabs hl
  have hA : ExtremumL.IsArgmax (fun x : K => x) l j w := by
    refine ⟨g2, ?_, ?_⟩
    · intro x hx
      have := g3 x hx
      rwa [abs_of_nonneg (hn x hx), abs_of_nonneg (hn w (List.mem_of_getElem? g2))] at this
    · intro k x hk hx
      have := g4 k x hk hx
      rwa [abs_of_nonneg (hn x (List.mem_of_getElem? hx)), abs_of_nonneg (hn w (List.mem_of_getElem? g2))]
        at this
  obtain ⟨rfl, rfl⟩ := ExtremumL.argmax_unique (show ExtremumL.IsArgmax (fun x : K => x) l i v from ⟨h2, h3, h4⟩) hA
  refine ⟨i, v, g1, ?_⟩
  have hi : i < l.length := by
    by_contra hc
    rw [List.getElem?_eq_none (by omega)] at h2
    cases h2
  unfold Seq.cPeakAbs
  simp only [bind, Except.bind, h1, pure, Except.pure]
  rw [toInt32_small (by omega) (by omega)]

example : ∃ i v, Seq.peakabs ([3, 8] : List ℤ) = .ok (i, v) ∧
    Seq.cPeakAbs ([3, 8] : List ℤ) = .ok ((i : Int), v) :=
  C34_c_peak_abs_partial (by simp) (by simp) (by simp)

end

/-- **C34 is violated by the C function `peak_abs`**: it ignores negative peaks. -/
theorem C34_c_peak_abs_violates : Seq.peakabs ([1, -5] : List ℤ) = .ok (1, -5) ∧
    Seq.cPeakAbs ([1, -5] : List ℤ) = .ok (0, 1) := by
  constructor
  · norm_num [Seq.peakabs, Seq.maxElement, Seq.maxLoop, Seq.lessAbs]
  · have h : Seq.peak ([1, -5] : List ℤ) = .ok (0, 1) := by
      norm_num [Seq.peak, Seq.maxElement, Seq.maxLoop, Seq.less]
    unfold Seq.cPeakAbs
    simp only [bind, Except.bind, h, pure, Except.pure]
    rw [toInt32_small (by norm_num) (by norm_num)]
    rfl

end Edsp.Props
