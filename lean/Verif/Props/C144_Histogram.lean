import Verif.Model.Histogram
import Mathlib.Tactic.NormNum
import Mathlib.Tactic.Linarith
import Mathlib.Algebra.BigOperators.Group.List.Basic

/-!
# C144: histograms
-/

namespace Edsp.C144

open Edsp.Histogram

/-- What the documentation promises of the pairs stored for the samples `xs`: as many as there are bins, the positions equally
spaced from the smallest to the largest sample, the numbers counting, for each bin, the samples from its position up to the next
one, divided by the number of samples (the last bin includes the largest sample). -/
def IsHistogram (bins : ℕ) (lo hi : ℝ) (xs : List ℝ) (out : List (ℝ × ℝ)) : Prop :=
  out.length = bins ∧ ∀ (i : ℕ) p, out[i]? = some p →
    p.1 = lo + i * ((hi - lo) / bins) ∧
    p.2 * xs.length = ((xs.filter fun x => decide (lo + i * ((hi - lo) / bins) ≤ x ∧
      (x < lo + (i + 1) * ((hi - lo) / bins) ∨ (i + 1 = bins ∧ x = hi)))).length : ℝ)

/-- The promise can be kept: two bins for the samples 0, 1, 2, 4. -/
example : IsHistogram 2 0 4 [0, 1, 2, 4] [(0, 1 / 2), (2, 1 / 2)] := by
  refine ⟨rfl, fun i p h => ?_⟩
  rcases i with _ | _ | i
  · simp only [List.getElem?_cons_zero, Option.some.injEq] at h
    subst h
    norm_num [List.filter]
  · simp only [zero_add, List.getElem?_cons_succ, List.getElem?_cons_zero, Option.some.injEq] at h
    subst h
    norm_num [List.filter]
  · simp at h

/-- **C144 is violated by every histogram**: `compute` stores nothing and counts nothing. Whatever the samples and the number
of bins, the destination still holds what it held, so that it is no histogram unless it already was one. -/
theorem C144_compute_violates (numBins cacheSize : ℕ) (xs : List ℝ) (dst : List (ℝ × ℝ)) :
    (compute (new numBins cacheSize) xs dst) = (new numBins cacheSize, dst) ∧
    ∀ (lo hi : ℝ), 0 < numBins → ∃ dst : List (ℝ × ℝ), dst.length = numBins ∧
      ¬ IsHistogram numBins lo hi xs (compute (new numBins cacheSize) xs dst).2 := by
  refine ⟨rfl, fun lo hi hn => ⟨List.replicate numBins (lo + 1, 0), List.length_replicate, fun h => ?_⟩⟩
  have h0 := (h.2 0 (lo + 1, 0) (by simp [compute, hn])).1
  simp at h0

/-- The destination of the example above, set to zeros, stays zeros. -/
example : (compute (new 2 4) [0, 1, 2, 4] [(0, 0), (0, 0)]).2 = [(0, 0), (0, 0)] := rfl

end Edsp.C144
