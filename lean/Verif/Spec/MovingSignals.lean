import Verif.Model.MovingFilters

/-!
# Specification: a moving filter fed a signal
-/

namespace Edsp.Spec

/-- A new moving average of length `n`, fed the first `L` samples of the signal `x`, for every `L`, returns one value per
sample, and value number `k` is `y k` from number `start` on. -/
def AverageFrom (start n : ℕ) (x y : ℕ → ℝ) : Prop :=
  ∀ L, ∃ m m' ys, MovingAverage.new n = .ok m ∧ m.run ((List.range L).map fun k => .tick (x k)) = .ok (m', ys) ∧
    ys.length = L ∧ ∀ k, start ≤ k → k < L → ys[k]? = some (y k)

/-- The same for the moving root mean square. -/
def RmsFrom (start n : ℕ) (x y : ℕ → ℝ) : Prop :=
  ∀ L, ∃ m m' ys, MovingRms.new n = .ok m ∧ m.run ((List.range L).map fun k => .tick (x k)) = .ok (m', ys) ∧
    ys.length = L ∧ ∀ k, start ≤ k → k < L → ys[k]? = some (y k)

end Edsp.Spec
