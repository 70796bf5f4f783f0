import Verif.Model.MovingFilters
import Verif.Spec.Float

/-!
# `moving_average` and `moving_rms` in floating point arithmetic

The same functions as in `Verif.Model.MovingFilters`, every operation rounded to `p` bits (`float` and `double` evaluated
to their own precision, no fused operations).  The samples are numbers with `p` bits.
-/

namespace Edsp.Rounded

open Edsp.Spec

/-- moving_average_filter.hpp 123-128. -/
noncomputable def averageTick (p : ℕ) (m : MovingAverage ℝ) (x : ℝ) : Except Fault (MovingAverage ℝ × ℝ) := do
  let f ← m.window.front
  let acc := rnd p (rnd p (m.accumulated - f) + x)
  let w ← m.window.pushBack x
  return ({ window := w, accumulated := acc }, rnd p (acc / rnd p (w.size : ℝ)))

/-- moving_average_filter.hpp 113-115 (`filter`): one tick after the other. -/
noncomputable def averageRun (p : ℕ) (m : MovingAverage ℝ) : List ℝ → Except Fault (MovingAverage ℝ × List ℝ)
  | [] => .ok (m, [])
  | x :: xs => do
    let (m', y) ← averageTick p m x
    let (m'', ys) ← averageRun p m' xs
    return (m'', y :: ys)

/-- `std::sqrt`: NaN (`none`) for negative numbers, otherwise the rounded root. -/
noncomputable def sqrt (p : ℕ) (x : ℝ) : Option ℝ := if x < 0 then none else some (rnd p (Real.sqrt x))

/-- moving_rms_filter.hpp 124-130. -/
noncomputable def rmsTick (p : ℕ) (m : MovingRms) (x : ℝ) : Except Fault (MovingRms × Option ℝ) := do
  let sqr := rnd p (x * x)
  let f ← m.window.front
  let acc := rnd p (rnd p (m.accumulated - f) + sqr)
  let w ← m.window.pushBack sqr
  return ({ window := w, accumulated := acc }, sqrt p (rnd p (acc / rnd p (w.size : ℝ))))

/-- moving_rms_filter.hpp 114-116. -/
noncomputable def rmsRun (p : ℕ) (m : MovingRms) : List ℝ → Except Fault (MovingRms × List (Option ℝ))
  | [] => .ok (m, [])
  | x :: xs => do
    let (m', y) ← rmsTick p m x
    let (m'', ys) ← rmsRun p m' xs
    return (m'', y :: ys)

end Edsp.Rounded
