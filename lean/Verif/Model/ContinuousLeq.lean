import Verif.Model.Features
import Verif.Model.MovingFilters

/-!
# Model of `edsp::feature::continuous_leq` (feature/temporal/leq.hpp 55-87)
-/

namespace Edsp.Feature

/-- leq.hpp 63: the moving average over `number_frames`. -/
noncomputable def continuousNew (frames : Nat) : Except Fault (MovingAverage ℝ) := MovingAverage.new frames

/-- `extract` (leq.hpp 79-82). -/
noncomputable def continuousExtract (dbg : Bool) (m : MovingAverage ℝ) (frame : List ℝ) :
    Except Fault (MovingAverage ℝ × ℝ) := do
  m.tick (← leq dbg frame)

/-- Consecutive frames. -/
noncomputable def continuousRun (dbg : Bool) (m : MovingAverage ℝ) :
    List (List ℝ) → Except Fault (MovingAverage ℝ × List ℝ)
  | [] => .ok (m, [])
  | f :: fs => do
    let (m', y) ← continuousExtract dbg m f
    let (m'', ys) ← continuousRun dbg m' fs
    return (m'', y :: ys)

end Edsp.Feature
