import Verif.Model.Biquad
import Verif.Model.MovingFilters
import Verif.Spec.Ieee

/-!
# The filters on numbers that may be infinite or not a number

The same functions as in `Verif.Model.Biquad` and `Verif.Model.MovingFilters`, in the arithmetic of Spec/Ieee.lean;
`R` rounds.
-/

namespace Edsp.Extended

open Edsp.Spec Edsp.Spec.Ext

/-- biquad.hpp 326-331: the new filter state and the output sample. -/
noncomputable def biquadTick (R : ℝ → Ext) (f : Biquad Ext) (value : Ext) : Biquad Ext × Ext :=
  let out := add R (mul R f.b0 value) f.w0
  let w0' := add R (sub R (mul R f.b1 value) (mul R f.a1 out)) f.w1
  let w1' := sub R (mul R f.b2 value) (mul R f.a2 out)
  ({ f with w0 := w0', w1 := w1' }, out)

/-- biquad.hpp 271-274. -/
def biquadReset (f : Biquad Ext) : Biquad Ext := { f with w0 := fin 0, w1 := fin 0 }

/-- biquad.hpp 319-323 (`filter`): the state after the call and the samples written. -/
noncomputable def biquadFilter (R : ℝ → Ext) (f : Biquad Ext) : List Ext → Biquad Ext × List Ext
  | [] => (f, [])
  | x :: xs =>
    let (f', y) := biquadTick R f x
    let (f'', ys) := biquadFilter R f' xs
    (f'', y :: ys)

/-- biquad_cascade.hpp 209-214, 218-222, of the active stages: each stage filters what the one before returns. -/
noncomputable def cascadeFilter (R : ℝ → Ext) : List (Biquad Ext) → List Ext → List Ext
  | [], xs => xs
  | f :: fs, xs => cascadeFilter R fs (biquadFilter R f xs).2

/-- moving_average_filter.hpp 98-99. -/
def averageNew (n : Nat) : Except Fault (MovingAverage Ext) := do
  let w ← RingBuffer.newFilled (fin 0) n (fin 0)
  return { window := w, accumulated := fin 0 }

/-- moving_average_filter.hpp 123-128. -/
noncomputable def averageTick (R : ℝ → Ext) (m : MovingAverage Ext) (x : Ext) :
    Except Fault (MovingAverage Ext × Ext) := do
  let f ← m.window.front
  let acc := add R (sub R m.accumulated f) x
  let w ← m.window.pushBack x
  return ({ window := w, accumulated := acc }, div R acc (R (w.size : ℝ)))

/-- A history of calls; moving_average_filter.hpp 107-109 (`reset`), 113-115 (`filter`), 118-120 (`resize`). -/
noncomputable def averageRun (R : ℝ → Ext) (m : MovingAverage Ext) :
    List (MovingOp Ext) → Except Fault (MovingAverage Ext × List Ext)
  | [] => .ok (m, [])
  | .tick x :: ops => do
    let (m', y) ← averageTick R m x
    let (m'', ys) ← averageRun R m' ops
    return (m'', y :: ys)
  | .reset :: ops => averageRun R { m with window := m.window.clear } ops
  | .resize n :: ops => averageRun R { m with window := m.window.resize (fin 0) n } ops

/-- moving_rms_filter.hpp 124-130; the window and the sum of the class are those of the moving average. -/
noncomputable def rmsTick (R : ℝ → Ext) (m : MovingAverage Ext) (x : Ext) :
    Except Fault (MovingAverage Ext × Ext) := do
  let sqr := mul R x x
  let f ← m.window.front
  let acc := add R (sub R m.accumulated f) sqr
  let w ← m.window.pushBack sqr
  return ({ window := w, accumulated := acc }, sqrt R (div R acc (R (w.size : ℝ))))

/-- A history of calls; moving_rms_filter.hpp 108-110 (`reset`), 114-116 (`filter`), 119-121 (`resize`). -/
noncomputable def rmsRun (R : ℝ → Ext) (m : MovingAverage Ext) :
    List (MovingOp Ext) → Except Fault (MovingAverage Ext × List Ext)
  | [] => .ok (m, [])
  | .tick x :: ops => do
    let (m', y) ← rmsTick R m x
    let (m'', ys) ← rmsRun R m' ops
    return (m'', y :: ys)
  | .reset :: ops => rmsRun R { m with window := m.window.clear } ops
  | .resize n :: ops => rmsRun R { m with window := m.window.resize (fin 0) n } ops

end Edsp.Extended
