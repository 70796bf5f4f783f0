import Verif.Model.RingBuffer
import Mathlib.Algebra.Field.Defs
import Mathlib.Analysis.Real.Sqrt

/-!
# Model of `edsp::filter::moving_average`, `moving_rms`, `moving_median`

include/edsp/filter/moving_average_filter.hpp, moving_rms_filter.hpp, moving_median_filter.hpp.
Samples in a field (exact arithmetic); the window is the ring buffer of
`Verif.Model.RingBuffer`.  Moving from a number leaves it unchanged (`id`).
-/

namespace Edsp

/-- The calls on a moving filter. -/
inductive MovingOp (K : Type) where
  | tick (x : K)
  | reset
  | resize (n : Nat)

/-- moving_average_filter.hpp 94-95. -/
structure MovingAverage (K : Type) where
  window : RingBuffer K
  accumulated : K

namespace MovingAverage

variable {K : Type} [Field K]

/-- moving_average_filter.hpp 98-99: window of `N` zeros, running sum 0. -/
def new (N : Nat) : Except Fault (MovingAverage K) := do
  let w ← RingBuffer.newFilled 0 N 0
  return { window := w, accumulated := 0 }

/-- moving_average_filter.hpp 102-104. -/
def size (m : MovingAverage K) : Nat := m.window.capacity

/-- moving_average_filter.hpp 107-109. -/
def reset (m : MovingAverage K) : MovingAverage K := { m with window := m.window.clear }

/-- moving_average_filter.hpp 118-120. -/
def resize (m : MovingAverage K) (n : Nat) : MovingAverage K :=
  { m with window := m.window.resize 0 n }

/-- moving_average_filter.hpp 123-128 (`window_.size()` is positive after the push). -/
def tick (m : MovingAverage K) (x : K) : Except Fault (MovingAverage K × K) := do
  let f ← m.window.front
  let acc := m.accumulated - f + x
  let w ← m.window.pushBack x
  return ({ window := w, accumulated := acc }, acc / (w.size : K))

/-- A history of calls; the values returned by the ticks (`filter`, 113-115, is a sequence of
ticks on `*this` by reference). -/
def run (m : MovingAverage K) : List (MovingOp K) → Except Fault (MovingAverage K × List K)
  | [] => .ok (m, [])
  | .tick x :: ops => do
    let (m', y) ← m.tick x
    let (m'', ys) ← run m' ops
    return (m'', y :: ys)
  | .reset :: ops => run m.reset ops
  | .resize n :: ops => run (m.resize n) ops

end MovingAverage

/-- moving_rms_filter.hpp 95-96. -/
structure MovingRms where
  window : RingBuffer ℝ
  accumulated : ℝ

namespace MovingRms

/-- moving_rms_filter.hpp 99-100. -/
def new (N : Nat) : Except Fault MovingRms := do
  let w ← RingBuffer.newFilled 0 N 0
  return { window := w, accumulated := 0 }

/-- moving_rms_filter.hpp 108-110. -/
def reset (m : MovingRms) : MovingRms := { m with window := m.window.clear }

/-- moving_rms_filter.hpp 119-121. -/
def resize (m : MovingRms) (n : Nat) : MovingRms := { m with window := m.window.resize 0 n }

/-- moving_rms_filter.hpp 124-130.  The square root of a negative number is a fault
(`std::sqrt` would return NaN). -/
noncomputable def tick (m : MovingRms) (x : ℝ) : Except Fault (MovingRms × ℝ) := do
  let sqr := x * x
  let f ← m.window.front
  let acc := m.accumulated - f + sqr
  let w ← m.window.pushBack sqr
  if acc / (w.size : ℝ) < 0 then throw .domain
  return ({ window := w, accumulated := acc }, Real.sqrt (acc / (w.size : ℝ)))

/-- A history of calls. -/
noncomputable def run (m : MovingRms) : List (MovingOp ℝ) → Except Fault (MovingRms × List ℝ)
  | [] => .ok (m, [])
  | .tick x :: ops => do
    let (m', y) ← m.tick x
    let (m'', ys) ← run m' ops
    return (m'', y :: ys)
  | .reset :: ops => run m.reset ops
  | .resize n :: ops => run (m.resize n) ops

end MovingRms

/-- statistics/median.hpp 44-49: a stub. -/
def median {K : Type} [Zero K] (_xs : List K) : K := 0

/-- moving_median_filter.hpp 89-90 (`accumulated_` is never used). -/
structure MovingMedian (K : Type) where
  window : RingBuffer K

namespace MovingMedian

variable {K : Type} [Zero K]

/-- moving_median_filter.hpp 93-94. -/
def new (N : Nat) : Except Fault (MovingMedian K) := do
  let w ← RingBuffer.newFilled 0 N 0
  return { window := w }

/-- moving_median_filter.hpp 118-121. -/
def tick (m : MovingMedian K) (x : K) : Except Fault (MovingMedian K × K) := do
  let w ← m.window.pushBack x
  let l ← w.forward
  return ({ window := w }, median l)

end MovingMedian
end Edsp
