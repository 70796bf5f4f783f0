import Verif.Model.IntSamples
import Verif.Model.MovingFilters
import Mathlib.Data.Nat.Sqrt

/-!
# `moving_average` and `moving_rms` on samples of a signed integer type

The functions of `Verif.Model.MovingFilters` with the integer arithmetic of `Verif.Model.IntSamples`.
-/

namespace Edsp.IntSamples

/-- moving_average_filter.hpp 94-95, `T` a signed integer type. -/
structure Moving where
  window : RingBuffer Int
  accumulated : Int

/-- moving_average_filter.hpp 98-99, moving_rms_filter.hpp 99-100. -/
def Moving.new (N : Nat) : Except Fault Moving := do
  let w ← RingBuffer.newFilled 0 N 0
  return ⟨w, 0⟩

/-- `accumulated_ -= front; accumulated_ += x` (moving_average_filter.hpp 124-125): each step converts back to the type. -/
def update (w : Nat) (acc f x : Int) : Except Fault Int := do
  let s ← op w (acc - f)
  let t ← op w (wrap w s + x)
  return wrap w t

/-- moving_average_filter.hpp 123-128. -/
def averageTick (w : Nat) (m : Moving) (x : Int) : Except Fault (Moving × Int) := do
  let f ← m.window.front
  let acc ← update w m.accumulated f x
  let win ← m.window.pushBack x
  let q ← quot w acc (wrap w win.size)
  return (⟨win, acc⟩, wrap w q)

/-- `std::sqrt` of an integer (a `double`), converted to the type; the root of a negative number is NaN, whose conversion
is undefined. -/
def sqrtI (w : Nat) (q : Int) : Except Fault Int :=
  if q < 0 then .error .domain
  else if fits w (Nat.sqrt q.toNat) then .ok (Nat.sqrt q.toNat) else .error .domain

/-- moving_rms_filter.hpp 124-130: `sqr` has the promoted type, the window stores it converted to `T`. -/
def rmsTick (w : Nat) (m : Moving) (x : Int) : Except Fault (Moving × Int) := do
  let sqr ← op w (x * x)
  let f ← m.window.front
  let acc ← update w m.accumulated f sqr
  let win ← m.window.pushBack (wrap w sqr)
  let q ← quot w acc (wrap w win.size)
  let y ← sqrtI w q
  return (⟨win, acc⟩, y)

/-- moving_average_filter.hpp 113-115, moving_rms_filter.hpp 114-116 (`filter`): one tick after the other. -/
def runTicks (tick : Moving → Int → Except Fault (Moving × Int)) (m : Moving) : List Int → Except Fault (Moving × List Int)
  | [] => .ok (m, [])
  | x :: xs => do
    let (m', y) ← tick m x
    let (m'', ys) ← runTicks tick m' xs
    return (m'', y :: ys)

end Edsp.IntSamples
