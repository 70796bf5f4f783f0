import Verif.Model.Fault
import Mathlib.Algebra.Order.Floor.Ring
import Mathlib.Data.Real.Basic
import Mathlib.Algebra.Order.Archimedean.Real.Basic

/-!
# The functions on samples of a signed integer type

The function templates of include/edsp/statistics, feature/temporal, algorithm and converter instantiated with iterators
over `std::int8_t`, `std::int16_t` or `std::int32_t` (`w` = 8, 16, 32 bits; `std::int64_t` where no floating point number
is involved).  Arithmetic is done in `int` or in the type itself if that is wider; a result that does not fit is undefined
behaviour (`Fault.overflow`).  A conversion to a narrower integer type wraps around; a conversion from a floating point
number drops the fraction and is undefined if the result does not fit (`Fault.domain`).  Floating point operations are
exact.
-/

namespace Edsp.IntSamples

/-- `x` is representable with `w` bits. -/
def fits (w : Nat) (x : Int) : Bool := decide (-2 ^ (w - 1) ≤ x) && decide (x < 2 ^ (w - 1))

/-- `static_cast<T>` of an integer. -/
def wrap (w : Nat) (x : Int) : Int := (x + 2 ^ (w - 1)) % 2 ^ w - 2 ^ (w - 1)

/-- An operation on operands of the type, with the exact result `x`: integral promotion. -/
def op (w : Nat) (x : Int) : Except Fault Int := if fits (max w 32) x then .ok x else .error .overflow

/-- A quotient of integers. -/
def quot (w : Nat) (a b : Int) : Except Fault Int := if b = 0 then .error .divByZero else op w (Int.tdiv a b)

/-- `static_cast<T>` of a floating point number. -/
noncomputable def ofReal (w : Nat) (r : ℝ) : Except Fault Int :=
  let i : Int := if 0 ≤ r then ⌊r⌋ else ⌈r⌉
  if fits w i then .ok i else .error .domain

/-- `std::accumulate(first, last, init)` with `init` of the type. -/
def accumulate (w : Nat) : Int → List Int → Except Fault Int
  | a, [] => .ok a
  | a, x :: xs => do
    let s ← op w (a + x)
    accumulate w (wrap w s) xs

/-- statistics/mean.hpp 43-48. -/
def mean (w : Nat) (l : List Int) : Except Fault Int := do
  let acc ← accumulate w 0 l
  let q ← quot w acc (wrap w l.length)
  return wrap w q

/-- `std::inner_product(first, last, first, init)`. -/
def innerSelf (w : Nat) : Int → List Int → Except Fault Int
  | a, [] => .ok a
  | a, x :: xs => do
    let p ← op w (x * x)
    let s ← op w (a + p)
    innerSelf w (wrap w s) xs

/-- feature/temporal/energy.hpp 45-49. -/
def energy (w : Nat) (l : List Int) : Except Fault Int := innerSelf w 0 l

/-- feature/temporal/power.hpp 43-48: the result has the promoted type. -/
def power (w : Nat) (l : List Int) : Except Fault Int := do
  let e ← energy w l
  quot w e (wrap w l.length)

/-- `std::abs` of a promoted value. -/
def absI (w : Nat) (x : Int) : Except Fault Int := op w |x|

/-- The loop of `std::max_element` with the comparison of max.hpp 52. -/
def maxAbsLoop (w : Nat) : Int → List Int → Except Fault Int
  | b, [] => .ok b
  | b, x :: xs => do
    let l ← absI w b
    let r ← absI w x
    maxAbsLoop w (if l < r then x else b) xs

/-- statistics/max.hpp 50-54: the absolute value is converted back to the type. -/
def maxabs (w : Nat) : List Int → Except Fault Int
  | [] => .error .outOfBounds
  | x :: xs => do
    let b ← maxAbsLoop w x xs
    let a ← absI w b
    return wrap w a

/-- algorithm/rectify.hpp 41-45: `std::fabs` of an integer is a `double`. -/
noncomputable def rectify (w : Nat) (l : List Int) : Except Fault (List Int) := l.mapM fun (x : Int) => ofReal w |(x : ℝ)|

/-- algorithm/normalize.hpp 45-52, integer input, floating point output. -/
noncomputable def normalizeF (w : Nat) (l : List Int) : Except Fault (List ℝ) := do
  let factor ← maxabs w l
  l.mapM fun (x : Int) => if factor = 0 then .error .divByZero else .ok ((x : ℝ) / factor)

/-- algorithm/normalize.hpp 45-52, input and output of the type. -/
def normalizeI (w : Nat) (l : List Int) : Except Fault (List Int) := do
  let factor ← maxabs w l
  l.mapM fun (x : Int) => do
    let q ← quot w x factor
    return wrap w q

/-- The loop of `std::adjacent_difference`: `v` is the value before. -/
def differences (w : Nat) : Int → List Int → Except Fault (List Int)
  | _, [] => .ok []
  | v, x :: xs => do
    let d ← op w (x - v)
    let ds ← differences w x xs
    return wrap w d :: ds

/-- algorithm/derivative.hpp 46-48, the values stored. -/
def derivative (w : Nat) : List Int → Except Fault (List Int)
  | [] => .ok []
  | x :: xs => do
    let ds ← differences w x xs
    return x :: ds

/-- algorithm/amplifier.hpp 46-50 with a floating point factor. -/
noncomputable def amplifier (w : Nat) (factor : ℝ) (l : List Int) : Except Fault (List Int) :=
  l.mapM fun (x : Int) => ofReal w (factor * x)

/-- algorithm/amplifier.hpp 72-78 with floating point factor and limits. -/
noncomputable def amplifierClip (w : Nat) (factor lo hi : ℝ) (l : List Int) : Except Fault (List Int) :=
  l.mapM fun (x : Int) => ofReal w (if factor * x < lo then lo else if factor * x > hi then hi else factor * x)

/-- feature/temporal/duration.hpp 42-45 with a floating point sample rate (an infinite result is a fault). -/
noncomputable def duration (w : Nat) (l : List Int) (rate : ℝ) : Except Fault ℝ :=
  if rate = 0 then .error .divByZero else .ok ((wrap w l.length : ℝ) / rate)

/-- feature/temporal/duration.hpp 60-66; sample rate and threshold have the same floating point type. -/
noncomputable def effectiveDuration (w : Nat) (l : List Int) (rate threshold : ℝ) : Except Fault Int := do
  let m ← maxabs w l
  let cs ← l.mapM fun (x : Int) => do
    let a ← absI w x
    return decide ((a : ℝ) > threshold * m)
  let r ← ofReal w rate
  quot w (wrap w (cs.count true)) r

/-- math/numeric.hpp 155-157. -/
def sign (x : Int) : Int := if x < 0 then -1 else 1

/-- The loop of azcr.hpp 56-58: `v` is the sample before. -/
def crossings (w : Nat) : Int → Int → List Int → Except Fault Int
  | a, _, [] => .ok a
  | a, v, x :: xs => do
    let s ← op w (a + if sign x ≠ sign v then 1 else 0)
    crossings w (wrap w s) x xs

/-- feature/temporal/azcr.hpp 52-60; on an empty range `std::next(first)` is past the end. -/
def azcr (w : Nat) : List Int → Except Fault Int
  | [] => .error .outOfBounds
  | x :: xs => do
    let a ← crossings w 0 x xs
    quot w a (wrap w xs.length)

end Edsp.IntSamples
