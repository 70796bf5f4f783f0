import Verif.Model.Memory
import Mathlib.Algebra.Order.Field.Basic
import Mathlib.Algebra.Order.Floor.Defs
import Mathlib.Algebra.Order.Floor.Ring
import Mathlib.Analysis.SpecialFunctions.Pow.Real
import Mathlib.Analysis.Real.Sqrt

/-!
# Model of the sequence algorithms

include/edsp/algorithm/*.hpp, include/edsp/statistics/max.hpp, min.hpp, peak.hpp and
bindings/c/src/algorithm.c, statistics.c.  Values are elements of a linearly ordered field (exact
arithmetic); the conversions between input and output value types are identities.  The functions that
write work on a memory block (`Model/Memory.lean`), the others on the list of the values of their range.
-/

namespace Edsp.Seq

section Order
variable {K : Type} [LinearOrder K]

/-- The element function of clipper.hpp 45. -/
def clip1 (lo hi x : K) : K := if x < lo then lo else if x > hi then hi else x

/-- clipper.hpp 42-47. -/
def clipper (m : List K) (first last d : Nat) (lo hi : K) : Except Fault (List K) :=
  Mem.transform (clip1 lo hi) m first last d

/-- The loop of `std::lower_bound` (libstdc++), `first` and the remaining length. -/
def lowerBoundN (m : List K) (v : K) (first len : Nat) : Except Fault Nat :=
  if _h : len = 0 then .ok first
  else
    match Mem.read m (first + len / 2) with
    | .error e => .error e
    | .ok x =>
      if x < v then lowerBoundN m v (first + len / 2 + 1) (len - len / 2 - 1)
      else lowerBoundN m v first (len / 2)
termination_by len
decreasing_by all_goals omega

/-- binary_search.hpp 41-44. -/
def binarySearch (m : List K) (first last : Nat) (v : K) : Except Fault Nat := do
  let len ← Mem.distance first last
  let it ← lowerBoundN m v first len
  if it ≠ last then
    let x ← Mem.read m it
    return if v = x then it else last
  else return last

/-- The loop of `std::find`. -/
def findN (m : List K) (v : K) (first : Nat) : Nat → Except Fault Nat
  | 0 => .ok first
  | n + 1 => do
    let x ← Mem.read m first
    if x = v then return first else findN m v (first + 1) n

/-- linear_search.hpp 38-40. -/
def linearSearch (m : List K) (first last : Nat) (v : K) : Except Fault Nat := do
  findN m v first (← Mem.distance first last)

/-- `static_cast<std::int32_t>` (two's complement wrap, as on every supported compiler). -/
def toInt32 (x : Int) : Int := Int.bmod x (2 ^ 32)

/-- indexof.hpp 38-42. -/
def indexOf (m : List K) (first last : Nat) (v : K) : Except Fault Int := do
  let it ← linearSearch m first last v
  return toInt32 (if it ≠ last then (it : Int) - first else -1)

/-- bindings/c/src/algorithm.c 82-90; `size` is an `int`, the array starts at cell `input`. -/
def cBinarySearch (m : List K) (input size : Nat) (v : K) : Except Fault Int := do
  let it ← binarySearch m input (input + size) v
  return if it ≠ input + size then toInt32 ((it : Int) - input) else -1

/-- bindings/c/src/algorithm.c 92-94. -/
def cIndexOf (m : List K) (input size : Nat) (v : K) : Except Fault Int :=
  indexOf m input (input + size) v

/-- bindings/c/src/algorithm.c 96-104. -/
def cLinearSearch (m : List K) (input size : Nat) (v : K) : Except Fault Int := do
  let it ← linearSearch m input (input + size) v
  return if it ≠ input + size then toInt32 ((it : Int) - input) else -1

/-- bindings/c/src/algorithm.c 106-110. -/
def cContains (m : List K) (input size : Nat) (v : K) : Except Fault Bool := do
  let it ← linearSearch m input (input + size) v
  return decide (it ≠ input + size)

/-- The loop of `std::max_element(first, last, comp)`: `(bi, bv)` is the best position so far and its
value, `i` the position of the next element. -/
def maxLoop (lt : K → K → Bool) : List K → Nat → Nat × K → Nat × K
  | [], _, b => b
  | x :: xs, i, b => maxLoop lt xs (i + 1) (if lt b.2 x then (i, x) else b)

/-- `std::max_element`; on an empty range the result is `last`, which is dereferenced by all callers. -/
def maxElement (lt : K → K → Bool) : List K → Except Fault (Nat × K)
  | [] => .error .outOfBounds
  | x :: xs => .ok (maxLoop lt xs 1 (0, x))

/-- `std::min_element` compares the other way round. -/
def minElement (lt : K → K → Bool) : List K → Except Fault (Nat × K)
  | [] => .error .outOfBounds
  | x :: xs => .ok (maxLoop (fun b y => lt y b) xs 1 (0, x))

/-- `operator<`. -/
def less (a b : K) : Bool := decide (a < b)

/-- max.hpp 38-40. -/
def max (l : List K) : Except Fault K := do return (← maxElement less l).2

/-- min.hpp 38-40. -/
def min (l : List K) : Except Fault K := do return (← minElement less l).2

/-- peak.hpp 38-42. -/
def peak (l : List K) : Except Fault (Nat × K) := maxElement less l

/-- equal.hpp 54-56, the four-iterator `std::equal`. -/
def equal : List K → List K → Bool
  | [], [] => true
  | x :: xs, y :: ys => decide (x = y) && equal xs ys
  | _, _ => false

end Order

section Group
variable {K : Type} [LinearOrder K] [AddCommGroup K]

/-- The comparison of max.hpp 52, min.hpp 52 and peak.hpp 55. -/
def lessAbs (a b : K) : Bool := decide (|a| < |b|)

/-- max.hpp 50-54. -/
def maxabs (l : List K) : Except Fault K := do return |(← maxElement lessAbs l).2|

/-- min.hpp 50-54. -/
def minabs (l : List K) : Except Fault K := do return |(← minElement lessAbs l).2|

/-- peak.hpp 52-58. -/
def peakabs (l : List K) : Except Fault (Nat × K) := maxElement lessAbs l

/-- bindings/c/src/statistics.c 96-99; the index is cast to `int`. -/
def cPeak (l : List K) : Except Fault (Int × K) := do
  let p ← peak l
  return (toInt32 p.1, p.2)

/-- bindings/c/src/statistics.c 101-104: calls `peak`. -/
def cPeakAbs (l : List K) : Except Fault (Int × K) := do
  let p ← peak l
  return (toInt32 p.1, p.2)

/-- rectify.hpp 41-45. -/
def rectify (m : List K) (first last d : Nat) : Except Fault (List K) :=
  Mem.transform (fun x => |x|) m first last d

/-- derivative.hpp 46-48. -/
def derivative (m : List K) (first last d : Nat) : Except Fault (List K) :=
  Mem.adjacentDifference m first last d

/-- concatenate.hpp 43-46. -/
def concatenate (m : List K) (first1 last1 first2 last2 d : Nat) : Except Fault (List K) := do
  let m1 ← Mem.copy m first1 last1 d
  let n ← Mem.distance first1 last1
  Mem.copy m1 first2 last2 (d + n)

/-- padder.hpp 51-57: the check of line 54 is an assertion that disappears in a release build
(`dbg = false`); then `std::fill` runs from `d_first + i_size` to an earlier `d_last`. -/
def padder (dbg : Bool) (m : List K) (first last dFirst dLast : Nat) : Except Fault (List K) := do
  let iSize ← Mem.distance first last
  let dSize ← Mem.distance dFirst dLast
  if dbg = true ∧ ¬ dSize ≥ iSize then throw .assertion
  let m1 ← Mem.copy m first last dFirst
  Mem.fill 0 m1 (dFirst + iSize) dLast

end Group

section Field
variable {K : Type} [Field K] [LinearOrder K]

/-- amplifier.hpp 46-50. -/
def amplifier (m : List K) (first last d : Nat) (factor : K) : Except Fault (List K) :=
  Mem.transform (fun x => factor * x) m first last d

/-- The element function of amplifier.hpp 75-76. -/
def ampClip1 (factor lo hi x : K) : K :=
  let scaled := factor * x
  if scaled < lo then lo else if scaled > hi then hi else scaled

/-- amplifier.hpp 72-78. -/
def amplifierClip (m : List K) (first last d : Nat) (factor lo hi : K) : Except Fault (List K) :=
  Mem.transform (ampClip1 factor lo hi) m first last d

/-- normalize.hpp 46-52: a zero divisor gives values that are not finite. -/
def normalize (m : List K) (first last d : Nat) : Except Fault (List K) := do
  let vs ← Mem.readRange m first last
  let factor ← maxabs vs
  if factor = 0 then throw .divByZero
  Mem.transform (fun x => x / factor) m first last d

/-- The loop of linspace.hpp 46-48: `cur` and `inc` are `none` when not finite; storing a value that is
not finite is reported as a fault. -/
def linspaceN : Nat → List K → Nat → Option K → Option K → Except Fault (List K)
  | 0, m, _, _, _ => .ok m
  | n + 1, m, d, cur, inc =>
    match cur with
    | none => .error .domain
    | some c => do
      let m' ← Mem.write m d c
      linspaceN n m' (d + 1) (inc.map (c + ·)) inc

/-- linspace.hpp 39-49 with a floating point value type; `N` is an integer (`std::trunc` is the
identity), a negative `N` writes nothing. -/
def linspace (m : List K) (d : Nat) (x1 x2 : K) (N : Int) : Except Fault (List K) :=
  let inc : Option K := if ((N : K) - 1) = 0 then none else some ((x2 - x1) / ((N : K) - 1))
  linspaceN N.toNat m d (some x1) inc

/-- linspace.hpp 45-48 with the output value type `int`: all operations are integer operations. -/
def linspaceIntN : Nat → List Int → Nat → Int → Int → Except Fault (List Int)
  | 0, m, _, _, _ => .ok m
  | n + 1, m, d, cur, inc => do
    let m' ← Mem.write m d cur
    linspaceIntN n m' (d + 1) (cur + inc) inc

/-- linspace.hpp 39-49 with the output value type `int` (overflow is not modelled). -/
def linspaceInt (m : List Int) (d : Nat) (x1 x2 N : Int) : Except Fault (List Int) :=
  if N - 1 = 0 then .error .divByZero
  else linspaceIntN N.toNat m d x1 (Int.tdiv (x2 - x1) (N - 1))

/-- ceil.hpp 40-44. -/
def ceil [FloorRing K] (m : List K) (first last d : Nat) : Except Fault (List K) :=
  Mem.transform (fun x => (⌈x⌉ : K)) m first last d

/-- floor.hpp 40-44. -/
def floor [FloorRing K] (m : List K) (first last d : Nat) : Except Fault (List K) :=
  Mem.transform (fun x => (⌊x⌋ : K)) m first last d

/-- `std::round`: to the nearest integer, halves away from zero. -/
def round1 [FloorRing K] (x : K) : K :=
  if 0 ≤ x then (⌊x + 1 / 2⌋ : K) else (⌈x - 1 / 2⌉ : K)

/-- round.hpp 40-44. -/
def round [FloorRing K] (m : List K) (first last d : Nat) : Except Fault (List K) :=
  Mem.transform round1 m first last d

/-- `std::trunc`. -/
def trunc1 [FloorRing K] (x : K) : K := if 0 ≤ x then (⌊x⌋ : K) else (⌈x⌉ : K)

/-- fix.hpp 40-44. -/
def fix [FloorRing K] (m : List K) (first last d : Nat) : Except Fault (List K) :=
  Mem.transform trunc1 m first last d

/-- `std::inner_product(first, last, first, init)`. -/
def innerSelf (init : K) (l : List K) : K := l.foldl (fun a x => a + x * x) init

/-- energy.hpp 46-49. -/
def energy (l : List K) : K := innerSelf 0 l

/-- power.hpp 44-48. -/
def power (l : List K) : Except Fault K :=
  if (l.length : K) = 0 then .error .divByZero else .ok (energy l / (l.length : K))

/-- silence.hpp 40-42. -/
def silence (l : List K) (threshold : K) : Except Fault Bool := do
  return decide ((← power l) < threshold)

end Field

/-- logspace.hpp 45-47: the loop of `linspace` with `pow(10, _x1)` stored. -/
noncomputable def logspaceN : Nat → List ℝ → Nat → Option ℝ → Option ℝ → Except Fault (List ℝ)
  | 0, m, _, _, _ => .ok m
  | n + 1, m, d, cur, inc =>
    match cur with
    | none => .error .domain
    | some c => do
      let m' ← Mem.write m d ((10 : ℝ) ^ c)
      logspaceN n m' (d + 1) (inc.map (c + ·)) inc

/-- logspace.hpp 38-48. -/
noncomputable def logspace (m : List ℝ) (d : Nat) (x1 x2 : ℝ) (N : Int) : Except Fault (List ℝ) :=
  let inc : Option ℝ := if ((N : ℝ) - 1) = 0 then none else some ((x2 - x1) / ((N : ℝ) - 1))
  logspaceN N.toNat m d (some x1) inc

/-- feature/temporal/rms.hpp 43-47: the sum of squares starts at 1. -/
noncomputable def rms (l : List ℝ) : Except Fault ℝ :=
  let acc := innerSelf 1 l
  if (l.length : ℝ) = 0 then .error .divByZero else .ok (Real.sqrt (acc / (l.length : ℝ)))

/-- rssq.hpp 42-46. -/
noncomputable def rssq (l : List ℝ) : ℝ := Real.sqrt (innerSelf 0 l)

/-- normalize.hpp 67-73. -/
noncomputable def normalizeRms (m : List ℝ) (first last d : Nat) : Except Fault (List ℝ) := do
  let vs ← Mem.readRange m first last
  let factor ← rms vs
  if factor = 0 then throw .divByZero
  Mem.transform (fun x => x / factor) m first last d

end Edsp.Seq
