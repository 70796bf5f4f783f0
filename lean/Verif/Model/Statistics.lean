import Verif.Model.Sequences
import Mathlib.Analysis.SpecialFunctions.Pow.Real

/-!
# Model of include/edsp/statistics and of the level converters

Ranges are lists; values are elements of a linearly ordered field or reals (exact arithmetic).  A division
by zero or a function outside its domain is a fault (the C++ result is not a finite number).
-/

namespace Edsp.Stat

section Field
variable {K : Type} [Field K] [LinearOrder K]

/-- `std::accumulate(first, last, init, [](acc, x) { return acc + f(x); })`. -/
def accumulate (f : K → K) (init : K) (l : List K) : K := l.foldl (fun a x => a + f x) init

/-- Floating point division. -/
def fdiv (a b : K) : Except Fault K := if b = 0 then .error .divByZero else .ok (a / b)

/-- statistics/mean.hpp 44-48. -/
def mean (l : List K) : Except Fault K := fdiv (accumulate id 0 l) (l.length : K)

/-- statistics/moment.hpp 36-42: the loop multiplies N-1 times, so orders 0 and 1 both give `x`. -/
def nthPower : Nat → K → K
  | 0, x => x
  | 1, x => x
  | n + 2, x => nthPower (n + 1) x * x

/-- statistics/moment.hpp 54-58. -/
def nthMoment (n : Nat) (l : List K) (m : K) : Except Fault K :=
  fdiv (accumulate (fun x => nthPower n (x - m)) 0 l) (l.length : K)

/-- statistics/moment.hpp 71-75. -/
def moment (n : Nat) (l : List K) : Except Fault K := do
  let m ← mean l
  nthMoment n l m

/-- statistics/moment.hpp 88-92. -/
def momentAbout (n : Nat) (l : List K) (m : K) : Except Fault K := nthMoment n l m

/-- bindings/c/src/statistics.c 68-90. -/
def cMoment (l : List K) (n : Int) : Except Fault K :=
  if 1 ≤ n ∧ n ≤ 8 then moment n.toNat l else .ok 0

/-- statistics/variance.hpp 44-46. -/
def variance (l : List K) : Except Fault K := moment 2 l

/-- statistics/kurtosis.hpp 47-52. -/
def kurtosis (l : List K) : Except Fault K := do
  let m ← mean l
  let m4 ← momentAbout 4 l m
  let m2 ← momentAbout 2 l m
  fdiv m4 (m2 * m2)

/-- The loop with a failing element function. -/
def accumulateM (f : K → Except Fault K) : K → List K → Except Fault K
  | acc, [] => .ok acc
  | acc, x :: xs => do accumulateM f (acc + (← f x)) xs

/-- statistics/harmonic_mean.hpp 45-50. -/
def harmonicMean (l : List K) : Except Fault K := do
  let acc ← accumulateM (fun x => fdiv 1 x) 0 l
  fdiv (l.length : K) acc

/-- converter/peak2peak.hpp 37-40 (`std::minmax_element`; only the values are used). -/
def peak2peak (l : List K) : Except Fault K := do
  let lo ← Seq.min l
  let hi ← Seq.max l
  return |hi| - |lo|

end Field

/-- `std::sqrt`. -/
noncomputable def fsqrt (x : ℝ) : Except Fault ℝ := if x < 0 then .error .domain else .ok (Real.sqrt x)

/-- statistics/variance.hpp 61-63. -/
noncomputable def standardDeviation (l : List ℝ) : Except Fault ℝ := do fsqrt (← variance l)

/-- statistics/skewness.hpp 47-52. -/
noncomputable def skewness (l : List ℝ) : Except Fault ℝ := do
  let m ← mean l
  let m3 ← momentAbout 3 l m
  let m2 ← momentAbout 2 l m
  fdiv m3 (m2 * (← fsqrt m2))

/-- statistics/norm.hpp 48-55. -/
noncomputable def norm (l : List ℝ) : Except Fault ℝ := fsqrt (accumulate (fun x => |x| * |x|) 0 l)

/-- `std::log`. -/
noncomputable def flog (x : ℝ) : Except Fault ℝ := if x ≤ 0 then .error .domain else .ok (Real.log x)

/-- statistics/geometric_mean.hpp 44-50. -/
noncomputable def geometricMean (l : List ℝ) : Except Fault ℝ := do
  let acc ← accumulateM flog 0 l
  return Real.exp (← fdiv acc (l.length : ℝ))

/-- `std::pow(x, b)` with an integer exponent. -/
noncomputable def fpowi (x : ℝ) (b : Int) : Except Fault ℝ :=
  if x = 0 ∧ b < 0 then .error .divByZero else .ok (x ^ b)

/-- `std::pow(x, y)` with a real exponent and non-negative base; a negative base is outside the domain
unless the exponent is an integer. -/
noncomputable def fpow (x y : ℝ) : Except Fault ℝ :=
  if x = 0 ∧ y < 0 then .error .divByZero
  else if x < 0 then (if y = ⌊y⌋ then .ok (x ^ ⌊y⌋) else .error .domain)
  else .ok (x ^ y)

/-- statistics/generalized_mean.hpp 45-54. -/
noncomputable def generalizedMean (l : List ℝ) (b : Int) : Except Fault ℝ := do
  let acc ← accumulateM (fun x => fpowi x b) 0 l
  let temp ← fdiv acc (l.length : ℝ)
  fpow temp (← fdiv 1 (b : ℝ))

/-- converter/peak2rms.hpp 45-49 with the `rms` of feature/temporal/rms.hpp. -/
noncomputable def peak2rms (l : List ℝ) : Except Fault ℝ := do
  let lo ← Seq.min l
  let hi ← Seq.max l
  fdiv (Max.max |lo| |hi|) (← Seq.rms l)

end Edsp.Stat
