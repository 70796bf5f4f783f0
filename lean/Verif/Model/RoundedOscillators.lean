import Verif.Model.Oscillators
import Verif.Spec.Float

/-!
# The oscillators in floating point arithmetic

include/edsp/oscillators, every operation rounded to `p` bits.  `std::fmod` is exact.  `std::fmod(x, 1)` of sawtooth.hpp
promotes to `double`: from there on `q` bits (53) until the result is converted.  `sine` stands for the `std::sin` of the
library.
-/

namespace Edsp.Rounded

open Edsp.Spec Edsp.Osc

/-- `math::inv` (numeric.hpp 208-210). -/
noncomputable def inv (p : ℕ) (x : ℝ) : Option ℝ := if x = 0 then none else some (rnd p (1 / x))

/-- The base constructor, sinusoidal.hpp 144-151. -/
noncomputable def oscillator (p : ℕ) (amplitude sampleRate frequency phase : ℝ) : State where
  amplitude := amplitude
  timestamp := 0
  sampleRate := sampleRate
  samplingPeriod := inv p sampleRate
  frequency := frequency
  inverseFrequency := inv p frequency
  phase := phase
  shape := 0

/-- `set_timestamp(timestamp_ + sampling_period_)`: sinusoidal.hpp 270, square.hpp 112, sawtooth.hpp 103. -/
noncomputable def advance (p : ℕ) (s : State) : Except Fault State := do
  return { s with timestamp := rnd p (s.timestamp + (← finite s.samplingPeriod)) }

/-- sinusoidal.hpp 266-272. -/
noncomputable def sinCall (p : ℕ) (sine : ℝ → ℝ) (s : State) : Except Fault (ℝ × State) := do
  let result := sine (rnd p (rnd p (rnd p (rnd p (2 * Real.pi) * s.frequency) * s.timestamp) + s.phase))
  let s' ← advance p s
  return (rnd p (result * s.amplitude), s')

/-- square.hpp 110-114. -/
noncomputable def squareCall (p : ℕ) (s : State) : Except Fault (ℝ × State) := do
  let current := fmod s.timestamp (← finite s.inverseFrequency)
  let s' ← advance p s
  return (rnd p ((if current ≥ s.shape then 1 else -1) * s.amplitude), s')

/-- sawtooth.hpp 101-110. -/
noncomputable def sawCall (p q : ℕ) (s : State) : Except Fault (ℝ × State) := do
  let t := fmod (rnd p (s.frequency * s.timestamp)) 1
  let s' ← advance p s
  if s.shape ≠ 0 ∧ t < s.shape then
    return (rnd p (rnd q (s.amplitude * rnd q (rnd q (rnd q (2 * t) / s.shape) - 1))), s')
  else if s.shape ≠ 1 ∧ t ≥ s.shape then
    return (rnd p (rnd q (s.amplitude
      * rnd q (rnd q (rnd q (-2 * rnd q (t - s.shape)) / rnd p (1 - s.shape)) + 1))), s')
  else return (0, s')

/-- `operator()`. -/
noncomputable def call (p q : ℕ) (sine : ℝ → ℝ) : Kind → State → Except Fault (ℝ × State)
  | .sin => sinCall p sine
  | .square => squareCall p
  | .saw => sawCall p q

/-- `n` calls of `operator()` in a row. -/
noncomputable def gen (p q : ℕ) (sine : ℝ → ℝ) (k : Kind) : ℕ → State → Except Fault (List ℝ × State)
  | 0, s => .ok ([], s)
  | n + 1, s => do
    let (x, s') ← call p q sine k s
    let (xs, s'') ← gen p q sine k n s'
    return (x :: xs, s'')

end Edsp.Rounded
