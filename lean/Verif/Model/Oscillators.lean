import Verif.Model.Fault
import Mathlib.Analysis.SpecialFunctions.Trigonometric.Basic
import Mathlib.Algebra.Order.Floor.Ring

/-!
# Model of include/edsp/oscillators

Exact real arithmetic.  `math::inv` of zero is not finite: such a member is `none`, and using it is a fault.
-/

namespace Edsp.Osc

/-- `math::inv` (numeric.hpp 208-210). -/
noncomputable def inv? (x : ℝ) : Option ℝ := if x = 0 then none else some (1 / x)

/-- Use of a member that may not be finite. -/
def finite (x : Option ℝ) : Except Fault ℝ :=
  match x with
  | some v => .ok v
  | none => .error .divByZero

/-- `std::fmod`: the quotient is truncated towards zero. -/
noncomputable def fmod (x y : ℝ) : ℝ := x - y * (if 0 ≤ x / y then (⌊x / y⌋ : ℝ) else (⌈x / y⌉ : ℝ))

/-- The members of sinusoidal.hpp 134-140; `shape` is the `duty_` of square.hpp 88 or the `width_` of sawtooth.hpp 79,
unused by the sinusoidal oscillator. -/
structure State where
  amplitude : ℝ
  timestamp : ℝ
  sampleRate : ℝ
  samplingPeriod : Option ℝ
  frequency : ℝ
  inverseFrequency : Option ℝ
  phase : ℝ
  shape : ℝ

/-- The classes sin_oscillator, square_oscillator and sawtooth_oscillator (triangular_oscillator is a sawtooth_oscillator
constructed with width 0.5). -/
inductive Kind | sin | square | saw

/-- The base constructor, sinusoidal.hpp 144-151. -/
noncomputable def base (amplitude sampleRate frequency phase : ℝ) : State where
  amplitude := amplitude
  timestamp := 0
  sampleRate := sampleRate
  samplingPeriod := inv? sampleRate
  frequency := frequency
  inverseFrequency := inv? frequency
  phase := phase
  shape := 0

/-- square.hpp 99-102 (`set_duty`); the check is an assertion, absent from a release build. -/
noncomputable def setDuty (dbg : Bool) (s : State) (duty : ℝ) : Except Fault State := do
  if dbg = true ∧ ¬ (duty ≥ 0 ∧ duty ≤ 1) then throw .assertion
  return { s with shape := duty * (← finite s.inverseFrequency) }

/-- square.hpp 105-107. -/
noncomputable def duty (s : State) : ℝ := s.shape * s.frequency

/-- sawtooth.hpp 90-93. -/
noncomputable def setWidth (dbg : Bool) (s : State) (width : ℝ) : Except Fault State := do
  if dbg = true ∧ ¬ (width ≥ 0 ∧ width ≤ 1) then throw .assertion
  return { s with shape := width }

/-- sinusoidal.hpp 261-263. -/
noncomputable def sinOscillator (amplitude sampleRate frequency phase : ℝ) : State :=
  base amplitude sampleRate frequency phase

/-- square.hpp 92-96. -/
noncomputable def squareOscillator (dbg : Bool) (amplitude sampleRate frequency duty : ℝ) : Except Fault State :=
  setDuty dbg (base amplitude sampleRate frequency 0) duty

/-- sawtooth.hpp 83-87. -/
noncomputable def sawtoothOscillator (dbg : Bool) (amplitude sampleRate frequency width : ℝ) : Except Fault State :=
  setWidth dbg (base amplitude sampleRate frequency 0) width

/-- triangular.hpp 56-58. -/
noncomputable def triangularOscillator (dbg : Bool) (amplitude sampleRate frequency : ℝ) : Except Fault State :=
  sawtoothOscillator dbg amplitude sampleRate frequency 0.5

/-- `set_timestamp(timestamp_ + sampling_period_)`: sinusoidal.hpp 270, square.hpp 112, sawtooth.hpp 103. -/
noncomputable def advance (s : State) : Except Fault State := do
  return { s with timestamp := s.timestamp + (← finite s.samplingPeriod) }

/-- sinusoidal.hpp 266-272. -/
noncomputable def sinCall (s : State) : Except Fault (ℝ × State) := do
  let result := Real.sin (2 * Real.pi * s.frequency * s.timestamp + s.phase)
  let s' ← advance s
  return (result * s.amplitude, s')

/-- square.hpp 110-114. -/
noncomputable def squareCall (s : State) : Except Fault (ℝ × State) := do
  let current := fmod s.timestamp (← finite s.inverseFrequency)
  let s' ← advance s
  return ((if current ≥ s.shape then 1 else -1) * s.amplitude, s')

/-- sawtooth.hpp 101-110. -/
noncomputable def sawCall (s : State) : Except Fault (ℝ × State) := do
  let t := fmod (s.frequency * s.timestamp) 1
  let s' ← advance s
  if s.shape ≠ 0 ∧ t < s.shape then return (s.amplitude * (2 * t / s.shape - 1), s')
  else if s.shape ≠ 1 ∧ t ≥ s.shape then return (s.amplitude * (-2 * (t - s.shape) / (1 - s.shape) + 1), s')
  else return (0, s')

/-- `operator()`. -/
noncomputable def call : Kind → State → Except Fault (ℝ × State)
  | .sin => sinCall
  | .square => squareCall
  | .saw => sawCall

/-- `n` calls of `operator()` in a row. -/
noncomputable def gen (k : Kind) : Nat → State → Except Fault (List ℝ × State)
  | 0, s => .ok ([], s)
  | n + 1, s => do
    let (x, s') ← call k s
    let (xs, s'') ← gen k n s'
    return (x :: xs, s'')

/-- The member functions that change an oscillator. -/
inductive Op
  | call
  | setFrequency (f : ℝ)
  | setPhase (p : ℝ)
  | setTimestamp (t : ℝ)
  | setSampleRate (r : ℝ)
  | setAmplitude (a : ℝ)
  | setShape (v : ℝ)
  | reset

/-- One call of a member function: sinusoidal.hpp 159-207, `set_duty`/`set_width` and `operator()`.  The sinusoidal
oscillator has no shape. -/
noncomputable def step (dbg : Bool) (k : Kind) (s : State) : Op → Except Fault (Option ℝ × State)
  | .call => do
    let (x, s') ← call k s
    return (some x, s')
  | .setFrequency f => .ok (none, { s with frequency := f })
  | .setPhase p => .ok (none, { s with phase := p })
  | .setTimestamp t => .ok (none, { s with timestamp := t })
  | .setSampleRate r => .ok (none, { s with sampleRate := r, samplingPeriod := inv? r })
  | .setAmplitude a => .ok (none, { s with amplitude := a })
  | .setShape v =>
    match k with
    | .sin => .ok (none, s)
    | .square => do return (none, ← setDuty dbg s v)
    | .saw => do return (none, ← setWidth dbg s v)
  | .reset => .ok (none, { s with timestamp := 0 })

/-- A history of calls. -/
noncomputable def run (dbg : Bool) (k : Kind) : State → List Op → Except Fault State
  | s, [] => .ok s
  | s, op :: ops => do
    let (_, s') ← step dbg k s op
    run dbg k s' ops

end Edsp.Osc
