import Verif.Model.Fault
import Mathlib.Analysis.SpecialFunctions.Exp

/-!
# Model of include/edsp/experimental/envelope

Exact real arithmetic.  A division by zero, which gives an infinity or a NaN in the code, is a fault.
-/

namespace Edsp.Env

/-- Floating point division; not finite for a zero divisor. -/
noncomputable def div (x y : ℝ) : Except Fault ℝ := if y = 0 then .error .divByZero else .ok (x / y)

/-- `meta::expects` (meta/expects.hpp): an assertion, absent from a release build (`dbg = false`). -/
def expects (dbg : Bool) (c : Prop) [Decidable c] : Except Fault Unit :=
  if dbg = true ∧ ¬ c then .error .assertion else .ok ()

namespace Adsr

/-- adsr.hpp 44. -/
inductive Phase | idle | attack | decay | sustain | release
  deriving DecidableEq

/-- The members, adsr.hpp 201-209. -/
structure State where
  phase : Phase
  sampleRate : ℝ
  target : ℝ
  value : ℝ
  attackRate : ℝ
  decayRate : ℝ
  releaseRate : ℝ
  releaseTime : ℝ
  sustainLevel : ℝ

/-- The default constructor, adsr.hpp 46 with the initialisers of 201-209. -/
noncomputable def init : State where
  phase := .idle
  sampleRate := 44100
  target := 0
  value := 0
  attackRate := 0.001
  decayRate := 0.001
  releaseRate := 0.001
  releaseTime := -1
  sustainLevel := 0.5

/-- adsr.hpp 48-52. -/
noncomputable def keyOn (s : State) : State :=
  { s with target := if s.target ≤ 0 then 1 else s.target, phase := .attack }

/-- adsr.hpp 54-60. -/
noncomputable def keyOff (s : State) : Except Fault State := do
  let s := { s with target := 0, phase := .release }
  if s.releaseTime > 0 then
    return { s with releaseRate := (← div s.value (s.releaseTime * s.sampleRate)) }
  else return s

/-- adsr.hpp 70-72: the getter `release_rate`. -/
def getReleaseRate (s : State) : ℝ := s.releaseTime

/-- adsr.hpp 86-88. -/
noncomputable def attackTime (s : State) : Except Fault ℝ := div 1 (s.attackRate * s.sampleRate)

/-- adsr.hpp 90-92. -/
noncomputable def decayTime (s : State) : Except Fault ℝ := div (1 - s.sustainLevel) (s.decayRate * s.sampleRate)

/-- adsr.hpp 94-96. -/
def getReleaseTime (s : State) : ℝ := s.releaseTime

/-- The floor of a target, adsr.hpp 100 and 141. -/
noncomputable def clampTarget (t : ℝ) : ℝ := if t > 0.000000001 then t else 0.000000001

/-- adsr.hpp 98-101. -/
noncomputable def setAttackTarget (dbg : Bool) (s : State) (t : ℝ) : Except Fault State := do
  expects dbg (t ≥ 0)
  return { s with target := clampTarget t }

/-- adsr.hpp 103-106. -/
noncomputable def setAttackRate (dbg : Bool) (s : State) (r : ℝ) : Except Fault State := do
  expects dbg (r ≥ 0)
  return { s with attackRate := r }

/-- adsr.hpp 108-111. -/
noncomputable def setDecayRate (dbg : Bool) (s : State) (r : ℝ) : Except Fault State := do
  expects dbg (r ≥ 0)
  return { s with decayRate := r }

/-- adsr.hpp 113-116. -/
noncomputable def setSustainLevel (dbg : Bool) (s : State) (l : ℝ) : Except Fault State := do
  expects dbg (l ≥ 0)
  return { s with sustainLevel := l }

/-- adsr.hpp 118-122. -/
noncomputable def setReleaseRate (dbg : Bool) (s : State) (r : ℝ) : Except Fault State := do
  expects dbg (r ≥ 0)
  return { s with releaseRate := r, releaseTime := -1 }

/-- adsr.hpp 124-127. -/
noncomputable def setAttackTime (dbg : Bool) (s : State) (t : ℝ) : Except Fault State := do
  expects dbg (t > 0)
  return { s with attackRate := (← div 1 (t * s.sampleRate)) }

/-- adsr.hpp 129-132. -/
noncomputable def setDecayTime (dbg : Bool) (s : State) (t : ℝ) : Except Fault State := do
  expects dbg (t > 0)
  return { s with decayRate := (← div (1 - s.sustainLevel) (t * s.sampleRate)) }

/-- adsr.hpp 134-138. -/
noncomputable def setReleaseTime (dbg : Bool) (s : State) (t : ℝ) : Except Fault State := do
  expects dbg (t > 0)
  return { s with releaseRate := (← div s.sustainLevel (t * s.sampleRate)), releaseTime := t }

/-- adsr.hpp 140-147. -/
noncomputable def setTarget (dbg : Bool) (s : State) (t : ℝ) : Except Fault State := do
  let s := { s with target := clampTarget t }
  let s ← setSustainLevel dbg s s.target
  if s.value < s.target then return { s with phase := .attack }
  else if s.value > s.target then return { s with phase := .decay }
  else return s

/-- adsr.hpp 149-155. -/
noncomputable def setSampleRate (s : State) (rate : ℝ) : Except Fault State := do
  let old := s.sampleRate
  return { s with
    sampleRate := rate
    attackRate := (← div (old * s.attackRate) rate)
    decayRate := (← div (old * s.decayRate) rate)
    releaseRate := (← div (old * s.releaseRate) rate) }

/-- The switch of adsr.hpp 158-191. -/
noncomputable def tick (s : State) : State :=
  match s.phase with
  | .attack =>
    let v := s.value + s.attackRate
    if v ≥ s.target then { s with value := s.target, target := s.sustainLevel, phase := .decay }
    else { s with value := v }
  | .decay =>
    if s.value > s.sustainLevel then
      let v := s.value - s.decayRate
      if v ≤ s.sustainLevel then { s with value := s.sustainLevel, phase := .sustain }
      else { s with value := v }
    else
      let v := s.value + s.decayRate
      if v ≥ s.sustainLevel then { s with value := s.sustainLevel, phase := .sustain }
      else { s with value := v }
  | .release =>
    let v := s.value - s.releaseRate
    if v ≤ 0 then { s with value := 0, phase := .idle }
    else { s with value := v }
  | _ => s

/-- `operator()`, adsr.hpp 157-193. -/
noncomputable def call (s : State) (input : ℝ) : ℝ × State :=
  let s := tick s
  (s.value * input, s)

/-- `apply`, adsr.hpp 195-198: one call per element through `std::ref`. -/
noncomputable def apply : State → List ℝ → List ℝ × State
  | s, [] => ([], s)
  | s, x :: xs =>
    let (y, s) := call s x
    let (ys, s) := apply s xs
    (y :: ys, s)

/-- The operations of the class. -/
inductive Op
  | keyOn
  | keyOff
  | sample (x : ℝ)
  | setAttackTarget (t : ℝ)
  | setAttackRate (r : ℝ)
  | setDecayRate (r : ℝ)
  | setSustainLevel (l : ℝ)
  | setReleaseRate (r : ℝ)
  | setAttackTime (t : ℝ)
  | setDecayTime (t : ℝ)
  | setReleaseTime (t : ℝ)
  | setTarget (t : ℝ)
  | setSampleRate (r : ℝ)

/-- One operation, with the sample it returns. -/
noncomputable def step (dbg : Bool) (s : State) : Op → Except Fault (Option ℝ × State)
  | .keyOn => .ok (none, keyOn s)
  | .keyOff => do return (none, ← keyOff s)
  | .sample x => .ok (some (call s x).1, (call s x).2)
  | .setAttackTarget t => do return (none, ← setAttackTarget dbg s t)
  | .setAttackRate r => do return (none, ← setAttackRate dbg s r)
  | .setDecayRate r => do return (none, ← setDecayRate dbg s r)
  | .setSustainLevel l => do return (none, ← setSustainLevel dbg s l)
  | .setReleaseRate r => do return (none, ← setReleaseRate dbg s r)
  | .setAttackTime t => do return (none, ← setAttackTime dbg s t)
  | .setDecayTime t => do return (none, ← setDecayTime dbg s t)
  | .setReleaseTime t => do return (none, ← setReleaseTime dbg s t)
  | .setTarget t => do return (none, ← setTarget dbg s t)
  | .setSampleRate r => do return (none, ← setSampleRate s r)

/-- A history of operations. -/
noncomputable def run (dbg : Bool) : State → List Op → Except Fault State
  | s, [] => .ok s
  | s, op :: ops => do
    let (_, s) ← step dbg s op
    run dbg s ops

end Adsr

namespace Ar

/-- The members, ar.hpp 136-142. -/
structure State where
  sampleRate : ℝ
  attackTime : ℝ
  attackGain : ℝ
  releaseTime : ℝ
  releaseGain : ℝ
  last : ℝ
  rectification : Bool

/-- ar.hpp 198-204. -/
noncomputable def reset (s : State) : Except Fault State := do
  let a ← if s.attackGain > 0 then (do return Real.exp (← div (-1) (s.attackTime * s.sampleRate)) : Except Fault ℝ)
    else .ok 0
  let r ← if s.releaseGain > 0 then (do return Real.exp (← div (-1) (s.releaseTime * s.sampleRate)) : Except Fault ℝ)
    else .ok 0
  return { s with attackGain := a, releaseGain := r, last := 0 }

/-- ar.hpp 145-153, with the initialisers of 136-142 for the gains and `last_`. -/
noncomputable def make (sampleRate attackTime releaseTime : ℝ) (rectify : Bool) : Except Fault State :=
  reset { sampleRate, attackTime, attackGain := 0, releaseTime, releaseGain := 0, last := 0, rectification := rectify }

/-- ar.hpp 160-164. -/
noncomputable def setSampleRate (s : State) (x : ℝ) : Except Fault State := reset { s with sampleRate := x }

/-- ar.hpp 171-175. -/
noncomputable def setAttackTime (s : State) (x : ℝ) : Except Fault State := reset { s with attackTime := x }

/-- ar.hpp 182-186. -/
noncomputable def setReleaseTime (s : State) (x : ℝ) : Except Fault State := reset { s with releaseTime := x }

/-- ar.hpp 193-196. -/
def setRectification (s : State) (b : Bool) : State := { s with rectification := b }

/-- `math::is_denormal` (numeric.hpp 79-82), for a type whose least normal magnitude is `tiny`. -/
def isDenormal (tiny x : ℝ) : Prop := x ≠ 0 ∧ |x| < tiny

open Classical in
/-- `operator()`, ar.hpp 212-219. -/
noncomputable def call (tiny : ℝ) (s : State) (value : ℝ) : ℝ × State :=
  let rectified := if s.rectification then |value| else value
  let current := if s.last < rectified then (1 - s.attackGain) * rectified + s.attackGain * s.last
    else (1 - s.releaseGain) * rectified + s.releaseGain * s.last
  let last := if isDenormal tiny current then 0 else current
  (last, { s with last := last })

/-- The operations of the class. -/
inductive Op
  | sample (x : ℝ)
  | setSampleRate (x : ℝ)
  | setAttackTime (x : ℝ)
  | setReleaseTime (x : ℝ)
  | setRectification (b : Bool)
  | reset

/-- One operation. -/
noncomputable def step (tiny : ℝ) (s : State) : Op → Except Fault State
  | .sample x => .ok (call tiny s x).2
  | .setSampleRate x => setSampleRate s x
  | .setAttackTime x => setAttackTime s x
  | .setReleaseTime x => setReleaseTime s x
  | .setRectification b => .ok (setRectification s b)
  | .reset => reset s

/-- A history of operations. -/
noncomputable def run (tiny : ℝ) : State → List Op → Except Fault State
  | s, [] => .ok s
  | s, op :: ops => do run tiny (← step tiny s op) ops

end Ar

end Edsp.Env
