import Verif.Model.Envelopes
import Verif.Spec.Float

/-!
# Model of include/edsp/experimental/envelope/adsr.hpp in floating point arithmetic

The functions of Model/Envelopes.lean with the rounding of each operation.  `p` are the significant bits of the value
type `T`, `q` those of `double`, in which an expression with a literal such as `1.0` is computed before the result is
stored in a `T`.  No overflow, no underflow.  The members and the operations are those of Model/Envelopes.lean.
-/

namespace Edsp.RoundedAdsr
open Edsp.Env Edsp.Env.Adsr Edsp.Spec

/-- A division of two `T`, rounded to `T`. -/
noncomputable def divT (p : ℕ) (x y : ℝ) : Except Fault ℝ := do return rnd p (← div x y)

/-- A division in `double`, stored in a `T`. -/
noncomputable def divD (p q : ℕ) (x y : ℝ) : Except Fault ℝ := do return rnd p (rnd q (← div x y))

/-- adsr.hpp 46 with the initialisers of 201-209. -/
noncomputable def init (p q : ℕ) : State where
  phase := .idle
  sampleRate := rnd p 44100
  target := 0
  value := 0
  attackRate := rnd p (rnd q 0.001)
  decayRate := rnd p (rnd q 0.001)
  releaseRate := rnd p (rnd q 0.001)
  releaseTime := -1
  sustainLevel := 0.5

/-- adsr.hpp 54-60. -/
noncomputable def keyOff (p : ℕ) (s : State) : Except Fault State := do
  let s := { s with target := 0, phase := .release }
  if s.releaseTime > 0 then
    return { s with releaseRate := (← divT p s.value (rnd p (s.releaseTime * s.sampleRate))) }
  else return s

/-- adsr.hpp 86-88. -/
noncomputable def attackTime (p q : ℕ) (s : State) : Except Fault ℝ :=
  divD p q 1 (rnd p (s.attackRate * s.sampleRate))

/-- adsr.hpp 90-92. -/
noncomputable def decayTime (p q : ℕ) (s : State) : Except Fault ℝ :=
  divD p q (rnd q (1 - s.sustainLevel)) (rnd p (s.decayRate * s.sampleRate))

/-- adsr.hpp 100 and 141: the comparison and the choice are made in `double`. -/
noncomputable def clampTarget (p q : ℕ) (t : ℝ) : ℝ :=
  rnd p (if t > rnd q 0.000000001 then t else rnd q 0.000000001)

/-- adsr.hpp 98-101. -/
noncomputable def setAttackTarget (p q : ℕ) (dbg : Bool) (s : State) (t : ℝ) : Except Fault State := do
  expects dbg (t ≥ 0)
  return { s with target := clampTarget p q t }

/-- adsr.hpp 124-127. -/
noncomputable def setAttackTime (p q : ℕ) (dbg : Bool) (s : State) (t : ℝ) : Except Fault State := do
  expects dbg (t > 0)
  return { s with attackRate := (← divD p q 1 (rnd p (t * s.sampleRate))) }

/-- adsr.hpp 129-132. -/
noncomputable def setDecayTime (p q : ℕ) (dbg : Bool) (s : State) (t : ℝ) : Except Fault State := do
  expects dbg (t > 0)
  return { s with decayRate := (← divD p q (rnd q (1 - s.sustainLevel)) (rnd p (t * s.sampleRate))) }

/-- adsr.hpp 134-138. -/
noncomputable def setReleaseTime (p : ℕ) (dbg : Bool) (s : State) (t : ℝ) : Except Fault State := do
  expects dbg (t > 0)
  return { s with releaseRate := (← divT p s.sustainLevel (rnd p (t * s.sampleRate))), releaseTime := t }

/-- adsr.hpp 140-147. -/
noncomputable def setTarget (p q : ℕ) (dbg : Bool) (s : State) (t : ℝ) : Except Fault State := do
  let s := { s with target := clampTarget p q t }
  let s ← setSustainLevel dbg s s.target
  if s.value < s.target then return { s with phase := .attack }
  else if s.value > s.target then return { s with phase := .decay }
  else return s

/-- adsr.hpp 149-155. -/
noncomputable def setSampleRate (p : ℕ) (s : State) (rate : ℝ) : Except Fault State := do
  let old := s.sampleRate
  return { s with
    sampleRate := rate
    attackRate := (← divT p (rnd p (old * s.attackRate)) rate)
    decayRate := (← divT p (rnd p (old * s.decayRate)) rate)
    releaseRate := (← divT p (rnd p (old * s.releaseRate)) rate) }

/-- The switch of adsr.hpp 158-191. -/
noncomputable def tick (p : ℕ) (s : State) : State :=
  match s.phase with
  | .attack =>
    let v := rnd p (s.value + s.attackRate)
    if v ≥ s.target then { s with value := s.target, target := s.sustainLevel, phase := .decay }
    else { s with value := v }
  | .decay =>
    if s.value > s.sustainLevel then
      let v := rnd p (s.value - s.decayRate)
      if v ≤ s.sustainLevel then { s with value := s.sustainLevel, phase := .sustain }
      else { s with value := v }
    else
      let v := rnd p (s.value + s.decayRate)
      if v ≥ s.sustainLevel then { s with value := s.sustainLevel, phase := .sustain }
      else { s with value := v }
  | .release =>
    let v := rnd p (s.value - s.releaseRate)
    if v ≤ 0 then { s with value := 0, phase := .idle }
    else { s with value := v }
  | _ => s

/-- `operator()`, adsr.hpp 157-193. -/
noncomputable def call (p : ℕ) (s : State) (input : ℝ) : ℝ × State :=
  let s := tick p s
  (rnd p (s.value * input), s)

/-- `apply`, adsr.hpp 195-198. -/
noncomputable def apply (p : ℕ) : State → List ℝ → List ℝ × State
  | s, [] => ([], s)
  | s, x :: xs =>
    let (y, s) := call p s x
    let (ys, s) := apply p s xs
    (y :: ys, s)

/-- One operation, with the sample it returns; `keyOn` and the setters that only store are those of
Model/Envelopes.lean, there is nothing to round. -/
noncomputable def step (p q : ℕ) (dbg : Bool) (s : State) : Op → Except Fault (Option ℝ × State)
  | .keyOn => .ok (none, keyOn s)
  | .keyOff => do return (none, ← keyOff p s)
  | .sample x => .ok (some (call p s x).1, (call p s x).2)
  | .setAttackTarget t => do return (none, ← setAttackTarget p q dbg s t)
  | .setAttackRate r => do return (none, ← setAttackRate dbg s r)
  | .setDecayRate r => do return (none, ← setDecayRate dbg s r)
  | .setSustainLevel l => do return (none, ← setSustainLevel dbg s l)
  | .setReleaseRate r => do return (none, ← setReleaseRate dbg s r)
  | .setAttackTime t => do return (none, ← setAttackTime p q dbg s t)
  | .setDecayTime t => do return (none, ← setDecayTime p q dbg s t)
  | .setReleaseTime t => do return (none, ← setReleaseTime p dbg s t)
  | .setTarget t => do return (none, ← setTarget p q dbg s t)
  | .setSampleRate r => do return (none, ← setSampleRate p s r)

/-- A history of operations. -/
noncomputable def run (p q : ℕ) (dbg : Bool) : State → List Op → Except Fault State
  | s, [] => .ok s
  | s, op :: ops => do
    let (_, s) ← step p q dbg s op
    run p q dbg s ops

end Edsp.RoundedAdsr
