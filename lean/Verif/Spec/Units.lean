import Verif.Model.Oscillators
import Verif.Model.Envelopes

/-!
# Specification: a change of the unit of time

Every rate and every frequency becomes `c` times as large, every time `1 / c` times as large.
-/

namespace Edsp.Spec

/-- What a user of an object receives during a history of calls, and the fault with which it ends, if any. -/
def heard {σ ω : Type} (step : σ → ω → Except Fault (Option ℝ × σ)) : σ → List ω → List ℝ × Option Fault
  | _, [] => ([], none)
  | s, op :: ops =>
    match step s op with
    | .error e => ([], some e)
    | .ok (x, s') => (x.toList ++ (heard step s' ops).1, (heard step s' ops).2)

/-- A call of a member function of an oscillator in the other unit. -/
noncomputable def oscUnit (c : ℝ) : Osc.Op → Osc.Op
  | .setFrequency f => .setFrequency (c * f)
  | .setTimestamp t => .setTimestamp (t / c)
  | .setSampleRate r => .setSampleRate (c * r)
  | op => op

/-- An oscillator in the other unit; the duty of a square wave is kept as a time, the width of a sawtooth as a fraction. -/
noncomputable def oscState (c : ℝ) (k : Osc.Kind) (s : Osc.State) : Osc.State :=
  { s with
    timestamp := s.timestamp / c
    sampleRate := c * s.sampleRate
    samplingPeriod := s.samplingPeriod.map (· / c)
    frequency := c * s.frequency
    inverseFrequency := s.inverseFrequency.map (· / c)
    shape := match k with
      | .square => s.shape / c
      | _ => s.shape }

/-- A call of a member function of an ADSR envelope in the other unit; its rates are steps per sample and have no unit. -/
noncomputable def adsrUnit (c : ℝ) : Env.Adsr.Op → Env.Adsr.Op
  | .setAttackTime t => .setAttackTime (t / c)
  | .setDecayTime t => .setDecayTime (t / c)
  | .setReleaseTime t => .setReleaseTime (t / c)
  | .setSampleRate r => .setSampleRate (c * r)
  | op => op

/-- The calls with which a user prepares an ADSR envelope: the sample rate and the three times. -/
def adsrTimes (r attack decay release : ℝ) : List Env.Adsr.Op :=
  [.setSampleRate r, .setAttackTime attack, .setDecayTime decay, .setReleaseTime release]

/-- A call of a member function of an attack/release follower in the other unit. -/
noncomputable def arUnit (c : ℝ) : Env.Ar.Op → Env.Ar.Op
  | .setAttackTime t => .setAttackTime (t / c)
  | .setReleaseTime t => .setReleaseTime (t / c)
  | .setSampleRate r => .setSampleRate (c * r)
  | op => op

/-- One operation of a follower, with the sample it returns. -/
noncomputable def arStep (tiny : ℝ) (s : Env.Ar.State) (op : Env.Ar.Op) : Except Fault (Option ℝ × Env.Ar.State) := do
  let s' ← Env.Ar.step tiny s op
  return (match op with
    | .sample x => some (Env.Ar.call tiny s x).1
    | _ => none, s')

end Edsp.Spec
