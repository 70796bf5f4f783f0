import Verif.Spec.Oscillators

/-!
# Specification: a tone that is changed while it sounds

The tone has a position in its period.  Each sample reads the waveform at the position and moves it on by the current
frequency over the current sample rate; changing a setting moves nothing.
-/

namespace Edsp.Spec

/-- What can happen to a sounding tone; `shape` is the phase shift of a sine and the width of a sawtooth. -/
inductive Knob
  | sample
  | frequency (f : ℝ)
  | amplitude (a : ℝ)
  | shape (v : ℝ)
  | rate (r : ℝ)
  | restart

/-- A sounding tone. -/
structure Tone where
  amplitude : ℝ
  rate : ℝ
  frequency : ℝ
  shape : ℝ
  position : ℝ

/-- One event: the sample, if any, and the tone afterwards; `wave shape position` is the waveform. -/
noncomputable def Tone.step (wave : ℝ → ℝ → ℝ) (t : Tone) : Knob → Option ℝ × Tone
  | .sample => (some (t.amplitude * wave t.shape t.position), { t with position := t.position + t.frequency / t.rate })
  | .frequency f => (none, { t with frequency := f })
  | .amplitude a => (none, { t with amplitude := a })
  | .shape v => (none, { t with shape := v })
  | .rate r => (none, { t with rate := r })
  | .restart => (none, { t with position := 0 })

/-- The samples of a sequence of events. -/
noncomputable def Tone.samples (wave : ℝ → ℝ → ℝ) : Tone → List Knob → List ℝ
  | _, [] => []
  | t, k :: ks => (t.step wave k).1.toList ++ Tone.samples wave (t.step wave k).2 ks

/-- A linear sweep: before sample `i`, at the time `i / r`, the frequency is set to `f + c (i / r)`. -/
noncomputable def sweep (r f c : ℝ) (n : ℕ) : List Knob :=
  (List.range n).flatMap fun i : ℕ => [.frequency (f + c * (i / r)), .sample]

end Edsp.Spec
