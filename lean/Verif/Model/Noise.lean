import Mathlib.Data.Real.Basic
import Mathlib.Algebra.Order.Floor.Ring
import Mathlib.Algebra.Order.Archimedean.Real.Basic

/-!
# Model: noise generators

The constants of the code are exact rationals here. `conv` is the conversion of a `double` result to the sample type
`T` on assignment: the identity for a floating type, truncation for an integer type. The white samples drawn are the
parameter `w`. An integer type is assumed wide enough for the values proved below.
-/

namespace Edsp.Noise

/-- Conversion of a `double` to an integer type on assignment: rounding towards zero. -/
noncomputable def truncate (x : ℝ) : ℝ := if 0 ≤ x then (⌊x⌋ : ℝ) else (⌈x⌉ : ℝ)

/-- random/noise/brown_noise_generator.hpp 47-52: the new `last_output_` and the returned sample. -/
noncomputable def brownStep (conv : ℝ → ℝ) (last white : ℝ) : ℝ × ℝ :=
  let last := conv (last + 2 / 100 * white)
  let last := conv (last / (102 / 100))
  (last, conv (35 / 10 * last))

/-- `last_output_` after the first `n` calls (it starts at 0, line 55). -/
noncomputable def brownState (conv : ℝ → ℝ) (w : ℕ → ℝ) : ℕ → ℝ
  | 0 => 0
  | n + 1 => (brownStep conv (brownState conv w n) (w n)).1

/-- The sample returned by call `n`. -/
noncomputable def brown (conv : ℝ → ℝ) (w : ℕ → ℝ) (n : ℕ) : ℝ := (brownStep conv (brownState conv w n) (w n)).2

/-- random/noise/pink_noise_generator.hpp 61-67: the seven memories. -/
structure Pink where
  b0 : ℝ
  b1 : ℝ
  b2 : ℝ
  b3 : ℝ
  b4 : ℝ
  b5 : ℝ
  b6 : ℝ

/-- random/noise/pink_noise_generator.hpp 47-58. -/
noncomputable def pinkStep (conv : ℝ → ℝ) (s : Pink) (white : ℝ) : Pink × ℝ :=
  let b0 := conv (99886 / 100000 * s.b0 + white * (555179 / 10000000))
  let b1 := conv (99332 / 100000 * s.b1 + white * (750759 / 10000000))
  let b2 := conv (96900 / 100000 * s.b2 + white * (1538520 / 10000000))
  let b3 := conv (86650 / 100000 * s.b3 + white * (3104856 / 10000000))
  let b4 := conv (55000 / 100000 * s.b4 + white * (5329522 / 10000000))
  let b5 := conv (-(7616 / 10000) * s.b5 - white * (168980 / 10000000))
  let output := conv ((b0 + b1 + b2 + b3 + b4 + b5 + s.b6 + white * (5362 / 10000)) * (11 / 100))
  let b6 := conv (white * (115926 / 1000000))
  (⟨b0, b1, b2, b3, b4, b5, b6⟩, output)

/-- The memories after the first `n` calls. -/
noncomputable def pinkState (conv : ℝ → ℝ) (w : ℕ → ℝ) : ℕ → Pink
  | 0 => ⟨0, 0, 0, 0, 0, 0, 0⟩
  | n + 1 => (pinkStep conv (pinkState conv w n) (w n)).1

/-- The sample returned by call `n`. -/
noncomputable def pink (conv : ℝ → ℝ) (w : ℕ → ℝ) (n : ℕ) : ℝ := (pinkStep conv (pinkState conv w n) (w n)).2

end Edsp.Noise
