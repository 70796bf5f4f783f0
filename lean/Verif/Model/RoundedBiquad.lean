import Verif.Model.Biquad
import Verif.Spec.Float

/-!
# `biquad` and `biquad_cascade` in floating point arithmetic

The same functions as in `Verif.Model.Biquad`, every operation followed by a rounding `R` (`float` and `double`
evaluated to their own precision in the order written, no fused operations).
-/

namespace Edsp.Rounded

open Edsp.Spec

/-- biquad.hpp 326-331: the new filter state and the output sample. -/
def biquadTick (R : ℝ → ℝ) (f : Biquad ℝ) (value : ℝ) : Biquad ℝ × ℝ :=
  let out := R (R (f.b0 * value) + f.w0)
  let w0' := R (R (R (f.b1 * value) - R (f.a1 * out)) + f.w1)
  let w1' := R (R (f.b2 * value) - R (f.a2 * out))
  ({ f with w0 := w0', w1 := w1' }, out)

/-- The state after `n` calls of `tick` (biquad.hpp 326-331) on the signal `x`. -/
def biquadState (R : ℝ → ℝ) (f : Biquad ℝ) (x : ℕ → ℝ) : ℕ → Biquad ℝ
  | 0 => f
  | n + 1 => (biquadTick R (biquadState R f x n) (x n)).1

/-- The value returned by the call of `tick` number `n` on the signal `x`. -/
def biquadResponse (R : ℝ → ℝ) (f : Biquad ℝ) (x : ℕ → ℝ) (n : ℕ) : ℝ :=
  (biquadTick R (biquadState R f x n) (x n)).2

/-- biquad.hpp 277-279 (and `operator bool`, 334-336). -/
noncomputable def biquadStability (R : ℝ → ℝ) (f : Biquad ℝ) : Bool :=
  decide (|f.a2| < 1) && decide (|f.a1| < R (1 + f.a2))

/-- biquad_cascade.hpp 209-214 (`tick`), 218-222 (`filter`): the output of each active stage is the input of the next. -/
def cascadeResponse (R : ℝ → ℝ) : List (Biquad ℝ) → (ℕ → ℝ) → ℕ → ℝ
  | [], x => x
  | f :: fs, x => cascadeResponse R fs (biquadResponse R f x)

end Edsp.Rounded
