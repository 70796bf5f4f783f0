import Verif.Model.RoundedBiquad
import Verif.Model.RoundedWindows

/-!
# The RBJ designers in floating point arithmetic

include/edsp/filter/internal/rbj_designer.hpp, the four designs without a gain.  Parameters and coefficients are numbers
with `p` bits (24: `float`, 53: `double`), every operation is rounded, no fused operations, no overflow and no underflow.
`std::sin` and `std::cos` are parameters `s` and `c`.  The two shelves follow in
`Verif.Model.RoundedShelves`.
-/

namespace Edsp.RndRbj

open Edsp.Spec Edsp.RndWin

/-- math/constant.hpp 44. -/
noncomputable def pi (p : ℕ) : ℝ := lit p 3.141592653589793238462643383279502884

/-- `2 * constants<T>::pi * fc / sample_rate`, rbj_designer.hpp 39, 59, 79, 99. -/
noncomputable def omega (p : ℕ) (fc fs : ℝ) : Except Fault ℝ := div p (rnd p (rnd p (2 * pi p) * fc)) fs

/-- `omega_s / (2 * Q)`, rbj_designer.hpp 42, 62, 82, 102. -/
noncomputable def alpha (p : ℕ) (sine Q : ℝ) : Except Fault ℝ := div p sine (rnd p (2 * Q))

/-- The constructor biquad.hpp 223-230 (Biquad.ofCoeffs), each quotient rounded. -/
noncomputable def ofCoeffs (p : ℕ) (a0 a1 a2 b0 b1 b2 : ℝ) : Except Fault (Biquad ℝ) := do
  return { b2 := ← div p b2 a0, b1 := ← div p b1 a0, b0 := ← div p b0 a0, a2 := ← div p a2 a0, a1 := ← div p a1 a0,
           a0 := 1, w0 := 0, w1 := 0 }

/-- rbj_designer.hpp 37-52. -/
noncomputable def lowPass (p : ℕ) (s c : ℝ → ℝ) (fc fs Q : ℝ) : Except Fault (Biquad ℝ) := do
  let omega ← omega p fc fs
  let alpha ← alpha p (s omega) Q
  let b0 := rnd p (rnd p (1 - c omega) / 2)
  ofCoeffs p (rnd p (1 + alpha)) (rnd p (-2 * c omega)) (rnd p (1 - alpha)) b0 (rnd p (1 - c omega)) b0

/-- rbj_designer.hpp 57-72. -/
noncomputable def highPass (p : ℕ) (s c : ℝ → ℝ) (fc fs Q : ℝ) : Except Fault (Biquad ℝ) := do
  let omega ← omega p fc fs
  let alpha ← alpha p (s omega) Q
  let b0 := rnd p (rnd p (1 + c omega) / 2)
  ofCoeffs p (rnd p (1 + alpha)) (rnd p (-2 * c omega)) (rnd p (1 - alpha)) b0 (-rnd p (1 + c omega)) b0

/-- rbj_designer.hpp 77-92. -/
noncomputable def bandPass (p : ℕ) (s c : ℝ → ℝ) (fc fs Q : ℝ) : Except Fault (Biquad ℝ) := do
  let omega ← omega p fc fs
  let alpha ← alpha p (s omega) Q
  ofCoeffs p (rnd p (1 + alpha)) (rnd p (-2 * c omega)) (rnd p (1 - alpha)) (rnd p (Q * alpha)) 0 (rnd p (-Q * alpha))

/-- rbj_designer.hpp 97-112. -/
noncomputable def allPass (p : ℕ) (s c : ℝ → ℝ) (fc fs Q : ℝ) : Except Fault (Biquad ℝ) := do
  let omega ← omega p fc fs
  let alpha ← alpha p (s omega) Q
  let a0 := rnd p (1 + alpha)
  let a1 := rnd p (-2 * c omega)
  let a2 := rnd p (1 - alpha)
  ofCoeffs p a0 a1 a2 a2 a1 a0

end Edsp.RndRbj
