import Verif.Model.RoundedRbj

/-!
# The RBJ shelves in floating point arithmetic

include/edsp/filter/internal/rbj_designer.hpp 115-152, with numbers of `p` bits (24: `float`, 53: `double`).  Every
operation is rounded; no fused operations, no overflow, no underflow.  `std::sin` and `std::cos` are the parameters `s` and
`c`, the power `std::pow(10, ·)` is the parameter `P`.
-/

namespace Edsp.RndRbj

open Edsp.Spec Edsp.RndWin

/-- rbj_designer.hpp 118, 138: `std::sqrt(std::pow(10., gain_db / 20))`.  The quotient has `p` bits; the base is a `double`
or an integer, so the power and its root are computed in `double` and rounded to `p` bits by the initialization. -/
noncomputable def amplitude (p : ℕ) (P : ℝ → ℝ) (gainDb : ℝ) : ℝ :=
  rnd p (rnd 53 (Real.sqrt (P (rnd p (gainDb / 20)))))

/-- rbj_designer.hpp 122, 142: `std::sqrt(A) / Q`. -/
noncomputable def beta (p : ℕ) (A Q : ℝ) : Except Fault ℝ := div p (rnd p (Real.sqrt A)) Q

/-- rbj_designer.hpp 116-132. -/
noncomputable def lowShelf (p : ℕ) (s c P : ℝ → ℝ) (fc fs Q gainDb : ℝ) : Except Fault (Biquad ℝ) := do
  let A := amplitude p P gainDb
  let omega ← omega p fc fs
  let beta ← beta p A Q
  let bs := rnd p (beta * s omega)
  let plus := rnd p (A + 1)
  let minus := rnd p (A - 1)
  let mc := rnd p (minus * c omega)
  let pc := rnd p (plus * c omega)
  ofCoeffs p
    (rnd p (rnd p (plus + mc) + bs))
    (rnd p (-2 * rnd p (minus + pc)))
    (rnd p (rnd p (plus + mc) - bs))
    (rnd p (A * rnd p (rnd p (plus - mc) + bs)))
    (rnd p (rnd p (2 * A) * rnd p (minus - pc)))
    (rnd p (A * rnd p (rnd p (plus - mc) - bs)))

/-- rbj_designer.hpp 136-152. -/
noncomputable def highShelf (p : ℕ) (s c P : ℝ → ℝ) (fc fs Q gainDb : ℝ) : Except Fault (Biquad ℝ) := do
  let A := amplitude p P gainDb
  let omega ← omega p fc fs
  let beta ← beta p A Q
  let bs := rnd p (beta * s omega)
  let plus := rnd p (A + 1)
  let minus := rnd p (A - 1)
  let mc := rnd p (minus * c omega)
  let pc := rnd p (plus * c omega)
  ofCoeffs p
    (rnd p (rnd p (plus - mc) + bs))
    (rnd p (2 * rnd p (minus - pc)))
    (rnd p (rnd p (plus - mc) - bs))
    (rnd p (A * rnd p (rnd p (plus + mc) + bs)))
    (rnd p (rnd p (-2 * A) * rnd p (minus + pc)))
    (rnd p (A * rnd p (rnd p (plus + mc) - bs)))

end Edsp.RndRbj
