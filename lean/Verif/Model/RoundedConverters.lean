import Verif.Model.RoundedRbj
import Verif.Spec.LibmLog

/-!
# The converters of angles and levels in floating point arithmetic

include/edsp/converter/{deg2rad,rad2deg,mag2db,pow2db,db2mag,db2pow}.hpp with numbers of `p` bits (24: `float`,
53: `double`).  Every operation is rounded; no overflow, no underflow.  `std::log10` is the parameter `L`, the power
`std::pow(10, ·)` the parameter `P`.
-/

namespace Edsp.RndConv

open Edsp.Spec

/-- converter/deg2rad.hpp 41-43. -/
noncomputable def deg2rad (p : ℕ) (x : ℝ) : ℝ := rnd p (rnd p (x * RndRbj.pi p) / 180)

/-- converter/rad2deg.hpp 41-43. -/
noncomputable def rad2deg (p : ℕ) (x : ℝ) : ℝ := rnd p (rnd p (x / RndRbj.pi p) * 180)

/-- `std::log10`: an argument that is not positive is outside of the domain. -/
noncomputable def log10 (L : ℝ → ℝ) (x : ℝ) : Except Fault ℝ := if x ≤ 0 then .error .domain else .ok (L x)

/-- converter/mag2db.hpp 41-44: the check of line 42 is an assertion that disappears in a release build. -/
noncomputable def mag2db (p : ℕ) (L : ℝ → ℝ) (dbg : Bool) (x : ℝ) : Except Fault ℝ := do
  if dbg ∧ ¬ 0 < x then throw .assertion
  return rnd p (20 * (← log10 L x))

/-- converter/pow2db.hpp 41-44. -/
noncomputable def pow2db (p : ℕ) (L : ℝ → ℝ) (dbg : Bool) (x : ℝ) : Except Fault ℝ := do
  if dbg ∧ ¬ 0 < x then throw .assertion
  return rnd p (10 * (← log10 L x))

/-- converter/db2mag.hpp 39-41: the power is computed in the type of the argument, its result `P …` is rounded to it. -/
noncomputable def db2mag (p : ℕ) (P : ℝ → ℝ) (db : ℝ) : ℝ := rnd p (P (rnd p (db / 20)))

/-- converter/db2pow.hpp 39-41: the base is the integer 10, so the power of a `float` is computed in `double` and
rounded to `float` on return. -/
noncomputable def db2pow (p : ℕ) (P : ℝ → ℝ) (db : ℝ) : ℝ := rnd p (P (rnd p (db / 10)))

end Edsp.RndConv
