import Verif.Model.RoundedConverters
import Verif.Spec.LibmExp
import Verif.Model.Numeric

/-!
# The converters of auditory scales in floating point arithmetic

include/edsp/auditory/converter for values of `p` bits (24: `float`, 53: `double`).  The literals of these functions are
of type `double`, so that the operations with them have 53 bits whatever `p`; the value returned is rounded to `p` bits.
Every operation is rounded; no overflow, no underflow.  The functions of the mathematical library are parameters.
-/

namespace Edsp.RndAud

open Edsp.Spec

/-- An operation or literal of type `double`. -/
noncomputable abbrev dbl (x : ℝ) : ℝ := rnd 53 x

/-- Floating point division in `double`; a zero divisor is a fault (the C++ result is not finite). -/
noncomputable def div (a b : ℝ) : Except Fault ℝ := if b = 0 then .error .divByZero else .ok (dbl (a / b))

/-- auditory/converter/hertz2mel.hpp 43-45; `L` is `std::log1p`. -/
noncomputable def hertz2mel (p : ℕ) (L : ℝ → ℝ) (f : ℝ) : Except Fault ℝ := do
  let x := dbl (f / 700)
  if x ≤ -1 then throw .domain
  return rnd p (dbl (dbl 1127.01048 * L x))

/-- auditory/converter/mel2hertz.hpp 42-44; `E` is `std::expm1`. -/
noncomputable def mel2hertz (p : ℕ) (E : ℝ → ℝ) (mel : ℝ) : ℝ :=
  rnd p (dbl (700 * E (dbl (mel / dbl 1127.01048))))

/-- auditory/converter/hertz2erb.hpp 41-43; `L` is `std::log10`. -/
noncomputable def hertz2erb (p : ℕ) (L : ℝ → ℝ) (f : ℝ) : Except Fault ℝ := do
  return rnd p (dbl (dbl 21.4 * (← RndConv.log10 L (dbl (1 + dbl (dbl (dbl 4.37 * f) / 1000))))))

/-- auditory/converter/erb2hertz.hpp 43-45; `P` is the power of ten. -/
noncomputable def erb2hertz (p : ℕ) (P : ℝ → ℝ) (erb : ℝ) : ℝ :=
  rnd p (dbl (dbl (dbl (P (dbl (erb / dbl 21.4)) - 1) * 1000) / dbl 4.37))

/-- `std::log`. -/
noncomputable def log (L : ℝ → ℝ) (x : ℝ) : Except Fault ℝ := if x ≤ 0 then .error .domain else .ok (L x)

/-- auditory/converter/hertz2cent.hpp 40, cent2hertz.hpp 40; `L` is `std::log` of `double`. -/
noncomputable def centP (p : ℕ) (L : ℝ → ℝ) : ℝ := rnd p (dbl (1200 / L 2))

/-- auditory/converter/hertz2cent.hpp 41, cent2hertz.hpp 41. -/
noncomputable def centQ (p : ℕ) (L : ℝ → ℝ) : ℝ := rnd p (dbl (5700 - dbl (centP p L * L 440)))

/-- auditory/converter/hertz2cent.hpp 39-43; `L` is `std::log` of `double`, `Lp` that of the argument's type. -/
noncomputable def hertz2cent (p : ℕ) (L Lp : ℝ → ℝ) (z : ℝ) : Except Fault ℝ := do
  return Num.sign z * rnd p (rnd p (centP p L * (← log Lp |z|)) + centQ p L)

/-- auditory/converter/cent2hertz.hpp 39-43; `E` is `std::exp`. -/
noncomputable def cent2hertz (p : ℕ) (L E : ℝ → ℝ) (c : ℝ) : ℝ :=
  Num.sign c * rnd p (E (rnd p (rnd p (|c| - centQ p L) / centP p L)))

/-- auditory/converter/hertz2bark.hpp 46-54. -/
noncomputable def hertz2bark (p : ℕ) (f : ℝ) : Except Fault ℝ := do
  let bark := dbl ((← div (dbl (dbl 26.81 * f)) (dbl (1960 + f))) - dbl 0.53)
  if bark < 2 then return rnd p (dbl (bark + dbl (dbl 0.15 * dbl (2 - bark))))
  else if bark > dbl 20.1 then return rnd p (dbl (bark + dbl (dbl 0.22 * dbl (bark - dbl 20.1))))
  else return rnd p bark

/-- auditory/converter/bark2hertz.hpp 48-53: the variable has the type of the argument. -/
noncomputable def barkOf (p : ℕ) (z : ℝ) : ℝ :=
  if z < 2 then rnd p (dbl (dbl (dbl (20 * z) - 6) / 17))
  else if z > dbl 20.1 then rnd p (dbl (dbl (dbl (50 * z) + dbl 221.1) / 61)) else z

/-- auditory/converter/bark2hertz.hpp 47-55. -/
noncomputable def bark2hertz (p : ℕ) (z : ℝ) : Except Fault ℝ := do
  return rnd p (← div (dbl (1960 * dbl (barkOf p z + dbl 0.53))) (dbl (dbl 26.28 - barkOf p z)))

end Edsp.RndAud
