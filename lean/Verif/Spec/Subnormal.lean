import Verif.Spec.Float

/-!
# Specification: rounding with gradual underflow
-/

namespace Edsp.Spec

/-- Rounding to `p` bits with the smallest positive number 2^e: below 2^(e+p-1) to the nearest multiple of 2^e
(`float`: p = 24, e = -149; `double`: p = 53, e = -1074).  No overflow. -/
noncomputable def rndSub (p : ℕ) (e : ℤ) (x : ℝ) : ℝ :=
  if |x| < 2 ^ (e + p - 1) then nearestEven (x / 2 ^ e) * 2 ^ e else rnd p x

end Edsp.Spec
