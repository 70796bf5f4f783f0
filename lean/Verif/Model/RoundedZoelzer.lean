import Verif.Model.RoundedRbj

/-!
# The Zoelzer designers in floating point arithmetic

include/edsp/filter/internal/zoelzer_designer.hpp, the three designs without a gain.  Parameters and coefficients are
numbers with `p` bits (24: `float`, 53: `double`), every operation is rounded, no fused operations, no overflow and no
underflow.  `std::tan` is a parameter `t`, total: near its poles it returns some number.
-/

namespace Edsp.RndZoelzer

open Edsp.Spec Edsp.RndWin

/-- `constants<T>::pi * fc / sample_rate`, zoelzer_designer.hpp 40, 55, 70. -/
noncomputable def angle (p : ℕ) (fc fs : ℝ) : Except Fault ℝ := div p (rnd p (RndRbj.pi p * fc)) fs

/-- `1 + K / Q + K * K` with its two quotients, zoelzer_designer.hpp 41, 56, 71; `kq` is `K / Q`, `kk` is `K * K`. -/
noncomputable def denominator (p : ℕ) (kq kk : ℝ) : ℝ := rnd p (rnd p (1 + kq) + kk)

/-- `2 * (K * K - 1) * norm`, zoelzer_designer.hpp 45, 60, 75. -/
noncomputable def first (p : ℕ) (kk norm : ℝ) : ℝ := rnd p (rnd p (2 * rnd p (kk - 1)) * norm)

/-- `(1 - K / Q + K * K) * norm`, zoelzer_designer.hpp 46, 61, 76. -/
noncomputable def second (p : ℕ) (kq kk norm : ℝ) : ℝ := rnd p (rnd p (rnd p (1 - kq) + kk) * norm)

/-- zoelzer_designer.hpp 38-48. -/
noncomputable def lowPass (p : ℕ) (t : ℝ → ℝ) (fc fs Q : ℝ) : Except Fault (Biquad ℝ) := do
  let K := t (← angle p fc fs)
  let kq ← div p K Q
  let kk := rnd p (K * K)
  let norm ← div p 1 (denominator p kq kk)
  let b0 := rnd p (kk * norm)
  RndRbj.ofCoeffs p 1 (first p kk norm) (second p kq kk norm) b0 (rnd p (2 * b0)) b0

/-- zoelzer_designer.hpp 53-63. -/
noncomputable def highPass (p : ℕ) (t : ℝ → ℝ) (fc fs Q : ℝ) : Except Fault (Biquad ℝ) := do
  let K := t (← angle p fc fs)
  let kq ← div p K Q
  let kk := rnd p (K * K)
  let norm ← div p 1 (denominator p kq kk)
  let b0 := rnd p (1 * norm)
  RndRbj.ofCoeffs p 1 (first p kk norm) (second p kq kk norm) b0 (rnd p (-2 * b0)) b0

/-- zoelzer_designer.hpp 68-78. -/
noncomputable def bandPass (p : ℕ) (t : ℝ → ℝ) (fc fs Q : ℝ) : Except Fault (Biquad ℝ) := do
  let K := t (← angle p fc fs)
  let kq ← div p K Q
  let kk := rnd p (K * K)
  let norm ← div p 1 (denominator p kq kk)
  let b0 := rnd p (kq * norm)
  RndRbj.ofCoeffs p 1 (first p kk norm) (second p kq kk norm) b0 0 (-b0)

end Edsp.RndZoelzer
