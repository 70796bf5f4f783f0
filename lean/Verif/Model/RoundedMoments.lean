import Verif.Model.RoundedFeatures

/-!
# Moments and difference functions in floating point arithmetic

Every operation rounded to `p` bits, no fused operations, no overflow, no underflow; `none` is a result that is not finite.
-/

namespace Edsp.Rounded

open Edsp.Spec

/-- statistics/moment.hpp 36-42 with `k` multiplications: `nthPower<k + 1>`. -/
noncomputable def nthPower (p : ℕ) (x : ℝ) : ℕ → ℝ
  | 0 => x
  | k + 1 => rnd p (nthPower p x k * x)

/-- statistics/moment.hpp 44-58 and 88-92 (`N` from 1 on). -/
noncomputable def moment (p N : ℕ) (xs : List ℝ) (m : ℝ) : Option ℝ :=
  quotient p (xs.foldl (fun s x => rnd p (s + nthPower p (rnd p (x - m)) (N - 1))) 0) (rnd p (xs.length : ℝ))

/-- statistics/skewness.hpp 47-52. -/
noncomputable def skewness (p : ℕ) (xs : List ℝ) : Option ℝ :=
  (mean p xs).bind fun m => (moment p 3 xs m).bind fun m3 => (moment p 2 xs m).bind fun m2 =>
    (root p m2).bind fun r => quotient p m3 (rnd p (m2 * r))

/-- statistics/kurtosis.hpp 47-52. -/
noncomputable def kurtosis (p : ℕ) (xs : List ℝ) : Option ℝ :=
  (mean p xs).bind fun m => (moment p 4 xs m).bind fun m4 => (moment p 2 xs m).bind fun m2 =>
    quotient p m4 (rnd p (m2 * m2))

/-- feature/temporal/rms.hpp 43-47; the sum starts with 1. -/
noncomputable def rms (p : ℕ) (xs : List ℝ) : Option ℝ :=
  (quotient p (xs.foldl (fun s x => rnd p (s + rnd p (x * x))) 1) (rnd p (xs.length : ℝ))).bind (root p)

/-- feature/temporal/amdf.hpp 55-61, the value stored for the lag `i < N`; the ranges are those of
`Verif.Model.Features`. -/
noncomputable def amdf (p : ℕ) (xs : List ℝ) (i : ℕ) : Option ℝ :=
  quotient p ((List.range (xs.length - i)).foldl (fun s j => rnd p (s + |rnd p (xs.getD j 0 - xs.getD (j + i) 0)|)) 0)
    (rnd p (xs.length : ℝ))

/-- feature/temporal/asdf.hpp 69-75, the value stored for the lag `i < N`. -/
noncomputable def asdf (p : ℕ) (xs : List ℝ) (i : ℕ) : Option ℝ :=
  quotient p ((List.range (xs.length - i)).foldl (fun s j =>
      let d := rnd p (xs.getD j 0 - xs.getD (j + i) 0)
      rnd p (s + rnd p (d * d))) 0) (rnd p (xs.length : ℝ))

end Edsp.Rounded
