import Verif.Spec.Float

/-!
# Statistics and sequences in floating point arithmetic

Every operation rounded to `p` bits, no fused operations.  The elements are numbers with `p` bits; the pointer arithmetic
is that of `Verif.Model.Statistics` and `Verif.Model.Sequences`.
-/

namespace Edsp.Rounded

open Edsp.Spec

/-- `std::accumulate` from `init`. -/
noncomputable def accumulate (p : ℕ) (init : ℝ) (xs : List ℝ) : ℝ := xs.foldl (fun s x => rnd p (s + x)) init

/-- A quotient; `none` if it is not finite. -/
noncomputable def quotient (p : ℕ) (a b : ℝ) : Option ℝ := if b = 0 then none else some (rnd p (a / b))

/-- statistics/mean.hpp 43-48. -/
noncomputable def mean (p : ℕ) (xs : List ℝ) : Option ℝ := quotient p (accumulate p 0 xs) (rnd p (xs.length : ℝ))

/-- feature/temporal/energy.hpp 45-49: `std::inner_product`. -/
noncomputable def energy (p : ℕ) (xs : List ℝ) : ℝ := xs.foldl (fun s x => rnd p (s + rnd p (x * x))) 0

/-- feature/temporal/power.hpp 43-48. -/
noncomputable def power (p : ℕ) (xs : List ℝ) : Option ℝ := quotient p (energy p xs) (rnd p (xs.length : ℝ))

/-- statistics/moment.hpp 46-58 with N = 2: squares of the differences to the mean. -/
noncomputable def squares (p : ℕ) (m : ℝ) (xs : List ℝ) : ℝ :=
  xs.foldl (fun s x => rnd p (s + rnd p (rnd p (x - m) * rnd p (x - m)))) 0

/-- statistics/variance.hpp 43-46 (moment.hpp 71-76). -/
noncomputable def variance (p : ℕ) (xs : List ℝ) : Option ℝ :=
  (mean p xs).bind fun m => quotient p (squares p m xs) (rnd p (xs.length : ℝ))

/-- algorithm/normalize.hpp 45-52: every element divided by the largest absolute value (`std::abs` and comparisons are
exact; `none` is a value that is not finite). -/
noncomputable def normalize (p : ℕ) (xs : List ℝ) : List (Option ℝ) :=
  xs.map fun x => quotient p x (xs.foldl (fun a x => if a < |x| then |x| else a) 0)

/-- algorithm/linspace.hpp 39-49, the increment. -/
noncomputable def increment (p : ℕ) (x1 x2 : ℝ) (N : ℕ) : Option ℝ :=
  quotient p (rnd p (x2 - x1)) (rnd p (rnd p (N : ℝ) - 1))

/-- algorithm/linspace.hpp 46: the values of `_x1` in the loop. -/
noncomputable def points (p : ℕ) (x1 inc : ℝ) : ℕ → ℝ
  | 0 => x1
  | i + 1 => rnd p (points p x1 inc i + inc)

/-- algorithm/linspace.hpp 39-49: the values stored, for an increment that is finite.  `i` is an `int` that is converted
for the comparison with `size`, itself a converted number; the comparison fails at the latest for `i = N`. -/
noncomputable def linspace (p : ℕ) (x1 x2 : ℝ) (N : ℕ) : Option (List ℝ) :=
  (increment p x1 x2 N).map fun inc =>
    ((List.range N).takeWhile fun i => decide (rnd p ((i : ℕ) : ℝ) < rnd p (N : ℝ))).map (points p x1 inc)

end Edsp.Rounded
