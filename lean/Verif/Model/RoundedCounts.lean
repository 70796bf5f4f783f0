import Verif.Model.RoundedSums
import Verif.Model.RoundedConverters

/-!
# Roll-off, zero crossings, durations and levels in floating point arithmetic

Every operation rounded, no fused operations, no overflow, no underflow; `none` is a result that is not finite (or, in a
debug build, a failed assertion).
-/

namespace Edsp.Rounded

open Edsp.Spec

/-- The loop of feature/statistics/rolloff.hpp 50-53: the number of steps made.  The comparison is exact. -/
noncomputable def rolloffSteps (p : ℕ) (limit : ℝ) : ℝ → List ℝ → ℕ
  | _, [] => 0
  | acc, x :: xs => if acc ≤ limit then rolloffSteps p limit (rnd p (acc + rnd p (x * x))) xs + 1 else 0

/-- feature/statistics/rolloff.hpp 44-55; the elements have `p` bits, the product with the percentage has `q`. -/
noncomputable def rolloff (p q : ℕ) (xs : List ℝ) (percentage : ℝ) : Option ℝ :=
  let limit := rnd q (percentage * energy p xs)
  quotient p (rnd p (((rolloffSteps p limit 0 xs : ℤ) - 1 : ℤ) : ℝ)) (rnd p (xs.length : ℝ))

/-- math/numeric.hpp 155-157. -/
noncomputable def sign (x : ℝ) : ℝ := if x < 0 then -1 else 1

/-- The loop of feature/temporal/azcr.hpp 55-57, with the element before `first`. -/
noncomputable def crossings (p : ℕ) : ℝ → ℝ → List ℝ → ℝ
  | acc, _, [] => acc
  | acc, prev, x :: xs => crossings p (rnd p (acc + if sign x ≠ sign prev then 1 else 0)) x xs

/-- feature/temporal/azcr.hpp 51-59 (`std::next(first)` of an empty range is undefined). -/
noncomputable def azcr (p : ℕ) : List ℝ → Option ℝ
  | [] => none
  | x :: xs => quotient p (crossings p 0 x xs) (rnd p (xs.length : ℝ))

/-- feature/temporal/duration.hpp 42-45: the length has the `p` bits of the elements, the quotient `q` bits. -/
noncomputable def duration (p q : ℕ) (xs : List ℝ) (rate : ℝ) : Option ℝ := quotient q (rnd p (xs.length : ℝ)) rate

/-- statistics/max.hpp 50-54: no rounding. -/
noncomputable def largest (xs : List ℝ) : ℝ := xs.foldl (fun a x => if a < |x| then |x| else a) 0

/-- feature/temporal/duration.hpp 60-66; the product with the threshold has `q` bits. -/
noncomputable def effectiveDuration (p q : ℕ) (xs : List ℝ) (rate threshold : ℝ) : Option ℝ :=
  let limit := rnd q (threshold * largest xs)
  quotient p (rnd p ((xs.countP fun x => decide (limit < |x|) : ℕ) : ℝ)) (rnd p rate)

/-- feature/temporal/leq.hpp 43-46. -/
noncomputable def leq (p : ℕ) (L : ℝ → ℝ) (dbg : Bool) (xs : List ℝ) : Option ℝ :=
  (power p xs).bind fun e => (RndConv.pow2db p L dbg e).toOption

end Edsp.Rounded
