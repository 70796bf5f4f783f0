import Mathlib.Algebra.Order.Field.Basic

/-!
# Specification of the descriptive statistics

The textbook definitions as sums over the sample.
-/

namespace Edsp.Spec
variable {K : Type} [Field K]

/-- Arithmetic mean. -/
def avg (l : List K) : K := l.sum / (l.length : K)

/-- Mean of a function of the sample. -/
def avgOf (f : K → K) (l : List K) : K := avg (l.map f)

/-- n-th central moment: the mean of the n-th powers of the deviations from the mean. -/
def centralMoment (n : Nat) (l : List K) : K := avgOf (fun x => (x - avg l) ^ n) l

end Edsp.Spec
