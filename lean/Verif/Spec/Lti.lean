import Mathlib.Algebra.Field.Defs

/-!
# Specification: second-order difference equations and transfer functions

Nothing here refers to the implementation of the filters.
-/

namespace Edsp.Spec

variable {K : Type*} [Field K]

/-- The sample of index `n` of a finite signal; samples of negative index are 0 (as are the
samples past the end, which no statement uses). -/
def sample (x : List K) (n : Int) : K := if 0 ≤ n then x.getD n.toNat 0 else 0

/-- `y` is the response to `x` of the second-order section with the given coefficients,
started at rest: `y[n] = b0 x[n] + b1 x[n-1] + b2 x[n-2] - a1 y[n-1] - a2 y[n-2]`. -/
def SolvesDifferenceEquation (a1 a2 b0 b1 b2 : K) (x y : List K) : Prop :=
  y.length = x.length ∧
  ∀ n : Nat, n < x.length →
    sample y n = b0 * sample x n + b1 * sample x (n - 1) + b2 * sample x (n - 2)
      - a1 * sample y (n - 1) - a2 * sample y (n - 2)

/-- Pointwise linear combination of two signals. -/
def lincomb (α β : K) (x y : List K) : List K := List.zipWith (fun u v => α * u + β * v) x y

end Edsp.Spec
