import Mathlib.Data.Rat.Floor
import Mathlib.Algebra.Order.Floor.Ring
import Mathlib.Data.Real.Basic

/-!
# Signed integer types of `w` bits, and fractions cut off towards zero
-/

namespace Edsp.Spec

/-- `x` is a value of the signed integer type of `w` bits. -/
def Fits (w : Nat) (x : Int) : Prop := -2 ^ (w - 1) ≤ x ∧ x < 2 ^ (w - 1)

instance (w : Nat) (x : Int) : Decidable (Fits w x) := inferInstanceAs (Decidable (_ ∧ _))

/-- The smallest value of the type. -/
def lowest (w : Nat) : Int := -2 ^ (w - 1)

/-- The integer part of a number, towards zero. -/
def cut (q : ℚ) : Int := if 0 ≤ q then ⌊q⌋ else ⌈q⌉

/-- `i` is the real number `r` without its fraction. -/
def IsCut (r : ℝ) (i : Int) : Prop := |r - i| < 1 ∧ |(i : ℝ)| ≤ |r|

/-- `f` of all pairs of neighbours. -/
def neighbours (f : Int → Int → Int) : List Int → List Int
  | x :: y :: l => f x y :: neighbours f (y :: l)
  | _ => []

/-- The mean of integers, fraction dropped. -/
def intMean (l : List Int) : Int := cut ((l.sum : ℚ) / l.length)

/-- The largest absolute value. -/
def IsMaxAbs (l : List Int) (m : Int) : Prop := (∃ x ∈ l, |x| = m) ∧ ∀ x ∈ l, |x| ≤ m

/-- The sum of the squares. -/
def sumSquares (l : List Int) : Int := (l.map fun x => x * x).sum

/-- `y` is the root mean square of the samples without its fraction. -/
def IsFloorRms (l : List Int) (y : Int) : Prop :=
  0 ≤ y ∧ l.length * (y * y) ≤ sumSquares l ∧ sumSquares l < l.length * ((y + 1) * (y + 1))

end Edsp.Spec
