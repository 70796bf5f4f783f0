import Verif.Spec.Float

/-!
# Element-wise functions in floating point arithmetic

Every operation rounded: `p` bits for the elements, `q` bits for the type in which an expression of mixed types is
computed (`double` for a `double` factor and `float` samples).  Comparisons, `std::floor` and `std::abs` are exact.  The
pointer arithmetic is that of `Verif.Model.Sequences`; here the range is a list.
-/

namespace Edsp.RndElem

open Edsp.Spec

/-- math/numeric.hpp 197-200: `x - std::floor(x)`. -/
noncomputable def fract (p : ℕ) (x : ℝ) : ℝ := rnd p (x - ⌊x⌋)

/-- math/numeric.hpp 217-220: `0.5 * x`, the constant a `double`, the result converted to the type of `x`. -/
noncomputable def half (p q : ℕ) (x : ℝ) : ℝ := rnd p (rnd q (1 / 2 * x))

/-- math/numeric.hpp 187-190. -/
noncomputable def square (p : ℕ) (x : ℝ) : ℝ := rnd p (x * x)

/-- math/numeric.hpp 207-210; `none` is a value that is not finite. -/
noncomputable def inv (p : ℕ) (x : ℝ) : Option ℝ := if x = 0 then none else some (rnd p (1 / x))

/-- math/numeric.hpp 287-293. -/
noncomputable def manhattan (p : ℕ) (x y : ℝ) : ℝ := rnd p (x - y)

/-- math/numeric.hpp 295-301. -/
noncomputable def euclidean (p : ℕ) (x y : ℝ) : ℝ := square p (rnd p (x - y))

/-- algorithm/amplifier.hpp 45-50: the product with `q` bits, stored with `p` bits. -/
noncomputable def amplify (p q : ℕ) (c : ℝ) (xs : List ℝ) : List ℝ := xs.map fun x => rnd p (rnd q (c * x))

/-- algorithm/amplifier.hpp 71-78. -/
noncomputable def amplifyClip (p q : ℕ) (c lo hi : ℝ) (xs : List ℝ) : List ℝ :=
  xs.map fun x => rnd p (if rnd q (c * x) < lo then lo else if hi < rnd q (c * x) then hi else rnd q (c * x))

/-- algorithm/clipper.hpp 41-47. -/
noncomputable def clip (p : ℕ) (lo hi : ℝ) (xs : List ℝ) : List ℝ :=
  xs.map fun x => rnd p (if x < lo then lo else if hi < x then hi else x)

/-- algorithm/derivative.hpp 45-48 (`std::adjacent_difference`). -/
noncomputable def derivative (p : ℕ) : List ℝ → List ℝ
  | [] => []
  | x :: xs => x :: List.zipWith (fun a b => rnd p (b - a)) (x :: xs) xs

end Edsp.RndElem
