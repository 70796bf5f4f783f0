import Verif.Model.Fault
import Mathlib.Analysis.Complex.Basic
import Mathlib.Analysis.SpecialFunctions.Trigonometric.Basic

/-!
# Model of `edsp::filter::freq` (filter.hpp 169-194)

Coefficients are exact real numbers, the output exact complex numbers, `K` a natural number. The
coefficient ranges are lists; the iterators never leave them except for the unconditional `*b_first` and
`*a_first` on an empty range.
-/

namespace Edsp.Freq

/-- The loop of filter.hpp 180-183 (and 187-190): coefficient number `m` and the following ones are added
to the accumulator. -/
noncomputable def loop (k K : ℕ) : List ℝ → ℕ → ℂ → ℂ
  | [], _, acc => acc
  | c :: cs, m, acc =>
    let rad : ℝ := m * Real.pi * k / K
    loop k K cs (m + 1) (acc + c * ((Real.cos rad : ℂ) - Complex.I * (Real.sin rad : ℂ)))

/-- filter.hpp 178-183 and 185-190: the first coefficient is read before the loop. -/
noncomputable def evalAt (c : List ℝ) (k K : ℕ) : Except Fault ℂ :=
  match c with
  | [] => .error .outOfBounds
  | c0 :: cs => .ok (loop k K cs 1 c0)

open Classical in
/-- The body of the loop over `k`, filter.hpp 178-192. -/
noncomputable def point (b a : List ℝ) (K k : ℕ) : Except Fault ℂ := do
  let n ← evalAt b k K
  let d ← evalAt a k K
  if d = 0 then .error .divByZero else .ok (n / d)

/-- filter.hpp 169-194: the values written from `d_first` on. -/
noncomputable def freq (b a : List ℝ) (K : ℕ) : Except Fault (List ℂ) :=
  (List.range K).mapM (point b a K)

end Edsp.Freq
