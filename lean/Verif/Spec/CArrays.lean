import Mathlib.Analysis.Complex.Basic

/-!
# Specification: what the arrays of a C program hold

Independent of the model.  The cells of the memory are real numbers; `complex_t` is an array of two of them, the
real and the imaginary part (bindings/c/include/cedsp/types.h 32).
-/

namespace Edsp.Spec

/-- The array of real numbers at `a` begins with the numbers `x`. -/
def HoldsReal (m : List ℝ) (a : ℕ) (x : List ℝ) : Prop := ∀ i v, x[i]? = some v → m[a + i]? = some v

/-- The array of complex numbers at `a` begins with the numbers `z`. -/
def HoldsComplex (m : List ℝ) (a : ℕ) (z : List ℂ) : Prop :=
  ∀ i v, z[i]? = some v → m[a + 2 * i]? = some v.re ∧ m[a + 2 * i + 1]? = some v.im

/-- `m'` differs from `m` at most in the cells that meet `P`. -/
def OnlyIn (P : ℕ → Prop) (m m' : List ℝ) : Prop := m'.length = m.length ∧ ∀ j, ¬ P j → m'[j]? = m[j]?

end Edsp.Spec
