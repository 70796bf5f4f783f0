import Mathlib.Analysis.Complex.Basic

/-!
# Specification: numpy arrays of floating point and of complex numbers

The memory layout documented by numpy for contiguous one-dimensional arrays of type `float64` and `complex128`:
a complex number takes two cells of 64 bits, its real and its imaginary part.  Independent of the model.
-/

namespace Edsp.Spec

/-- A contiguous one-dimensional array: its type (`complex128` or `float64`) and its memory. -/
structure Nums where
  cplx : Bool
  cells : List ℝ

/-- The array `numpy.array(x, dtype=float)`. -/
def floats (x : List ℝ) : Nums := ⟨false, x⟩

/-- The array `numpy.array(z, dtype=complex)`. -/
def complexes (z : List ℂ) : Nums := ⟨true, z.flatMap fun v => [v.re, v.im]⟩

end Edsp.Spec
