/-!
# Specification: one-dimensional numpy arrays

The memory layout documented by numpy: an array refers to a block of items through the position of its first
element, its shape and its strides (here in items of 64 bits).  Slices such as `x[::2]` and `x[::-1]` refer to
the block of `x`.  Independent of the model of the bindings.
-/

namespace Edsp.Spec

/-- An item of 64 bits: a floating point number or a signed integer (`float64`, `int64`). -/
inductive Word where
  | real (x : Rat)
  | int (k : Int)

/-- The number an item stands for. -/
def Word.num : Word → Rat
  | .real x => x
  | .int k => k

/-- An array. -/
structure Ndarray where
  block : List Word
  data : Int
  shape : List Nat
  strides : List Int

/-- `l` are the elements of the one-dimensional array `a`, as the user sees them. -/
def Elements (a : Ndarray) (l : List Rat) : Prop :=
  ∃ s, a.shape = [l.length] ∧ a.strides = [s] ∧
    ∀ (i : Nat) (v : Rat), l[i]? = some v →
      ∃ (p : Nat) (w : Word), (p : Int) = a.data + i * s ∧ a.block[p]? = some w ∧ w.num = v

/-- The array is of floating point type. -/
def Floats (a : Ndarray) : Prop := ∀ w ∈ a.block, ∃ x, w = .real x

/-- The elements of the array follow each other in memory. -/
def Contiguous (a : Ndarray) : Prop := a.strides = [1]

end Edsp.Spec
