import Verif.Model.Converters

/-!
# Model of the auditory functions of the Python package

bindings/python/src/auditory.cpp.  The converters pass the number on unchanged and are those of
`Verif.Model.Converters`; here are the four functions that return an array.  A Python caller sees one of three ends:
an array, an exception, or the end of the interpreter (`std::terminate` when an exception leaves a `noexcept`
function).
-/

namespace Edsp.PyAud

/-- What a call from Python ends in. -/
inductive Outcome where
  | array (xs : List ℝ)
  | raised
  | terminated

/-- Boost.NumPy: `bn::empty(1, shape, …)` of `size` elements.  A negative shape is refused by NumPy and thrown as
`error_already_set` (`none`); `junk` is what the fresh memory happens to hold. -/
def empty (junk : Nat → ℝ) (size : Int) : Option (List ℝ) :=
  if size < 0 then none else some ((List.range size.toNat).map junk)

/-- bindings/python/src/auditory.cpp 39-46: the template is `noexcept`, so that an exception of `bn::empty`
(line 42) calls `std::terminate`. -/
noncomputable def generate (g : ℝ → Except Fault ℝ) (junk : Nat → ℝ) (lo hi : ℝ) (size : Int) :
    Except Fault Outcome :=
  match empty junk size with
  | none => .ok .terminated
  | some m => do return .array (← Conv.audSpace g m 0 size.toNat lo hi)

/-- auditory.cpp 92-94. -/
noncomputable def melspace := generate Conv.hertz2mel

/-- auditory.cpp 80-82. -/
noncomputable def erbspace := generate Conv.hertz2erb

/-- auditory.cpp 84-86. -/
noncomputable def barkspace := generate Conv.hertz2bark

/-- auditory.cpp 88-90. -/
noncomputable def centspace := generate Conv.hertz2cent

end Edsp.PyAud
