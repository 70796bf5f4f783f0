import Verif.Model.Sequences
import Verif.Model.PyBindings

/-!
# Model of the Python functions that return a new array

bindings/python/src/algorithm.cpp and windowing.cpp.  The new array is made by `bn::empty`: `mem` is what its
memory holds, which can be anything.  Input arrays are contiguous and of floating point type (`C84` has the others).
-/

namespace Edsp.PyCreate

/-- `bn::empty(1, shape, …)`: a negative dimension is a `ValueError`. -/
def empty (mem : Nat → ℝ) (k : Int) : Except Fault (List ℝ) :=
  if k < 0 then .error .exception else .ok ((List.range k.toNat).map mem)

/-- The conversion to `int` at the call of a C function. -/
def toInt (k : Int) : Int := (k + 2147483648) % 4294967296 - 2147483648

/-- `input, input + size` for a size of type `int`; a negative one is an address before the array. -/
def end_ (first : Nat) (n : Int) : Except Fault Nat :=
  if n < 0 then .error .outOfBounds else .ok (first + n.toNat)

/-- `execute_inplace` (algorithm.cpp 28-41) with a function of bindings/c/src/algorithm.c 26-48, 54-56, 66-72. The new
array follows the input in the block of memory. -/
def mapping (f : List ℝ → Nat → Nat → Nat → Except Fault (List ℝ)) (mem : Nat → ℝ) (x : List ℝ) :
    Except Fault (List ℝ) := do
  let r ← empty mem x.length
  let last ← end_ 0 (toInt x.length)
  let m ← f (x ++ r) 0 last x.length
  return m.drop x.length

/-- `execute(f, size, …)` (algorithm.cpp 54-61) and `generate_window` (windowing.cpp 27-34). -/
def sized (f : List ℝ → Int → Except Fault (List ℝ)) (mem : Nat → ℝ) (size : Int) : Except Fault (List ℝ) := do
  let r ← empty mem size
  f r (toInt size)

/-- `linspace_python` (algorithm.cpp 99-101) and `array_linspace` (bindings/c/src/algorithm.c 58-60). -/
noncomputable def linspace (mem : Nat → ℝ) (x1 x2 : ℝ) (size : Int) : Except Fault (List ℝ) :=
  sized (fun m n => Seq.linspace m 0 x1 x2 n) mem size

/-- `logspace_python` (algorithm.cpp 103-105) and `array_logspace` (bindings/c/src/algorithm.c 62-64). -/
noncomputable def logspace (mem : Nat → ℝ) (x1 x2 : ℝ) (size : Int) : Except Fault (List ℝ) :=
  sized (fun m n => Seq.logspace m 0 x1 x2 n) mem size

/-- The functions of windowing.cpp 36-78 with those of bindings/c/src/windowing.c 26-68. -/
def window (f : List ℝ → Nat → Nat → Except Fault (List ℝ)) (mem : Nat → ℝ) (size : Int) : Except Fault (List ℝ) :=
  sized (fun m n => do f m 0 (← end_ 0 n)) mem size

/-- `padder_python` (algorithm.cpp 152-166) and `array_padder` (bindings/c/src/algorithm.c 74-76). -/
noncomputable def pad (dbg : Bool) (mem : Nat → ℝ) (x : List ℝ) (size : Int) : Except Fault (List ℝ) := do
  let r ← empty mem size
  let last ← end_ 0 (toInt x.length)
  let dLast ← end_ x.length (toInt size)
  let m ← Seq.padder dbg (x ++ r) 0 last x.length dLast
  return m.drop x.length

/-- `scale_python` (algorithm.cpp 63-65). -/
noncomputable def scale (mem : Nat → ℝ) (x : List ℝ) (factor : ℝ) : Except Fault (List ℝ) :=
  mapping (fun m a b d => Seq.amplifier m a b d factor) mem x

/-- `scale_clip_python` (algorithm.cpp 67-69). -/
noncomputable def scaleClip (mem : Nat → ℝ) (x : List ℝ) (factor lo hi : ℝ) : Except Fault (List ℝ) :=
  mapping (fun m a b d => Seq.amplifierClip m a b d factor lo hi) mem x

/-- `clip_python` (algorithm.cpp 71-73). -/
noncomputable def clip (mem : Nat → ℝ) (x : List ℝ) (lo hi : ℝ) : Except Fault (List ℝ) :=
  mapping (fun m a b d => Seq.clipper m a b d lo hi) mem x

/-- `ceil_python` (algorithm.cpp 75-77). -/
noncomputable def ceil (mem : Nat → ℝ) (x : List ℝ) : Except Fault (List ℝ) := mapping Seq.ceil mem x

/-- `floor_python` (algorithm.cpp 79-81). -/
noncomputable def floor (mem : Nat → ℝ) (x : List ℝ) : Except Fault (List ℝ) := mapping Seq.floor mem x

/-- `round_python` (algorithm.cpp 83-85). -/
noncomputable def round (mem : Nat → ℝ) (x : List ℝ) : Except Fault (List ℝ) := mapping Seq.round mem x

/-- `trunc_python` (algorithm.cpp 87-89). -/
noncomputable def trunc (mem : Nat → ℝ) (x : List ℝ) : Except Fault (List ℝ) := mapping Seq.fix mem x

/-- `abs_python` (algorithm.cpp 91-93). -/
noncomputable def abs (mem : Nat → ℝ) (x : List ℝ) : Except Fault (List ℝ) := mapping Seq.rectify mem x

/-- `normalize_python` (algorithm.cpp 95-97). -/
noncomputable def normalize (mem : Nat → ℝ) (x : List ℝ) : Except Fault (List ℝ) := mapping Seq.normalize mem x

end Edsp.PyCreate
