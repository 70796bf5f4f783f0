import Mathlib.Analysis.Real.Sqrt

/-!
# Specification: numbers that may be infinite or not a number

IEEE 754 arithmetic.  `R` rounds the exact result of an operation on finite numbers; it may be an infinity (overflow).
The sign of zero is left out: a quotient by zero has the sign of the dividend.
-/

namespace Edsp.Spec

/-- A floating point number: finite, an infinity (`true`: negative) or NaN. -/
inductive Ext
  | nan
  | inf (neg : Bool)
  | fin (x : ℝ)

namespace Ext

/-- The number is finite. -/
def Finite : Ext → Prop
  | fin _ => True
  | _ => False

/-- A sum. -/
def add (R : ℝ → Ext) : Ext → Ext → Ext
  | nan, _ => nan
  | _, nan => nan
  | inf a, inf b => if a = b then inf a else nan
  | inf a, fin _ => inf a
  | fin _, inf b => inf b
  | fin x, fin y => R (x + y)

/-- The number with the other sign. -/
def neg : Ext → Ext
  | nan => nan
  | inf a => inf !a
  | fin x => fin (-x)

/-- A difference. -/
def sub (R : ℝ → Ext) (a b : Ext) : Ext := add R a b.neg

open Classical in
/-- A product. -/
noncomputable def mul (R : ℝ → Ext) : Ext → Ext → Ext
  | nan, _ => nan
  | _, nan => nan
  | inf a, inf b => inf (xor a b)
  | inf a, fin y => if y = 0 then nan else inf (xor a (decide (y < 0)))
  | fin x, inf b => if x = 0 then nan else inf (xor (decide (x < 0)) b)
  | fin x, fin y => R (x * y)

open Classical in
/-- A quotient. -/
noncomputable def div (R : ℝ → Ext) : Ext → Ext → Ext
  | nan, _ => nan
  | _, nan => nan
  | inf _, inf _ => nan
  | inf a, fin y => inf (xor a (decide (y < 0)))
  | fin _, inf _ => fin 0
  | fin x, fin y => if y = 0 then (if x = 0 then nan else inf (decide (x < 0))) else R (x / y)

open Classical in
/-- A square root. -/
noncomputable def sqrt (R : ℝ → Ext) : Ext → Ext
  | nan => nan
  | inf a => if a then nan else inf false
  | fin x => if x < 0 then nan else R (Real.sqrt x)

/-- The magnitude. -/
noncomputable def abs : Ext → Ext
  | nan => nan
  | inf _ => inf false
  | fin x => fin |x|

/-- `a < b`; false if one is NaN. -/
def Lt : Ext → Ext → Prop
  | nan, _ => False
  | _, nan => False
  | inf a, inf b => a = true ∧ b = false
  | inf a, fin _ => a = true
  | fin _, inf b => b = false
  | fin x, fin y => x < y

open Classical in
/-- Rounding by `r` of numbers whose magnitude stays below `M`, to an infinity otherwise (`float`: M = 2^128, `double`:
M = 2^1024). -/
noncomputable def round (r : ℝ → ℝ) (M : ℝ) (x : ℝ) : Ext :=
  if |r x| < M then fin (r x) else inf (decide (x < 0))

end Ext

end Edsp.Spec
