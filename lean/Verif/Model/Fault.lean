/-!
# Faults

Undefined behaviour and failed contract checks of the C++ code are outcomes of the
model: an operation returns `Except Fault _`.
-/

namespace Edsp

/-- The ways in which an operation of the C++ code can leave its contract. -/
inductive Fault where
  /-- integer `%` or `/` by zero, or a floating division whose divisor is zero -/
  | divByZero
  /-- read or write of an element outside the storage it belongs to -/
  | outOfBounds
  /-- a failed `assert` / `meta::expects` / `meta::ensure` -/
  | assertion
  /-- use of a library handle that is null or already closed -/
  | badHandle
  /-- access through a pointer to an object that no longer exists -/
  | dangling
  /-- signed integer overflow -/
  | overflow
  /-- a real function outside its domain (`sqrt` of a negative, `log` of a non-positive number):
  the C++ result is NaN or infinite -/
  | domain
  /-- a C++ exception leaves the function -/
  | exception
  deriving DecidableEq, Repr

end Edsp
