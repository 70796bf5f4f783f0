import Verif.Model.Fault
import Mathlib.Algebra.Field.Defs
import Mathlib.Algebra.Order.Field.Basic

/-!
# Model of `edsp::filter::biquad` and `edsp::filter::biquad_cascade`

include/edsp/filter/biquad.hpp, include/edsp/filter/biquad_cascade.hpp.  The sample type is
an arbitrary field (exact arithmetic); a division by a zero divisor is a fault.
Complex arguments of the pole/zero constructors are pairs of real and imaginary part.
-/

namespace Edsp

/-- biquad.hpp 212-219: coefficients and the two state variables. -/
structure Biquad (K : Type*) where
  b2 : K
  b1 : K
  b0 : K
  a2 : K
  a1 : K
  a0 : K
  w0 : K
  w1 : K

namespace Biquad

variable {K : Type*} [Field K]

/-- biquad.hpp 71 with the initialisers of 212-219. -/
def default : Biquad K :=
  { b2 := 0, b1 := 0, b0 := 1, a2 := 0, a1 := 0, a0 := 1, w0 := 0, w1 := 0 }

/-- biquad.hpp 223-230: every coefficient is divided by `a0`, then `a0_ = 1`. -/
def ofCoeffs [DecidableEq K] (a0 a1 a2 b0 b1 b2 : K) : Except Fault (Biquad K) :=
  if a0 = 0 then .error .divByZero
  else .ok { b2 := b2 / a0, b1 := b1 / a0, b0 := b0 / a0, a2 := a2 / a0, a1 := a1 / a0, a0 := 1,
             w0 := 0, w1 := 0 }

/-- biquad.hpp 233-242: one pole `pr + i pi`, one zero `zr + i zi`; both must be real. -/
def ofPoleZero [DecidableEq K] (pr pi zr zi : K) : Except Fault (Biquad K) :=
  if pi = 0 ∧ zi = 0 then
    .ok { b2 := 0, b1 := 1, b0 := -zr, a2 := 0, a1 := -pr, a0 := 1, w0 := 0, w1 := 0 }
  else .error .assertion

/-- biquad.hpp 249-257 (and, word for word, 259-267): the coefficients (`c1`, `c2`) of
`z^2 + c1 z + c2` from two roots, which must be conjugate or both real.
`std::norm` is the squared modulus. -/
def quadOfRoots [DecidableEq K] (r1 i1 r2 i2 : K) : Except Fault (K × K) :=
  if i1 ≠ 0 then
    if r2 = r1 ∧ i2 = -i1 then .ok (-2 * r1, r1 * r1 + i1 * i1) else .error .assertion
  else
    if i2 = 0 then .ok (-(r1 + r2), r1 * r2) else .error .assertion

/-- biquad.hpp 245-268: two poles and two zeros, in the order of the C++ arguments. -/
def ofPoleZeroPair [DecidableEq K] (p1r p1i z1r z1i p2r p2i z2r z2i : K) :
    Except Fault (Biquad K) := do
  let (a1, a2) ← quadOfRoots p1r p1i p2r p2i
  let (b1, b2) ← quadOfRoots z1r z1i z2r z2i
  return { b2 := b2, b1 := b1, b0 := 1, a2 := a2, a1 := a1, a0 := 1, w0 := 0, w1 := 0 }

/-- biquad.hpp 271-274. -/
def reset (f : Biquad K) : Biquad K := { f with w0 := 0, w1 := 0 }

/-- biquad.hpp 282-285. -/
def setA0 (f : Biquad K) (v : K) : Biquad K := { f with a0 := v }.reset
/-- biquad.hpp 288-291. -/
def setA1 (f : Biquad K) (v : K) : Biquad K := { f with a1 := v }.reset
/-- biquad.hpp 294-297. -/
def setA2 (f : Biquad K) (v : K) : Biquad K := { f with a2 := v }.reset
/-- biquad.hpp 300-303. -/
def setB0 (f : Biquad K) (v : K) : Biquad K := { f with b0 := v }.reset
/-- biquad.hpp 306-309. -/
def setB1 (f : Biquad K) (v : K) : Biquad K := { f with b1 := v }.reset
/-- biquad.hpp 312-315. -/
def setB2 (f : Biquad K) (v : K) : Biquad K := { f with b2 := v }.reset

/-- biquad.hpp 326-331: the new filter state and the output sample. -/
def tick (f : Biquad K) (value : K) : Biquad K × K :=
  let out := f.b0 * value + f.w0
  let w0' := f.b1 * value - f.a1 * out + f.w1
  let w1' := f.b2 * value - f.a2 * out
  ({ f with w0 := w0', w1 := w1' }, out)

/-- biquad.hpp 319-323: the state after the call and the samples written to `d_first`. -/
def filter (f : Biquad K) : List K → Biquad K × List K
  | [] => (f, [])
  | x :: xs =>
    let (f', y) := f.tick x
    let (f'', ys) := filter f' xs
    (f'', y :: ys)

/-- A sequence of calls of `filter` on consecutive blocks (biquad.hpp 319-323, several times):
the final state and the blocks written. -/
def filterCalls (f : Biquad K) : List (List K) → Biquad K × List (List K)
  | [] => (f, [])
  | b :: bs =>
    let (f', y) := f.filter b
    let (f'', ys) := filterCalls f' bs
    (f'', y :: ys)

/-- The state after `n` calls of `tick` (biquad.hpp 326-331) on the signal `x`. -/
def stateAt (f : Biquad K) (x : Nat → K) : Nat → Biquad K
  | 0 => f
  | n + 1 => ((stateAt f x n).tick (x n)).1

/-- The value returned by the call of `tick` number `n` on the signal `x`. -/
def response (f : Biquad K) (x : Nat → K) (n : Nat) : K := ((stateAt f x n).tick (x n)).2

/-- biquad.hpp 277-279 (and `operator bool`, 334-336). -/
def stability [LinearOrder K] (f : Biquad K) : Bool :=
  decide (|f.a2| < 1) && decide (|f.a1| < 1 + f.a2)

end Biquad

/-- biquad_cascade.hpp 179-180: the number of active stages and the array of `N` biquads. -/
structure Cascade (K : Type*) where
  num    : Nat
  stages : List (Biquad K)

namespace Cascade

variable {K : Type*} [Field K]

/-- biquad_cascade.hpp 55: default construction, array of `N` default biquads. -/
def new (N : Nat) : Cascade K := { num := 0, stages := List.replicate N Biquad.default }

/-- biquad_cascade.hpp 66, 184-186. -/
def size (c : Cascade K) : Nat := c.num

/-- biquad_cascade.hpp 188-191, 279-281. -/
def capacity (c : Cascade K) : Nat := c.stages.length

/-- biquad_cascade.hpp 202-206 (and 194-199, `emplace_back`, whose stage is built from the
arguments): `meta::ensure(num_stage_ < N)`, then the store, then the increment. -/
def pushBack (c : Cascade K) (f : Biquad K) : Except Fault (Cascade K) :=
  if c.num < c.stages.length then
    .ok { num := c.num + 1, stages := c.stages.set c.num f }
  else .error .assertion

/-- The loop of biquad_cascade.hpp 210-212 over the first `n` entries of the array. -/
def tickLoop : Nat → List (Biquad K) → K → List (Biquad K) × K
  | 0, fs, v => (fs, v)
  | _ + 1, [], v => ([], v)
  | n + 1, f :: fs, v =>
    let (f', v') := f.tick v
    let (fs', v'') := tickLoop n fs v'
    (f' :: fs', v'')

/-- biquad_cascade.hpp 209-214. -/
def tick (c : Cascade K) (v : K) : Cascade K × K :=
  let (fs, v') := tickLoop c.num c.stages v
  ({ c with stages := fs }, v')

/-- biquad_cascade.hpp 218-222. -/
def filter (c : Cascade K) : List K → Cascade K × List K
  | [] => (c, [])
  | x :: xs =>
    let (c', y) := c.tick x
    let (c'', ys) := filter c' xs
    (c'', y :: ys)

/-- biquad_cascade.hpp 267-271: only the active stages are reset. -/
def reset (c : Cascade K) : Cascade K :=
  { c with stages := (c.stages.take c.num).map Biquad.reset ++ c.stages.drop c.num }

/-- biquad_cascade.hpp 274-276. -/
def clear (c : Cascade K) : Cascade K := { c with num := 0 }

/-- The calls a user can make on a cascade. -/
inductive Op (K : Type*) where
  | push (f : Biquad K)
  | clear
  | reset
  | filter (xs : List K)

/-- One call: the new object and the samples it writes (none except for `filter`). -/
def step (c : Cascade K) : Op K → Except Fault (Cascade K × List K)
  | .push f => do return (← c.pushBack f, [])
  | .clear => .ok (c.clear, [])
  | .reset => .ok (c.reset, [])
  | .filter xs => .ok (c.filter xs)

/-- A history of calls: the final object and what each call wrote. -/
def run (c : Cascade K) : List (Op K) → Except Fault (Cascade K × List (List K))
  | [] => .ok (c, [])
  | op :: ops => do
    let (c', o) ← c.step op
    let (c'', os) ← run c' ops
    return (c'', o :: os)

end Cascade
end Edsp
