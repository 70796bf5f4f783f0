import Verif.Model.Designers
import Mathlib.Analysis.Complex.Basic
import Mathlib.Analysis.SpecialFunctions.Trigonometric.Basic

/-!
# Model of the pole/zero layouts, the bilinear transformers and the cascade builder

include/edsp/filter/internal/bilinear/*.hpp and abstract_designer.hpp, over exact complex numbers.
A point of the extended plane is `Option ℂ`: `none` is `math::infinity<T>()`, the complex number
with both parts infinite (math/complex.hpp 109-111).

The flag `dbg` says whether `assert` is active (no `-DNDEBUG`, CMakeLists.txt 33).  It is used for the
one contract check that the designers of the library themselves can fail (`PzPair.single`); the other
contract checks are reported as faults in both modes.
-/

namespace Edsp

/-- `std::complex<T>`, `none` for infinity. -/
abbrev Pt := Option ℂ

/-- `std::conj` (the conjugate of infinity is infinite). -/
noncomputable def Pt.conj (p : Pt) : Pt := p.map (starRingEnd ℂ)

/-- `imag() == 0`; false for `infinity<T>()`, whose imaginary part is infinite. -/
def Pt.imagZero : Pt → Prop
  | none => False
  | some c => c.im = 0

/-- layout_base.hpp 74-105: `poles().first, zeros().first, poles().second, zeros().second`. -/
structure PzPair where
  p1 : Pt
  z1 : Pt
  p2 : Pt
  z2 : Pt

open Classical in
/-- layout_base.hpp 77 with 45-48: the second members are 0; both arguments are expected to be
real. -/
noncomputable def PzPair.single (dbg : Bool) (p z : Pt) : Except Fault PzPair :=
  if dbg = true ∧ ¬ (p.imagZero ∧ z.imagZero) then .error .assertion
  else .ok ⟨p, z, some 0, some 0⟩

/-- layout_base.hpp 76: the default pair. -/
noncomputable def PzPair.zero : PzPair := ⟨some 0, some 0, some 0, some 0⟩

/-- layout_base.hpp 82-84. -/
def PzPair.singlePole (q : PzPair) : Prop := q.p2 = some 0 ∧ q.z2 = some 0

/-- layout_base.hpp 60-66, `is_matched_pair`, for finite points (an infinite point is never
matched: its imaginary part is not zero and `conj(inf) ≠ inf` in one of the parts). -/
def matchedPair : Pt → Pt → Prop
  | some a, some b => if a.im ≠ 0 then b = starRingEnd ℂ a else b.im = 0 ∧ b.re ≠ 0 ∧ a.re ≠ 0
  | _, _ => False

/-- layout_base.hpp 190-193. -/
structure Layout where
  poles : Nat
  pairs : List PzPair
  w     : ℝ
  gain  : ℝ

namespace Layout

/-- layout_base.hpp 116 with the initialisers of 190-193, `MaxSize = N`. -/
noncomputable def new (N : Nat) : Layout := ⟨0, List.replicate N .zero, 0, 1⟩

/-- The common part of layout_base.hpp 138-159: the parity check, the store and the count. -/
def store (l : Layout) (q : PzPair) (k : Nat) : Except Fault Layout :=
  if l.poles % 2 = 1 then .error .assertion
  else if l.poles / 2 < l.pairs.length then
    .ok { l with pairs := l.pairs.set (l.poles / 2) q, poles := l.poles + k }
  else .error .outOfBounds

/-- layout_base.hpp 138-143. -/
noncomputable def insert (dbg : Bool) (l : Layout) (p z : Pt) : Except Fault Layout := do
  let q ← PzPair.single dbg p z
  l.store q 1

/-- layout_base.hpp 145-151. -/
noncomputable def insertConj (l : Layout) (p z : Pt) : Except Fault Layout :=
  l.store ⟨p, z, p.conj, z.conj⟩ 2

open Classical in
/-- layout_base.hpp 153-159. -/
noncomputable def insertPair (l : Layout) (p1 p2 z1 z2 : Pt) : Except Fault Layout :=
  if matchedPair p1 p2 ∧ matchedPair z1 z2 then l.store ⟨p1, z1, p2, z2⟩ 2 else .error .assertion

/-- layout_base.hpp 161-163. -/
def reset (l : Layout) : Layout := { l with poles := 0 }

/-- layout_base.hpp 165-167: the division is an integer division, so `std::ceil` has no effect. -/
def size (l : Layout) : Nat := l.poles / 2 + 1

/-- layout_base.hpp 177-180. -/
def get (l : Layout) (i : Nat) : Except Fault PzPair :=
  if i < l.size then
    match l.pairs[i]? with
    | some q => .ok q
    | none => .error .outOfBounds
  else .error .assertion

/-- layout_base.hpp 182-187: throws when `index >= size()`. -/
def at' (l : Layout) (i : Nat) : Except Fault PzPair :=
  if i < l.size then
    match l.pairs[i]? with
    | some q => .ok q
    | none => .error .outOfBounds
  else .error .exception

/-- The calls that change a layout. -/
inductive Op where
  | insert (p z : Pt)
  | insertConj (p z : Pt)
  | insertPair (p1 p2 z1 z2 : Pt)
  | reset

/-- One call. -/
noncomputable def step (dbg : Bool) (l : Layout) : Op → Except Fault Layout
  | .insert p z => l.insert dbg p z
  | .insertConj p z => l.insertConj p z
  | .insertPair p1 p2 z1 z2 => l.insertPair p1 p2 z1 z2
  | .reset => .ok l.reset

/-- A history of calls. -/
noncomputable def run (dbg : Bool) (l : Layout) : List Op → Except Fault Layout
  | [] => .ok l
  | o :: os => do
    let l' ← l.step dbg o
    run dbg l' os

end Layout

/-- lowpass_transformer.hpp 55-61. -/
noncomputable def lpMap (f : ℝ) : Pt → Except Fault Pt
  | none => .ok (some (-1))
  | some c =>
    if 1 - (f : ℂ) * c = 0 then .error .divByZero else .ok (some ((1 + f * c) / (1 - f * c)))

/-- highpass_transformer.hpp 55-61. -/
noncomputable def hpMap (f : ℝ) : Pt → Except Fault Pt
  | none => .ok (some 1)
  | some c =>
    if 1 - (f : ℂ) * c = 0 then .error .divByZero else .ok (some (-(1 + f * c) / (1 - f * c)))

/-- The body of the loop, lowpass_transformer.hpp 44-47 and highpass_transformer.hpp 44-47. -/
noncomputable def transformStep (T : Pt → Except Fault Pt) (analog : Layout) (d : Layout) (i : Nat) :
    Except Fault Layout := do
  let q ← analog.get i
  let p ← T q.p1
  let z ← T q.z2
  d.insertConj p z

/-- lowpass_transformer.hpp 37-53 and highpass_transformer.hpp 37-53, which differ in the point map
and in the normalisation frequency `w`. -/
noncomputable def transformWith (dbg : Bool) (T : Pt → Except Fault Pt) (w : ℝ)
    (analog digital : Layout) : Except Fault Layout := do
  let d0 : Layout := { digital.reset with w := w, gain := analog.gain }
  let numPairs := analog.poles / 2
  let d1 ← (List.range numPairs).foldlM (transformStep T analog) d0
  if analog.poles % 2 = 1 then
    let q ← analog.get numPairs
    let p ← T q.p1
    let z ← T q.z1
    d1.insert dbg p z
  else return d1

/-- lowpass_transformer.hpp 34-53: `fc` is the normalised cutoff. -/
noncomputable def lowPassTransform (dbg : Bool) (fc : ℝ) (analog digital : Layout) :
    Except Fault Layout := do
  let f ← ctan (Real.pi * fc)
  transformWith dbg (lpMap f) analog.w analog digital

/-- highpass_transformer.hpp 34-53. -/
noncomputable def highPassTransform (dbg : Bool) (fc : ℝ) (analog digital : Layout) :
    Except Fault Layout := do
  let f ← fdiv 1 (← ctan (Real.pi * fc))
  transformWith dbg (hpMap f) (Real.pi - analog.w) analog digital

open Classical in
/-- abstract_designer.hpp 33-39. -/
noncomputable def makeBiquad (q : PzPair) : Except Fault (Biquad ℝ) :=
  match q.p1, q.z1, q.p2, q.z2 with
  | some p1, some z1, some p2, some z2 =>
    if q.singlePole then Biquad.ofPoleZero p1.re p1.im z1.re z1.im
    else Biquad.ofPoleZeroPair p1.re p1.im z1.re z1.im p2.re p2.im z2.re z2.im
  | _, _, _, _ => .error .domain

/-- abstract_designer.hpp 42-46. -/
noncomputable def applyScale (f : Biquad ℝ) (s : ℝ) : Biquad ℝ :=
  let f1 := f.setB0 (f.b0 * s)
  let f2 := f1.setB1 (f1.b1 * s)
  f2.setB2 (f2.b2 * s)

/-- layout_base.hpp 36-39. -/
noncomputable def addmul (l : ℂ) (k : ℝ) (r : ℂ) : ℂ := ⟨l.re + k * r.re, l.im + k * r.im⟩

/-- The loop of abstract_designer.hpp 56-66: numerator and denominator products; dividing by `a0()`
is checked. -/
noncomputable def responseLoop (c1 c2 : ℂ) : List (Biquad ℝ) → ℂ × ℂ → Except Fault (ℂ × ℂ)
  | [], acc => .ok acc
  | f :: fs, (ch, cbot) => do
    let b0 ← fdiv f.b0 f.a0
    let b1 ← fdiv f.b1 f.a0
    let b2 ← fdiv f.b2 f.a0
    let a1 ← fdiv f.a1 f.a0
    let a2 ← fdiv f.a2 f.a0
    let ct := addmul (addmul (b0 : ℂ) b1 c1) b2 c2
    let cb := addmul (addmul 1 a1 c1) a2 c2
    responseLoop c1 c2 fs (ch * ct, cbot * cb)

/-- abstract_designer.hpp 49-68. -/
noncomputable def makeResponse (c : Cascade ℝ) (nf : ℝ) : Except Fault ℂ := do
  let w := 2 * Real.pi * nf
  let c1 := Complex.exp ((-w : ℝ) * Complex.I)
  let c2 := Complex.exp ((-2 * w : ℝ) * Complex.I)
  let (ch, cbot) ← responseLoop c1 c2 (c.stages.take c.num) (1, 1)
  if cbot = 0 then .error .divByZero else return ch / cbot

/-- The body of the loop of abstract_designer.hpp 75-77. -/
noncomputable def cascadeStep (digital : Layout) (c : Cascade ℝ) (i : Nat) :
    Except Fault (Cascade ℝ) := do
  let q ← digital.get i
  let f ← makeBiquad q
  c.pushBack f

/-- abstract_designer.hpp 71-83, `N` the template argument (the size of the digital layout). -/
noncomputable def makeCascade (N : Nat) (digital : Layout) : Except Fault (Cascade ℝ) := do
  let numBiquads := (digital.poles + 1) / 2
  let c ← (List.range numBiquads).foldlM (cascadeStep digital) (Cascade.new ((N + 1) / 2))
  let r ← makeResponse c (digital.w / (2 * Real.pi))
  let scale ← fdiv digital.gain ‖r‖
  match c.stages[0]? with
  | none => .error .outOfBounds
  | some f => return { c with stages := c.stages.set 0 (applyScale f scale) }

end Edsp
