import Verif.Model.Spectral

/-!
# FFT engines as objects: plans, buffers, copies and destruction

spectral/fft_engine.hpp with spectral/internal/libfftw_impl.hpp or spectral/internal/libpffft_impl.hpp.  What the
transforms compute is the subject of Model/Spectral.lean and Model/Lee.lean; here a program creates, uses, copies, assigns
and destroys engines, and the library it calls is its documented contract:

* FFTW (manual, "New-array Execute Functions"): a plan may be executed on other arrays than those it was made for if the
  new arrays are in place exactly when the old ones were, and have the same alignment as the old ones (`align` is the
  alignment the library looks at, 16 with SIMD); a plan is destroyed once.
* pffft (pffft.h): a setup exists for the sizes `2^a 3^b 5^c` with `a ≥ 5` (real) or `a ≥ 4` (complex); the arrays of a
  transform are aligned to 16 bytes.

Anything outside of the contract is a fault.  The sizes are positive (see C47 for the others).
-/

namespace Edsp.FftObjects
open Edsp.Spectral

/-- One call of a transform: which one, and the addresses of source and destination. -/
structure Call where
  kind : Kind
  src : ℕ
  dst : ℕ

/-- What FFTW remembers of the arrays a plan was made for. -/
structure Plan where
  kind : Kind
  inPlace : Prop
  src : ℕ
  dst : ℕ

/-- `fftw_plan_…(nfft_, src, dst, …)`. -/
def Plan.make (align : ℕ) (c : Call) : Plan := ⟨c.kind, c.src = c.dst, c.src % align, c.dst % align⟩

/-- The four functions that execute a plan, libfftw_impl.hpp 73, 81, 89, 97, 105, 113, 121. -/
inductive Executor where
  | dft | r2c | c2r | r2r
deriving DecidableEq

/-- The executor of a transform. -/
def executor : Kind → Executor
  | .forward => .dft
  | .backward => .dft
  | .r2c => .r2c
  | .c2r => .c2r
  | .dht => .r2r
  | .redft10 => .r2r
  | .redft01 => .r2r

/-- The contract of executing a plan on the arrays of a call. -/
def Plan.Accepts (align : ℕ) (p : Plan) (c : Call) : Prop :=
  executor p.kind = executor c.kind ∧ (p.inPlace ↔ c.src = c.dst) ∧ p.src = c.src % align ∧ p.dst = c.dst % align

/-- The objects of a program, in the order of construction (`none`: destroyed; otherwise the member `plan_`,
libfftw_impl.hpp 146), the plans made (`none`: destroyed) and the transforms executed. -/
structure World where
  objects : List (Option (Option ℕ))
  plans : List (Option Plan)
  log : List Kind

/-- What a program does. -/
inductive Op where
  | construct
  | call (i : ℕ) (c : Call)
  | copy (i : ℕ)
  | assign (i j : ℕ)
  | destroy (i : ℕ)

open Classical in
/-- `fftw_execute_…(plan_, src, dst)`. -/
noncomputable def World.execute (align : ℕ) (w : World) (h : ℕ) (c : Call) : Except Fault World :=
  match w.plans[h]? with
  | some (some p) => if p.Accepts align c then .ok { w with log := w.log ++ [p.kind] } else .error .badHandle
  | _ => .error .dangling

/-- One operation: the constructor (libfftw_impl.hpp 61 and 156), a transform (69-122 and 164-214), the implicit copy
constructor and copy assignment (the class declares a destructor, so there is no move, and copies the pointer), the
destructor (63-67 and 158-162). -/
noncomputable def World.step (align : ℕ) (w : World) : Op → Except Fault World
  | .construct => .ok { w with objects := w.objects ++ [some none] }
  | .call i c =>
    match w.objects[i]? with
    | some (some none) =>
      { w with
        objects := w.objects.set i (some (some w.plans.length))
        plans := w.plans ++ [some (Plan.make align c)] }.execute align w.plans.length c
    | some (some (some h)) => w.execute align h c
    | _ => .error .dangling
  | .copy i =>
    match w.objects[i]? with
    | some (some p) => .ok { w with objects := w.objects ++ [some p] }
    | _ => .error .dangling
  | .assign i j =>
    match w.objects[i]?, w.objects[j]? with
    | some (some _), some (some p) => .ok { w with objects := w.objects.set i (some p) }
    | _, _ => .error .dangling
  | .destroy i =>
    match w.objects[i]? with
    | some (some none) => .ok { w with objects := w.objects.set i none }
    | some (some (some h)) =>
      match w.plans[h]? with
      | some (some _) => .ok { w with objects := w.objects.set i none, plans := w.plans.set h none }
      | _ => .error .badHandle
    | _ => .error .dangling

/-- A program. -/
noncomputable def World.run (align : ℕ) (w : World) : List Op → Except Fault World
  | [] => .ok w
  | op :: ops => do (← w.step align op).run align ops

/-- No engine, no plan. -/
def World.empty : World := ⟨[], [], []⟩

/-- The engine operations of `dft`, `idft` (dft.hpp 46-53, 70-78, 93-99, 114-121), `hartley` (hartley.hpp 47-52), `dct`
and `idct` (dct.hpp 44-49, 67-73): one engine, number `n`, one transform. -/
def single (n : ℕ) (c : Call) : List Op := [.construct, .call n c, .destroy n]

/-- The engine operations of `conv` (convolution.hpp 50-75) and of the cross-correlation (correlation.hpp 104-134), the
engines being numbers `n` and `n+1` and the vectors at the addresses `in1`, `in2`, `out`, `data1`, `data2`. -/
def twoInputs (n in1 in2 out data1 data2 : ℕ) : List Op :=
  [.construct, .construct, .call n ⟨.r2c, in1, data1⟩, .call n ⟨.r2c, in2, data2⟩, .call (n + 1) ⟨.c2r, data1, out⟩,
    .destroy (n + 1), .destroy n]

/-! ## pffft -/

/-- The members, libpffft_impl.hpp 216-218: the setup, the work buffer, the size. -/
structure PfEngine where
  setup : Option ℕ
  work : ℕ
  nfft : ℕ

/-- The objects, the setups (`none`: destroyed; otherwise whether real), the work buffers (`false`: freed), the transforms
executed (whether real, whether forward). -/
structure PfWorld where
  objects : List (Option PfEngine)
  setups : List (Option Bool)
  works : List Bool
  log : List (Bool × Bool)

/-- The sizes of pffft. -/
def PfSize (real : Bool) (n : ℕ) : Prop := ∃ a b c : ℕ, n = 2 ^ a * 3 ^ b * 5 ^ c ∧ (if real then 5 else 4) ≤ a

inductive PfOp where
  | construct (nfft : ℕ)
  | transform (i : ℕ) (real forward : Bool) (src dst : ℕ)
  | dct (i : ℕ)
  | copy (i : ℕ)
  | destroy (i : ℕ)

/-- `pffft_transform_ordered(plan_, src, dst, work_, …)`. -/
def PfWorld.execute (w : PfWorld) (e : PfEngine) (real forward : Bool) (src dst : ℕ) : Except Fault PfWorld :=
  if ¬(src % 16 = 0 ∧ dst % 16 = 0) then .error .assertion
  else if w.works[e.work]? ≠ some true then .error .dangling
  else match e.setup with
    | none => .error .badHandle
    | some h =>
      match w.setups[h]? with
      | some (some r) => if r = real then .ok { w with log := w.log ++ [(real, forward)] } else .error .badHandle
      | _ => .error .dangling

open Classical in
/-- `if (meta::is_null(plan_)) plan_ = pffft_new_setup(nfft_, …)`, libpffft_impl.hpp 149-151 and alike: no setup for a
size outside of the contract. -/
noncomputable def PfWorld.prepare (w : PfWorld) (i : ℕ) (e : PfEngine) (real : Bool) : PfWorld × PfEngine :=
  if e.setup = none ∧ PfSize real e.nfft then
    let e' := { e with setup := some w.setups.length }
    ({ w with objects := w.objects.set i (some e'), setups := w.setups ++ [some real] }, e')
  else (w, e)

/-- One operation: the constructor (libpffft_impl.hpp 133-138, the expectation checked with `dbg`), a transform (147-175),
`dct` (181-187; the arithmetic is that of Model/Lee.lean), the implicit copy constructor, the destructor (140-145). -/
noncomputable def PfWorld.step (dbg : Bool) (w : PfWorld) : PfOp → Except Fault PfWorld
  | .construct n =>
    if dbg ∧ n % 16 ≠ 0 then .error .assertion
    else .ok { w with objects := w.objects ++ [some ⟨none, w.works.length, n⟩], works := w.works ++ [true] }
  | .transform i real forward src dst =>
    match w.objects[i]? with
    | some (some e) =>
      let (w, e) := w.prepare i e real
      w.execute e real forward src dst
    | _ => .error .dangling
  | .dct i =>
    match w.objects[i]? with
    | some (some e) => .ok (w.prepare i e true).1
    | _ => .error .dangling
  | .copy i =>
    match w.objects[i]? with
    | some (some e) => .ok { w with objects := w.objects ++ [some e] }
    | _ => .error .dangling
  | .destroy i =>
    match w.objects[i]? with
    | some (some e) =>
      if w.works[e.work]? ≠ some true then .error .badHandle
      else match e.setup with
        | none => .ok { w with objects := w.objects.set i none, works := w.works.set e.work false }
        | some h =>
          match w.setups[h]? with
          | some (some _) => .ok { w with
              objects := w.objects.set i none, setups := w.setups.set h none, works := w.works.set e.work false }
          | _ => .error .badHandle
    | _ => .error .dangling

/-- A program. -/
noncomputable def PfWorld.run (dbg : Bool) (w : PfWorld) : List PfOp → Except Fault PfWorld
  | [] => .ok w
  | op :: ops => do (← w.step dbg op).run dbg ops

/-- No engine. -/
def PfWorld.empty : PfWorld := ⟨[], [], [], []⟩

end Edsp.FftObjects
